/-
Specification for C138: a run of inference which nobody observes, and the elements that reach the training op.
-/
import Mathlib.Data.Finset.Card
import Mathlib.Order.Interval.Finset.Nat

namespace Edward.Spec
variable {S A Θ : Type}

/-- The variables after `k` steps, step `i` taking the elements `a i`. -/
def trajectory (train : Θ → (S → A) → Θ) (a : ℕ → S → A) (θ : Θ) : ℕ → Θ
  | 0 => θ
  | k + 1 => train (trajectory train a θ k) (a k)

/-- The number of steps among the first `k` at which something is shown: the first, and the multiples of `n`. -/
def shown (n k : ℕ) : ℕ := ((Finset.Icc 1 k).filter fun t => t = 1 ∨ n ∣ t).card

end Edward.Spec
