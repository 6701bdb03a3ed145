/-
Specification for C26-C29: probability vectors and the multinomial mass function.
-/
import Mathlib.Data.Real.Basic
import Mathlib.Algebra.BigOperators.Fin
import Mathlib.Data.Nat.Factorial.Basic

namespace Edward

open Finset

/-- A probability vector. -/
def IsProb {K : ℕ} (p : Fin K → ℝ) : Prop := (∀ i, 0 ≤ p i) ∧ ∑ i, p i = 1

/-- The Multinomial(`n`, `p`) probability of the counts `m`. -/
noncomputable def multinomialPmf {K : ℕ} (n : ℕ) (p : Fin K → ℝ) (m : Fin K → ℕ) : ℝ :=
  (n.factorial : ℝ) / (∏ i, ((m i).factorial : ℝ)) * ∏ i, p i ^ m i

/-- `m` is a most probable vector of counts. -/
def IsMultinomialMode {K : ℕ} (n : ℕ) (p : Fin K → ℝ) (m : Fin K → ℕ) : Prop :=
  ∑ i, m i = n ∧ ∀ m' : Fin K → ℕ, ∑ i, m' i = n → multinomialPmf n p m' ≤ multinomialPmf n p m

end Edward
