/-
What MCMC bookkeeping should achieve: the chain itself, without variables,
row indices or counters. -/
import Verif.Model.MonteCarlo

namespace Edward
variable {Z V H W : Type}

/-- The Markov chain: sample and hidden state after `i` steps. -/
def chain (K : Kernel Z V H W) (x0 : Z → V) (h0 : H) (ws : Nat → W) : Nat → (Z → V) × H
  | 0 => (x0, h0)
  | i + 1 =>
    let p := chain K x0 h0 ws i
    let r := K i p.1 p.2 (ws i)
    (r.1, r.2.1)

/-- Was step `i` (0-based) accepted? -/
def accepted (K : Kernel Z V H W) (x0 : Z → V) (h0 : H) (ws : Nat → W) (i : Nat) : Bool :=
  let p := chain K x0 h0 ws i
  (K i p.1 p.2 (ws i)).2.2

/-- Number of accepted steps among the first `k`. -/
def nAcc (K : Kernel Z V H W) (x0 : Z → V) (h0 : H) (ws : Nat → W) (k : Nat) : Nat :=
  (List.range k).countP (accepted K x0 h0 ws)

/-- A rate is a number between 0 and 1. -/
def Rate.proper : Rate → Prop
  | .val q => 0 ≤ q ∧ q ≤ 1
  | _ => False

end Edward
