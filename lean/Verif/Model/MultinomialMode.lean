/-
Model of `compute_multinomial_mode` (edward/util/random_variables.py:920-968).

Probabilities are reals. The caller's array and the local name `probs` are kept
apart: `own` records whether `probs` has been rebound to a fresh array (line 956).
The random choice of cold indices and the tie break of `argmax` are arguments.
-/
import Mathlib.Data.Real.Basic
import Mathlib.Analysis.SpecialFunctions.Exp
import Mathlib.Algebra.BigOperators.Fin

namespace Edward

open Finset

/-- The local `softmax` (random_variables.py:943-945). -/
noncomputable def modeSoftmax {K : ℕ} (v : Fin K → ℝ) : Fin K → ℝ :=
  fun i => Real.exp (v i) / ∑ j, Real.exp (v j)

structure ModeState (K : ℕ) where
  mode : Fin K → ℕ
  probs : Fin K → ℝ
  caller : Fin K → ℝ
  own : Bool
  remaining : ℤ

/-- `random_state.choice(hot, k, replace=False)`: some `k` of the indices. -/
abbrev Choice (K : ℕ) := Finset (Fin K) → ℕ → Finset (Fin K)

/-- Loop body, lines 955-956: softmax when every entry is below `1/n`. -/
noncomputable def modeRescale {K : ℕ} (n : ℕ) (s : ModeState K) : ModeState K :=
  open Classical in
  if ∀ i, s.probs i < 1 / (n : ℝ) then { s with probs := modeSoftmax s.probs, own := true } else s

/-- Loop body, lines 957-963: the mask. -/
noncomputable def modeMask {K : ℕ} (n : ℕ) (cold : Choice K) (s : ModeState K) : Finset (Fin K) :=
  open Classical in
  let hot := univ.filter (fun i => 1 / (n : ℝ) ≤ s.probs i)
  let overflow : ℤ := (hot.card : ℤ) - s.remaining
  if 0 < overflow then hot \ cold hot overflow.toNat else hot

/-- Loop body, lines 964-966. The subtraction is in place, so it changes the
caller's array as long as `probs` still is that array. -/
noncomputable def modeApply {K : ℕ} (n : ℕ) (mask : Finset (Fin K)) (s : ModeState K) : ModeState K :=
  let probs' := fun i => if i ∈ mask then s.probs i - 1 / (n : ℝ) else s.probs i
  { mode := fun i => if i ∈ mask then s.mode i + 1 else s.mode i
    probs := probs'
    caller := if s.own then s.caller else probs'
    own := s.own
    remaining := s.remaining - mask.card }

/-- The body of the `while` loop (lines 954-966). -/
noncomputable def modeBody {K : ℕ} (n : ℕ) (cold : Choice K) (s : ModeState K) : ModeState K :=
  let s := modeRescale n s
  modeApply n (modeMask n cold s) s

/-- State before the loop (lines 948-953). -/
def modeInit {K : ℕ} (n : ℕ) (p : Fin K → ℝ) : ModeState K :=
  { mode := fun _ => 0, probs := p, caller := p, own := false, remaining := n }

/-- The state after at most `k` executions of the body
(`while remaining_count > 0`, line 954). -/
noncomputable def modeLoop {K : ℕ} (n : ℕ) (cold : ℕ → Choice K) : ℕ → ModeState K → ModeState K
  | 0, s => s
  | k + 1, s =>
    let s' := modeLoop n cold k s
    if 0 < s'.remaining then modeBody n (cold k) s' else s'

/-- `compute_multinomial_mode(p, n)` returns `m` and leaves `p'` in the caller's
array. `am` is the index found by `np.argmax` (line 950). -/
def ModeReturns {K : ℕ} (p : Fin K → ℝ) (n : ℕ) (am : Fin K) (cold : ℕ → Choice K)
    (m : Fin K → ℕ) (p' : Fin K → ℝ) : Prop :=
  if n = 1 then m = (fun i => if i = am then 1 else 0) ∧ p' = p
  else ∃ k, (modeLoop n cold k (modeInit n p)).remaining ≤ 0 ∧
    m = (modeLoop n cold k (modeInit n p)).mode ∧ p' = (modeLoop n cold k (modeInit n p)).caller

end Edward
