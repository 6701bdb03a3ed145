/-
Model of `HMC.build_update` (edward/inferences/hmc.py:61-130) when `data` binds a random variable `beta` to `qbeta`, or when the model has
random variables that are not inferred: `_log_joint` copies them in a new scope at each call (hmc.py:169-190), so that every gradient
of `leapfrog` (hmc.py:199, 206) and both terms of the acceptance ratio (hmc.py:104-105) have their own draw.
-/
import Verif.Model.Hmc

namespace Edward
open MeasureTheory ENNReal
section
variable {ι : Type} [DecidableEq ι] {E : ι → Type} [∀ i, AddCommGroup (E i)] [∀ i, Module ℝ (E i)]

/-- Lines 200-208 of hmc.py: `k` counts the calls of `log_joint`, `Gs k` is the gradient at the draw of that call. -/
noncomputable def redrawnLoop (h : ℝ) (Gs : ℕ → (∀ i, E i) → ∀ i, E i) (keys : List ι) :
    ℕ → ℕ → (∀ i, E i) → (∀ i, E i) × (∀ i, E i) → (∀ i, E i) × (∀ i, E i)
  | 0, _, _, zr => zr
  | n + 1, k, g, zr =>
    let zr' := kickDrift h g keys zr
    let g' := Gs k zr'.1
    redrawnLoop h Gs keys n (k + 1) g' (zr'.1, kick h g' keys zr'.2)

/-- `leapfrog` with redrawn variables. -/
noncomputable def redrawnLeapfrog (h : ℝ) (Gs : ℕ → (∀ i, E i) → ∀ i, E i) (keys : List ι) (n : ℕ)
    (zr : (∀ i, E i) × (∀ i, E i)) : (∀ i, E i) × (∀ i, E i) :=
  redrawnLoop h Gs keys n 1 (Gs 0 zr.1) zr

end
section
variable {ι : Type} [Fintype ι] [DecidableEq ι] {κ : ι → Type} [∀ i, Fintype (κ i)] {B : Type} [Fintype B]

/-- The acceptance ratio (hmc.py:100-105): the draw is `bNew` in the log density at the new state and `bOld` at the old one. -/
noncomputable def redrawnRatio (p : Pos κ → B → ℝ≥0∞) (bOld bNew : B) (old new : Pos κ × Pos κ) : EReal :=
  ((kinetic old.2 - kinetic new.2 : ℝ) : EReal) + log (p new.1 bNew) - log (p old.1 bOld)

/-- Expected value of `f` after one update. The `n + 3` draws are independent with mass function `q`; `p z b` is the density whose log
is `_log_joint_unconstrained`, `G b` its gradient. -/
noncomputable def redrawnExpect (p : Pos κ → B → ℝ≥0∞) (G : B → Pos κ → Pos κ) (q : B → ℝ≥0∞) (h : ℝ) (n : ℕ) (keys : List ι)
    (f : Pos κ → ℝ≥0∞) (z : Pos κ) : ℝ≥0∞ :=
  ∑ d : Fin (n + 1) → B, (∏ i, q (d i)) * ∑ bOld, ∑ bNew, q bOld * q bNew *
    ∫⁻ r, momentum r * ∫⁻ u in Set.Ico (0 : ℝ) 1,
      let new := redrawnLeapfrog h (fun k => G (d (Fin.ofNat (n + 1) k))) keys n (z, r)
      f (open Classical in if accepts u (redrawnRatio p bOld bNew (z, r) new) then new.1 else z)

end
end Edward
