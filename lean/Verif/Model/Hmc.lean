/-
Model of `leapfrog` (edward/inferences/hmc.py:195-210) and of the transition built by
`HMC.build_update` (edward/inferences/hmc.py:61-130).

Latent variables are indexed by `ι` (the dictionary keys), the value of variable `i` has
scalar coordinates `κ i`. `log_joint` is a function of the sample
(`_log_joint_unconstrained`, lines 132-192; data bound to random variables, which would
be redrawn at every call, are not modelled). `tf.gradients(log_joint(z), ...)` is a
function `G` of the sample; nothing about it is assumed except measurability.
-/
import Mathlib.Probability.Distributions.Gaussian.Real
import Mathlib.MeasureTheory.Constructions.Pi
import Verif.Model.MetropolisHastings

namespace Edward

open MeasureTheory ENNReal

section
variable {ι : Type} [DecidableEq ι] {E : ι → Type} [∀ i, AddCommGroup (E i)] [∀ i, Module ℝ (E i)]

/-- Lines 201-204: the loop over the keys doing a half kick and a drift. -/
noncomputable def kickDrift (h : ℝ) (g : ∀ i, E i) (keys : List ι) (zr : (∀ i, E i) × (∀ i, E i)) :
    (∀ i, E i) × (∀ i, E i) :=
  keys.foldl (fun zr k =>
    let r' := Function.update zr.2 k (zr.2 k + (0.5 * h : ℝ) • g k)
    (Function.update zr.1 k (zr.1 k + h • r' k), r')) zr

/-- Lines 207-208: the loop over the keys doing the second half kick. -/
noncomputable def kick (h : ℝ) (g : ∀ i, E i) (keys : List ι) (r : ∀ i, E i) : ∀ i, E i :=
  keys.foldl (fun r k => Function.update r k (r k + (0.5 * h : ℝ) • g k)) r

/-- Lines 200-208: `n` rounds; `g` is the current value of `grad_log_joint`. -/
noncomputable def leapfrogLoop (h : ℝ) (G : (∀ i, E i) → ∀ i, E i) (keys : List ι) :
    ℕ → (∀ i, E i) → (∀ i, E i) × (∀ i, E i) → (∀ i, E i) × (∀ i, E i)
  | 0, _, zr => zr
  | n + 1, g, zr =>
    let zr' := kickDrift h g keys zr
    let g' := G zr'.1
    leapfrogLoop h G keys n g' (zr'.1, kick h g' keys zr'.2)

/-- `leapfrog(z_old, r_old, step_size, log_joint, n_steps)`. -/
noncomputable def leapfrog (h : ℝ) (G : (∀ i, E i) → ∀ i, E i) (keys : List ι) (n : ℕ)
    (zr : (∀ i, E i) × (∀ i, E i)) : (∀ i, E i) × (∀ i, E i) :=
  leapfrogLoop h G keys n (G zr.1) zr

end

section
variable {ι : Type} [Fintype ι] [DecidableEq ι] {κ : ι → Type} [∀ i, Fintype (κ i)]

/-- Position (or momentum) of all latent variables. -/
abbrev Pos (κ : ι → Type) := ∀ i, κ i → ℝ

/-- `tf.reduce_sum([0.5 * tf.reduce_sum(tf.square(r)) for r in ...])` (lines 100-103). -/
noncomputable def kinetic (r : Pos κ) : ℝ := ∑ i, 0.5 * ∑ j, (r i j) ^ 2

/-- The acceptance ratio, lines 100-105; `p` is the (unnormalised) density whose log
is `_log_joint_unconstrained`. -/
noncomputable def hmcRatio (p : Pos κ → ℝ≥0∞) (old new : Pos κ × Pos κ) : EReal :=
  ((kinetic old.2 - kinetic new.2 : ℝ) : EReal) + log (p new.1) - log (p old.1)

/-- Lines 94-118: the new sample, given the momentum draw and the uniform draw. -/
noncomputable def hmcStep (p : Pos κ → ℝ≥0∞) (G : Pos κ → Pos κ) (h : ℝ) (n : ℕ)
    (keys : List ι) (z r : Pos κ) (u : ℝ) : Pos κ :=
  let new := leapfrog h G keys n (z, r)
  open Classical in if accepts u (hmcRatio p (z, r) new) then new.1 else z

/-- Density of the momentum draw (`tf.random_normal`, line 91). -/
noncomputable def momentum (r : Pos κ) : ℝ≥0∞ :=
  ∏ i, ∏ j, ProbabilityTheory.gaussianPDF 0 1 (r i j)

/-- Expected value of `f` after one update. -/
noncomputable def hmcExpect (p : Pos κ → ℝ≥0∞) (G : Pos κ → Pos κ) (h : ℝ) (n : ℕ)
    (keys : List ι) (f : Pos κ → ℝ≥0∞) (z : Pos κ) : ℝ≥0∞ :=
  ∫⁻ r, momentum r * (∫⁻ u in Set.Ico (0 : ℝ) 1, f (hmcStep p G h n keys z r u))

end

end Edward
