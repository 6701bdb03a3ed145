/-
Model of the transition built by `MetropolisHastings.build_update`
(edward/inferences/metropolis_hastings.py:64-156).

A state holds the values of all latent variables; the densities are functions of
the state, i.e. what `copy` with the corresponding `dict_swap` computes (C15).
Log probabilities are extended reals: `-inf` for zero densities. Floating-point NaN
(`inf - inf`) is represented by `-inf`; both make `log(u) < ratio` false.
-/
import Mathlib.Analysis.SpecialFunctions.Log.ENNRealLog
import Mathlib.MeasureTheory.Measure.Lebesgue.Basic

namespace Edward

open MeasureTheory ENNReal

/-- Densities in the order in which the loops visit them. `proposals`: old state, new
state ↦ density of the proposal of one latent variable at its new value given the old
state. `priors`, `liks`: density of each latent (observed) variable at its value given
its parents' values in the state. -/
structure MHModel (S : Type) where
  proposals : List (S → S → ℝ≥0∞)
  priors : List (S → ℝ≥0∞)
  liks : List (S → ℝ≥0∞)

variable {S : Type}

/-- The ratio accumulated in lines 104-136. -/
noncomputable def MHModel.ratio (m : MHModel S) (old new : S) : EReal :=
  let r := m.proposals.foldl (fun r g => r - log (g old new)) 0
  let r := m.proposals.foldl (fun r g => r + log (g new old)) r
  let r := m.priors.foldl (fun r p => r + log (p new) - log (p old)) r
  m.liks.foldl (fun r p => r + log (p new) - log (p old)) r

/-- `accept = tf.log(u) < ratio` (lines 139-140). -/
def accepts (u : ℝ) (ratio : EReal) : Prop := log (ENNReal.ofReal u) < ratio

/-- Lines 139-142: the new sample, given the proposed one and the uniform draw. -/
noncomputable def MHModel.step (m : MHModel S) (old new : S) (u : ℝ) : S :=
  open Classical in if accepts u (m.ratio old new) then new else old

/-- Joint density of the proposals (drawn independently given the old state). -/
noncomputable def MHModel.propose (m : MHModel S) (old new : S) : ℝ≥0∞ :=
  (m.proposals.map (fun g => g old new)).prod

/-- Expected value of `f` after drawing `y'` from the density `g` given `s` and accepting
if `log u < ratio`. A state is a pair `(y, w)`: `y` are the latent variables that have a
proposal, `w` the others, which keep their values (line 100). `g` is a density with
respect to `μ`, `u` is uniform on [0, 1). -/
noncomputable def acceptReject {Y W : Type} [MeasurableSpace Y] (μ : Measure Y)
    (g : Y × W → Y × W → ℝ≥0∞) (ratio : Y × W → Y × W → EReal)
    (f : Y × W → ℝ≥0∞) (s : Y × W) : ℝ≥0∞ :=
  ∫⁻ y', g s (y', s.2) * (∫⁻ u in Set.Ico (0 : ℝ) 1,
    f (open Classical in if accepts u (ratio s (y', s.2)) then (y', s.2) else s)) ∂μ

/-- Expected value of `f` after one update: the new sample is `step`. -/
noncomputable def MHModel.expect {Y W : Type} [MeasurableSpace Y] (m : MHModel (Y × W))
    (μ : Measure Y) (f : Y × W → ℝ≥0∞) (s : Y × W) : ℝ≥0∞ :=
  ∫⁻ y', m.propose s (y', s.2) *
    (∫⁻ u in Set.Ico (0 : ℝ) 1, f (m.step s (y', s.2) u)) ∂μ

end Edward
