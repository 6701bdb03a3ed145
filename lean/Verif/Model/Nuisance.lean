/-
Model of inference when the model has random variables that are neither in `latent_vars` nor in `data`.

`copy` copies them with everything else (random_variables.py:270-305), so that each copy draws them anew: KLqp once per sample
(klqp.py:657-686), MAP once (map.py:121-146), MetropolisHastings once in `scope_old` and once in `scope_new`
(metropolis_hastings.py:95-134). Values `S` of the latent variables, `W` of the others; both finite here. For KLqp and MAP a draw of
the `ViProblem` is a pair (Model/Variational.lean).
-/
import Verif.Model.Variational
import Verif.Model.MetropolisHastings

namespace Edward
open MeasureTheory ENNReal

/-- Probability of a draw of one sample: the latent variables from the approximations, the others from the model. -/
def pairMass {S W : Type} (q : S → ℝ) (r : W → ℝ) (ω : S × W) : ℝ := q ω.1 * r ω.2

/-- Expected value of `f` after one update of MetropolisHastings from `z` (metropolis_hastings.py:95-146): `w` is drawn in `scope_old`,
`w'` in `scope_new`, and neither is kept. -/
noncomputable def mhNuisanceExpect {S W : Type} [Fintype S] [Fintype W] (m : MHModel (S × W)) (r : W → ℝ≥0∞) (f : S → ℝ≥0∞) (z : S) :
    ℝ≥0∞ :=
  ∑ z', ∑ w, ∑ w', r w * r w' * m.propose (z, w) (z', w') * ∫⁻ u in Set.Ico (0 : ℝ) 1, f (m.step (z, w) (z', w') u).1

end Edward
