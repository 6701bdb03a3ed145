/-
Model of conditional inference: `data` binds a random variable `beta` of the model to another random variable `qbeta`
(map.py:40-47, metropolis_hastings.py:19-30, sgld.py:18-28, klqp.py:36-48).

Each update draws `beta` once from `qbeta` (MetropolisHastings: scope 'conditional', metropolis_hastings.py:84-91; SGLD:
sgld.py:97-107; MAP: `qx.value()`, map.py:126-131), and the log density of `beta` is one of the terms, as `beta` is a key of `data`.
A state is a pair of the latent variables and `beta`. For KLqp and MAP a draw of the `ViProblem` is such a pair.
-/
import Verif.Model.MetropolisHastings
import Verif.Model.Langevin

namespace Edward
open MeasureTheory ENNReal

/-- Expected value of `f` after one update of MetropolisHastings (metropolis_hastings.py:76-152): the same `beta` is in `dict_swap_old`
and `dict_swap_new`, and it is not kept. -/
noncomputable def mhConditional {Y B : Type} [MeasurableSpace Y] [MeasurableSpace B] (m : MHModel (Y × B)) (μ : Measure Y) (Q : Measure B)
    (f : Y → ℝ≥0∞) (y : Y) : ℝ≥0∞ :=
  ∫⁻ b, m.expect μ (fun s => f s.1) (y, b) ∂Q

/-- Expected new sample of SGLD for a given normal draw (sgld.py:62-77): `G z b` is the gradient of the log joint density. -/
noncomputable def sgldConditional {B : Type} [Fintype B] (q : B → ℝ) (step : ℝ) (t : ℕ) (G : ℝ → B → ℝ) (old normal : ℝ) : ℝ :=
  ∑ b, q b * sgldSample step t old (G old b) normal

/-- Expected new velocity of SGHMC for a given normal draw (sghmc.py:58-96): the ops run in the order `l`, the tensor of the velocity
is the variable itself, and `G z b` is the gradient of the log joint density. One latent variable. -/
noncomputable def sghmcConditional {B : Type} [Fintype B] (q : B → ℝ) (step friction : ℝ) (G : ℝ → B → ℝ) (old v normal : ℝ)
    (l : List (HOp Unit)) : ℝ :=
  ∑ b, q b * (hrun true ⟨step, friction, fun x _ => G (x ()) b, fun _ => old, fun _ => normal⟩ (fun _ => v) l).v ()

end Edward
