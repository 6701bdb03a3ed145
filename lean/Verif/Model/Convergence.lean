/-
The Metropolis-Hastings update as a sampling step of `MonteCarlo`
(edward/inferences/metropolis_hastings.py:64-156), with its random draws explicit, and
averages over the stored samples.

`sample` is what the sampling ops of the proposals compute from their random numbers; the
other draw is the uniform one of line 139.
-/
import Mathlib.Data.Real.Basic
import Verif.Model.MetropolisHastings
import Verif.Model.MonteCarlo

namespace Edward

/-- Lines 99-142: propose for the latent variables that have a proposal (`y`), the others
(`w`) keep their values, then accept or reject. -/
noncomputable def mhMove {Y W E : Type} (m : MHModel (Y × W)) (sample : Y × W → E → Y) (s : Y × W) (d : E × ℝ) : Y × W :=
  m.step s (sample s d.1, s.2) d.2

/-- The step in the form used by the bookkeeping (Model/MonteCarlo.lean): all latent
variables have proposals; there is no hidden state. -/
noncomputable def mhKernel {Z V E : Type} (m : MHModel ((Z → V) × Unit)) (sample : (Z → V) × Unit → E → Z → V) :
    Kernel Z V Unit (E × ℝ) := fun _ old _ d =>
  ((mhMove m sample (old, ()) d).1, (),
    open Classical in decide (accepts d.2 (m.ratio (old, ()) (sample (old, ()) d.1, ()))))

/-- `tf.reduce_mean(f(qz.params), 0)` for a latent variable `z`; for `f = id` this is
`qz.mean()` (edward/models/empirical.py:87-88). -/
noncomputable def storedMean {Z V H : Type} (f : V → ℝ) (s : MCState Z V H) (z : Z) : ℝ :=
  ((s.params z).map f).sum / (s.params z).length

end Edward
