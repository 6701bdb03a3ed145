/-
The updates of `SGLD` and `SGHMC` (Model/Langevin.lean) in the form used by the bookkeeping
of Model/MonteCarlo.lean. `ι` indexes the latent variables (scalars, or the entries of all
of them); `G` is the gradient of the log joint.
-/
import Verif.Model.Langevin
import Verif.Model.MonteCarlo

namespace Edward

variable {ι : Type} [DecidableEq ι]

/-- `SGLD.build_update` (edward/inferences/sgld.py:52-87): the new sample of every latent
variable; every update counts as accepted (line 86). The draws are one standard normal
number per entry (line 73). -/
noncomputable def sgldKernel (step : ℝ) (G : (ι → ℝ) → ι → ℝ) : Kernel ι ℝ Unit (ι → ℝ) := fun t old _ ξ =>
  (fun i => sgldSample step t (old i) (G old i) (ξ i), (), true)

/-- `SGHMC.build_update` (edward/inferences/sghmc.py:58-96) when TensorFlow runs the ops of
update `t` in the order `l t`: the hidden state is `self.v`. A complete order writes all
rows. -/
noncomputable def sghmcKernel (l : ℕ → List (HOp ι)) (step friction : ℝ) (G : (ι → ℝ) → ι → ℝ) : Kernel ι ℝ (ι → ℝ) (ι → ℝ) :=
  fun t old v ξ =>
    let s := hrun true ⟨step, friction, G, old, ξ⟩ v (l t)
    (fun i => (s.row i).getD (old i), s.v, true)

end Edward
