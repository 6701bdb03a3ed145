/-
`HMC` as a sampling step of `MonteCarlo` (edward/inferences/hmc.py:61-130), with its random
draws explicit.
-/
import Verif.Model.Hmc
import Verif.Model.MonteCarlo

namespace Edward

section
variable {ι : Type} [Fintype ι] [DecidableEq ι] {κ : ι → Type} [∀ i, Fintype (κ i)]

/-- Lines 88-118: the new sample from the old one, the momentum draw (line 91) and the uniform
draw (line 108). -/
noncomputable def hmcMove (p : Pos κ → ENNReal) (G : Pos κ → Pos κ) (h : ℝ) (n : ℕ) (keys : List ι) (z : Pos κ) (d : Pos κ × ℝ) : Pos κ :=
  hmcStep p G h n keys z d.1 d.2

end

/-- The step in the form used by the bookkeeping (Model/MonteCarlo.lean): every latent variable
has coordinates `J` (the bookkeeping has one type of values); there is no hidden state; the flag
is `accept` (lines 109, 129). -/
noncomputable def hmcKernel {Z J : Type} [Fintype Z] [DecidableEq Z] [Fintype J] (p : Pos (fun _ : Z => J) → ENNReal)
    (G : Pos (fun _ : Z => J) → Pos (fun _ : Z => J)) (h : ℝ) (n : ℕ) (keys : List Z) :
    Kernel Z (J → ℝ) Unit (Pos (fun _ : Z => J) × ℝ) := fun _ old _ d =>
  (hmcMove p G h n keys old d, (), open Classical in decide (accepts d.2 (hmcRatio p (old, d.1) (leapfrog h G keys n (old, d.1)))))

end Edward
