/-
Specification of training on batches.
-/
import Verif.Model.Variational
import Verif.Model.McmcTarget

namespace Edward.Spec
variable {Z X I Ω : Type} {N M : ℕ}

/-- The factor for a variable inside the plate of the data points, and for one outside. -/
noncomputable def plateScale (N M : ℕ) (inside : Bool) : ℝ := if inside then (N : ℝ) / M else 1

/-- Entries of a variable inside the plate belong to data points, those of one outside do not. -/
def OnPlate (inside : Bool) (f : I ⊕ Fin N → ℝ) : Prop :=
  if inside then ∀ i, f (.inl i) = 0 else ∀ n, f (.inr n) = 0

/-- The problem with all data: no factors, and every variable is inside or outside the plate. -/
structure Plated (v : ViProblem Z X (I ⊕ Fin N) Ω) (inZ : Z → Bool) (inX : X → Bool) : Prop where
  scaleZ : ∀ z i, v.scaleZ z i = 1
  scaleX : ∀ x i, v.scaleX x i = 1
  logQ : ∀ z ω, OnPlate (inZ z) (v.logQ z ω)
  logP : ∀ z ω, OnPlate (inZ z) (v.logP z ω)
  logLik : ∀ x ω, OnPlate (inX x) (v.logLik x ω)

/-- The same for the Monte Carlo algorithms. -/
structure PlatedMcmc {D W : Type} (m : McmcProblem Z X (I ⊕ Fin N) D W) (inZ : Z → Bool) (inX : X → Bool) : Prop where
  scaleZ : ∀ z i, m.scaleZ z i = 1
  scaleX : ∀ x i, m.scaleX x i = 1
  logPrior : ∀ z d w, OnPlate (inZ z) (m.logPrior z d w)
  logLik : ∀ x d w, OnPlate (inX x) (m.logLik x d w)

/-- Batches `b k`, with weights `p k` that sum to one, in which every data point has the same share. -/
structure Balanced {β : Type} [Fintype β] (p : β → ℝ) (b : β → Fin M → Fin N) : Prop where
  one : ∑ k, p k = 1
  share : ∀ n, ∑ k, p k * (∑ m, if b k m = n then 1 else 0) = (M : ℝ) / N

end Edward.Spec
