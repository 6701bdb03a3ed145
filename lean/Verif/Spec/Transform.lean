/-
What supports and transformed variables mean.
-/
import Verif.Model.Transform

namespace Edward.Spec

/-- The interior of the continuous supports. -/
def innerPoints : Support → Set (List ℝ)
  | .unit => {x | ∀ a ∈ x, 0 < a ∧ a < 1}
  | .nonnegative => {x | ∀ a ∈ x, 0 < a}
  | .simplex => {x | (∀ a ∈ x, 0 < a) ∧ x.sum = 1}
  | _ => Set.univ

/-- The supports `ed.transform` handles: open up to boundary points. -/
def Continuous' : Support → Prop
  | .unit | .nonnegative | .simplex | .real | .multivariateReal => True
  | _ => False

/-- The unconstrained supports. -/
def Unconstrained : Support → Prop
  | .real | .multivariateReal => True
  | _ => False

/-- A draw of a random variable, given draws `ω` of the variables of the library's
families. -/
noncomputable def draw (U : ℕ → (List ℝ → List ℝ) × (List ℝ → List ℝ)) (ω : ℕ → List ℝ) : RVar → List ℝ
  | .base id _ _ => ω id
  | .transformed _ d b _ => b.forward U (draw U ω d)

end Edward.Spec
