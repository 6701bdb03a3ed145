/-
Model of `transform` (edward/util/random_variables.py:856-917), of the automatic
transformations in `Inference.initialize` (edward/inferences/inference.py:222-264), of the
unconstrained log joint of HMC (edward/inferences/hmc.py:132-159) and of the list form of
MAP (edward/inferences/map.py:92-113).

Assumed of TensorFlow: the formulas of the bijectors Sigmoid, Softplus, SoftmaxCentered and
Invert; `TransformedDistribution(x, bij)` draws `bij.forward` of a draw of `x`, has an
attribute `bijector` and no attribute `support`. A value is given by the vector along its
last axis. Object identity is modelled by an identifier in every random variable.
-/
import Mathlib.Analysis.SpecialFunctions.Log.Basic
import Mathlib.Analysis.SpecialFunctions.Exp
import Verif.Model.Metrics
import Verif.Model.NaturalParams

namespace Edward

/-- Bijectors. `user` is one written by the user. -/
inductive Bij
  | sigmoid
  | softplus
  | softmaxCentered
  | user (name : ℕ)
  | invert (b : Bij)
  deriving DecidableEq

/-- Random variables: one of the library's families, or a `TransformedDistribution`.
`support` is absent where the attribute is. -/
inductive RVar
  | base (id : ℕ) (shape : List ℕ) (support : Option Support)
  | transformed (id : ℕ) (dist : RVar) (bij : Bij) (support : Option Support)
  deriving DecidableEq

namespace RVar

/-- The attribute `support`. -/
def support : RVar → Option Support
  | base _ _ s => s
  | transformed _ _ _ s => s

/-- The attribute `bijector`. -/
def bijector : RVar → Option Bij
  | base .. => none
  | transformed _ _ b _ => some b

end RVar

/-! ### The bijectors -/

/-- Sigmoid.forward -/
noncomputable def sigmoidFwd (x : ℝ) : ℝ := 1 / (1 + Real.exp (-x))

/-- Sigmoid.inverse -/
noncomputable def sigmoidInv (y : ℝ) : ℝ := Real.log y - Real.log (1 - y)

/-- Softplus.forward -/
noncomputable def softplusFwd (x : ℝ) : ℝ := Real.log (1 + Real.exp x)

/-- Softplus.inverse -/
noncomputable def softplusInv (y : ℝ) : ℝ := Real.log (Real.exp y - 1)

/-- SoftmaxCentered.forward: softmax of the vector with a zero appended. -/
noncomputable def softmaxCenteredFwd (x : List ℝ) : List ℝ :=
  let e := (x ++ [0]).map Real.exp
  e.map (· / e.sum)

/-- SoftmaxCentered.inverse: logarithms, less the last one. -/
noncomputable def softmaxCenteredInv (y : List ℝ) : List ℝ :=
  y.dropLast.map fun a => Real.log a - Real.log (y.getLast?.getD 1)

mutual
/-- `bijector.forward`; `U` interprets the user's bijectors, forward and inverse. -/
noncomputable def Bij.forward (U : ℕ → (List ℝ → List ℝ) × (List ℝ → List ℝ)) : Bij → List ℝ → List ℝ
  | .sigmoid, x => x.map sigmoidFwd
  | .softplus, x => x.map softplusFwd
  | .softmaxCentered, x => softmaxCenteredFwd x
  | .user n, x => (U n).1 x
  | .invert b, x => Bij.inverse U b x
/-- `bijector.inverse` -/
noncomputable def Bij.inverse (U : ℕ → (List ℝ → List ℝ) × (List ℝ → List ℝ)) : Bij → List ℝ → List ℝ
  | .sigmoid, y => y.map sigmoidInv
  | .softplus, y => y.map softplusInv
  | .softmaxCentered, y => softmaxCenteredInv y
  | .user n, y => (U n).2 y
  | .invert b, y => Bij.forward U b y
end

mutual
/-- `bijector.forward_event_shape`; SoftmaxCentered adds one entry to the last axis. -/
def Bij.forwardShape : Bij → List ℕ → List ℕ
  | .softmaxCentered, s => match s.getLast? with
    | some d => s.dropLast ++ [d + 1]
    | none => []
  | .invert b, s => Bij.inverseShape b s
  | _, s => s
/-- `bijector.inverse_event_shape` -/
def Bij.inverseShape : Bij → List ℕ → List ℕ
  | .softmaxCentered, s => match s.getLast? with
    | some d => s.dropLast ++ [d - 1]
    | none => []
  | .invert b, s => Bij.forwardShape b s
  | _, s => s
end

/-- Shape of a draw. -/
def RVar.shape : RVar → List ℕ
  | .base _ s _ => s
  | .transformed _ d b _ => b.forwardShape d.shape

/-! ### `transform` -/

/-- random_variables.py:856-917. `bij` is the bijector passed by the caller, `fresh` the
identity of the new object. -/
def transform (fresh : ℕ) (x : RVar) (bij : Option Bij) : Except PyErr RVar :=
  match bij with
  | some b => .ok (.transformed fresh x b none)
  | none =>
    match x.support with
    | none => .error .attributeError
    | some .unit => .ok (.transformed fresh x (.invert .sigmoid) (some .real))
    | some .nonnegative => .ok (.transformed fresh x (.invert .softplus) (some .real))
    | some .simplex => .ok (.transformed fresh x (.invert .softmaxCentered) (some .multivariateReal))
    | some .real => .ok x
    | some .multivariateReal => .ok x
    | some _ => .error .valueError

/-! ### Automatic transformations -/

/-- The attributes written by inference.py:222-264. -/
structure AutoState where
  latentVars : List (RVar × RVar)
  unconstrained : List (RVar × RVar)
  transformations : List (RVar × RVar)
  /-- Identity of the next object. -/
  next : ℕ

/-- The condition of inference.py:231-232. -/
def needsTransform (z qz : RVar) : Bool :=
  match z.support, qz.support with
  | some s, some t => s ≠ t ∧ t ≠ .point
  | _, _ => false

/-- One pass of the loop, inference.py:230-263. Assignment of the pushed-forward `params`
(lines 251-255) is not modelled. On an error the assignments made so far remain. -/
def autoStep (st : AutoState) (p : RVar × RVar) : AutoState × Option PyErr :=
  let (z, qz) := p
  if needsTransform z qz then
    match transform st.next z none with
    | .error e => (st, some e)
    | .ok zU =>
      let st := { st with transformations := st.transformations ++ [(z, zU)], next := st.next + 1 }
      match (if qz.support = some .points then .ok qz else transform st.next qz none) with
      | .error e => (st, some e)
      | .ok qzU =>
        let st := { st with unconstrained := st.unconstrained ++ [(zU, qzU)], next := st.next + 1 }
        let qzC := match (if zU ≠ z then zU.bijector else none) with
          | some b => .transformed st.next qzU (.invert b) none
          | none => qzU
        ({ st with latentVars := st.latentVars ++ [(z, qzC)], next := st.next + 1 }, none)
  else
    ({ st with latentVars := st.latentVars ++ [(z, qz)], unconstrained := st.unconstrained ++ [(z, qz)] }, none)

/-- The loop, inference.py:230-263. -/
def autoLoop : AutoState → List (RVar × RVar) → AutoState × Option PyErr
  | st, [] => (st, none)
  | st, p :: ps =>
    match autoStep st p with
    | (st, none) => autoLoop st ps
    | r => r

/-- inference.py:222-264 with `auto_transform=True`. -/
def autoTransform (next : ℕ) (latentVars : List (RVar × RVar)) : AutoState × Option PyErr :=
  autoLoop ⟨[], [], [], next⟩ latentVars

end Edward
