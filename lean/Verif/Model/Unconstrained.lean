/-
Model of the unconstrained log joint of HMC (edward/inferences/hmc.py:132-159) and of the
list form of MAP (edward/inferences/map.py:92-113 with the check of
edward/util/random_variables.py:64-83).

Assumed of TensorFlow: the Jacobian formulas of the bijectors Sigmoid and Softplus.
-/
import Verif.Model.Transform

namespace Edward

/-- `bij.inverse_log_det_jacobian(y)` summed over all entries (hmc.py:153-154). `J` stands
for the other bijectors. -/
noncomputable def inverseLogDetJacobian (J : Bij → List ℝ → ℝ) : Bij → List ℝ → ℝ
  | .invert .sigmoid, y => (y.map fun a => -softplusFwd (-a) - softplusFwd a).sum
  | .invert .softplus, y => (y.map fun a => -softplusFwd (-a)).sum
  | b, y => J b y

/-- hmc.py:145-157, one pass of the loop: the original variable with its value in the
original space, and the Jacobian term. `trans` is `self.transformations`. -/
noncomputable def toOriginal (U : ℕ → (List ℝ → List ℝ) × (List ℝ → List ℝ)) (J : Bij → List ℝ → ℝ)
    (trans : List (RVar × RVar)) (p : RVar × List ℝ) : (RVar × List ℝ) × ℝ :=
  let z := match trans.find? (·.2 = p.1) with
    | some t => t.1
    | none => p.1
  match (trans.find? (·.1 = z)).bind (·.2.bijector) with
  | some b => ((z, b.inverse U p.2), inverseLogDetJacobian J b p.2)
  | none => ((z, p.2), 0)

/-- `_log_joint_unconstrained`, hmc.py:132-159; `logJoint` is `self._log_joint`. -/
noncomputable def logJointUnconstrained (U : ℕ → (List ℝ → List ℝ) × (List ℝ → List ℝ)) (J : Bij → List ℝ → ℝ)
    (trans : List (RVar × RVar)) (logJoint : List (RVar × List ℝ) → ℝ) (zSample : List (RVar × List ℝ)) : ℝ :=
  let r := zSample.map (toOriginal U J trans)
  logJoint (r.map (·.1)) + (r.map (·.2)).sum

/-- The point mass `MAP.__init__` makes for one element of a list, map.py:95-104: its
shape, and the bijector whose inverse is applied to the free parameters. `sampleRank` is
the number of axes of `z.sample_shape`. -/
def mapPointMass (fresh : ℕ) (z : RVar) (sampleRank : ℕ) : Except PyErr (List ℕ × Option Bij) :=
  let shape := z.shape.drop sampleRank
  match z.support with
  | none => .ok (shape, none)
  | some _ =>
    match transform fresh z none with
    | .error e => .error e
    | .ok zT =>
      match zT.bijector with
      | some b => .ok (b.inverseShape shape, some b)
      | none => .ok (shape, none)

/-- `MAP([z])`: map.py:92-113, with the shape check of random_variables.py:78. -/
def mapList (fresh : ℕ) (z : RVar) (sampleRank : ℕ) : Except PyErr (List ℕ × Option Bij) :=
  match mapPointMass fresh z sampleRank with
  | .error e => .error e
  | .ok (shape, b) => if z.shape = shape then .ok (shape, b) else .error .typeError

/-- The value of the point mass for free parameters `v`. -/
noncomputable def pointMassValue (U : ℕ → (List ℝ → List ℝ) × (List ℝ → List ℝ)) (b : Option Bij) (v : List ℝ) : List ℝ :=
  match b with
  | some b => b.inverse U v
  | none => v

end Edward
