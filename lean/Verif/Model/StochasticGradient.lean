/-
Model of how `SGLD` and `SGHMC` read and store samples after the automatic transformations of
`Inference.initialize`: edward/inferences/sgld.py:52-87, sghmc.py:58-96, inference.py:222-264.

`qz` in these loops is the value of `self.latent_vars`. For a transformed latent variable it is a
`TransformedDistribution` whose attribute `params` (inference.py:251-253) is the image of the rows of the
Empirical, while `qz.get_variables()[0]` is the variable holding these rows themselves.

Simplifications: a sample is the vector along its last axis; the op schedule of SGHMC is not modelled here
(see C42).
-/
import Verif.Model.Langevin
import Verif.Model.Unconstrained

namespace Edward

/-- A row of `qz.params`, given the row of the variable (inference.py:251-253). -/
noncomputable def paramsRow (U : ℕ → (List ℝ → List ℝ) × (List ℝ → List ℝ)) : RVar → List ℝ → List ℝ
  | .base .., v => v
  | .transformed _ d b _, v => b.forward U (paramsRow U d v)

/-- The rows of `qz.params` for every latent variable. `raw` lists the values of the variables, in the order
of `latentVars`. -/
noncomputable def paramsOf (U : ℕ → (List ℝ → List ℝ) × (List ℝ → List ℝ)) (latentVars : List (RVar × RVar))
    (raw : List (List (List ℝ))) : List (List (List ℝ)) :=
  List.zipWith (fun p rows => rows.map (paramsRow U p.2)) latentVars raw

/-- `old_sample` (sgld.py:61-62, sghmc.py:65-66): row `max (t - 1) 0` of `qz.params`. -/
noncomputable def oldSample (U : ℕ → (List ℝ → List ℝ) × (List ℝ → List ℝ)) (latentVars : List (RVar × RVar)) (t : ℕ)
    (raw : List (List (List ℝ))) : List (List ℝ) :=
  (paramsOf U latentVars raw).map fun rows => rows.getD (t - 1) []

/-- `tf.scatter_update(variable, self.t, sample[z])` for every latent variable (sgld.py:81-83, sghmc.py:89-91). -/
def scatterRows (t : ℕ) (sample : List (List ℝ)) (raw : List (List (List ℝ))) : List (List (List ℝ)) :=
  List.zipWith (fun s rows => rows.set t s) sample raw

/-- `sample` (sgld.py:69-77): `G` is the gradient of the log joint, `eps` the normal draws. -/
noncomputable def sgldMove (step : ℝ) (t : ℕ) (G : List (List ℝ) → List (List ℝ)) (eps old : List (List ℝ)) : List (List ℝ) :=
  List.zipWith (fun o ge => List.zipWith (fun x p => sgldSample step t x p.1 p.2) o ge) old
    (List.zipWith List.zip (G old) eps)

/-- `sample` (sghmc.py:82): `v` are the velocities. -/
noncomputable def sghmcMove (v old : List (List ℝ)) : List (List ℝ) := List.zipWith (List.zipWith (· + ·)) old v

/-- One run of `self.train`: `move` computes the new sample from the old one. -/
noncomputable def storeUpdate (U : ℕ → (List ℝ → List ℝ) × (List ℝ → List ℝ)) (latentVars : List (RVar × RVar))
    (move : List (List ℝ) → List (List ℝ)) (t : ℕ) (raw : List (List (List ℝ))) : List (List (List ℝ)) :=
  scatterRows t (move (oldSample U latentVars t raw)) raw

end Edward
