/-
Constructors given a list of latent variables: `KLqp` (edward/inferences/klqp.py:66-82, and at
190-206, 253-269, 330-346, 394-410, 457-473, 533-549, 603-619 for the other KLqp classes),
`KLpq` (klpq.py:65-81), `MonteCarlo` (monte_carlo.py:78-83) and `Laplace` (laplace.py:78-95),
with the check of edward/util/random_variables.py:64-83. (`MAP`: Model/Unconstrained.lean.)

Random variables as in Model/Transform.lean, with fully known shapes. Values of the free
parameters are not modelled. The variables of a list are different from each other, so the
dictionary has one item for each.
-/
import Verif.Model.Unconstrained
import Verif.Model.CheckData

namespace Edward

/-- A latent variable: `sampleRank` is the number of axes of its `sample_shape`. -/
structure LatentVar where
  rv : RVar
  sampleRank : ℕ
  dtype : DType

/-- `z.batch_shape.concatenate(z.event_shape)`. -/
def LatentVar.batchEvent (z : LatentVar) : List ℕ := z.rv.shape.drop z.sampleRank

/-- An approximation. -/
structure MadeVar where
  rv : RVar
  dtype : DType

/-- klqp.py:71-80 (the same as klpq.py:70-79): a `Normal`, whose parameters have the default
dtype of `tf.random_normal`. `fresh` is the identity of the new object. -/
def klMake (fresh : ℕ) (z : LatentVar) : Except PyErr MadeVar :=
  match z.rv.support with
  | some .unit | some .nonnegative | some .simplex | some .real | some .multivariateReal =>
    .ok ⟨.base fresh z.batchEvent (some .real), .float32⟩
  | _ => .error .attributeError

/-- monte_carlo.py:80-83: an `Empirical` of the dtype of `z`. -/
def monteCarloMake (fresh : ℕ) (z : LatentVar) : Except PyErr MadeVar :=
  .ok ⟨.base fresh z.batchEvent (some .points), z.dtype⟩

/-- The rows of that `Empirical` (monte_carlo.py:80-83). -/
def monteCarloRows {V : Type} [Zero V] : List V := List.replicate 10000 0

/-- laplace.py:85-89: `loc`, of shape `shape` or, transformed, of the shape given by the inverse
of the bijector. -/
def laplaceLoc (fresh : ℕ) (z : LatentVar) : Except PyErr (List ℕ) :=
  match z.rv.support with
  | none => .ok z.batchEvent
  | some _ =>
    match transform fresh z.rv none with
    | .error e => .error e
    | .ok zT =>
      match zT.bijector with
      | some b => .ok (b.inverseShape z.batchEvent)
      | none => .ok z.batchEvent

/-- laplace.py:90-92, `shape` being that of `z`. The inverse of the bijector of a simplex adds an
entry to `loc` but not to `scale_tril`; what `MultivariateNormalTriL` raises then is `mvn`. -/
def laplaceApprox (mvn : PyErr) (fresh : ℕ) (shape loc : List ℕ) : Except PyErr MadeVar :=
  match shape.getLast? with
  | none => .error .indexError
  | some d => if loc.getLast? = some d then .ok ⟨.base fresh loc (some .multivariateReal), .float32⟩ else .error mvn

/-- laplace.py:81-93. -/
def laplaceMake (mvn : PyErr) (fresh : ℕ) (z : LatentVar) : Except PyErr MadeVar :=
  match laplaceLoc fresh z with
  | .error e => .error e
  | .ok loc => laplaceApprox mvn fresh z.batchEvent loc

/-- The loop over the list; the first error ends it. -/
def makeAll (make : ℕ → LatentVar → Except PyErr MadeVar) : ℕ → List LatentVar → Except PyErr (List (LatentVar × MadeVar))
  | _, [] => .ok []
  | n, z :: zs =>
    match make n z with
    | .error e => .error e
    | .ok q =>
      match makeAll make (n + 1) zs with
      | .error e => .error e
      | .ok ps => .ok ((z, q) :: ps)

/-- The constructor: make the dictionary, then `check_latent_vars`. -/
def initList (make : ℕ → LatentVar → Except PyErr MadeVar) (n : ℕ) (zs : List LatentVar) : Except PyErr (List (LatentVar × MadeVar)) :=
  match makeAll make n zs with
  | .error e => .error e
  | .ok ps =>
    match checkLatentVars (some (ps.map fun p => (DKey.rv ⟨hostShape p.1.rv.shape, p.1.dtype⟩, DVal.rv ⟨hostShape p.2.rv.shape, p.2.dtype⟩))) with
    | .error _ => .error .typeError
    | .ok _ => .ok ps

end Edward
