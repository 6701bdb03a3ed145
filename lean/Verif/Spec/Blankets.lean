/-
The meaning of a graph of tensors for variational inference: the densities are functions of the values of tensors.
-/
import Verif.Spec.Graph
import Verif.Model.Variational

namespace Edward.Spec

/-- A TensorFlow graph with a model, an approximation and a parameter of the approximation. `Val` are values of tensors; `run t` computes the tensor
from the inputs of its operation; noise is part of `run`. -/
structure GraphVi (T O R Z X I Val E : Type) (V : Z → Type) where
  g : Graph T O R
  /-- the random variables: `z`, `x` and `qz` -/
  pz : Z → R
  px : X → R
  qz : Z → R
  lat : List Z
  obs : List X
  /-- the tensor of the parameter -/
  var : T
  run : T → List Val → Val
  enc : E → Val
  encZ : ∀ z, V z → Val
  data : X → Val
  /-- the tensors in the arguments of a random variable -/
  params : R → List T
  logP : ∀ z, List Val → V z → I → ℝ
  logLik : X → List Val → I → ℝ
  q : ∀ z, List Val → V z → ℝ

variable {T O R Z X I Val E : Type} {V : Z → Type}

namespace GraphVi

/-- `p_rvs` -/
def pRvs (m : GraphVi T O R Z X I Val E V) : List R := m.lat.map m.pz ++ m.obs.map m.px

/-- `q_rvs` -/
def qRvs (m : GraphVi T O R Z X I Val E V) : List R := m.lat.map m.qz

/-- The values of the tensors of the model when latent and observed variables are replaced by values. -/
structure IsModelValue (m : GraphVi T O R Z X I Val E V) (l : E) (ω : ∀ z, V z) (ev : T → Val) : Prop where
  var : ev m.var = m.enc l
  latent : ∀ z, ev (m.g.value (m.pz z)) = m.encZ z (ω z)
  observed : ∀ x ∈ m.obs, ev (m.g.value (m.px x)) = m.data x
  other : ∀ t, t ≠ m.var → ¬ m.g.IsSample m.pRvs t → ev t = m.run t ((m.g.inputs (m.g.op t)).map ev)

/-- The values of the tensors of the approximation. -/
structure IsApproxValue (m : GraphVi T O R Z X I Val E V) (l : E) (ev : T → Val) : Prop where
  var : ev m.var = m.enc l
  other : ∀ t, t ≠ m.var → ev t = m.run t ((m.g.inputs (m.g.op t)).map ev)

/-- The graph is one that TensorFlow can build, with different variables; arguments of random variables are used in their sample; the model does not
use the parameter of the approximation. -/
structure Ok (m : GraphVi T O R Z X I Val E V) : Prop where
  acyclic : WellFounded m.g.Edge
  consistent : m.g.Consistent
  distinctP : DistinctValues m.g m.pRvs
  distinctQ : DistinctValues m.g m.qRvs
  pz_inj : Function.Injective m.pz
  px_inj : Function.Injective m.px
  qz_inj : Function.Injective m.qz
  pz_ne_px : ∀ z x, m.pz z ≠ m.px x
  lat_nodup : m.lat.Nodup
  lat_all : ∀ z, z ∈ m.lat
  obs_nodup : m.obs.Nodup
  params_p : ∀ w ∈ m.pRvs, ∀ t ∈ m.params w, Direct m.g.Edge (m.g.IsSample m.pRvs) t (m.g.value w)
  params_q : ∀ z, ∀ t ∈ m.params (m.qz z), m.g.Reaches t (m.g.value (m.qz z))
  unshared : ∀ w ∈ m.pRvs, ∀ t ∈ m.params w, ¬ m.g.Reaches m.var t

/-- The inference problem `v` and the densities `qf` of the approximation are those of the graph. -/
structure Describes [Fintype I] (m : GraphVi T O R Z X I Val E V) (v : E → ViProblem Z X I (∀ z, V z)) (qf : E → ∀ z, V z → ℝ)
    (evP : E → (∀ z, V z) → T → Val) (evQ : E → T → Val) : Prop where
  valueP : ∀ l ω, m.IsModelValue l ω (evP l ω)
  valueQ : ∀ l, m.IsApproxValue l (evQ l)
  latents : ∀ l, (v l).latents = m.lat
  observed : ∀ l, (v l).observed = m.obs
  scaleZ : ∀ l l', (v l).scaleZ = (v l').scaleZ
  scaleX : ∀ l l', (v l).scaleX = (v l').scaleX
  prior : ∀ l z ω i, (v l).logP z ω i = m.logP z ((m.params (m.pz z)).map (evP l ω)) (ω z) i
  likelihood : ∀ l, ∀ x ∈ m.obs, ∀ ω i, (v l).logLik x ω i = m.logLik x ((m.params (m.px x)).map (evP l ω)) i
  density : ∀ l z x, qf l z x = m.q z ((m.params (m.qz z)).map (evQ l)) x
  approx : ∀ l z ω, ∑ i, (v l).scaleZ z i * (v l).logQ z ω i = Real.log (qf l z (ω z))

end GraphVi
end Edward.Spec
