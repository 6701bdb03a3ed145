/-
Model of the distributions edward defines itself: `Empirical`
(edward/models/empirical.py), `PointMass` (edward/models/point_mass.py), `ParamMixture`
(edward/models/param_mixture.py) and `DirichletProcess`
(edward/models/dirichlet_process.py).

Random draws (indices, component draws, base draws, stick proportions, the uniform
numbers behind Bernoulli draws) are arguments.
-/
import Mathlib.Analysis.SpecialFunctions.Log.ENNRealLog
import Mathlib.Analysis.SpecialFunctions.Log.ENNRealLogExp
import Mathlib.Analysis.SpecialFunctions.Sqrt
import Verif.Model.Metrics

namespace Edward

/-! ### Empirical -/

section
variable {n m : ℕ} {E : Type}

/-- empirical.py:87-88. Rows of `params` are indexed by `Fin n`, entries of a row by `E`. -/
noncomputable def empiricalMean (params : Fin n → E → ℝ) (e : E) : ℝ := reduceMean (fun i => params i e)

/-- empirical.py:90-93 -/
noncomputable def empiricalStddev (params : Fin n → E → ℝ) (e : E) : ℝ :=
  let r := fun i e => params i e - empiricalMean params e
  Real.sqrt (reduceMean (fun i => r i e ^ 2))

/-- empirical.py:95-96 -/
noncomputable def empiricalVariance (params : Fin n → E → ℝ) (e : E) : ℝ := empiricalStddev params e ^ 2

/-- empirical.py:106-110; `indices` are the draws of the uniform `Categorical`. -/
def empiricalSample (params : Fin n → E → ℝ) (indices : Fin m → Fin n) : Fin m → E → ℝ :=
  fun s => params (indices s)

/-- empirical.py:100-104: a scalar parameter is tiled. -/
def empiricalSampleScalar (m : ℕ) (params : ℝ) : Fin m → ℝ := fun _ => params

/-! ### PointMass -/

/-- point_mass.py:81-82 -/
def pointMassMean (params : E → ℝ) : E → ℝ := params

/-- point_mass.py:84-85 -/
def pointMassStddev (params : E → ℝ) : E → ℝ := fun e => 0 * (fun _ => 1) (params e)

/-- point_mass.py:87-88 -/
def pointMassVariance (params : E → ℝ) : E → ℝ := fun e => pointMassStddev params e ^ 2

/-- point_mass.py:90-95 -/
def pointMassSample (m : ℕ) (params : E → ℝ) : Fin m → E → ℝ := fun _ => params
end

/-! ### ParamMixture -/

/-- Moments of a mixture with weights of rank one (param_mixture.py:113-135), for one
entry of the event: `means`, `vars` are those of the components. -/
noncomputable def mixtureMean {K : ℕ} (w means : Fin K → ℝ) : ℝ := ∑ k, means k * w k

/-- param_mixture.py:118,130-134 -/
noncomputable def mixtureVariance {K : ℕ} (w means vars : Fin K → ℝ) : ℝ :=
  let compMeanSq := fun k => means k ^ 2 + vars k
  ∑ k, compMeanSq k * w k - mixtureMean w means ^ 2

/-- param_mixture.py:135 -/
noncomputable def mixtureStddev {K : ℕ} (w means vars : Fin K → ℝ) : ℝ :=
  Real.sqrt (mixtureVariance w means vars)

/-- A floating point number up to rounding: a real, an infinity or NaN. -/
inductive XNum
  | nan
  | val (x : EReal)

/-- Floating point product: zero times infinity is NaN. -/
noncomputable def XNum.mul : XNum → XNum → XNum
  | .val x, .val y =>
    open Classical in
    if (x = 0 ∧ (y = ⊤ ∨ y = ⊥)) ∨ (y = 0 ∧ (x = ⊤ ∨ x = ⊥)) then .nan else .val (x * y)
  | _, _ => .nan

/-- Floating point sum: infinities of opposite signs give NaN. -/
noncomputable def XNum.add : XNum → XNum → XNum
  | .val x, .val y =>
    open Classical in
    if (x = ⊤ ∧ y = ⊥) ∨ (x = ⊥ ∧ y = ⊤) then .nan else .val (x + y)
  | _, _ => .nan

/-- Floating point sum of a list. -/
noncomputable def XNum.sum (l : List XNum) : XNum := l.foldl XNum.add (.val 0)

/-- A tensor: its shape, and its entries by multi-index. -/
structure NDArr (α : Type) where
  shape : List ℕ
  get : List ℕ → α

/-- The position a TensorFlow `axis` argument denotes; `none`: out of range (ValueError). -/
def resolveAxis (ndims : ℕ) (axis : ℤ) : Option ℕ :=
  let a := if axis < 0 then axis + ndims else axis
  if 0 ≤ a ∧ a < ndims then some a.toNat else none

/-- A TensorFlow reduction over one axis. -/
def NDArr.reduce {α β : Type} (f : List α → β) (t : NDArr α) (axis : ℤ) : Option (NDArr β) :=
  (resolveAxis t.shape.length axis).map fun a =>
    { shape := t.shape.eraseIdx a
      get := fun ix => f ((List.range (t.shape.getD a 0)).map fun j => t.get (ix.insertIdx a j)) }

/-- Where the rank arithmetic of `_log_prob`, `marginal_log_prob` and `_sample_n` comes
from: `event_shape`, `batch_shape` (that of `cat`) and the full rank of the components. -/
structure MixtureRanks where
  event : ℕ
  batch : ℕ
  components : ℕ

/-- param_mixture.py:187,230 -/
def MixtureRanks.catAxis (r : MixtureRanks) : ℕ := r.components - 1 - (r.event + r.batch)

/-- param_mixture.py:188-194, 231-237: one-hot encoding of `cat` with the new axis at
`cat_axis`, then trailing axes of size one, which broadcast; `catNdims` is the rank of
`cat`. -/
def selecter (r : MixtureRanks) (catNdims : ℕ) (cat : List ℕ → ℕ) (ix : List ℕ) : Bool :=
  ix.getD r.catAxis 0 == cat ((ix.take (catNdims + 1)).eraseIdx r.catAxis)

/-- `_log_prob` (param_mixture.py:178-197) given the component log densities `logProbs`
of line 183 or 185. `none`: the axis of line 197 does not exist. -/
noncomputable def mixtureLogProb (r : MixtureRanks) (catNdims : ℕ) (cat : List ℕ → ℕ)
    (logProbs : NDArr XNum) : Option (NDArr XNum) :=
  let prod : NDArr XNum :=
    { shape := logProbs.shape
      get := fun ix => (logProbs.get ix).mul (.val (if selecter r catNdims cat ix then 1 else 0)) }
  prod.reduce XNum.sum (-1 - (r.event + r.batch : ℕ))

/-- `_sample_n` (param_mixture.py:229-241) given the component draws. -/
noncomputable def mixtureSample (r : MixtureRanks) (catNdims : ℕ) (cat : List ℕ → ℕ)
    (compSample : NDArr XNum) : Option (NDArr XNum) :=
  let prod : NDArr XNum :=
    { shape := compSample.shape
      get := fun ix => (compSample.get ix).mul (.val (if selecter r catNdims cat ix then 1 else 0)) }
  prod.reduce XNum.sum r.catAxis

/-- `tf.reduce_logsumexp` of a list: the largest entry is subtracted first unless it is
infinite. Entries are not `+inf`. -/
noncomputable def reduceLogSumExp (l : List EReal) : EReal :=
  let rawMax := l.foldr max ⊥
  let myMax : ℝ := rawMax.toReal
  ENNReal.log ((l.map fun x => EReal.exp (x - myMax)).sum) + myMax

/-- `marginal_log_prob` (param_mixture.py:202-214): `probs` are the mixing weights by
batch index followed by component; `log_probs + tf.log(transposed_p)` aligns shapes at
the right. -/
noncomputable def mixtureMarginalLogProb (r : MixtureRanks) (probs : List ℕ → ENNReal)
    (logProbs : NDArr EReal) : Option (NDArr EReal) :=
  let s : NDArr EReal :=
    { shape := logProbs.shape
      get := fun ix =>
        match ix.drop (logProbs.shape.length - (1 + r.batch)) with
        | k :: b => logProbs.get ix + ENNReal.log (probs (b ++ [k]))
        | [] => logProbs.get ix }
  s.reduce reduceLogSumExp (-1 - (r.event + r.batch : ℕ))

/-! ### DirichletProcess -/

/-- The loop variables of dirichlet_process.py:176-180. `S` indexes samples, `B` the
batch, `A` is the type of atoms. -/
structure DPState (S B A : Type) where
  k : ℕ
  bools : S → B → Bool
  locs : List (B → A)
  probs : List (B → ℝ)
  draws : S → B → A

/-- The randomness of one call: base draws and stick proportions for iteration `k`
(used only when a new atom is needed) and the uniform numbers behind the coin flips. -/
structure DPDraws (S B A : Type) where
  base : ℕ → B → A
  beta : ℕ → B → ℝ
  unif : ℕ → S → B → ℝ

section
variable {S B A : Type} [Fintype S] [Fintype B]

/-- dirichlet_process.py:184-186 -/
def dpCond (st : DPState S B A) : Bool := decide (∃ s b, st.bools s b = true)

/-- dirichlet_process.py:188-224. `none`: `tf.gather` out of range. A Bernoulli draw with
probability `p` is heads when its uniform number is below `p`. -/
noncomputable def dpBody (w : DPDraws S B A) (st : DPState S B A) : Option (DPState S B A) :=
  let lp := if (st.locs.length : ℤ) - 1 ≥ st.k then (st.locs, st.probs)
    else (st.locs ++ [w.base st.k], st.probs ++ [w.beta st.k])
  match lp.1[st.k]?, lp.2[st.k]? with
  | some locs_k, some probs_k =>
    let draws := fun s b => if st.bools s b then locs_k b else st.draws s b
    let flips := fun s b => open Classical in decide (w.unif st.k s b < probs_k b)
    let bools := fun s b => if flips s b then false else st.bools s b
    some { k := st.k + 1, bools, locs := lp.1, probs := lp.2, draws }
  | _, _ => none

/-- `tf.while_loop`, at most `fuel` iterations: `none` if not finished by then or if an
iteration raises. -/
noncomputable def dpLoop (w : DPDraws S B A) : ℕ → DPState S B A → Option (DPState S B A)
  | 0, st => if dpCond st then none else some st
  | fuel + 1, st => if dpCond st then (dpBody w st).bind (dpLoop w fuel) else some st

/-- `_sample_n` (dirichlet_process.py:123-182) from stored `locs`, `probs`: the new
stored values and the samples. -/
noncomputable def dpSample (zero : A) (w : DPDraws S B A) (fuel : ℕ) (locs : List (B → A))
    (probs : List (B → ℝ)) : Option (List (B → A) × List (B → ℝ) × (S → B → A)) :=
  (dpLoop w fuel { k := 0, bools := fun _ _ => true, locs, probs, draws := fun _ _ => zero }).map
    fun st => (st.locs, st.probs, st.draws)
end

/-- One call of `sample()`: the number of samples, its randomness, a bound on the number
of iterations it takes. -/
structure DPCall (B A : Type) where
  n : ℕ
  draws : DPDraws (Fin n) B A
  fuel : ℕ

/-- A history of calls to `sample()` on one object, from the empty tensors of lines
65-67, 74-76. -/
noncomputable def dpHistory {B A : Type} [Fintype B] (zero : A) :
    List (DPCall B A) → Option (List (B → A) × List (B → ℝ))
  | [] => some ([], [])
  | c :: cs => (dpHistory zero cs).bind fun lp =>
      (dpSample zero c.draws c.fuel lp.1 lp.2).map fun r => (r.1, r.2.1)

/-- The argument check of dirichlet_process.py:58-59. -/
def dpCheck (validateArgs baseIsRandomVariable : Bool) : Except PyErr Unit :=
  if validateArgs && baseIsRandomVariable then .error .typeError else .ok ()

end Edward
