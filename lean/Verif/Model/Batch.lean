/-
Model of training on batches: the generator of batches in the examples and tutorials
(examples/bayesian_linear_regression_implicitklqp.py:42-58, examples/vae.py:33-47,
docs/tex/tutorials/batch-training.tex:44-66), and the problem which `KLqp`, `MAP` and the others
see when placeholders are fed one batch and `scale` is passed to `initialize`
(docs/tex/api/inference-data-subsampling.tex, examples/probabilistic_pca_subsampling.py:66-78).
-/
import Verif.Model.Variational
import Verif.Model.McmcTarget

namespace Edward

/-! ### `generator` -/

/-- The rows `array[i:j]` of an array with `N` rows: slices end where the array ends. -/
def sliceRows (N i j : ℕ) : List ℕ := ((List.range N).take j).drop i

/-- One turn of `while True` for one array with `N` rows, as the row numbers of the batch and the
new `start` (examples/bayesian_linear_regression_implicitklqp.py:47-57). -/
def nextBatch (N M start : ℕ) : List ℕ × ℕ :=
  let stop := start + M
  if stop ≤ N then (sliceRows N start stop, start + M)
  else (sliceRows N start N ++ sliceRows N 0 (stop - N), stop - N)

/-- `start` before batch `k`. -/
def batchStart (N M : ℕ) : ℕ → ℕ
  | 0 => 0
  | k + 1 => (nextBatch N M (batchStart N M k)).2

/-- The rows of batch `k`, counted from 0. -/
def batchRows (N M k : ℕ) : List ℕ := (nextBatch N M (batchStart N M k)).1

/-! ### The problem of one batch -/

section
variable {Z X I Ω : Type} {N M : ℕ}

/-- The problem with the batch `b` fed. In the problem `v` with all data the entries of the log probabilities are those of
variables outside the plate (`I`) and one per data point (`Fin N`; the sum over the other axes). `sz` and `sx` are the
factors `scale`, one number per variable. The draws hold the local variables of all data points, of which the batch uses its
own; a data point which is twice in a batch has one draw. -/
def ViProblem.batch (v : ViProblem Z X (I ⊕ Fin N) Ω) (sz : Z → ℝ) (sx : X → ℝ) (b : Fin M → Fin N) :
    ViProblem Z X (I ⊕ Fin M) Ω where
  latents := v.latents
  observed := v.observed
  scaleZ := fun z _ => sz z
  scaleX := fun x _ => sx x
  logQ := fun z ω i => v.logQ z ω (i.map id b)
  logP := fun z ω i => v.logP z ω (i.map id b)
  logLik := fun x ω i => v.logLik x ω (i.map id b)

/-- The same for the Monte Carlo algorithms. -/
def McmcProblem.batch {D W : Type} (m : McmcProblem Z X (I ⊕ Fin N) D W) (sz : Z → ℝ) (sx : X → ℝ) (b : Fin M → Fin N) :
    McmcProblem Z X (I ⊕ Fin M) D W where
  latents := m.latents
  proposals := m.proposals
  observed := m.observed
  scaleZ := fun z _ => sz z
  scaleX := fun x _ => sx x
  logPrior := fun z d w i => m.logPrior z d w (i.map id b)
  logLik := fun x d w i => m.logLik x d w (i.map id b)
  logProp := fun z d w w' i => m.logProp z d w w' (i.map id b)

/-- Entries of `kl_divergence(qz, z)` or of `qz.entropy()` for the batch. -/
def batchEntries (f : Z → I ⊕ Fin N → ℝ) (b : Fin M → Fin N) (z : Z) (i : I ⊕ Fin M) : ℝ := f z (i.map id b)

end

end Edward
