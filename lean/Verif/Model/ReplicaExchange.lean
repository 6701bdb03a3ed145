/-
Model of `ReplicaExchangeMC` (edward/inferences/replica_exchange_mc.py:44-276): the
tempered Metropolis-Hastings move of every replica, and the exchange of neighbours.

Random draws: the exchange loop is written once, parametrised by what a draw does
(`draw`): feeding given numbers, or taking the expectation over uniform draws.
Data bound to random variables are not modelled. Replicas are read at row `t - 1` of
their own variables and written at row `t` (C30).
-/
import Mathlib.MeasureTheory.Constructions.Pi
import Verif.Model.MetropolisHastings

namespace Edward

open MeasureTheory ENNReal

variable {S : Type}

/-- `_mh_sample` (lines 136-214): the ratio is that of Metropolis-Hastings
(lines 164-199), then `ratio *= inverse_temperature` (line 201). -/
noncomputable def temperedRatio (m : MHModel S) (b : ℝ) (old new : S) : EReal :=
  m.ratio old new * (b : EReal)

/-- `_replica_ratio` (lines 240-276): entry of one replica, starting from 0, adding the
log probabilities of latent variables, then of data. -/
noncomputable def replicaRatio (m : MHModel S) (z : S) : EReal :=
  m.liks.foldl (fun r p => r + log (p z)) (m.priors.foldl (fun r p => r + log (p z)) 0)

/-- `tf.scatter_update(new_replica_idx, [i, i + 1], [i + 1, i])` (line 234). -/
def scatterSwap {n : ℕ} (idx : Fin n → Fin n) (i j : Fin n) : Fin n → Fin n :=
  Function.update (Function.update idx i j) j i

/-- Lines 224-238: the loop over neighbours `i, i+2, ...`; `k` receives the final
`new_replica_idx`. `lr` is `replica_ratio`, `b` the inverse temperatures. -/
noncomputable def exchangeLoop {R : Type} {n : ℕ} (draw : ℕ → (ℝ → R) → R) (lr : Fin n → EReal)
    (b : Fin n → ℝ) (k : (Fin n → Fin n) → R) (i : ℕ) (idx : Fin n → Fin n) : R :=
  if h : i + 1 < n then
    let x : Fin n := ⟨i, by omega⟩
    let y : Fin n := ⟨i + 1, h⟩
    let ratio := (lr x - lr y) * ((b y - b x : ℝ) : EReal)
    draw i (fun u => exchangeLoop draw lr b k (i + 2)
      (open Classical in if accepts u ratio then scatterSwap idx x y else idx))
  else k idx
termination_by n - i

/-- `_replica_exchange` for given draws: `start` is 0 or 1, `us` are the uniforms;
`new_replica_idx` starts as `range(n_replica)` (line 93). -/
noncomputable def exchangeIdx {n : ℕ} (us : ℕ → ℝ) (lr : Fin n → EReal) (b : Fin n → ℝ)
    (start : Fin 2) : Fin n → Fin n :=
  exchangeLoop (fun i g => g (us i)) lr b id start id

/-- Lines 101-115: the replicas after the exchange step, for given draws. -/
noncomputable def exchangeStep {n : ℕ} (m : MHModel S) (b : Fin n → ℝ) (freq u : ℝ) (us : ℕ → ℝ)
    (start : Fin 2) (z : Fin n → S) : Fin n → S :=
  open Classical in
  if u < freq then fun i => z (exchangeIdx us (fun j => replicaRatio m (z j)) b start i) else z

/-- Expectation over a uniform draw on [0, 1). -/
noncomputable def unif (g : ℝ → ℝ≥0∞) : ℝ≥0∞ := ∫⁻ u in Set.Ico (0 : ℝ) 1, g u

/-- Expected value of `f` after the exchange step (lines 91-115). -/
noncomputable def exchangeExpect {n : ℕ} (m : MHModel S) (b : Fin n → ℝ) (freq : ℝ)
    (f : (Fin n → S) → ℝ≥0∞) (z : Fin n → S) : ℝ≥0∞ :=
  open Classical in
  unif (fun u => if u < freq then
    2⁻¹ * ∑ start : Fin 2, exchangeLoop (fun _ => unif) (fun j => replicaRatio m (z j)) b
      (fun idx => f (fun i => z (idx i))) start id
    else f z)

/-- Expected value of `f` after the moves of the replicas in `l` (lines 84-88). -/
noncomputable def replicaMoves {n : ℕ} {Y W : Type} [MeasurableSpace Y] (m : MHModel (Y × W))
    (μ : Measure Y) (b : Fin n → ℝ) (f : (Fin n → Y × W) → ℝ≥0∞) :
    List (Fin n) → (Fin n → Y × W) → ℝ≥0∞
  | [], z => f z
  | i :: l, z => acceptReject μ m.propose (temperedRatio m (b i))
      (fun s => replicaMoves m μ b f l (Function.update z i s)) (z i)

/-- Expected value of `f` after `build_update` (lines 78-134): moves, then exchange. -/
noncomputable def replicaExpect {n : ℕ} {Y W : Type} [MeasurableSpace Y] (m : MHModel (Y × W))
    (μ : Measure Y) (b : Fin n → ℝ) (freq : ℝ) (f : (Fin n → Y × W) → ℝ≥0∞)
    (z : Fin n → Y × W) : ℝ≥0∞ :=
  replicaMoves m μ b (exchangeExpect m b freq f) (List.finRange n) z

end Edward
