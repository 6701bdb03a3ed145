/-
`ReplicaExchangeMC` as a sampling step (edward/inferences/replica_exchange_mc.py:67-134),
with its random draws explicit. The moves and the exchange are those of
Model/ReplicaExchange.lean.

`sample` is what the sampling ops of the proposals compute from their random numbers. All
latent variables have a proposal.
-/
import Verif.Model.ReplicaExchange
import Verif.Model.MonteCarlo

namespace Edward

/-- `_mh_sample` (lines 136-214) for one replica: propose, then accept or reject with the
ratio times the inverse temperature. The draws are the numbers of the proposals and the
uniform one of line 204. -/
noncomputable def temperedMove {Y W E : Type} (m : MHModel (Y × W)) (b : ℝ) (sample : Y × W → E → Y) (s : Y × W) (d : E × ℝ) : Y × W :=
  open Classical in
  if accepts d.2 (temperedRatio m b s (sample s d.1, s.2)) then (sample s d.1, s.2) else s

/-- Draws of one update: for every replica those of its move; then the uniform number of
line 101, the start of the exchange loop (line 222, 0 or 1), and the uniform numbers of line
231, by position in the loop. -/
abbrev ReplicaDraws (n : ℕ) (E : Type) := (Fin n → E × ℝ) × (ℝ × Fin 2 × (Fin n → ℝ))

/-- The loop reads the draw of the position it is at. -/
def loopDraws {n : ℕ} (us : Fin n → ℝ) (i : ℕ) : ℝ := if h : i < n then us ⟨i, h⟩ else 0

/-- Lines 84-115: all replicas move, then neighbours are exchanged. -/
noncomputable def replicaStep {n : ℕ} {Y W E : Type} (m : MHModel (Y × W)) (b : Fin n → ℝ) (freq : ℝ) (sample : Y × W → E → Y)
    (z : Fin n → Y × W) (d : ReplicaDraws n E) : Fin n → Y × W :=
  exchangeStep m b freq d.2.1 (loopDraws d.2.2.2) d.2.2.1 (fun i => temperedMove m (b i) sample (z i) (d.1 i))

/-- The update in the form used by the bookkeeping (Model/MonteCarlo.lean). The variables are
those of the approximations (`none`) and of every replica (`some i`), all read at row
`max (t - 1) 0` and written at row `t` (lines 117-129, 144); what is read from the
approximations is not used, and they receive the first replica (line 122). Acceptance is
that of the first replica (line 89). -/
noncomputable def replicaKernel {n : ℕ} {Z V E : Type} (m : MHModel ((Z → V) × Unit)) (b : Fin (n + 1) → ℝ) (freq : ℝ)
    (sample : (Z → V) × Unit → E → Z → V) : Kernel (Option (Fin (n + 1)) × Z) V Unit (ReplicaDraws (n + 1) E) := fun _ old _ d =>
  let z : Fin (n + 1) → (Z → V) × Unit := fun i => (fun x => old (some i, x), ())
  let new := replicaStep m b freq sample z d
  (fun q => (new (q.1.getD 0)).1 q.2, (),
    open Classical in decide (accepts (d.1 0).2 (temperedRatio m (b 0) (z 0) (sample (z 0) (d.1 0).1, ()))))

/-- The variables before the first update: the approximations hold what the user gave them,
the replicas are `tf.zeros` of the same shape (lines 68-72). -/
def replicaInit {n : ℕ} {Z V : Type} [Zero V] (qz : Z → List V) : Option (Fin (n + 1)) × Z → List V
  | (none, z) => qz z
  | (some _, z) => List.replicate (qz z).length 0

end Edward
