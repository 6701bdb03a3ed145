/-
Model of the sets of factors that the Rao-Blackwellised gradient uses (edward/inferences/klqp.py:1110-1123).

Sets are duplicate-free lists; the schedules stand for the order in which Python iterates over them.
-/
import Verif.Model.GraphQuery

namespace Edward
variable {T O R : Type} [DecidableEq T] [DecidableEq R] [Fintype T] [Fintype R]

/-- `get_descendants(tf.convert_to_tensor(var), q_rvs)` (klqp.py:1112) -/
def rbDescendants (g : Graph T O R) (sched : ℕ → ℕ) (var : T) (qRvs : List R) : List R := getDescendants g sched (.tensor var) qRvs

/-- The union of the blankets and the variables themselves (klqp.py:1116-1119, 1121-1123); `target` is `reverse_latent_vars[qz]` for the model and
`qz` for the approximation. -/
def rbUnion (g : Graph T O R) (sched : ℕ → ℕ → ℕ → ℕ) (target : R → R) (descendants rvs : List R) : List R :=
  descendants.zipIdx.foldl (fun s d => setUpdate s (getBlanket g (sched d.2) (.rv (target d.1)) rvs ++ [target d.1])) []

end Edward
