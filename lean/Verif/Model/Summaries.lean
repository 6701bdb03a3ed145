/-
Model of the summaries written for TensorBoard if `logdir` is given: `Inference._set_log_variables`
(edward/inferences/inference.py:340-375), the summaries of `VariationalInference.initialize` (variational_inference.py:70-88) and of
`MonteCarlo.initialize` (monte_carlo.py:106-109).

A tag is the name asked for. TensorFlow appends a number if the graph has that name already; that is not modelled, nor are name scopes
open when `initialize` is called. A shape is `none` if the rank is unknown, and a dimension is `none` if it is unknown.
-/
import Verif.Model.VarList
import Verif.Model.Metrics
import Verif.Model.Observe

namespace Edward

/-- What a summary shows. `term` stands for a part of the loss. -/
inductive Shown (V : Type)
  | var (v : V)
  | first (v : V)
  | loss
  | term (tag : List Char)
  | grad (v : V)
  | gradNorm (v : V)
  | nAccept
  deriving DecidableEq

/-- A summary op: `tf.summary.histogram` or `tf.summary.scalar`. -/
structure SummaryOp (V : Type) where
  histogram : Bool
  tag : List Char
  shown : Shown V
  deriving DecidableEq

/-- `var.name.replace(':', '/')` (inference.py:364, variational_inference.py:75). -/
def slashes (name : List Char) : List Char := name.map fun c => if c = ':' then '/' else c

section
variable {V : Type}

/-- The loop body of `_set_log_variables` (inference.py:362-375). `len` of an unknown rank raises; comparing an unknown dimension
with 1 gives `None`. -/
def logVariable (name : V → List Char) (shape : V → Option (List (Option ℕ))) (v : V) : Except PyErr (SummaryOp V) :=
  let tag := "parameter/".toList ++ slashes (name v)
  match shape v with
  | none => .error .valueError
  | some [] => .ok ⟨false, tag, .var v⟩
  | some [d] => if d = some 1 then .ok ⟨false, tag, .first v⟩ else .ok ⟨true, tag, .var v⟩
  | some _ => .ok ⟨true, tag, .var v⟩

/-- The loop of `_set_log_variables` (inference.py:362-375). -/
def setLogVariables (name : V → List Char) (shape : V → Option (List (Option ℕ))) : List V → Except PyErr (List (SummaryOp V))
  | [] => .ok []
  | v :: vs =>
    match logVariable name shape v with
    | .error e => .error e
    | .ok s =>
      match setLogVariables name shape vs with
      | .error e => .error e
      | .ok l => .ok (s :: l)

/-- The summaries of the gradients (variational_inference.py:72-79). An item is a variable and whether its gradient is not `None`;
`tf.summary.histogram` of `None` raises. -/
def gradSummaries (name : V → List Char) : List (V × Bool) → Except PyErr (List (SummaryOp V))
  | [] => .ok []
  | (v, g) :: gs =>
    if g then
      match gradSummaries name gs with
      | .error e => .error e
      | .ok l => .ok (⟨true, "gradient/".toList ++ slashes (name v), .grad v⟩ ::
          ⟨false, "gradient_norm/".toList ++ slashes (name v), .gradNorm v⟩ :: l)
    else .error .valueError

/-- `VariationalInference.initialize` (variational_inference.py:51-88), as far as it concerns summaries: the ops merged by
`tf.summary.merge_all`. `terms` are the tags of the parts of the loss, added by `build_loss_and_gradients` (klqp.py:692-698,
wake_sleep.py:137-143). `apply_gradients` raises if no gradient is given, and skips those that are `None`. -/
def viInitialize (name : V → List Char) (shape : V → Option (List (Option ℕ))) (logging : Bool) (logVars : List V)
    (terms : List (List Char)) (grads : List (V × Bool)) : Except PyErr (List (SummaryOp V)) :=
  if logging then
    match setLogVariables name shape logVars with
    | .error e => .error e
    | .ok ps =>
      match gradSummaries name grads with
      | .error e => .error e
      | .ok gs =>
        if grads.any (·.2) then
          .ok (ps ++ terms.map (fun t => ⟨false, t, .term t⟩) ++ ⟨false, "loss".toList, .loss⟩ :: gs)
        else .error .valueError
  else if grads.any (·.2) then .ok [] else .error .valueError

/-- `MonteCarlo.initialize` (monte_carlo.py:95-109), as far as it concerns summaries. -/
def mcInitialize (name : V → List Char) (shape : V → Option (List (Option ℕ))) (logging : Bool) (logVars : List V) :
    Except PyErr (List (SummaryOp V)) :=
  if logging then
    match setLogVariables name shape logVars with
    | .error e => .error e
    | .ok ps => .ok (ps ++ [⟨false, "n_accept".toList, .nAccept⟩])
  else .ok []

end

section
variable {T O R V : Type} [Fintype T] [Fintype R] [DecidableEq T] [DecidableEq R] [DecidableEq V]

/-- The variables logged if `log_vars` is `None` (inference.py:352-361): `keys` are those of `self.data`, `globals` is
`tf.global_variables()`, `order` the order of the set, `sched k` the schedule of the `k`-th call of `get_variables`. -/
def defaultLogVars (g : Graph T O R) {S : Type} [DecidableEq S] (tname : T → S) (vname : V → S) (sched : Nat → Nat → Nat)
    (order : List V → List V) (keys : List (Node T R)) (latents : List (Node T R × Node T R)) (globals : List V) : List V :=
  let l := keys.zipIdx.flatMap fun p => getVariables g tname vname (sched p.2) p.1 globals
  let l := l ++ latents.zipIdx.flatMap fun p =>
    getVariables g tname vname (sched (keys.length + 2 * p.2)) p.1.1 globals ++
      getVariables g tname vname (sched (keys.length + 2 * p.2 + 1)) p.1.2 globals
  order (setUpdate [] l)

end

end Edward
