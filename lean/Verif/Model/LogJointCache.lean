/-
Model of `get_log_joint` (edward/inferences/conjugacy/conjugacy.py:175-202) with the tensors it keeps in the graph.

The state is the list of named tensors in the scope `conjugate_log_joint/`; a tensor is a function of the values `E`
of the random variables. Names are strings of characters.

Assumed: names of random variables end in `/` (the model keeps what is before it); a new operation gets the name
asked for if `get_tensor_by_name` found none; operations made inside `conjugate_log_prob` do not have names of the
forms used here.
-/
import Mathlib.Data.List.Sort
import Mathlib.Data.Real.Basic
import Verif.Model.Metrics

namespace Edward

abbrev OpName := List Char

/-- A random variable: its name without the final `/`, and its `conjugate_log_prob()` summed over its entries;
`none` if the attribute is missing. -/
structure CondRv (E : Type) where
  name : OpName
  logProb : Option (E → ℝ)

abbrev LogJointOps (E : Type) := List (OpName × (E → ℝ))

/-- `'log_joint_of_'` -/
def logJointPrefix : OpName := "log_joint_of_".toList

/-- `'_conjugate_log_prob'` -/
def termSuffix : OpName := "_conjugate_log_prob".toList

/-- `cond_set_name` (conjugacy.py:177-179). Python's order on strings is by code points. -/
def condSetName (names : List OpName) : OpName :=
  logJointPrefix ++ ['_'].intercalate (names.insertionSort (· ≤ ·))

/-- `name` (conjugacy.py:189). -/
def termName (n : OpName) : OpName :=
  (n ++ ['/']).map (fun c => if c = ':' then '_' else c) ++ termSuffix

variable {E : Type}

/-- One iteration of the loop (conjugacy.py:188-199). -/
def logJointTerm (ops : LogJointOps E) (b : CondRv E) : LogJointOps E × Except PyErr (E → ℝ) :=
  match ops.lookup (termName b.name) with
  | some t => (ops, .ok t)
  | none =>
    match b.logProb with
    | none => (ops, .error .notImplementedError)
    | some f => (ops ++ [(termName b.name, f)], .ok f)

/-- The loop (conjugacy.py:187-199). -/
def logJointTerms (ops : LogJointOps E) : List (CondRv E) → LogJointOps E × Except PyErr (List (E → ℝ))
  | [] => (ops, .ok [])
  | b :: bs =>
    match logJointTerm ops b with
    | (ops, .error e) => (ops, .error e)
    | (ops, .ok t) =>
      match logJointTerms ops bs with
      | (ops, .error e) => (ops, .error e)
      | (ops, .ok ts) => (ops, .ok (t :: ts))

/-- `get_log_joint`; the set is given in its order of iteration. `tf.add_n` of no tensors raises. -/
def getLogJoint (ops : LogJointOps E) (condSet : List (CondRv E)) : LogJointOps E × Except PyErr (E → ℝ) :=
  match ops.lookup (condSetName (condSet.map (·.name))) with
  | some t => (ops, .ok t)
  | none =>
    match logJointTerms ops condSet with
    | (ops, .error e) => (ops, .error e)
    | (ops, .ok []) => (ops, .error .valueError)
    | (ops, .ok ts) =>
      let result : E → ℝ := fun e => (ts.map (· e)).sum
      (ops ++ [(condSetName (condSet.map (·.name)), result)], .ok result)

/-- The graph after a sequence of calls. -/
def afterCalls (calls : List (List (CondRv E))) : LogJointOps E :=
  calls.foldl (fun ops S => (getLogJoint ops S).1) []

end Edward
