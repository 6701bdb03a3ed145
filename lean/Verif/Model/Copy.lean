/-
Model of `copy` (edward/util/random_variables.py:139-445).

A graph is a list of operations and a list of random variables; nodes are referred to by
position, so a graph that grows keeps its references. A tensor is an output of an operation, a
`tf.Variable` is identified with the operation holding it.

Simplifications. Names are strings of characters; a random variable's name ends in `/`, as
in edward. Constructing a random variable adds one operation, computing its sample from its arguments;
arguments that are not nodes are part of its class. `tf.convert_to_tensor` of a variable is the
variable's tensor. Inputs are attached to a new operation when all of them have been copied, not
one by one. Not modelled: seeds, original ops, collections other than random and global
variables, control flow contexts, devices, and the retry under a relative name
(random_variables.py:321-324). `uniq` is TensorFlow's choice of a free name, `parents` is
`get_parents` (C05), both arbitrary here. `none` stands for an exception or an infinite recursion.
-/
import Mathlib.Data.List.Basic

namespace Edward.Copy

abbrev Name := List Char

/-- Kinds of operations, by the tests `copy` makes. `global`: in `tf.global_variables()`. -/
inductive Kind
  | variable (global : Bool)
  | placeholder
  | queue
  | compute (type : ℕ)
  deriving DecidableEq

/-- A tensor: an operation and the index of an output. -/
abbrev Tensor := ℕ × ℕ

structure Op where
  name : Name
  kind : Kind
  nOut : ℕ
  inputs : List Tensor
  control : List ℕ
  deriving DecidableEq

/-- What `copy` accepts and `dict_swap` contains. -/
inductive Node
  | op (o : ℕ)
  | tensor (t : Tensor)
  | var (o : ℕ)
  | rv (r : ℕ)
  deriving DecidableEq

/-- A random variable: the class, the copiable arguments, and the operation whose output
is its value. -/
structure RV where
  name : Name
  cls : ℕ
  args : List Node
  value : ℕ
  deriving DecidableEq

structure Graph where
  ops : List Op
  rvs : List RV
  deriving DecidableEq

/-- The name of the operation computing the sample. -/
def sampleSuffix : Name := ['s', 'a', 'm', 'p', 'l', 'e']

/-- `dict_swap[x]` -/
def swapOf (swap : List (Node × Node)) (x : Node) : Option Node :=
  (swap.find? (·.1 = x)).map (·.2)

/-- The operation of this name. -/
def Graph.findOp (G : Graph) (n : Name) : Option ℕ := G.ops.findIdx? (·.name = n)

/-- The random variable of this name. -/
def Graph.findRV (G : Graph) (n : Name) : Option ℕ := G.rvs.findIdx? (·.name = n)

/-- `rv.value()` -/
def Graph.valueOf (G : Graph) (r : ℕ) : Option Tensor := G.rvs[r]?.map fun rv => (rv.value, 0)

/-- `tf.convert_to_tensor` -/
def Graph.convert (G : Graph) : Node → Option Tensor
  | .tensor t => some t
  | .var o => some (o, 0)
  | .rv r => G.valueOf r
  | .op _ => none

/-- `isinstance(key, RandomVariable) and org_instance == key.value()` -/
def Graph.isValueOfKey (G : Graph) (t : Tensor) (p : Node × Node) : Bool :=
  match p.1 with
  | .rv r => decide (G.valueOf r = some t)
  | _ => false

/-- random_variables.py:215-233: the instance to go on with, and whether it is returned at
once. -/
def swapStep (G : Graph) (swap : List (Node × Node)) (copyQ : Bool) (x : Node) (replace : Bool) : Node × Bool :=
  if replace then
    match swapOf swap x with
    | some v => (v, !copyQ)
    | none =>
      match x with
      | .tensor t =>
        match swap.find? (G.isValueOfKey t) with
        | some (_, .rv r') => (match G.valueOf r' with
          | some t' => .tensor t'
          | none => .rv r', !copyQ)
        | some (_, v) => (v, !copyQ)
        | none => (x, false)
      | _ => (x, false)
  else (x, false)

/-- The variable in `tf.global_variables()` with the name of this instance. -/
def Graph.globalVar (G : Graph) : Node → Option ℕ
  | .tensor (o, 0) => if (G.ops[o]?.map (·.kind)) = some (.variable true) then some o else none
  | .var o => if (G.ops[o]?.map (·.kind)) = some (.variable true) then some o else none
  | _ => none

/-- random_variables.py:235-252: `inl` is returned, `inr` is gone on with. -/
def varStep (G : Graph) (swap : List (Node × Node)) (copyQ : Bool) (x : Node) (replace : Bool) : Node ⊕ Node :=
  match G.globalVar x with
  | none => .inr x
  | some o =>
    match (if replace then swapOf swap (.var o) else none) with
    | none => .inl (.var o)
    | some v =>
      if !copyQ then .inl v
      else match v with
        | .var o' => .inl (.var o')
        | v => match G.globalVar v with
          | some o' => .inl (.var o')
          | none => .inr v

/-- random_variables.py:254-268: an instance of the new name. -/
def nameStep (G : Graph) (scope : Name) : Node → Option Node
  | .rv r => (G.rvs[r]?.bind fun rv => G.findRV (scope ++ rv.name)).map .rv
  | .tensor (o, i) =>
    (G.ops[o]?.bind fun op => G.findOp (scope ++ op.name)).bind fun o' =>
      if (G.ops[o']?.map fun op => decide (i < op.nOut)) = some true then some (.tensor (o', i)) else none
  | .op o => (G.ops[o]?.bind fun op => G.findOp (scope ++ op.name)).map .op
  | .var _ => none

/-- Copies the nodes of a list one after the other. -/
def copyAll (c : Graph → Node → Option (Graph × Node)) : Graph → List Node → Option (Graph × List Node)
  | G, [] => some (G, [])
  | G, x :: xs =>
    match c G x with
    | none => none
    | some (G, y) =>
      match copyAll c G xs with
      | none => none
      | some (G, ys) => some (G, y :: ys)

/-- `graph._add_op`: appends an operation. -/
def Graph.addOp (G : Graph) (op : Op) : Graph := { G with ops := G.ops ++ [op] }

/-- Sets the inputs of an operation. -/
def Graph.setInputs (G : Graph) (o : ℕ) (control : List ℕ) (inputs : List Tensor) : Graph :=
  { G with ops := G.ops.modify o fun op => { op with control := control, inputs := inputs } }

/-- The operation a node is, if it is one. -/
def Node.op? : Node → Option ℕ
  | .op o => some o
  | _ => none

/-- `type(rv)(*args, **kwargs)`, random_variables.py:278-305: the sample is computed by a new operation. -/
def Graph.addRV (G : Graph) (uniq : Graph → Name → Name) (name : Name) (cls : ℕ) (args : List Node) (inputs : List Tensor) :
    Graph :=
  { ops := G.ops ++ [⟨uniq G (name ++ sampleSuffix), .compute cls, 1, inputs, []⟩]
    rvs := G.rvs ++ [⟨name, cls, args, G.ops.length⟩] }

/-- `copy`, random_variables.py:139-445, after the normalisation of `scope`. `x` is
`org_instance`, `replace` is `replace_itself`, `cp` is `copy_parent_rvs`. -/
def copy (uniq : Graph → Name → Name) (parents : Node → List ℕ) (swap : List (Node × Node)) (scope : Name) (copyQ : Bool) :
    ℕ → Graph → Node → Bool → Bool → Option (Graph × Node)
  | 0, _, _, _, _ => none
  | fuel + 1, G, x, replace, cp =>
    let (x, stop) := swapStep G swap copyQ x replace
    if stop then some (G, x) else
    match varStep G swap copyQ x replace with
    | .inl v => some (G, v)
    | .inr x =>
      match nameStep G scope x with
      | some y => some (G, y)
      | none =>
        match (if cp && x.op?.isNone then
            copyAll (fun G v => copy uniq parents swap scope copyQ fuel G v true true) G ((parents x).map .rv)
          else some (G, [])) with
        | none => none
        | some (G, _) =>
          match x with
          | .rv r =>
            match G.rvs[r]? with
            | none => none
            | some rv =>
              match copyAll (fun G v => copy uniq parents swap scope copyQ fuel G v true false) G rv.args with
              | none => none
              | some (G, args) =>
                match args.mapM G.convert with
                | none => none
                | some inputs => some (G.addRV uniq (scope ++ rv.name) rv.cls args inputs, .rv G.rvs.length)
          | .tensor (o, i) =>
            match G.ops[o]? with
            | none => none
            | some op =>
              if op.kind = .placeholder then some (G, x) else
              match copy uniq parents swap scope copyQ fuel G (.op o) true false with
              | some (G, .op o') =>
                if (G.ops[o']?.map fun op => decide (i < op.nOut)) = some true then some (G, .tensor (o', i)) else none
              | _ => none
          | .op o =>
            match G.ops[o]? with
            | none => none
            | some op =>
              if op.kind = .queue then some (G, x) else
              let new := G.ops.length
              let G := G.addOp ⟨scope ++ op.name, op.kind, op.nOut, [], []⟩
              match copyAll (fun G v => copy uniq parents swap scope copyQ fuel G v true false) G (op.control.map .op) with
              | none => none
              | some (G, control) =>
                match control.mapM Node.op? with
                | none => none
                | some control =>
                  match copyAll (fun G v => copy uniq parents swap scope copyQ fuel G v true false) G (op.inputs.map .tensor) with
                  | none => none
                  | some (G, inputs) =>
                    match inputs.mapM G.convert with
                    | none => none
                    | some inputs => some (G.setInputs new control inputs, .op new)
          | .var _ => none

/-- random_variables.py:212-213; the empty scope raises IndexError. -/
def normScope (scope : Name) : Option Name :=
  match scope.getLast? with
  | none => none
  | some c => some (if c ≠ '/' then scope ++ ['/'] else scope)

/-- `ed.copy(x, dict_swap, scope, replace_itself, copy_q, copy_parent_rvs)`. -/
def edCopy (uniq : Graph → Name → Name) (parents : Node → List ℕ) (fuel : ℕ) (G : Graph) (x : Node)
    (swap : List (Node × Node)) (scope : Name) (replace copyQ cp : Bool) : Option (Graph × Node) :=
  (normScope scope).bind fun scope => copy uniq parents swap scope copyQ fuel G x replace cp

end Edward.Copy
