/-
Model of `check_data`, `check_latent_vars` (edward/util/random_variables.py:21-83)
and of the storing of data in `Inference.__init__` (edward/inferences/inference.py:
73-95).

Python objects are classified by the `isinstance` tests made by the code. A
dictionary is its list of items in iteration order. `np.shape` of a ragged list is
not modelled (host values carry their shape). Key equality is identity (`Id`).
-/
import Verif.Model.Shape

namespace Edward

inductive DType where
  | float32 | float64 | int32 | int64 | bool | string | other (n : Nat)
  deriving DecidableEq

/-- Keys and values that are nodes of the graph. -/
structure NodeInfo where
  shape : Shape
  dtype : DType

/-- A key, by the tests of lines 29 and 39. -/
inductive DKey where
  | placeholder (i : NodeInfo)
  | tensor (i : NodeInfo)
  | rv (i : NodeInfo)
  | other

/-- A value, by the tests of lines 30, 34, 40, 47, 51. `host` are
`(float, list, int, str)`, `np` is `(np.ndarray, np.number)` with a flag telling
whether its dtype is a float, int or str type. -/
inductive DVal where
  | tensor (i : NodeInfo)
  | rv (i : NodeInfo)
  | host (shape : List Nat)
  | np (shape : List Nat) (dtypeOk : Bool)
  | other

/-- One pass of the loop body of `check_data`: `false` raises `TypeError`. -/
def checkPair : DKey → DVal → Bool
  | .placeholder _, .rv _ => false
  | .placeholder _, .tensor _ => false
  | .placeholder _, _ => true
  | .tensor k, v => checkNode k v
  | .rv k, v => checkNode k v
  | .other, _ => false
where
  checkNode (k : NodeInfo) : DVal → Bool
    | .tensor i => if !shapeCompat k.shape i.shape then false else decide (k.dtype = i.dtype)
    | .rv i => if !shapeCompat k.shape i.shape then false else decide (k.dtype = i.dtype)
    | .host s => shapeCompat k.shape (hostShape s)
    | .np s ok => if !shapeCompat k.shape (hostShape s) then false else ok
    | .other => false

/-- `check_data`: `none` is a non-dictionary argument; `.error ()` is `TypeError`. -/
def checkData : Option (List (DKey × DVal)) → Except Unit Unit
  | none => .error ()
  | some items => go items
where
  go : List (DKey × DVal) → Except Unit Unit
    | [] => .ok ()
    | (k, v) :: rest => if checkPair k v then go rest else .error ()

/-- The loop body of `check_latent_vars` (lines 71-83). A placeholder is a tensor. -/
def checkLatentPair : DKey → DVal → Bool
  | .other, _ => false
  | .placeholder k, v => checkBoth k v
  | .tensor k, v => checkBoth k v
  | .rv k, v => checkBoth k v
where
  checkBoth (k : NodeInfo) : DVal → Bool
    | .tensor i => if !shapeCompat k.shape i.shape then false else decide (k.dtype = i.dtype)
    | .rv i => if !shapeCompat k.shape i.shape then false else decide (k.dtype = i.dtype)
    | _ => false

def checkLatentVars : Option (List (DKey × DVal)) → Except Unit Unit
  | none => .error ()
  | some items => go items
where
  go : List (DKey × DVal) → Except Unit Unit
    | [] => .ok ()
    | (k, v) :: rest => if checkLatentPair k v then go rest else .error ()

/-! ### Storing the data -/

/-- What a key is bound to in `self.data`: the user's object or variable number `n`
created by the constructor. -/
inductive Bound (Obj : Type) where
  | given (v : Obj)
  | variable (n : Nat)

/-- Variables created so far with their contents. -/
structure Storage (Id Obj : Type) where
  data : List (Id × Bound Obj)
  vars : List Obj

/-- The loop of inference.py:80-95. `convert k v = none` means that feeding `v` to a
placeholder of `k`'s dtype raises. -/
def storeData {Id Obj : Type} (kind : Id → DKey) (vkind : Obj → DVal)
    (convert : Id → Obj → Option Obj) :
    List (Id × Obj) → Storage Id Obj → Option (Storage Id Obj)
  | [], s => some s
  | (k, v) :: rest, s =>
    match kind k with
    | .placeholder _ => storeData kind vkind convert rest { s with data := s.data ++ [(k, .given v)] }
    | .tensor _ | .rv _ =>
      match vkind v with
      | .tensor _ | .rv _ =>
        storeData kind vkind convert rest { s with data := s.data ++ [(k, .given v)] }
      | .host _ | .np _ _ =>
        match convert k v with
        | none => none
        | some w => storeData kind vkind convert rest
            { data := s.data ++ [(k, .variable s.vars.length)], vars := s.vars ++ [w] }
      | .other => storeData kind vkind convert rest s
    | .other => storeData kind vkind convert rest s

/-- The data part of `Inference.__init__`. -/
def initData {Id Obj : Type} (kind : Id → DKey) (vkind : Obj → DVal)
    (convert : Id → Obj → Option Obj) (data : List (Id × Obj)) : Option (Storage Id Obj) :=
  match checkData (some (data.map (fun kv => (kind kv.1, vkind kv.2)))) with
  | .error _ => none
  | .ok _ => storeData kind vkind convert data { data := [], vars := [] }

end Edward
