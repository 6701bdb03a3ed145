/-
Model of `RandomVariable.__init__` (edward/models/random_variable.py:76-138):
shape check of `value` and registration in collections.

The distribution's constructor is assumed to succeed; `sample` either raises
`NotImplementedError` or returns a tensor of the expected static shape.
-/
import Verif.Model.Shape

namespace Edward

/-- The Python object an entry of `collections` denotes (lines 135-138): the string
"random_variables", a mapping from graphs to lists (like the default registry), or
anything else, for which `collection[graph].append` raises: in particular a plain
list, which cannot be indexed by a graph. -/
inductive CollArg where
  | name
  | mapping (id : Nat)
  | plainList (id : Nat)
  | otherObj
  deriving DecidableEq

/-- Errors. -/
inductive RVError where
  | valueShape
  | noSample
  | badCollection
  deriving DecidableEq

/-- Contents, for the current graph, of the registry (`none`) and of the users'
mappings and lists. -/
structure Registry where
  default : List Nat
  mappings : Nat → List Nat
  lists : Nat → List Nat

def Registry.append (r : Registry) (rv : Nat) : CollArg → Option Registry
  | .name => some { r with default := r.default ++ [rv] }
  | .mapping i => some { r with mappings := fun j => if j = i then r.mappings j ++ [rv] else r.mappings j }
  | .plainList _ => none
  | .otherObj => none

/-- The loop of lines 135-138; on an error the earlier registrations stay. -/
def registerAll (rv : Nat) : List CollArg → Registry → Registry × Option RVError
  | [], r => (r, none)
  | c :: cs, r =>
    match r.append rv c with
    | none => (r, some .badCollection)
    | some r' => registerAll rv cs r'

structure RVArgs where
  sampleShape : Shape
  batchShape : Shape
  eventShape : Shape
  value : Option Shape
  canSample : Bool
  collections : List CollArg

/-- `expected_shape` (lines 115-117). -/
def RVArgs.expected (a : RVArgs) : Shape :=
  shapeConcat (shapeConcat a.sampleShape a.batchShape) a.eventShape

/-- `__init__`: the registry afterwards and the error or the shape of the new
random variable. -/
def rvInit (a : RVArgs) (rv : Nat) (r : Registry) : Registry × Except RVError Shape :=
  let finish (sh : Shape) : Registry × Except RVError Shape :=
    match registerAll rv a.collections r with
    | (r', none) => (r', .ok sh)
    | (r', some e) => (r', .error e)
  match a.value with
  | some vs => if !shapeCompat vs a.expected then (r, .error .valueShape) else finish vs
  | none => if a.canSample then finish a.expected else (r, .error .noSample)

end Edward
