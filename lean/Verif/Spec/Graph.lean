/-
Specification vocabulary for graph queries: dependency edges, direct paths,
representatives. Nothing here mentions the work-list algorithms.
-/
import Mathlib.Logic.Relation
import Verif.Model.GraphQuery

namespace Edward
open Relation

variable {T O R : Type}

/-- `s` is an input of the operation that produces `t`. -/
def Graph.Edge (g : Graph T O R) (s t : T) : Prop := s ∈ g.inputs (g.op t)

/-- The forward links of the graph (`consumers`, `outputs`) agree with the
backward ones (`inputs`, `op`), as in any TensorFlow graph. -/
structure Graph.Consistent (g : Graph T O R) : Prop where
  mem_consumers : ∀ t o, o ∈ g.consumers t ↔ t ∈ g.inputs o
  mem_outputs : ∀ t o, t ∈ g.outputs o ↔ g.op t = o

/-- `w` is the last element of `l` with its key. -/
def LastWith {K W : Type} (key : W → K) (l : List W) (w : W) : Prop :=
  ∃ pre post, l = pre ++ w :: post ∧ ∀ w' ∈ post, key w' ≠ key w

/-- Members of the collection have pairwise different sample tensors. -/
def DistinctValues (g : Graph T O R) (coll : List R) : Prop :=
  ∀ a ∈ coll, ∀ b ∈ coll, g.value a = g.value b → a = b

/-- There is a dependency path from `s` to `t` (possibly empty). -/
def Graph.Reaches (g : Graph T O R) : T → T → Prop := ReflTransGen g.Edge

/-- A tensor is transparent to a query at `x` if it is not the sample of a
collection member other than `x`. -/
def Graph.Transparent (g : Graph T O R) (coll : List R) (x : Node T R) (t : T) : Prop :=
  ∀ c, LastWith g.value coll c → g.value c = t → Node.rv c = x

/-- `Direct E V u v`: a non-empty `E`-path from `u` to `v` whose intermediate
nodes are outside `V`. -/
inductive Direct {T : Type} (E : T → T → Prop) (V : T → Prop) : T → T → Prop where
  | edge {u v} : E u v → Direct E V u v
  | cons {u w v} : E u w → ¬ V w → Direct E V w v → Direct E V u v

/-- `t` is the sample tensor of a member of the collection. -/
def Graph.IsSample (g : Graph T O R) (coll : List R) (t : T) : Prop := ∃ c ∈ coll, g.value c = t

/-- `a` is a parent of `b` among the random variables of the collection. -/
def Graph.ParentOf (g : Graph T O R) (coll : List R) (a b : R) : Prop :=
  a ∈ coll ∧ b ∈ coll ∧ a ≠ b ∧ Direct g.Edge (g.IsSample coll) (g.value a) (g.value b)

end Edward
