/-
`random_variables(graph)` (edward/util/graphs.py:45-58) and the registry behind it, `_RANDOM_VARIABLE_COLLECTION = defaultdict(list)` (edward/models/random_variable.py:15,
filled in lines 135-138).

Python: a list is an object; who holds a reference to it sees later changes. A `for` loop over a list keeps an index into the object.
-/
import Mathlib.Algebra.BigOperators.Group.Finset.Basic
import Verif.Model.Metrics

namespace Edward.LiveList
variable {G R : Type} [DecidableEq G] [DecidableEq R]

/-- The registry: one list object per graph, made when the graph is first looked up. A reference to a list is named by its graph. -/
abbrev World (G R : Type) := G → Option (List R)

/-- The contents of the list a reference points to. -/
def deref (w : World G R) (ref : G) : List R := (w ref).getD []

/-- `defaultdict.__getitem__`: makes an empty list for a new graph (random_variable.py:15). -/
def lookup (w : World G R) (g : G) : World G R := fun h => if h = g then some (deref w g) else w h

/-- `random_variables(graph)` (graphs.py:45-56): `_RANDOM_VARIABLE_COLLECTION[graph]`, the object itself. The default graph is left out. -/
def randomVariables (w : World G R) (g : G) : World G R × G := (lookup w g, g)

/-- `collection[tf.get_default_graph()].append(self)` (random_variable.py:138), for the default `collections` -/
def register (w : World G R) (g : G) (r : R) : World G R := fun h => if h = g then some (deref w g ++ [r]) else w h

/-- What programs do. Changes to a result are `append` and `remove`; the other methods of lists are left out. -/
inductive Cmd (G R : Type) where
  /-- build a random variable in the graph -/
  | create (g : G) (r : R)
  /-- call `random_variables` and read -/
  | query (g : G)
  /-- `result.append(r)` of an earlier result for the graph -/
  | resultAppend (g : G) (r : R)
  /-- `result.remove(r)` of an earlier result for the graph -/
  | resultRemove (g : G) (r : R)

/-- The registry after a command. -/
def exec (w : World G R) : Cmd G R → World G R
  | .create g r => register w g r
  | .query g => (randomVariables w g).1
  | .resultAppend g r => fun h => if h = g then some (deref w g ++ [r]) else w h
  | .resultRemove g r => fun h => if h = g then some ((deref w g).erase r) else w h

/-- `for x in random_variables(): body` (graphs.py:56 gives the list that random_variable.py:138 appends to): the list after `n` passes, none if the loop ended before. `body n x l` are the variables that pass `n` builds. -/
def passes (body : ℕ → R → List R → List R) (l : List R) : ℕ → Option (List R)
  | 0 => some l
  | n + 1 =>
    match passes body l n with
    | none => none
    | some m => if h : n < m.length then some (m ++ body n m[n] m) else none

end Edward.LiveList
