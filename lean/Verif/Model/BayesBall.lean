/-
Model of `is_independent` (edward/util/random_variables.py:777-853).

`par k n` and `chl k n` are what `get_parents(n)` and `get_children(n)` return
when called in the `k`-th iteration (their order may differ from call to call,
being read off a Python set). The model is instantiated with the graph queries
of `Verif.Model.GraphQuery` in `isIndependentG`.
-/
import Verif.Model.GraphQuery

namespace Edward

/-- The tags `"child"` and `"parent"` of the schedule. -/
inductive From where
  | child
  | parent
  deriving DecidableEq

/-- Local variables of the loop. The head of `schedule` is the end of the Python
list, i.e. the element `schedule.pop()` returns. -/
structure BState (R : Type) where
  top : List R
  bottom : List R
  schedule : List (R × From)

/-- `for n in l: schedule.append((n, f))`. -/
def pushAll {R : Type} (l : List R) (f : From) (s : List (R × From)) : List (R × From) :=
  l.foldl (fun s n => (n, f) :: s) s

section
variable {R : Type} [DecidableEq R]

/-- One iteration of the loop (random_variables.py:824-851) with a non-empty
schedule; `none` is `return False`. -/
def bstep (par chl : R → List R) (isPointMass : R → Bool) (A condition : List R)
    (node : R) (cameFrom : From) (rest : List (R × From)) (s : BState R) : Option (BState R) :=
  if node ∉ condition ∧ cameFrom = .child then
    let s1 : BState R :=
      if node ∉ s.top then
        { top := node :: s.top, bottom := s.bottom, schedule := pushAll (par node) .child rest }
      else { s with schedule := rest }
    if isPointMass node = false ∧ node ∉ s1.bottom then
      if node ∈ A then none
      else some { s1 with bottom := node :: s1.bottom
                          schedule := pushAll (chl node) .parent s1.schedule }
    else some s1
  else if cameFrom = .parent then
    if node ∈ condition ∧ node ∉ s.top then
      some { s with top := node :: s.top, schedule := pushAll (par node) .child rest }
    else if node ∉ condition ∧ node ∉ s.bottom then
      if node ∈ A then none
      else some { s with bottom := node :: s.bottom, schedule := pushAll (chl node) .parent rest }
    else some { s with schedule := rest }
  else some { s with schedule := rest }

variable [Fintype R]

def bmeasure (s : BState R) : Nat × Nat :=
  ((Finset.univ.filter (· ∉ s.top)).card + (Finset.univ.filter (· ∉ s.bottom)).card,
    s.schedule.length)

theorem card_unmarked_lt {n : R} {l : List R} (h : n ∉ l) :
    (Finset.univ.filter (· ∉ n :: l)).card < (Finset.univ.filter (· ∉ l)).card := by
  apply Finset.card_lt_card
  constructor
  · intro m; simp only [Finset.mem_filter, Finset.mem_univ, true_and, List.mem_cons, not_or]
    exact fun h => h.2
  · intro hs
    have := hs (Finset.mem_filter.mpr ⟨Finset.mem_univ _, h⟩)
    simp at this

theorem bstep_decreases (par chl : R → List R) (pm : R → Bool) (A cond : List R)
    (node : R) (f : From) (rest : List (R × From)) (s s' : BState R)
    (hs : s.schedule = (node, f) :: rest)
    (h : bstep par chl pm A cond node f rest s = some s') :
    Prod.Lex (· < ·) (· < ·) (bmeasure s') (bmeasure s) := by
  have hlen : rest.length < s.schedule.length := by rw [hs]; simp
  have stay : ∀ (t : List R) (b : List R) (sch : List (R × From)),
      t = s.top → b = s.bottom → sch = rest →
      Prod.Lex (· < ·) (· < ·) (bmeasure ⟨t, b, sch⟩) (bmeasure s) := by
    rintro _ _ _ rfl rfl rfl; exact Prod.Lex.right _ hlen
  unfold bstep at h
  split at h
  · by_cases ht : node ∉ s.top
    · simp only [ht, not_false_eq_true, if_true] at h
      have hlt := card_unmarked_lt ht
      split at h
      · rename_i hb
        have hlb := card_unmarked_lt hb.2
        split at h
        · exact absurd h (by simp)
        · obtain rfl := Option.some.inj h
          apply Prod.Lex.left; dsimp only; omega
      · obtain rfl := Option.some.inj h
        apply Prod.Lex.left; dsimp only; omega
    · simp only [ht, if_false] at h
      split at h
      · rename_i hb
        have hlb := card_unmarked_lt hb.2
        split at h
        · exact absurd h (by simp)
        · obtain rfl := Option.some.inj h
          apply Prod.Lex.left; dsimp only at hlb ⊢; omega
      · obtain rfl := Option.some.inj h
        exact stay _ _ _ rfl rfl rfl
  · split at h
    · split at h
      · rename_i ht
        have hlt := card_unmarked_lt ht.2
        obtain rfl := Option.some.inj h
        apply Prod.Lex.left; dsimp only; omega
      · split at h
        · rename_i hb
          have hlb := card_unmarked_lt hb.2
          split at h
          · exact absurd h (by simp)
          · obtain rfl := Option.some.inj h
            apply Prod.Lex.left; dsimp only; omega
        · obtain rfl := Option.some.inj h
          exact stay _ _ _ rfl rfl rfl
    · obtain rfl := Option.some.inj h
      exact stay _ _ _ rfl rfl rfl

/-- `while schedule: ...; return True` (random_variables.py:824-853). -/
def bloop {R : Type} [DecidableEq R] [Fintype R] (par chl : Nat → R → List R) (isPointMass : R → Bool) (A condition : List R)
    (k : Nat) (s : BState R) : Bool :=
  match _hs : s.schedule with
  | [] => true
  | (node, f) :: rest =>
    match h : bstep (par k) (chl k) isPointMass A condition node f rest s with
    | none => false
    | some s' => bloop par chl isPointMass A condition (k + 1) s'
termination_by bmeasure s
decreasing_by exact bstep_decreases _ _ _ _ _ _ _ _ _ _ _hs h

/-- The body of `is_independent` after argument normalisation
(random_variables.py:812-853). `B` lists the set `B` in its iteration order. -/
def isIndependentSets {R : Type} [DecidableEq R] [Fintype R] (par chl : Nat → R → List R) (isPointMass : R → Bool)
    (A B condition : List R) : Bool :=
  bloop par chl isPointMass A condition 0
    { top := [], bottom := [], schedule := pushAll B .child [] }

/-- An argument of `is_independent`: `None` (allowed for `condition` only), a random variable or a list. -/
inductive RVArg (R : Type) where
  | none
  | one (r : R)
  | many (l : List R)

/-- random_variables.py:804-814: `None` becomes `[]`, a single random variable a
singleton list. -/
def RVArg.toList {R : Type} : RVArg R → List R
  | .none => []
  | .one r => [r]
  | .many l => l

/-- `is_independent(a, b, condition)` on a TensorFlow graph whose random
variables are `coll` (`collection=None` in the calls of `get_parents` and
`get_children`). `sp k`, `sc k` are the pop orders of the queries made in
iteration `k`; `enum` lists the elements of `set(b)` in iteration order. -/
def isIndependentG {T O : Type} [DecidableEq T] [Fintype T] (g : Graph T O R) (coll : List R)
    (sp sc : Nat → Nat → Nat) (enum : List R → List R) (isPointMass : R → Bool)
    (a b condition : RVArg R) : Bool :=
  isIndependentSets (fun k n => getParents g (sp k) (.rv n) coll)
    (fun k n => getChildren g (sc k) (.rv n) coll) isPointMass a.toList (enum b.toList)
    condition.toList

end
end Edward
