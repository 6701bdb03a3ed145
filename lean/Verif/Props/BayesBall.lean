/-
Properties C10-C13: `is_independent`.
-/
import Verif.Lemmas.BayesBall
import Verif.Props.Graph

set_option linter.unusedSectionVars false

namespace Edward
open Relation

variable {T O R : Type} [DecidableEq T] [DecidableEq R] [Fintype T] [Fintype R]

/-- If tensors form an acyclic graph, so do the random variables. -/
theorem parentOf_acyclic (g : Graph T O R) (coll : List R) (h : Acyclic g.Edge) :
    Acyclic (g.ParentOf coll) := by
  intro v hv
  have hd : ∀ u w, Direct g.Edge (g.IsSample coll) u w → TransGen g.Edge u w := by
    intro u w hd
    induction hd with
    | edge h => exact .single h
    | cons h _ _ ih => exact .head h ih
  have hp : ∀ u w, g.ParentOf coll u w → TransGen g.Edge (g.value u) (g.value w) :=
    fun u w h => hd _ _ h.2.2.2
  have : ∀ w, TransGen (g.ParentOf coll) v w → TransGen g.Edge (g.value v) (g.value w) := by
    intro w hw
    induction hw with
    | single h => exact hp _ _ h
    | tail _ h ih => exact ih.trans (hp _ _ h)
  exact h _ (this v hv)

section
variable (g : Graph T O R) (hg : g.Consistent) (coll : List R) (hd : DistinctValues g coll)
  (sp sc : Nat → Nat → Nat) (enum : List R → List R) (henum : ∀ l x, x ∈ enum l ↔ x ∈ l)
  (pm : R → Bool) (a b cond : RVArg R) (hb : ∀ r ∈ b.toList, r ∈ coll)

include hg hd henum hb in
theorem isIndependentG_correct :
    isIndependentG g coll sp sc enum pm a b cond = false ↔
      ∃ x ∈ a.toList, ∃ y ∈ b.toList,
        Relevant (g.ParentOf coll) (· ∈ cond.toList) (pm · = true) y x := by
  unfold isIndependentG
  rw [isIndependentSets_correct (P := g.ParentOf coll) (Z := (· ∈ cond.toList))
    (D := (pm · = true)) (S := (· ∈ coll)) (fun r hr => hb r ((henum _ _).mp hr))
    (fun x y h => ⟨h.1, h.2.1⟩)
    (fun k n hn p => C03_getParents_direct g (sp k) coll hd n hn p)
    (fun k n hn c => C04_getChildren_direct g hg (sc k) coll hd n hn c)
    (fun _ => Iff.rfl) (fun _ => Iff.rfl)]
  simp only [henum]

include hg hd henum hb in
/-- C10: without `PointMass`, `is_independent(a, b, condition)` decides
d-separation of `a` and `b` by `condition` in the graph of random variables, for
every graph, all sets and all orders in which the sets are iterated. -/
theorem C10_isIndependent_iff_dSeparated (hac : Acyclic g.Edge) (hpm : ∀ r, pm r = false) :
    isIndependentG g coll sp sc enum pm a b cond = true ↔
      DSeparated (g.ParentOf coll) (· ∈ cond.toList) (· ∈ a.toList) (· ∈ b.toList) := by
  have h := isIndependentG_correct g hg coll hd sp sc enum henum pm a b cond hb
  have hD : (fun r => pm r = true) = fun _ => False := by
    funext r; simp [hpm r]
  rw [← Bool.not_eq_false, h, hD]
  simp only [relevant_iff_dconnected (parentOf_acyclic g coll hac), DSeparated]
  push Not
  exact Iff.rfl

include hg hd henum hb in
/-- C12: with `PointMass` nodes, `is_independent` returns `False` exactly when an
active walk joins `b` to `a` on which no deterministic node is a common cause or
an end reached from one of its children. -/
theorem C12_isIndependent_det (hac : Acyclic g.Edge) :
    isIndependentG g coll sp sc enum pm a b cond = false ↔
      ∃ x ∈ a.toList, ∃ y ∈ b.toList, ∃ l,
        DetWalk (g.ParentOf coll) (· ∈ cond.toList) (pm · = true) y x l := by
  rw [isIndependentG_correct g hg coll hd sp sc enum henum pm a b cond hb]
  simp only [relevant_iff_detWalk (parentOf_acyclic g coll hac)]

include hg hd henum hb in
/-- C12: the answer does not depend on any iteration order (acyclic or not). -/
theorem C12_order_independent (sp' sc' : Nat → Nat → Nat) (enum' : List R → List R)
    (henum' : ∀ l x, x ∈ enum' l ↔ x ∈ l) :
    isIndependentG g coll sp sc enum pm a b cond =
      isIndependentG g coll sp' sc' enum' pm a b cond := by
  rw [Bool.eq_iff_iff, ← not_iff_not, Bool.not_eq_true, Bool.not_eq_true,
    isIndependentG_correct g hg coll hd sp sc enum henum pm a b cond hb,
    isIndependentG_correct g hg coll hd sp' sc' enum' henum' pm a b cond hb]

include hg hd henum hb in
/-- C11: `is_independent(a, b, condition)` equals `is_independent(b, a, condition)`,
`PointMass` nodes and cyclic graphs included, whatever the orders in the two runs. -/
theorem C11_isIndependent_symm (ha : ∀ r ∈ a.toList, r ∈ coll) (sp' sc' : Nat → Nat → Nat)
    (enum' : List R → List R) (henum' : ∀ l x, x ∈ enum' l ↔ x ∈ l) :
    isIndependentG g coll sp sc enum pm a b cond =
      isIndependentG g coll sp' sc' enum' pm b a cond := by
  rw [Bool.eq_iff_iff, ← not_iff_not, Bool.not_eq_true, Bool.not_eq_true,
    isIndependentG_correct g hg coll hd sp sc enum henum pm a b cond hb,
    isIndependentG_correct g hg coll hd sp' sc' enum' henum' pm b a cond ha]
  constructor
  · rintro ⟨x, hx, y, hy, h⟩; exact ⟨y, hy, x, hx, relevant_symm h⟩
  · rintro ⟨x, hx, y, hy, h⟩; exact ⟨y, hy, x, hx, relevant_symm h⟩

include hg hd henum hb in
/-- C13: if all of `a` or all of `b` is conditioned on, the answer is `True`. -/
theorem C13_conditioned (h : (∀ r ∈ a.toList, r ∈ cond.toList) ∨ (∀ r ∈ b.toList, r ∈ cond.toList)) :
    isIndependentG g coll sp sc enum pm a b cond = true := by
  rw [← Bool.not_eq_false, isIndependentG_correct g hg coll hd sp sc enum henum pm a b cond hb]
  rintro ⟨x, hx, y, hy, hr⟩
  rcases h with h | h
  · exact hr.1 (h x hx)
  · exact (relevant_symm hr).1 (h y hy)

include hg hd henum hb in
/-- C13: only the sets of random variables matter: a single variable is the same
as a list with it, `None` the same as `[]`, repetitions and order are irrelevant. -/
theorem C13_argument_shapes (a' b' cond' : RVArg R) (hA : ∀ r, r ∈ a.toList ↔ r ∈ a'.toList)
    (hB : ∀ r, r ∈ b.toList ↔ r ∈ b'.toList) (hC : ∀ r, r ∈ cond.toList ↔ r ∈ cond'.toList) :
    isIndependentG g coll sp sc enum pm a b cond =
      isIndependentG g coll sp sc enum pm a' b' cond' := by
  have hb' : ∀ r ∈ b'.toList, r ∈ coll := fun r hr => hb r ((hB r).mpr hr)
  rw [Bool.eq_iff_iff, ← not_iff_not, Bool.not_eq_true, Bool.not_eq_true,
    isIndependentG_correct g hg coll hd sp sc enum henum pm a b cond hb,
    isIndependentG_correct g hg coll hd sp sc enum henum pm a' b' cond' hb']
  have : (fun r => r ∈ cond.toList) = fun r => r ∈ cond'.toList := by
    funext r; rw [hC]
  simp only [hA, hB, this]

end

/-- C13: the normalisation itself. -/
theorem C13_singleton (r : R) : (RVArg.one r).toList = (RVArg.many [r]).toList ∧
    (RVArg.none : RVArg R).toList = (RVArg.many []).toList := ⟨rfl, rfl⟩

/-! ### Concrete case -/

theorem exGraph_acyclic : Acyclic exGraph.Edge := by
  let rank : Fin 5 → Nat := ![0, 1, 2, 4, 3]
  have h : ∀ s t, exGraph.Edge s t → rank s < rank t := by unfold Graph.Edge; decide
  intro v hv
  have : ∀ w, TransGen exGraph.Edge v w → rank v < rank w := by
    intro w hw
    induction hw with
    | single h1 => exact h _ _ h1
    | tail _ h1 ih => exact ih.trans (h _ _ h1)
  exact lt_irrefl _ (this v hv)

theorem exGraph_parents : exGraph.ParentOf exColl 1 3 ∧ exGraph.ParentOf exColl 2 3 := by
  constructor <;>
  exact ⟨by decide, by decide, by decide, .cons (w := 4) (by unfold Graph.Edge; decide)
    (by rintro ⟨c, _, hc⟩; revert c; decide) (.edge (by unfold Graph.Edge; decide))⟩

/-- Conditioning on the common effect `d` makes its causes `b` and `c` dependent ... -/
example (sp sc : Nat → Nat → Nat) :
    isIndependentG exGraph exColl sp sc id (fun _ => false) (.one 1) (.one 2) (.one 3) = false := by
  rw [← Bool.not_eq_true, C10_isIndependent_iff_dSeparated exGraph exGraph_consistent exColl
    exColl_distinct sp sc id (fun _ _ => Iff.rfl) _ _ _ _ (by decide) exGraph_acyclic (by simp)]
  intro h
  obtain ⟨h13, h23⟩ := exGraph_parents
  refine h 1 (by simp [RVArg.toList]) 2 (by simp [RVArg.toList])
    ⟨[2, 3, 1], ⟨rfl, rfl, .cons_cons (.inl h23) (.cons_cons (.inr h13) (.singleton _)), ?_,
      by simp [RVArg.toList], by simp [RVArg.toList]⟩, by decide⟩
  intro x y z hi
  obtain ⟨rfl, rfl, rfl⟩ : x = 2 ∧ y = 3 ∧ z = 1 := by
    have := hi.eq_of_length rfl
    simpa using this
  exact ⟨fun _ => ⟨3, by simp [RVArg.toList], .refl⟩, fun h => absurd ⟨h23, h13⟩ h⟩

/-- ... and conditioning on one of two variables separates them. -/
example (sp sc : Nat → Nat → Nat) :
    isIndependentG exGraph exColl sp sc id (fun _ => false) (.one 1) (.one 3) (.one 1) = true :=
  C13_conditioned exGraph exGraph_consistent exColl exColl_distinct sp sc id (fun _ _ => Iff.rfl)
    _ _ _ _ (by decide) (Or.inl (by simp [RVArg.toList]))

end Edward
