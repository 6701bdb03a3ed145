/-
Properties C01-C09: graph queries.
-/
import Mathlib.Data.Fin.VecNotation
import Verif.Lemmas.GraphQuery

set_option linter.unusedSectionVars false

namespace Edward
open Relation

variable {T O R V : Type} [DecidableEq T] [DecidableEq R] [DecidableEq V] [Fintype T] [Fintype R]

/-! ### From loop bodies to dependency edges -/

private theorem pushes_back_iff (g : Graph T O R) (body : Node T R → Option V × List (Node T R))
    (P : T → Prop)
    (hb : ∀ n m, Pushes body n m ↔ P (g.toTensor n) ∧ ∃ s, m = .tensor s ∧ g.Edge s (g.toTensor n))
    (x : Node T R) (Q : Node T R → Prop) (hQ : ∀ n m, g.toTensor n = g.toTensor m → (Q n ↔ Q m)) :
    (∃ n, ReflTransGen (Pushes body) x n ∧ Q n) ↔
      ∃ t, ReflTransGen (fun s t => g.Edge s t ∧ P t) t (g.toTensor x) ∧ Q (.tensor t) := by
  constructor
  · rintro ⟨n, h, hq⟩
    refine ⟨g.toTensor n, ?_, (hQ n (.tensor (g.toTensor n)) rfl).mp hq⟩
    clear hq
    induction h with
    | refl => exact .refl
    | @tail b c _ hp ih =>
      obtain ⟨h1, s, rfl, h2⟩ := (hb _ _).mp hp
      exact .head ⟨h2, h1⟩ ih
  · rintro ⟨t, h, hq⟩
    have : ∀ t, ReflTransGen (fun s t => g.Edge s t ∧ P t) t (g.toTensor x) →
        ∃ n, ReflTransGen (Pushes body) x n ∧ g.toTensor n = t := by
      intro t h
      refine ReflTransGen.head_induction_on h ⟨x, .refl, rfl⟩ ?_
      rintro a c ⟨hac, hP⟩ _ ⟨n, hn, rfl⟩
      exact ⟨.tensor a, hn.tail ((hb _ _).mpr ⟨hP, a, rfl, hac⟩), rfl⟩
    obtain ⟨n, hn, rfl⟩ := this t h
    exact ⟨n, hn, (hQ n (.tensor (g.toTensor n)) rfl).mpr hq⟩

private theorem pushes_forth_iff (g : Graph T O R) (body : Node T R → Option V × List (Node T R))
    (P : T → Prop)
    (hb : ∀ n m, Pushes body n m ↔ P (g.toTensor n) ∧ ∃ s, m = .tensor s ∧ g.Edge (g.toTensor n) s)
    (x : Node T R) (Q : Node T R → Prop) (hQ : ∀ n m, g.toTensor n = g.toTensor m → (Q n ↔ Q m)) :
    (∃ n, ReflTransGen (Pushes body) x n ∧ Q n) ↔
      ∃ t, ReflTransGen (fun s t => g.Edge s t ∧ P s) (g.toTensor x) t ∧ Q (.tensor t) := by
  constructor
  · rintro ⟨n, h, hq⟩
    refine ⟨g.toTensor n, ?_, (hQ n (.tensor (g.toTensor n)) rfl).mp hq⟩
    clear hq
    induction h with
    | refl => exact .refl
    | @tail b c _ hp ih =>
      obtain ⟨h1, s, rfl, h2⟩ := (hb _ _).mp hp
      exact .tail ih ⟨h2, h1⟩
  · rintro ⟨t, h, hq⟩
    have : ∃ n, ReflTransGen (Pushes body) x n ∧ g.toTensor n = t := by
      clear hq
      induction h with
      | refl => exact ⟨x, .refl, rfl⟩
      | @tail b c _ hp ih =>
        obtain ⟨n, hn, rfl⟩ := ih
        exact ⟨.tensor c, hn.tail ((hb _ _).mpr ⟨hp.2, c, rfl, hp.1⟩), rfl⟩
    obtain ⟨n, hn, rfl⟩ := this
    exact ⟨n, hn, (hQ n (.tensor (g.toTensor n)) rfl).mpr hq⟩

private theorem mem_forward (g : Graph T O R) (hg : g.Consistent) (t : T) (m : Node T R) :
    m ∈ (g.consumers t).flatMap (fun o => (g.outputs o).map Node.tensor) ↔
      ∃ s, m = .tensor s ∧ g.Edge t s := by
  simp only [List.mem_flatMap, List.mem_map, hg.mem_consumers, hg.mem_outputs, Graph.Edge]
  constructor
  · rintro ⟨o, h, s, rfl, rfl⟩; exact ⟨s, rfl, h⟩
  · rintro ⟨s, rfl, h⟩; exact ⟨_, h, s, rfl, rfl⟩

private theorem mem_backward (g : Graph T O R) (t : T) (m : Node T R) :
    m ∈ (g.inputs (g.op t)).map Node.tensor ↔ ∃ s, m = .tensor s ∧ g.Edge s t := by
  simp only [List.mem_map, Graph.Edge]
  constructor
  · rintro ⟨s, h, rfl⟩; exact ⟨s, rfl, h⟩
  · rintro ⟨s, rfl, h⟩; exact ⟨s, h, rfl⟩

private theorem anc_out (g : Graph T O R) (coll : List R) (x n : Node T R) (r : R) :
    (ancestorsBody g coll x n).1 = some r ↔
      LastWith g.value coll r ∧ g.value r = g.toTensor n ∧ Node.rv r ≠ x := by
  have := nodeDict_eq_some g.value coll (g.toTensor n) r
  unfold ancestorsBody
  dsimp only
  cases hd : nodeDict g.value coll (g.toTensor n) with
  | none => simp [hd] at this ⊢; tauto
  | some c =>
    simp only [hd, Option.some.injEq] at this ⊢
    by_cases hc : Node.rv c = x
    · simp only [hc, ne_eq, not_true_eq_false, if_false]
      constructor
      · intro h; simp at h
      · rintro ⟨h1, h2, h3⟩; exact absurd (this.mpr ⟨h1, h2⟩ ▸ hc) h3
    · simp only [ne_eq, hc, not_false_eq_true, if_true, Option.some.injEq]
      constructor
      · rintro rfl; exact ⟨(this.mp rfl).1, (this.mp rfl).2, hc⟩
      · rintro ⟨h1, h2, _⟩; exact this.mpr ⟨h1, h2⟩

private theorem desc_out (g : Graph T O R) (coll : List R) (x n : Node T R) (r : R) :
    (descendantsBody g coll x n).1 = some r ↔
      LastWith g.value coll r ∧ g.value r = g.toTensor n ∧ Node.rv r ≠ x :=
  anc_out g coll x n r

private theorem stop_cases (g : Graph T O R) (coll : List R) (x : Node T R) (t : T) :
    (∃ c, nodeDict g.value coll t = some c ∧ Node.rv c ≠ x) ↔ ¬ g.Transparent coll x t := by
  simp only [nodeDict_eq_some, Graph.Transparent]
  push Not
  constructor
  · rintro ⟨c, ⟨h1, h2⟩, h3⟩; exact ⟨c, h1, h2, h3⟩
  · rintro ⟨c, h1, h2, h3⟩; exact ⟨c, ⟨h1, h2⟩, h3⟩

private theorem par_out (g : Graph T O R) (coll : List R) (x n : Node T R) (r : R) :
    (parentsBody g coll x n).1 = some r ↔
      LastWith g.value coll r ∧ g.value r = g.toTensor n ∧ Node.rv r ≠ x := by
  rw [← anc_out]
  unfold parentsBody ancestorsBody
  dsimp only
  cases hd : nodeDict g.value coll (g.toTensor n) with
  | none => simp
  | some c => dsimp only; split <;> simp

private theorem chi_out (g : Graph T O R) (coll : List R) (x n : Node T R) (r : R) :
    (childrenBody g coll x n).1 = some r ↔
      LastWith g.value coll r ∧ g.value r = g.toTensor n ∧ Node.rv r ≠ x := by
  rw [← anc_out]
  unfold childrenBody ancestorsBody
  dsimp only
  cases hd : nodeDict g.value coll (g.toTensor n) with
  | none => simp
  | some c => dsimp only; split <;> simp

private theorem par_push (g : Graph T O R) (coll : List R) (x n m : Node T R) :
    Pushes (parentsBody g coll x) n m ↔
      g.Transparent coll x (g.toTensor n) ∧ ∃ s, m = .tensor s ∧ g.Edge s (g.toTensor n) := by
  have hs := stop_cases g coll x (g.toTensor n)
  unfold Pushes parentsBody
  dsimp only
  rw [← mem_backward]
  cases hd : nodeDict g.value coll (g.toTensor n) with
  | none =>
    simp only [hd, reduceCtorEq, false_and, exists_false, false_iff, not_not] at hs
    simp [hs]
  | some c =>
    simp only [hd, Option.some.injEq, exists_eq_left', ] at hs
    by_cases hc : Node.rv c = x
    · have : g.Transparent coll x (g.toTensor n) := by
        by_contra h; exact (hs.mpr h) hc
      simp [hc, this]
    · have : ¬ g.Transparent coll x (g.toTensor n) := hs.mp hc
      simp [hc, this]

private theorem chi_push (g : Graph T O R) (hg : g.Consistent) (coll : List R) (x n m : Node T R) :
    Pushes (childrenBody g coll x) n m ↔
      g.Transparent coll x (g.toTensor n) ∧ ∃ s, m = .tensor s ∧ g.Edge (g.toTensor n) s := by
  have hs := stop_cases g coll x (g.toTensor n)
  unfold Pushes childrenBody
  dsimp only
  rw [← mem_forward g hg]
  cases hd : nodeDict g.value coll (g.toTensor n) with
  | none =>
    simp only [hd, reduceCtorEq, false_and, exists_false, false_iff, not_not] at hs
    simp [hs]
  | some c =>
    simp only [hd, Option.some.injEq, exists_eq_left', ] at hs
    by_cases hc : Node.rv c = x
    · have : g.Transparent coll x (g.toTensor n) := by
        by_contra h; exact (hs.mpr h) hc
      simp [hc, this]
    · have : ¬ g.Transparent coll x (g.toTensor n) := hs.mp hc
      simp [hc, this]

/-! ### C01-C04 -/

/-- C01. `get_ancestors` returns, without duplicates, exactly the collection
members other than `x` whose sample tensor reaches `x`, for every pop order. -/
theorem C01_getAncestors_exact (g : Graph T O R) (sched : Nat → Nat) (x : Node T R)
    (coll : List R) :
    (getAncestors g sched x coll).Nodup ∧
    ∀ r, r ∈ getAncestors g sched x coll ↔
      LastWith g.value coll r ∧ Node.rv r ≠ x ∧ g.Reaches (g.value r) (g.toTensor x) := by
  obtain ⟨h1, h2, _, _⟩ := wloop_correct (ancestorsBody g coll x) x sched
  refine ⟨h2, fun r => ?_⟩
  unfold getAncestors
  rw [h1 r, pushes_back_iff g (ancestorsBody g coll x) (fun _ => True)
    (fun n m => by rw [true_and, ← mem_backward]; rfl) x (fun n => (ancestorsBody g coll x n).1 = some r)
    (fun n m h => by rw [anc_out, anc_out, h])]
  simp only [anc_out, and_true, Graph.toTensor]
  constructor
  · rintro ⟨t, h, h1, rfl, h2⟩; exact ⟨h1, h2, h⟩
  · rintro ⟨h1, h2, h⟩; exact ⟨_, h, h1, rfl, h2⟩

/-- C02. `get_descendants` is exact, for every pop order. -/
theorem C02_getDescendants_exact (g : Graph T O R) (hg : g.Consistent) (sched : Nat → Nat)
    (x : Node T R) (coll : List R) :
    (getDescendants g sched x coll).Nodup ∧
    ∀ r, r ∈ getDescendants g sched x coll ↔
      LastWith g.value coll r ∧ Node.rv r ≠ x ∧ g.Reaches (g.toTensor x) (g.value r) := by
  obtain ⟨h1, h2, _, _⟩ := wloop_correct (descendantsBody g coll x) x sched
  refine ⟨h2, fun r => ?_⟩
  unfold getDescendants
  rw [h1 r, pushes_forth_iff g (descendantsBody g coll x) (fun _ => True)
    (fun n m => by rw [true_and, ← mem_forward g hg]; rfl) x
    (fun n => (descendantsBody g coll x n).1 = some r)
    (fun n m h => by rw [desc_out, desc_out, h])]
  simp only [desc_out, and_true, Graph.toTensor]
  constructor
  · rintro ⟨t, h, h1, rfl, h2⟩; exact ⟨h1, h2, h⟩
  · rintro ⟨h1, h2, h⟩; exact ⟨_, h, h1, rfl, h2⟩

/-- C03. `get_parents` returns exactly the members other than `x` from which a
path leads to `x` all of whose later tensors are transparent (not samples of
other members), for every pop order. -/
theorem C03_getParents_exact (g : Graph T O R) (sched : Nat → Nat) (x : Node T R)
    (coll : List R) :
    (getParents g sched x coll).Nodup ∧
    ∀ r, r ∈ getParents g sched x coll ↔
      LastWith g.value coll r ∧ Node.rv r ≠ x ∧
      ReflTransGen (fun s t => g.Edge s t ∧ g.Transparent coll x t) (g.value r) (g.toTensor x) := by
  obtain ⟨h1, h2, _, _⟩ := wloop_correct (parentsBody g coll x) x sched
  refine ⟨h2, fun r => ?_⟩
  unfold getParents
  rw [h1 r, pushes_back_iff g (parentsBody g coll x) (g.Transparent coll x)
    (par_push g coll x) x (fun n => (parentsBody g coll x n).1 = some r)
    (fun n m h => by rw [par_out, par_out, h])]
  simp only [par_out, Graph.toTensor]
  constructor
  · rintro ⟨t, h, h1, rfl, h2⟩; exact ⟨h1, h2, h⟩
  · rintro ⟨h1, h2, h⟩; exact ⟨_, h, h1, rfl, h2⟩

/-- C04. `get_children` is exact, for every pop order. -/
theorem C04_getChildren_exact (g : Graph T O R) (hg : g.Consistent) (sched : Nat → Nat)
    (x : Node T R) (coll : List R) :
    (getChildren g sched x coll).Nodup ∧
    ∀ r, r ∈ getChildren g sched x coll ↔
      LastWith g.value coll r ∧ Node.rv r ≠ x ∧
      ReflTransGen (fun s t => g.Edge s t ∧ g.Transparent coll x s) (g.toTensor x) (g.value r) := by
  obtain ⟨h1, h2, _, _⟩ := wloop_correct (childrenBody g coll x) x sched
  refine ⟨h2, fun r => ?_⟩
  unfold getChildren
  rw [h1 r, pushes_forth_iff g (childrenBody g coll x) (g.Transparent coll x)
    (chi_push g hg coll x) x (fun n => (childrenBody g coll x n).1 = some r)
    (fun n m h => by rw [chi_out, chi_out, h])]
  simp only [chi_out, Graph.toTensor]
  constructor
  · rintro ⟨t, h, h1, rfl, h2⟩; exact ⟨h1, h2, h⟩
  · rintro ⟨h1, h2, h⟩; exact ⟨_, h, h1, rfl, h2⟩

private theorem transparent_rv (g : Graph T O R) (coll : List R) (hd : DistinctValues g coll)
    (b : R) (hb : b ∈ coll) (t : T) :
    g.Transparent coll (.rv b) t ↔ (g.IsSample coll t → t = g.value b) := by
  simp only [Graph.Transparent, Graph.IsSample, lastWith_iff_mem g coll hd, Node.rv.injEq]
  constructor
  · rintro h ⟨c, hc, rfl⟩; rw [h c hc rfl]
  · rintro h c hc rfl; exact hd c hc b hb (h ⟨c, hc, rfl⟩)

/-- C03, for a random variable of a collection with distinct sample tensors:
the parents are the members from which a path without intermediate members leads
to it. -/
theorem C03_getParents_direct (g : Graph T O R) (sched : Nat → Nat) (coll : List R)
    (hd : DistinctValues g coll) (b : R) (hb : b ∈ coll) (a : R) :
    a ∈ getParents g sched (.rv b) coll ↔ g.ParentOf coll a b := by
  rw [(C03_getParents_exact g sched (.rv b) coll).2 a, lastWith_iff_mem g coll hd]
  have hset : (fun s t => g.Edge s t ∧ g.Transparent coll (.rv b) t) =
      fun s t => g.Edge s t ∧ (g.IsSample coll t → t = g.value b) := by
    funext s t; rw [transparent_rv g coll hd b hb]
  rw [hset]
  simp only [Graph.toTensor, ne_eq, Node.rv.injEq, Graph.ParentOf]
  constructor
  · rintro ⟨ha, hab, h⟩
    exact ⟨ha, hb, hab, direct_of_back (fun h => hab (hd a ha b hb h)) h⟩
  · rintro ⟨ha, _, hab, h⟩; exact ⟨ha, hab, back_of_direct h⟩

/-- C04, likewise for children. -/
theorem C04_getChildren_direct (g : Graph T O R) (hg : g.Consistent) (sched : Nat → Nat)
    (coll : List R) (hd : DistinctValues g coll) (a : R) (ha : a ∈ coll) (b : R) :
    b ∈ getChildren g sched (.rv a) coll ↔ g.ParentOf coll a b := by
  rw [(C04_getChildren_exact g hg sched (.rv a) coll).2 b, lastWith_iff_mem g coll hd]
  have hset : (fun s t => g.Edge s t ∧ g.Transparent coll (.rv a) s) =
      fun s t => g.Edge s t ∧ (g.IsSample coll s → s = g.value a) := by
    funext s t; rw [transparent_rv g coll hd a ha]
  rw [hset]
  simp only [Graph.toTensor, ne_eq, Node.rv.injEq, Graph.ParentOf]
  constructor
  · rintro ⟨hb, hab, h⟩
    exact ⟨ha, hb, fun h => hab h.symm, direct_of_forth (fun h => hab (hd a ha b hb h).symm) h⟩
  · rintro ⟨_, hb, hab, h⟩; exact ⟨hb, fun h => hab h.symm, forth_of_direct h⟩

/-! ### C05 -/

/-- C05. Parents and children are converse, ancestors and descendants are
converse, whatever the two pop orders. -/
theorem C05_converse (g : Graph T O R) (hg : g.Consistent) (coll : List R)
    (hd : DistinctValues g coll) (s₁ s₂ : Nat → Nat) (a b : R) (ha : a ∈ coll) (hb : b ∈ coll) :
    (a ∈ getParents g s₁ (.rv b) coll ↔ b ∈ getChildren g s₂ (.rv a) coll) ∧
    (a ∈ getAncestors g s₁ (.rv b) coll ↔ b ∈ getDescendants g s₂ (.rv a) coll) := by
  constructor
  · rw [C03_getParents_direct g s₁ coll hd b hb, C04_getChildren_direct g hg s₂ coll hd a ha]
  · rw [(C01_getAncestors_exact g s₁ _ coll).2, (C02_getDescendants_exact g hg s₂ _ coll).2,
      lastWith_iff_mem g coll hd, lastWith_iff_mem g coll hd]
    simp only [Graph.toTensor, ne_eq, Node.rv.injEq, ha, hb, true_and]
    constructor
    · rintro ⟨h1, h2⟩; exact ⟨fun h => h1 h.symm, h2⟩
    · rintro ⟨h1, h2⟩; exact ⟨fun h => h1 h.symm, h2⟩

/-! ### C06 -/

/-- C06. Ancestors are the transitive closure of `get_parents`, descendants that
of `get_children`. -/
theorem C06_ancestors_transitive (g : Graph T O R) (hg : g.Consistent) (coll : List R)
    (hd : DistinctValues g coll) (s₁ s₂ : Nat → Nat) (x : R) (hx : x ∈ coll) (a : R) :
    (a ∈ getAncestors g s₁ (.rv x) coll ↔
      a ≠ x ∧ TransGen (fun u v => v ∈ coll ∧ u ∈ getParents g s₂ (.rv v) coll) a x) ∧
    (a ∈ getDescendants g s₁ (.rv x) coll ↔
      a ≠ x ∧ TransGen (fun u v => u ∈ coll ∧ v ∈ getChildren g s₂ (.rv u) coll) x a) := by
  have hp : (fun u v => v ∈ coll ∧ u ∈ getParents g s₂ (.rv v) coll) = g.ParentOf coll := by
    funext u v
    apply propext
    constructor
    · rintro ⟨hv, h⟩; exact (C03_getParents_direct g s₂ coll hd v hv u).mp h
    · intro h; exact ⟨h.2.1, (C03_getParents_direct g s₂ coll hd v h.2.1 u).mpr h⟩
  have hc : (fun u v => u ∈ coll ∧ v ∈ getChildren g s₂ (.rv u) coll) = g.ParentOf coll := by
    funext u v
    apply propext
    constructor
    · rintro ⟨hv, h⟩; exact (C04_getChildren_direct g hg s₂ coll hd u hv v).mp h
    · intro h; exact ⟨h.1, (C04_getChildren_direct g hg s₂ coll hd u h.1 v).mpr h⟩
  rw [hp, hc]
  have hmem : ∀ {a b}, TransGen (g.ParentOf coll) a b → a ∈ coll ∧ b ∈ coll := by
    intro a b h
    induction h with
    | single h => exact ⟨h.1, h.2.1⟩
    | tail _ h ih => exact ⟨ih.1, h.2.1⟩
  constructor
  · rw [(C01_getAncestors_exact g s₁ _ coll).2, lastWith_iff_mem g coll hd]
    simp only [Graph.toTensor, ne_eq, Node.rv.injEq]
    constructor
    · rintro ⟨h1, h2, h3⟩; exact ⟨h2, transGen_split hd h1 hx h2 h3⟩
    · rintro ⟨h1, h2⟩; exact ⟨(hmem h2).1, h1, reaches_of_transGen h2⟩
  · rw [(C02_getDescendants_exact g hg s₁ _ coll).2, lastWith_iff_mem g coll hd]
    simp only [Graph.toTensor, ne_eq, Node.rv.injEq]
    constructor
    · rintro ⟨h1, h2, h3⟩; exact ⟨h2, transGen_split hd hx h1 (fun h => h2 h.symm) h3⟩
    · rintro ⟨h1, h2⟩; exact ⟨(hmem h2).2, h1, reaches_of_transGen h2⟩

/-! ### C07 -/

private theorem mem_foldl_update {A : Type} (f : A → List R) (l : List A) (s : List R) (r : R) :
    r ∈ l.foldl (fun s a => setUpdate s (f a)) s ↔ r ∈ s ∨ ∃ a ∈ l, r ∈ f a := by
  induction l generalizing s with
  | nil => simp
  | cons a l ih => simp only [List.foldl_cons, ih, mem_setUpdate, List.exists_mem_cons_iff]; tauto

private theorem mem_zipIdx_fst {A : Type} (l : List A) (P : A → Nat → Prop) :
    (∃ p ∈ l.zipIdx, P p.1 p.2) ↔ ∃ i, ∃ h : i < l.length, P l[i] i := by
  constructor
  · rintro ⟨⟨a, i⟩, h, hP⟩
    rw [List.mk_mem_zipIdx_iff_getElem?] at h
    obtain ⟨hi, rfl⟩ := List.getElem?_eq_some_iff.mp h
    exact ⟨i, hi, hP⟩
  · rintro ⟨i, hi, hP⟩
    exact ⟨(l[i], i), by rw [List.mk_mem_zipIdx_iff_getElem?]; simp [hi], hP⟩

/-- C07, siblings: the other children of `x`'s parents. -/
theorem C07_getSiblings_exact (g : Graph T O R) (hg : g.Consistent) (sched : Nat → Nat → Nat)
    (coll : List R) (hd : DistinctValues g coll) (x : R) (hx : x ∈ coll) (r : R) :
    r ∈ getSiblings g sched (.rv x) coll ↔
      r ≠ x ∧ ∃ p, g.ParentOf coll p x ∧ g.ParentOf coll p r := by
  unfold getSiblings discardNode
  simp only [List.mem_filter, mem_foldl_update, List.not_mem_nil, false_or, ne_eq, Node.rv.injEq,
    decide_eq_true_eq]
  rw [mem_zipIdx_fst (getParents g (sched 0) (.rv x) coll)
    (fun a i => r ∈ getChildren g (sched (i + 1)) (.rv a) coll)]
  constructor
  · rintro ⟨⟨i, hi, h⟩, hne⟩
    have hp := (C03_getParents_direct g (sched 0) coll hd x hx _).mp (List.getElem_mem hi)
    exact ⟨hne, _, hp, (C04_getChildren_direct g hg _ coll hd _ hp.1 r).mp h⟩
  · rintro ⟨hne, p, h1, h2⟩
    obtain ⟨i, hi, rfl⟩ := List.mem_iff_getElem.mp
      ((C03_getParents_direct g (sched 0) coll hd x hx p).mpr h1)
    exact ⟨⟨i, hi, (C04_getChildren_direct g hg _ coll hd _ h1.1 r).mpr h2⟩, hne⟩

/-- C07, Markov blanket: parents, children and parents of children, without `x`. -/
theorem C07_getBlanket_exact (g : Graph T O R) (hg : g.Consistent) (sched : Nat → Nat → Nat)
    (coll : List R) (hd : DistinctValues g coll) (x : R) (hx : x ∈ coll) (r : R) :
    r ∈ getBlanket g sched (.rv x) coll ↔
      r ≠ x ∧ (g.ParentOf coll r x ∨ g.ParentOf coll x r ∨
        ∃ c, g.ParentOf coll x c ∧ g.ParentOf coll r c) := by
  unfold getBlanket discardNode
  simp only [List.mem_filter, mem_foldl_update, mem_setUpdate, List.not_mem_nil, false_or, ne_eq,
    Node.rv.injEq, decide_eq_true_eq]
  rw [mem_zipIdx_fst (getChildren g (sched 1) (.rv x) coll)
    (fun a i => r ∈ getParents g (sched (i + 2)) (.rv a) coll),
    C03_getParents_direct g _ coll hd x hx, C04_getChildren_direct g hg _ coll hd x hx]
  constructor
  · rintro ⟨(h | h) | ⟨i, hi, h⟩, hne⟩
    · exact ⟨hne, Or.inl h⟩
    · exact ⟨hne, Or.inr (Or.inl h)⟩
    · have hc := (C04_getChildren_direct g hg _ coll hd x hx _).mp (List.getElem_mem hi)
      exact ⟨hne, Or.inr (Or.inr ⟨_, hc, (C03_getParents_direct g _ coll hd _ hc.2.1 r).mp h⟩)⟩
  · rintro ⟨hne, h | h | ⟨c, h1, h2⟩⟩
    · exact ⟨Or.inl (Or.inl h), hne⟩
    · exact ⟨Or.inl (Or.inr h), hne⟩
    · obtain ⟨i, hi, rfl⟩ := List.mem_iff_getElem.mp
        ((C04_getChildren_direct g hg (sched 1) coll hd x hx c).mpr h1)
      exact ⟨Or.inr ⟨i, hi, (C03_getParents_direct g _ coll hd _ h1.2.1 r).mpr h2⟩, hne⟩

/-- C07, symmetry of the Markov blanket. -/
theorem C07_blanket_symmetric (g : Graph T O R) (hg : g.Consistent) (s₁ s₂ : Nat → Nat → Nat)
    (coll : List R) (hd : DistinctValues g coll) (x y : R) (hx : x ∈ coll) (hy : y ∈ coll) :
    y ∈ getBlanket g s₁ (.rv x) coll ↔ x ∈ getBlanket g s₂ (.rv y) coll := by
  rw [C07_getBlanket_exact g hg s₁ coll hd x hx, C07_getBlanket_exact g hg s₂ coll hd y hy]
  constructor
  all_goals
    rintro ⟨hne, h | h | ⟨c, h1, h2⟩⟩
    · exact ⟨fun h => hne h.symm, Or.inr (Or.inl h)⟩
    · exact ⟨fun h => hne h.symm, Or.inl h⟩
    · exact ⟨fun h => hne h.symm, Or.inr (Or.inr ⟨c, h2, h1⟩)⟩

/-! ### C08 -/

/-- C08. `get_variables` returns, without duplicates, exactly the variables whose
name is the name of a tensor `x` depends on. -/
theorem C08_getVariables_exact (g : Graph T O R) {S : Type} [DecidableEq S] (tname : T → S)
    (vname : V → S) (sched : Nat → Nat) (x : Node T R) (coll : List V) :
    (getVariables g tname vname sched x coll).Nodup ∧
    ∀ v, v ∈ getVariables g tname vname sched x coll ↔
      LastWith vname coll v ∧ ∃ t, tname t = vname v ∧ g.Reaches t (g.toTensor x) := by
  obtain ⟨h1, h2, _, _⟩ := wloop_correct (variablesBody g tname vname coll) x sched
  refine ⟨h2, fun v => ?_⟩
  unfold getVariables
  rw [h1 v, pushes_back_iff g (variablesBody g tname vname coll) (fun _ => True)
    (fun n m => by rw [true_and, ← mem_backward]; rfl) x
    (fun n => (variablesBody g tname vname coll n).1 = some v)
    (fun n m h => by simp only [variablesBody, h])]
  simp only [variablesBody, nodeDict_eq_some, and_true, Graph.toTensor]
  constructor
  · rintro ⟨t, h, h1, h2⟩; exact ⟨h1, t, h2.symm, h⟩
  · rintro ⟨h1, t, h2, h⟩; exact ⟨t, h, h1, h2.symm⟩

/-! ### C09 -/

/-- C09. Every query loop stops: for each pop order the work list is empty after
finitely many iterations, no node is expanded twice, and exactly the nodes
reachable through the loop body are expanded. The five queries are instances. -/
theorem C09_queries_terminate {N W : Type} [DecidableEq N] [Fintype N] [DecidableEq W]
    (body : N → Option W × List N) (sched : Nat → Nat) (x : N) :
    ∃ n, (wstate body sched x n).nodes = [] ∧
      (wstate body sched x n).output = (wloop body sched 0 (winit x)).output ∧
      (wstate body sched x n).visited.Nodup ∧
      (wstate body sched x n).visited.length ≤ Fintype.card N := by
  obtain ⟨n, h1, h2⟩ := wloop_reached body sched x 0 (winit x) rfl
  obtain ⟨_, _, h3, _⟩ := wloop_correct body x sched
  refine ⟨n, h2, by rw [h1], h1 ▸ h3, ?_⟩
  exact (h1 ▸ h3 : (wstate body sched x n).visited.Nodup).length_le_card

/-! ### Non-vacuity: the graph of `d = Normal(b * c)`, `b = Normal(a)` -/

/-- Tensors 0..3 are the samples of `a b c d`, tensor 4 is `b * c`; op `i` makes
tensor `i`. -/
def exGraph : Graph (Fin 5) (Fin 5) (Fin 4) where
  op := id
  inputs := ![[], [0], [], [4], [1, 2]]
  outputs := fun o => [o]
  consumers := ![[1], [4], [4], [], [3]]
  value := ![0, 1, 2, 3]

theorem exGraph_consistent : exGraph.Consistent := by
  constructor
  · decide
  · intro t o; simp [exGraph]

def exColl : List (Fin 4) := [0, 1, 2, 3]

theorem exColl_distinct : DistinctValues exGraph exColl := by unfold DistinctValues; decide

-- `b` is a parent of `d` (through the product), `a` is not.
example : exGraph.ParentOf exColl 1 3 := by
  refine ⟨by decide, by decide, by decide, ?_⟩
  refine .cons (w := 4) (by unfold Graph.Edge; decide) ?_ (.edge (by unfold Graph.Edge; decide))
  rintro ⟨c, hc, h⟩; revert c; decide

example (s : Nat → Nat) : (1 : Fin 4) ∈ getParents exGraph s (.rv 3) exColl :=
  (C03_getParents_direct exGraph s exColl exColl_distinct 3 (by decide) 1).mpr
    ⟨by decide, by decide, by decide, .cons (w := 4) (by unfold Graph.Edge; decide)
      (by rintro ⟨c, hc, h⟩; revert c; decide) (.edge (by unfold Graph.Edge; decide))⟩

example (s : Nat → Nat) : (0 : Fin 4) ∈ getAncestors exGraph s (.rv 3) exColl :=
  ((C06_ancestors_transitive exGraph exGraph_consistent exColl exColl_distinct s s 3
    (by decide) 0).1).mpr ⟨by decide,
      (TransGen.single (b := (1 : Fin 4)) ⟨by decide,
        (C03_getParents_direct exGraph s exColl exColl_distinct 1 (by decide) 0).mpr
          ⟨by decide, by decide, by decide, .edge (by unfold Graph.Edge; decide)⟩⟩).tail
      ⟨by decide, (C03_getParents_direct exGraph s exColl exColl_distinct 3 (by decide) 1).mpr
        ⟨by decide, by decide, by decide, .cons (w := 4) (by unfold Graph.Edge; decide)
          (by rintro ⟨c, hc, h⟩; revert c; decide) (.edge (by unfold Graph.Edge; decide))⟩⟩⟩

end Edward
