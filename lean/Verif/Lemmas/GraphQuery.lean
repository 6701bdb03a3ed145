/- Helper lemmas on the work-list loop and on dependency paths. -/
import Verif.Spec.Graph

set_option linter.unusedSectionVars false

namespace Edward
open Relation

section Loop
variable {N W : Type} [DecidableEq N] [DecidableEq W]

theorem mem_setUpdate {s new : List N} {n : N} : n ∈ setUpdate s new ↔ n ∈ s ∨ n ∈ new := by
  induction new generalizing s with
  | nil => simp [setUpdate]
  | cons a l ih =>
    have := ih (s := s.insert a)
    simp only [setUpdate, List.foldl_cons] at this ⊢
    rw [this]; simp only [List.mem_insert_iff, List.mem_cons]; tauto

theorem nodup_setUpdate {s new : List N} (h : s.Nodup) : (setUpdate s new).Nodup := by
  induction new generalizing s with
  | nil => simpa [setUpdate]
  | cons a l ih => exact ih (List.Nodup.insert h)

theorem mem_addOpt {o : Option W} {s : List W} {w : W} : w ∈ addOpt o s ↔ o = some w ∨ w ∈ s := by
  cases o with
  | none => simp [addOpt]
  | some a => simp [addOpt, List.mem_insert_iff, eq_comm]

theorem nodup_addOpt {o : Option W} {s : List W} (h : s.Nodup) : (addOpt o s).Nodup := by
  cases o with
  | none => simpa [addOpt]
  | some a => exact List.Nodup.insert h

/-- Nodes pushed by the body of a visited node. -/
def Pushes (body : N → Option W × List N) (n m : N) : Prop := m ∈ (body n).2

structure WInv (body : N → Option W × List N) (x : N) (s : WState N W) : Prop where
  closed : ∀ n ∈ s.visited, ∀ m, Pushes body n m → m ∈ s.visited ∨ m ∈ s.nodes
  start : x ∈ s.visited ∨ x ∈ s.nodes
  reach : ∀ n, n ∈ s.visited ∨ n ∈ s.nodes → ReflTransGen (Pushes body) x n
  out : ∀ w, w ∈ s.output ↔ ∃ n ∈ s.visited, (body n).1 = some w
  ndOut : s.output.Nodup
  ndVis : s.visited.Nodup
  ndNodes : s.nodes.Nodup

theorem winv_init (body : N → Option W × List N) (x : N) : WInv body x (winit x) := by
  constructor <;> simp [winit]
  exact ReflTransGen.refl

theorem mem_eraseIdx_of {l : List N} {i : Nat} (h : i < l.length) {n : N} (hn : n ∈ l) :
    n = l[i] ∨ n ∈ l.eraseIdx i := by
  rcases List.mem_iff_getElem.mp hn with ⟨j, hj, rfl⟩
  by_cases hij : j = i
  · left; subst hij; rfl
  · right
    rw [List.mem_eraseIdx_iff_getElem]
    exact ⟨j, hj, hij, rfl⟩

theorem winv_step (body : N → Option W × List N) (x : N) (i : Nat) (s : WState N W)
    (h : WInv body x s) : WInv body x (wstep body i s) := by
  unfold wstep
  split
  · exact h
  · rename_i node hnode
    obtain ⟨hi, hget⟩ := List.getElem?_eq_some_iff.mp hnode
    have hmem : node ∈ s.nodes := hget ▸ List.getElem_mem hi
    have hsub : ∀ n, n ∈ s.nodes.eraseIdx (i % s.nodes.length) → n ∈ s.nodes :=
      fun n hn => List.mem_of_mem_eraseIdx hn
    have hcov : ∀ n ∈ s.nodes, n = node ∨ n ∈ s.nodes.eraseIdx (i % s.nodes.length) := by
      intro n hn
      have := mem_eraseIdx_of hi hn
      rwa [hget] at this
    have hnd : (s.nodes.eraseIdx (i % s.nodes.length)).Nodup :=
      h.ndNodes.sublist (List.eraseIdx_sublist ..)
    dsimp only
    split
    · rename_i hv
      refine ⟨?_, ?_, ?_, h.out, h.ndOut, h.ndVis, hnd⟩
      · intro n hn m hm
        rcases h.closed n hn m hm with h1 | h1
        · exact Or.inl h1
        · rcases hcov m h1 with rfl | h2
          · exact Or.inl hv
          · exact Or.inr h2
      · rcases h.start with h1 | h1
        · exact Or.inl h1
        · rcases hcov x h1 with h2 | h2
          · exact Or.inl (h2 ▸ hv)
          · exact Or.inr h2
      · intro n hn
        apply h.reach n
        exact hn.imp id (hsub n)
    · rename_i hv
      refine ⟨?_, ?_, ?_, ?_, nodup_addOpt h.ndOut, ?_, nodup_setUpdate hnd⟩
      · intro n hn m hm
        simp only [List.mem_cons, mem_setUpdate] at hn ⊢
        rcases hn with rfl | hn
        · exact Or.inr (Or.inr hm)
        · rcases h.closed n hn m hm with h1 | h1
          · exact Or.inl (Or.inr h1)
          · rcases hcov m h1 with rfl | h2
            · exact Or.inl (Or.inl rfl)
            · exact Or.inr (Or.inl h2)
      · simp only [List.mem_cons, mem_setUpdate]
        rcases h.start with h1 | h1
        · exact Or.inl (Or.inr h1)
        · rcases hcov x h1 with h2 | h2
          · exact Or.inl (Or.inl h2)
          · exact Or.inr (Or.inl h2)
      · intro n hn
        simp only [List.mem_cons, mem_setUpdate] at hn
        have hr := h.reach node (Or.inr hmem)
        rcases hn with (rfl | h1) | (h1 | h1)
        · exact hr
        · exact h.reach n (Or.inl h1)
        · exact h.reach n (Or.inr (hsub n h1))
        · exact hr.tail h1
      · intro w
        simp only [mem_addOpt, h.out w, List.mem_cons, exists_eq_or_imp]
      · exact List.nodup_cons.mpr ⟨hv, h.ndVis⟩

variable [Fintype N]

theorem wloop_inv (body : N → Option W × List N) (x : N) (sched : Nat → Nat) (k : Nat)
    (s : WState N W) (h : WInv body x s) :
    WInv body x (wloop body sched k s) ∧ (wloop body sched k s).nodes = [] := by
  fun_induction wloop body sched k s with
  | case1 k s hs => exact ⟨h, hs⟩
  | case2 k s hs ih => exact ih (winv_step body x (sched k) s h)

/-- The loop visits exactly the reachable nodes, once each, and outputs exactly
what their bodies emit, whatever the pop order. -/
theorem wloop_correct (body : N → Option W × List N) (x : N) (sched : Nat → Nat) :
    let f := wloop body sched 0 (winit x)
    (∀ w, w ∈ f.output ↔ ∃ n, ReflTransGen (Pushes body) x n ∧ (body n).1 = some w) ∧
    f.output.Nodup ∧ f.visited.Nodup ∧ (∀ n, n ∈ f.visited ↔ ReflTransGen (Pushes body) x n) := by
  intro f
  obtain ⟨hI, hn⟩ := wloop_inv body x sched 0 (winit x) (winv_init body x)
  change WInv body x f at hI
  change f.nodes = [] at hn
  have hvis : ∀ n, n ∈ f.visited ↔ ReflTransGen (Pushes body) x n := by
    intro n
    constructor
    · exact fun h => hI.reach n (Or.inl h)
    · intro h
      induction h with
      | refl => have := hI.start; simpa [hn] using this
      | tail _ hp ih => have := hI.closed _ ih _ hp; simpa [hn] using this
  refine ⟨?_, hI.ndOut, hI.ndVis, hvis⟩
  intro w
  rw [hI.out w]
  simp only [hvis]

/-- State of the loop after `k` iterations. -/
def wstate (body : N → Option W × List N) (sched : Nat → Nat) (x : N) : Nat → WState N W
  | 0 => winit x
  | k + 1 => wstep body (sched k) (wstate body sched x k)

theorem wloop_reached (body : N → Option W × List N) (sched : Nat → Nat) (x : N) (k : Nat)
    (s : WState N W) (hs : s = wstate body sched x k) :
    ∃ n, wloop body sched k s = wstate body sched x n ∧ (wstate body sched x n).nodes = [] := by
  fun_induction wloop body sched k s with
  | case1 k s h => exact ⟨k, hs, hs ▸ h⟩
  | case2 k s h ih => exact ih (by rw [hs]; rfl)

end Loop

section Dict
variable {K W : Type} [DecidableEq K]

theorem nodeDict_append (key : W → K) (l : List W) (w : W) :
    nodeDict key (l ++ [w]) = fun k => if k = key w then some w else nodeDict key l k := by
  simp [nodeDict, List.foldl_append]

theorem nodeDict_eq_some (key : W → K) (l : List W) (k : K) (w : W) :
    nodeDict key l k = some w ↔ LastWith key l w ∧ key w = k := by
  induction l using List.reverseRecOn with
  | nil => simp [nodeDict, LastWith]
  | append_singleton l a ih =>
    rw [nodeDict_append]
    dsimp only
    by_cases hk : k = key a
    · rw [if_pos hk]
      constructor
      · rintro ⟨⟩; exact ⟨⟨l, [], rfl, by simp⟩, hk.symm⟩
      · rintro ⟨⟨pre, post, he, hp⟩, rfl⟩
        rcases List.eq_nil_or_concat post with rfl | ⟨post', b, rfl⟩
        · have := List.append_inj' he rfl; simp at this; simp [this.2]
        · have he' : l ++ [a] = (pre ++ w :: post') ++ [b] := by simp [he]
          have := List.append_inj' he' rfl
          simp at this
          have := hp b (by simp)
          simp_all
    · rw [if_neg hk, ih]
      constructor
      · rintro ⟨⟨pre, post, he, hp⟩, rfl⟩
        refine ⟨⟨pre, post ++ [a], by simp [he], ?_⟩, rfl⟩
        intro w' hw'
        simp at hw'
        rcases hw' with h | rfl
        · exact hp _ h
        · exact fun h => hk h.symm
      · rintro ⟨⟨pre, post, he, hp⟩, rfl⟩
        rcases List.eq_nil_or_concat post with rfl | ⟨post', b, rfl⟩
        · have := List.append_inj' he rfl; simp at this; exact absurd (by rw [this.2]) hk
        · have he' : l ++ [a] = (pre ++ w :: post') ++ [b] := by simp [he]
          have := List.append_inj' he' rfl
          simp at this
          exact ⟨⟨pre, post', this.1, fun w' hw' => hp w' (by simp [hw'])⟩, rfl⟩

omit [DecidableEq K] in
theorem LastWith.mem {key : W → K} {l : List W} {w : W} (h : LastWith key l w) : w ∈ l := by
  obtain ⟨pre, post, rfl, _⟩ := h; simp

end Dict

section Paths
variable {T O R : Type}

theorem lastWith_iff_mem (g : Graph T O R) (coll : List R) (hd : DistinctValues g coll) (r : R) :
    LastWith g.value coll r ↔ r ∈ coll := by
  constructor
  · exact LastWith.mem
  · intro h
    -- split at the last occurrence of r
    obtain ⟨pre, post, he, hn⟩ : ∃ pre post, coll = pre ++ r :: post ∧ r ∉ post := by
      clear hd
      induction coll using List.reverseRecOn with
      | nil => simp at h
      | append_singleton l a ih =>
        by_cases hra : r = a
        · exact ⟨l, [], by simp [hra], by simp⟩
        · have : r ∈ l := by simpa [hra] using h
          obtain ⟨pre, post, he, hn⟩ := ih this
          exact ⟨pre, post ++ [a], by simp [he], by simp [hn, hra]⟩
    refine ⟨pre, post, he, ?_⟩
    intro w hw hval
    have := hd w (by simp [he, hw]) r h hval
    exact hn (this ▸ hw)

variable {E : T → T → Prop} {V : T → Prop}

theorem Direct.snoc {u w v : T} (h : Direct E V u w) (hw : ¬ V w) (he : E w v) :
    Direct E V u v := by
  induction h with
  | edge h1 => exact .cons h1 hw (.edge he)
  | cons h1 h2 _ ih => exact .cons h1 h2 (ih hw he)

theorem Direct.reaches {u v : T} (h : Direct E V u v) : TransGen E u v := by
  induction h with
  | edge h1 => exact .single h1
  | cons h1 _ _ ih => exact TransGen.head h1 ih

/-- Backward search stopping at samples other than `b` finds exactly direct paths. -/
theorem direct_of_back {a b : T} (hab : a ≠ b)
    (h : ReflTransGen (fun s t => E s t ∧ (V t → t = b)) a b) : Direct E V a b := by
  revert hab
  refine ReflTransGen.head_induction_on h ?_ ?_
  · exact fun h => absurd rfl h
  · intro a c hac _ ih hne
    by_cases hcb : c = b
    · exact .edge (hcb ▸ hac.1)
    · exact .cons hac.1 (fun hv => hcb (hac.2 hv)) (ih hcb)

theorem back_of_direct {a b : T} (h : Direct E V a b) :
    ReflTransGen (fun s t => E s t ∧ (V t → t = b)) a b := by
  induction h with
  | edge h1 => exact .single ⟨h1, fun _ => rfl⟩
  | cons h1 h2 _ ih => exact .head ⟨h1, fun h => absurd h h2⟩ ih

/-- Forward search stopping at samples other than `a`. -/
theorem direct_of_forth {a b : T} (hab : a ≠ b)
    (h : ReflTransGen (fun s t => E s t ∧ (V s → s = a)) a b) : Direct E V a b := by
  induction h with
  | refl => exact absurd rfl hab
  | @tail b c _ hbc ih =>
    by_cases hb : a = b
    · exact .edge (hb ▸ hbc.1)
    · exact (ih hb).snoc (fun hv => hb (hbc.2 hv).symm) hbc.1

theorem forth_of_direct {a b : T} (h : Direct E V a b) :
    ReflTransGen (fun s t => E s t ∧ (V s → s = a)) a b := by
  -- convert through the snoc presentation
  have key : ∀ u v, Direct E V u v → ∀ a, ReflTransGen (fun s t => E s t ∧ (V s → s = a)) a u →
      (V u → u = a) → ReflTransGen (fun s t => E s t ∧ (V s → s = a)) a v := by
    intro u v h
    induction h with
    | edge h1 => exact fun a hau hu => hau.tail ⟨h1, hu⟩
    | cons h1 h2 _ ih => exact fun a hau hu => ih a (hau.tail ⟨h1, hu⟩) (fun h => absurd h h2)
  exact key a b h a .refl (fun _ => rfl)

/-- Any path splits at the samples it meets. -/
theorem transGen_split {g : Graph T O R} {coll : List R} (hd : DistinctValues g coll)
    {a b : R} (ha : a ∈ coll) (hb : b ∈ coll) (hab : a ≠ b)
    (h : ReflTransGen g.Edge (g.value a) (g.value b)) :
    TransGen (g.ParentOf coll) a b := by
  -- head induction with a direct prefix
  have key : ∀ t, ReflTransGen g.Edge t (g.value b) → ∀ a ∈ coll, a ≠ b →
      Direct g.Edge (g.IsSample coll) (g.value a) t ∨ g.value a = t →
      TransGen (g.ParentOf coll) a b := by
    intro t ht
    refine ReflTransGen.head_induction_on ht ?_ ?_
    · intro a ha hab h
      rcases h with h | h
      · exact .single ⟨ha, hb, hab, h⟩
      · exact absurd (hd a ha b hb h) hab
    · intro s t hst _ ih a ha hab h
      rcases h with h | h
      · by_cases hs : g.IsSample coll s
        · obtain ⟨c, hc, rfl⟩ := hs
          by_cases hcb : c = b
          · exact .single ⟨ha, hb, hab, hcb ▸ h⟩
          · have h2 := ih c hc hcb (Or.inl (.edge hst))
            by_cases hac : a = c
            · exact hac ▸ h2
            · exact TransGen.head ⟨ha, hc, hac, h⟩ h2
        · exact ih a ha hab (Or.inl (h.snoc hs hst))
      · exact ih a ha hab (Or.inl (.edge (h ▸ hst)))
  exact key _ h a ha hab (Or.inr rfl)

theorem reaches_of_transGen {g : Graph T O R} {coll : List R} {a b : R}
    (h : TransGen (g.ParentOf coll) a b) : ReflTransGen g.Edge (g.value a) (g.value b) := by
  induction h with
  | single h => exact h.2.2.2.reaches.to_reflTransGen
  | tail _ h ih => exact ih.trans h.2.2.2.reaches.to_reflTransGen

end Paths
end Edward
