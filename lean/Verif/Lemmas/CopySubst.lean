/-
The invariant of `copy`: every new operation is the copy of an old one.
-/
import Verif.Lemmas.Copy
import Mathlib.Data.List.Forall2

namespace Edward

open Copy Spec

variable {uniq : Graph → Name → Name} {parents : Node → List ℕ} {swap : List (Node × Node)} {scope : Name}

theorem mapM_some {α β : Type} {f : α → Option β} {l : List α} {r : List β} :
    l.mapM f = some r → List.Forall₂ (fun a b => f a = some b) l r := by
  induction l generalizing r with
  | nil => intro h; simp at h; subst h; exact .nil
  | cons a l ih =>
    intro h
    rw [List.mapM_cons] at h
    rcases ha : f a with _ | b
    · simp [ha] at h
    · rcases hl : l.mapM f with _ | bs
      · simp [ha, hl] at h
      · simp [ha, hl] at h
        subst h
        exact .cons ha (ih hl)

section
variable (G0 : Graph) (swap : List (Node × Node)) (scope : Name)

/-- `t'` stands for `t`, which is not replaced: the same source, or the copy. -/
def Core (C : ℕ → ℕ → Prop) (t t' : Tensor) : Prop :=
  (∃ op : Op, G0.ops[t.1]? = some op ∧ (∀ k, op.kind ≠ .compute k) ∧ t' = t) ∨ (C t.1 t'.1 ∧ t'.2 = t.2)

/-- `t'` stands for `t`. -/
def Rel (C : ℕ → ℕ → Prop) (t t' : Tensor) : Prop :=
  SwapTo G0 swap t t' ∨ ((∀ u, ¬ SwapTo G0 swap t u) ∧ Core G0 C t t')

/-- The graph `G` is `G0` and copies of its operations: `C` relates them, and the inputs of the
operations in `P` are not there yet. -/
structure Inv (C : ℕ → ℕ → Prop) (P : ℕ → Prop) (G : Graph) : Prop where
  ext : Extends G0 G
  img : ∀ o o', C o o' → ∃ (op op' : Op) (k : ℕ), G0.ops[o]? = some op ∧ G.ops[o']? = some op' ∧ op.kind = .compute k ∧ op'.kind = op.kind ∧
    op'.nOut = op.nOut ∧ (∀ n, (.op o, n) ∉ swap) ∧ (¬ P o' → List.Forall₂ (Rel G0 swap C) op.inputs op'.inputs)
  inj : ∀ o1 o2 o', C o1 o' → C o2 o' → o1 = o2
  new : ∀ (o' : ℕ) (op' : Op), G.ops[o']? = some op' → G0.ops.length ≤ o' →
    ∃ o, C o o' ∧ ∀ (o1 : ℕ) (op1 : Op), G0.ops[o1]? = some op1 → op'.name = scope ++ op1.name → o1 = o
  rvs : ∀ (r' : ℕ) (rv' : RV), G.rvs[r']? = some rv' → G0.rvs.length ≤ r' →
    ∃ (r : ℕ) (rv : RV), G0.rvs[r]? = some rv ∧ rv'.name = scope ++ rv.name ∧ C rv.value rv'.value
  fresh : ∀ o o', C o o' → G0.ops.length ≤ o'

def PostT (rep : Bool) (C : ℕ → ℕ → Prop) (t t' : Tensor) : Prop :=
  (SwapTo G0 swap t t' ∧ (rep = true ∨ ∃ n, (.op t.1, n) ∈ swap)) ∨
    ((rep = true → ∀ u, ¬ SwapTo G0 swap t u) ∧ Core G0 C t t')

/-- What a call returns. -/
def Post (C : ℕ → ℕ → Prop) (G' : Graph) (x : Node) (rep : Bool) (y : Node) : Prop :=
  (∃ o o', x = .op o ∧ y = .op o' ∧ ((.op o, .op o') ∈ swap ∨
    ((∀ n, (.op o, n) ∉ swap) ∧ ((∃ op : Op, G0.ops[o]? = some op ∧ op.kind = .queue ∧ o' = o) ∨ C o o')))) ∨
  ∃ t t', G0.convert x = some t ∧ G'.convert y = some t' ∧ PostT G0 swap rep C t t'

/-- A call that occurs. -/
def OkOne (x : Node) (rep : Bool) : Prop :=
  Mem G0 x ∧ ∀ o, x = .op o → (rep = false → ∀ n, (.op o, n) ∉ swap) ∧
    ∃ op : Op, G0.ops[o]? = some op ∧ ((∃ k, op.kind = .compute k) ∨ op.kind = .queue)

def OkTask : Task → Prop
  | .one x rep _ => OkOne G0 swap x rep
  | .all xs _ => ∀ x ∈ xs, OkOne G0 swap x true

def PostTask (C : ℕ → ℕ → Prop) (G' : Graph) : Task → List Node → Prop
  | .one x rep _, ys => ∃ y, ys = [y] ∧ Post G0 swap C G' x rep y
  | .all xs _, ys => List.Forall₂ (fun x y => Post G0 swap C G' x true y) xs ys

end

variable {G0 : Graph}

theorem Core.mono {C C' : ℕ → ℕ → Prop} (h : ∀ o o', C o o' → C' o o') {t t' : Tensor} (hc : Core G0 C t t') : Core G0 C' t t' :=
  hc.imp id fun hc => ⟨h _ _ hc.1, hc.2⟩

theorem Rel.mono {C C' : ℕ → ℕ → Prop} (h : ∀ o o', C o o' → C' o o') {t t' : Tensor} (hc : Rel G0 swap C t t') :
    Rel G0 swap C' t t' := hc.imp id fun hc => ⟨hc.1, hc.2.mono h⟩

theorem convert_extends {G G' : Graph} (h : Extends G G') {y : Node} {t : Tensor} (hy : G.convert y = some t) :
    G'.convert y = some t := by
  cases y with
  | op o => simp [Graph.convert] at hy
  | tensor t => exact hy
  | var o => exact hy
  | rv r =>
    simp only [Graph.convert, Graph.valueOf, Option.map_eq_some_iff] at hy ⊢
    obtain ⟨rv, h1, h2⟩ := hy
    exact ⟨rv, prefix_getElem? h.2 h1, h2⟩

theorem Post.mono {C C' : ℕ → ℕ → Prop} (h : ∀ o o', C o o' → C' o o') {G G' : Graph} (he : Extends G G') {x y : Node}
    {rep : Bool} (hp : Post G0 swap C G x rep y) : Post G0 swap C' G' x rep y := by
  rcases hp with ⟨o, o', h1, h2, h3⟩ | ⟨t, t', h1, h2, h3⟩
  · exact .inl ⟨o, o', h1, h2, h3.imp id fun h3 => ⟨h3.1, h3.2.imp id fun h3 => h _ _ h3⟩⟩
  · exact .inr ⟨t, t', h1, convert_extends he h2, h3.imp id fun h3 => ⟨h3.1, h3.2.mono h⟩⟩

/-! ### The steps -/

theorem Inv.addOp (hs : Setting uniq parents swap scope G0) {C : ℕ → ℕ → Prop} {P : ℕ → Prop} {G : Graph}
    (h : Inv G0 swap scope C P G) {o : ℕ} {op : Op} {k : ℕ} (ho : G0.ops[o]? = some op) (hk : op.kind = .compute k)
    (hn : ∀ n, (.op o, n) ∉ swap) :
    Inv G0 swap scope (fun a b => C a b ∨ (a = o ∧ b = G.ops.length)) (fun a => P a ∨ a = G.ops.length)
      (G.addOp ⟨scope ++ op.name, op.kind, op.nOut, [], []⟩) := by
  have hlt : ∀ a b, C a b → b < G.ops.length := fun a b hab => by
    obtain ⟨_, _, _, _, h2, _⟩ := h.img a b hab
    exact (List.getElem?_eq_some_iff.mp h2).1
  refine ⟨h.ext.trans (extends_addOp _ _), ?_, ?_, ?_, ?_, fun a b hab => hab.elim (h.fresh a b) fun hb =>
    hb.2 ▸ h.ext.1.length_le⟩
  · rintro a b (hab | ⟨rfl, rfl⟩)
    · obtain ⟨p, p', k', h1, h2, h3, h4, h5, h6, h7⟩ := h.img a b hab
      exact ⟨p, p', k', h1, prefix_getElem? (extends_addOp _ _).1 h2, h3, h4, h5, h6, fun hP =>
        (h7 fun hp => hP (.inl hp)).imp fun _ _ hr => hr.mono fun _ _ => .inl⟩
    · exact ⟨op, ⟨scope ++ op.name, op.kind, op.nOut, [], []⟩, k, ho, by simp [Graph.addOp], hk, rfl, rfl, hn,
        fun hP => absurd (.inr rfl) hP⟩
  · rintro a b c (hac | ⟨rfl, rfl⟩) (hbc | ⟨rfl, h'⟩)
    · exact h.inj a b c hac hbc
    · exact absurd (hlt _ _ hac) (by omega)
    · exact absurd (hlt _ _ hbc) (by omega)
    · rfl
  · intro b p hb hlen
    by_cases hbl : b < G.ops.length
    · have hb' : G.ops[b]? = some p := by
        simpa [Graph.addOp, List.getElem?_append_left hbl] using hb
      obtain ⟨a, h1, h2⟩ := h.new b p hb' hlen
      exact ⟨a, .inl h1, h2⟩
    · have hb' : b = G.ops.length := by
        have := (List.getElem?_eq_some_iff.mp hb).1
        simp [Graph.addOp] at this
        omega
      subst hb'
      have hp : p = ⟨scope ++ op.name, op.kind, op.nOut, [], []⟩ := by simpa [Graph.addOp] using hb.symm
      subst hp
      refine ⟨o, .inr ⟨rfl, rfl⟩, fun o1 op1 h1 h2 => ?_⟩
      exact hs.proper.opNames o1 o op1 op h1 ho (List.append_cancel_left h2).symm
  · intro r' rv' hr hlen
    obtain ⟨r, rv, h1, h2, h3⟩ := h.rvs r' rv' hr hlen
    exact ⟨r, rv, h1, h2, .inl h3⟩

theorem Inv.addRV (hs : Setting uniq parents swap scope G0) {C : ℕ → ℕ → Prop} {P : ℕ → Prop} {G : Graph}
    (h : Inv G0 swap scope C P G) {r : ℕ} {rv : RV} {op : Op} (hr : G0.rvs[r]? = some rv) (ho : G0.ops[rv.value]? = some op)
    (args : List Node) (inputs : List Tensor) (hi : List.Forall₂ (Rel G0 swap C) op.inputs inputs) :
    Inv G0 swap scope (fun a b => C a b ∨ (a = rv.value ∧ b = G.ops.length)) P
      (G.addRV uniq (scope ++ rv.name) rv.cls args inputs) := by
  have hmem := List.mem_of_getElem? hr
  obtain ⟨op', ho', hname, hkind, hout, -⟩ := hs.proper.sample rv hmem
  obtain rfl : op' = op := by rw [ho] at ho'; simpa using ho'.symm
  have hlt : ∀ a b, C a b → b < G.ops.length := fun a b hab => by
    obtain ⟨_, _, _, _, h2, _⟩ := h.img a b hab
    exact (List.getElem?_eq_some_iff.mp h2).1
  have hext : Extends G (G.addRV uniq (scope ++ rv.name) rv.cls args inputs) := extends_addRV ..
  refine ⟨h.ext.trans hext, ?_, ?_, ?_, ?_, fun a b hab => hab.elim (h.fresh a b) fun hb => hb.2 ▸ h.ext.1.length_le⟩
  · rintro a b (hab | ⟨rfl, rfl⟩)
    · obtain ⟨p, p', k', h1, h2, h3, h4, h5, h6, h7⟩ := h.img a b hab
      exact ⟨p, p', k', h1, prefix_getElem? hext.1 h2, h3, h4, h5, h6, fun hP =>
        (h7 hP).imp fun _ _ hr => hr.mono fun _ _ => .inl⟩
    · refine ⟨op', ⟨uniq G (scope ++ rv.name ++ sampleSuffix), .compute rv.cls, 1, inputs, []⟩, rv.cls, ho, by simp [Graph.addRV], hkind,
        hkind.symm, hout.symm, fun n hn => (hs.keys.op _ n hn).2.1 rv hmem rfl, fun _ =>
          hi.imp fun _ _ hr => hr.mono fun _ _ => .inl⟩
  · rintro a b c (hac | ⟨rfl, rfl⟩) (hbc | ⟨rfl, h'⟩)
    · exact h.inj a b c hac hbc
    · exact absurd (hlt _ _ hac) (by omega)
    · exact absurd (hlt _ _ hbc) (by omega)
    · rfl
  · intro b p hb hlen
    by_cases hbl : b < G.ops.length
    · have hb' : G.ops[b]? = some p := by
        simpa [Graph.addRV, List.getElem?_append_left hbl] using hb
      obtain ⟨a, h1, h2⟩ := h.new b p hb' hlen
      exact ⟨a, .inl h1, h2⟩
    · have hb' : b = G.ops.length := by
        have := (List.getElem?_eq_some_iff.mp hb).1
        simp [Graph.addRV] at this
        omega
      subst hb'
      have hp : p = ⟨uniq G (scope ++ rv.name ++ sampleSuffix), .compute rv.cls, 1, inputs, []⟩ := by
        simpa [Graph.addRV] using hb.symm
      subst hp
      refine ⟨rv.value, .inr ⟨rfl, rfl⟩, fun o1 op1 h1 h2 => ?_⟩
      have h3 := hs.uniq _ _ op1 (List.mem_of_getElem? h1) h2
      rw [List.append_assoc] at h3
      exact hs.proper.opNames o1 rv.value op1 op' h1 ho (by rw [hname]; exact (List.append_cancel_left h3).symm)
  · intro r' rv' hr' hlen
    by_cases hbl : r' < G.rvs.length
    · have hb' : G.rvs[r']? = some rv' := by
        simpa [Graph.addRV, List.getElem?_append_left hbl] using hr'
      obtain ⟨r, rv, h1, h2, h3⟩ := h.rvs r' rv' hb' hlen
      exact ⟨r, rv, h1, h2, .inl h3⟩
    · have hb' : r' = G.rvs.length := by
        have := (List.getElem?_eq_some_iff.mp hr').1
        simp [Graph.addRV] at this
        omega
      subst hb'
      have hp : rv' = ⟨scope ++ rv.name, rv.cls, args, G.ops.length⟩ := by simpa [Graph.addRV] using hr'.symm
      subst hp
      exact ⟨r, rv, hr, rfl, .inr ⟨rfl, rfl⟩⟩

theorem setInputs_getElem? (G : Graph) (n c t) (i : ℕ) : (G.setInputs n c t).ops[i]? =
    (G.ops[i]?).map fun op => if n = i then { op with control := c, inputs := t } else op := by
  show (List.modify _ _ _)[i]? = _
  rw [List.getElem?_modify]
  rfl

theorem Inv.setInputs {C : ℕ → ℕ → Prop} {P : ℕ → Prop} {G : Graph} {n o : ℕ}
    (h : Inv G0 swap scope C (fun a => P a ∨ a = n) G) (hn : G0.ops.length ≤ n) (hC : C o n) {op : Op} (ho : G0.ops[o]? = some op)
    (c : List ℕ) (t : List Tensor) (ht : List.Forall₂ (Rel G0 swap C) op.inputs t) :
    Inv G0 swap scope C P (G.setInputs n c t) := by
  refine ⟨⟨?_, h.ext.2⟩, ?_, h.inj, ?_, h.rvs, h.fresh⟩
  · rw [List.prefix_iff_getElem?]
    intro i hi
    rw [setInputs_getElem?, prefix_getElem? h.ext.1 (List.getElem?_eq_getElem hi)]
    simp [show ¬ n = i by omega]
  · intro a b hab
    obtain ⟨p, p', k', h1, h2, h3, h4, h5, h6, h7⟩ := h.img a b hab
    refine ⟨p, if n = b then { p' with control := c, inputs := t } else p', k', h1, by rw [setInputs_getElem?, h2]; rfl, h3, ?_, ?_, h6, ?_⟩
    · split_ifs <;> exact h4
    · split_ifs <;> exact h5
    · intro hP
      by_cases hb : n = b
      · subst hb
        obtain rfl := h.inj _ _ _ hab hC
        obtain rfl : p = op := by rw [ho] at h1; simpa using h1.symm
        simpa using ht
      · rw [if_neg hb]
        exact h7 fun hp => hp.elim hP fun hp => hb hp.symm
  · intro b p hb hlen
    rw [setInputs_getElem?, Option.map_eq_some_iff] at hb
    obtain ⟨p', h1, h2⟩ := hb
    obtain ⟨a, h3, h4⟩ := h.new b p' h1 hlen
    refine ⟨a, h3, fun o1 op1 h5 h6 => h4 o1 op1 h5 ?_⟩
    rw [← h6, ← h2]
    split_ifs <;> rfl

theorem swapOf_some {x n : Node} (h : swapOf swap x = some n) : (x, n) ∈ swap := by
  simp only [swapOf, Option.map_eq_some_iff] at h
  obtain ⟨⟨a, b⟩, h1, rfl⟩ := h
  have h2 := List.mem_of_find?_eq_some h1
  have h3 := List.find?_some h1
  simp at h3
  subst h3
  exact h2

theorem swapOf_none {x n : Node} (h : swapOf swap x = none) : (x, n) ∉ swap := by
  simp only [swapOf, Option.map_eq_none_iff, List.find?_eq_none] at h
  intro hn
  simpa using h _ hn

theorem swapTo_functional (hs : Setting uniq parents swap scope G0) {t u u' : Tensor} (h : SwapTo G0 swap t u)
    (h' : SwapTo G0 swap t u') : u = u' := by
  have hval : ∀ r t, G0.valueOf r = some t → ∃ rv, G0.rvs[r]? = some rv ∧ t = (rv.value, 0) := fun r t h => by
    simp only [Graph.valueOf, Option.map_eq_some_iff] at h
    obtain ⟨rv, h1, h2⟩ := h
    exact ⟨rv, h1, h2.symm⟩
  have hvar : ∀ rv ∈ G0.rvs, ¬ Mem G0 (.var rv.value) := fun rv hrv hm => by
    obtain ⟨op, h1, -, h2, -⟩ := hs.proper.sample rv hrv
    simp [Mem, h1, h2] at hm
  cases h with
  | tensor t t' n h hc =>
    have hk := hs.keys.tensor _ _ h
    cases h' with
    | tensor _ _ n' h' hc' =>
      have := hs.keys.nodup _ _ _ h h'
      subst this
      rw [hc] at hc'; simpa using hc'
    | rv r _ _ n' h' hv hc' =>
      obtain ⟨rv, h1, rfl⟩ := hval _ _ hv
      exact absurd rfl (hk.1 rv (List.mem_of_getElem? h1))
    | var o _ n' h' hc' =>
      have := (hs.keys.var _ _ h').1
      simp only [Mem, Option.map_eq_some_iff] at this
      obtain ⟨op, h1, h2⟩ := this
      exact absurd h2 (hk.2.1 op h1 true)
    | op o o' i h' => exact absurd h ((hs.keys.op _ _ h').2.2.2 _ _)
  | rv r t t' n h hv hc =>
    obtain ⟨rv, h1, rfl⟩ := hval _ _ hv
    have hm := List.mem_of_getElem? h1
    cases h' with
    | tensor _ _ n' h' hc' => exact absurd rfl ((hs.keys.tensor _ _ h').1 rv hm)
    | rv r' _ _ n' h' hv' hc' =>
      obtain ⟨rv', h1', h2⟩ := hval _ _ hv'
      have := hs.proper.values r r' rv rv' h1 h1' (congrArg Prod.fst h2)
      subst this
      have := hs.keys.nodup _ _ _ h h'
      subst this
      rw [hc] at hc'; simpa using hc'
    | var o _ n' h' hc' => exact absurd (hs.keys.var _ _ h').1 (hvar rv hm)
    | op o o' i h' => exact absurd rfl ((hs.keys.op _ _ h').2.1 rv hm)
  | var o t' n h hc =>
    have hk := (hs.keys.var _ _ h).1
    cases h' with
    | tensor _ _ n' h' hc' =>
      simp only [Mem, Option.map_eq_some_iff] at hk
      obtain ⟨op, h1, h2⟩ := hk
      exact absurd h2 ((hs.keys.tensor _ _ h').2.1 op h1 true)
    | rv r _ _ n' h' hv hc' =>
      obtain ⟨rv, h1, h2⟩ := hval _ _ hv
      obtain rfl : o = rv.value := congrArg Prod.fst h2
      exact absurd hk (hvar rv (List.mem_of_getElem? h1))
    | var _ _ n' h' hc' =>
      have := hs.keys.nodup _ _ _ h h'
      subst this
      rw [hc] at hc'; simpa using hc'
    | op _ o' i h' =>
      obtain ⟨op, h1, h2⟩ := (hs.keys.op _ _ h').2.2.1
      simp [Mem, h1] at hk
      rcases h2 with ⟨k, h2⟩ | h2 <;> simp [hk] at h2
  | op o o' i h =>
    have hk := hs.keys.op _ _ h
    cases h' with
    | tensor _ _ n' h' hc' => exact absurd h' (hk.2.2.2 _ _)
    | rv r _ _ n' h' hv hc' =>
      obtain ⟨rv, h1, h2⟩ := hval _ _ hv
      obtain rfl : o = rv.value := congrArg Prod.fst h2
      exact absurd rfl (hk.2.1 rv (List.mem_of_getElem? h1))
    | var _ _ n' h' hc' =>
      have hm := (hs.keys.var _ _ h').1
      obtain ⟨op, h1, h2⟩ := hk.2.2.1
      simp [Mem, h1] at hm
      rcases h2 with ⟨k, h2⟩ | h2 <;> simp [hm] at h2
    | op _ o'' _ h' =>
      have := hs.keys.nodup _ _ _ h h'
      simpa using this

theorem swapStep_go {G : Graph} {x x1 : Node} {rep : Bool} (h : swapStep G swap false x rep = (x1, false)) :
    x1 = x ∧ (rep = true → (∀ n, (x, n) ∉ swap) ∧ ∀ t, x = .tensor t → ∀ r n, (.rv r, n) ∈ swap → G.valueOf r ≠ some t) := by
  cases rep
  · simp [swapStep] at h
    exact ⟨h.symm, by simp⟩
  · simp only [swapStep, if_true] at h
    rcases hs : swapOf swap x with _ | v
    · simp only [hs] at h
      cases x with
      | tensor t =>
        simp only at h
        split at h <;> simp at h
        rename_i heq
        refine ⟨h.symm, fun _ => ⟨fun n => swapOf_none hs, ?_⟩⟩
        intro t' ht r n hn
        obtain rfl : t = t' := by simpa using ht
        rw [List.find?_eq_none] at heq
        simpa [Graph.isValueOfKey] using heq _ hn
      | _ =>
        simp at h
        exact ⟨h.symm, fun _ => ⟨fun n => swapOf_none hs, by simp⟩⟩
    · simp [hs] at h

theorem swapStep_stop {G : Graph} {x y : Node} {rep : Bool} (h : swapStep G swap false x rep = (y, true)) :
    rep = true ∧ ((x, y) ∈ swap ∨ ∃ t r n, x = .tensor t ∧ (.rv r, n) ∈ swap ∧ G.valueOf r = some t ∧
      G.convert y = G.convert n) := by
  cases rep
  · simp [swapStep] at h
  · refine ⟨rfl, ?_⟩
    simp only [swapStep, if_true] at h
    rcases hs : swapOf swap x with _ | v
    · simp only [hs] at h
      cases x with
      | tensor t =>
        simp only at h
        split at h
        · rename_i a r' heq
          have h1 := List.mem_of_find?_eq_some heq
          have h2 := List.find?_some heq
          simp only [Graph.isValueOfKey] at h2
          split at h2
          · rename_i r
            refine .inr ⟨t, r, .rv r', rfl, h1, by simpa using h2, ?_⟩
            simp only [Bool.not_false, Prod.mk.injEq, and_true] at h
            rw [← h]
            rcases hv : G.valueOf r' with _ | t'
            · rfl
            · simp [Graph.convert, hv]
          · simp at h2
        · rename_i a v _ heq
          have h1 := List.mem_of_find?_eq_some heq
          have h2 := List.find?_some heq
          simp only [Graph.isValueOfKey] at h2
          split at h2
          · rename_i r
            simp only [Bool.not_false, Prod.mk.injEq, and_true] at h
            subst h
            exact .inr ⟨t, r, v, rfl, h1, by simpa using h2, rfl⟩
          · simp at h2
        · simp at h
      | _ => simp at h
    · simp [hs] at h
      subst h
      exact .inl (swapOf_some hs)

theorem varStep_stop {G : Graph} {x y : Node} {rep : Bool} (h : varStep G swap false x rep = .inl y) :
    ∃ o, G.globalVar x = some o ∧ ((rep = true ∧ (.var o, y) ∈ swap) ∨ ((rep = true → ∀ n, (.var o, n) ∉ swap) ∧ y = .var o)) := by
  rw [varStep] at h
  rcases hg : G.globalVar x with _ | o
  · simp [hg] at h
  · refine ⟨o, rfl, ?_⟩
    simp only [hg] at h
    cases rep
    · simp at h
      exact .inr ⟨by simp, h.symm⟩
    · simp only [if_true] at h
      rcases hs : swapOf swap (.var o) with _ | v
      · simp [hs] at h
        exact .inr ⟨fun _ n => swapOf_none hs, h.symm⟩
      · simp [hs] at h
        subst h
        exact .inl ⟨rfl, swapOf_some hs⟩

theorem varStep_go {G : Graph} {x y : Node} {rep : Bool} (h : varStep G swap false x rep = .inr y) :
    y = x ∧ G.globalVar x = none := by
  rw [varStep] at h
  rcases hg : G.globalVar x with _ | o
  · simp [hg] at h
    exact ⟨h.symm, rfl⟩
  · simp only [hg] at h
    split at h <;> simp at h

theorem globalVar_some {G : Graph} {x : Node} {o : ℕ} (h : G.globalVar x = some o) :
    (x = .tensor (o, 0) ∨ x = .var o) ∧ (G.ops[o]?.map (·.kind)) = some (.variable true) := by
  cases x with
  | op o => simp [Graph.globalVar] at h
  | rv o => simp [Graph.globalVar] at h
  | var o' =>
    simp only [Graph.globalVar] at h
    split_ifs at h with hk
    simp at h
    subst h
    exact ⟨.inr rfl, hk⟩
  | tensor t =>
    obtain ⟨o', i⟩ := t
    cases i with
    | zero =>
      simp only [Graph.globalVar] at h
      split_ifs at h with hk
      simp at h
      subst h
      exact ⟨.inl rfl, hk⟩
    | succ i => simp [Graph.globalVar] at h

/-- Old nodes are what they were. -/
theorem ops_back {G0 G : Graph} (h : Extends G0 G) {o : ℕ} (ho : o < G0.ops.length) : G.ops[o]? = G0.ops[o]? := by
  rw [List.getElem?_eq_getElem ho, prefix_getElem? h.1 (List.getElem?_eq_getElem ho)]

theorem rvs_back {G0 G : Graph} (h : Extends G0 G) {r : ℕ} (hr : r < G0.rvs.length) : G.rvs[r]? = G0.rvs[r]? := by
  rw [List.getElem?_eq_getElem hr, prefix_getElem? h.2 (List.getElem?_eq_getElem hr)]

theorem mem_convert {x : Node} (h : Mem G0 x) (ho : ∀ o, x ≠ .op o) : ∃ t, G0.convert x = some t := by
  cases x with
  | op o => exact absurd rfl (ho o)
  | tensor t => exact ⟨t, rfl⟩
  | var o => exact ⟨_, rfl⟩
  | rv r => exact ⟨(G0.rvs[r].value, 0), by simp [Graph.convert, Graph.valueOf, List.getElem?_eq_getElem h]⟩

/-- The value of a random variable is replaced only with the random variable. -/
theorem rv_not_swapped (hs : Setting uniq parents swap scope G0) {r : ℕ} {rv : RV} (hr : G0.rvs[r]? = some rv)
    (h : ∀ n, (.rv r, n) ∉ swap) (u : Tensor) : ¬ SwapTo G0 swap (rv.value, 0) u := by
  have hm := List.mem_of_getElem? hr
  intro hu
  generalize ht : ((rv.value, 0) : Tensor) = t at hu
  cases hu with
  | tensor _ _ n hn hc => exact (hs.keys.tensor _ _ hn).1 rv hm (by rw [← ht])
  | rv r' _ _ n hn hv hc =>
    simp only [Graph.valueOf, Option.map_eq_some_iff] at hv
    obtain ⟨rv', h1, h2⟩ := hv
    have := hs.proper.values r r' rv rv' hr h1 (by have := ht.trans h2.symm; simpa using this)
    subst this
    exact h n hn
  | var o _ n hn hc =>
    have hk := (hs.keys.var _ _ hn).1
    obtain ⟨op, h1, -, h2, -⟩ := hs.proper.sample rv hm
    obtain rfl : rv.value = o := congrArg Prod.fst ht
    simp [Mem, h1, h2] at hk
  | op o o' i hn => exact (hs.keys.op _ _ hn).2.1 rv hm (congrArg Prod.fst ht)

/-- The tensor of a variable is replaced only with the variable. -/
theorem var_not_swapped (hs : Setting uniq parents swap scope G0) {o : ℕ} (ho : Mem G0 (.var o))
    (h : ∀ n, (.var o, n) ∉ swap) (u : Tensor) : ¬ SwapTo G0 swap (o, 0) u := by
  intro hu
  generalize ht : ((o, 0) : Tensor) = t at hu
  have ho' := ho
  simp only [Mem, Option.map_eq_some_iff] at ho
  obtain ⟨op, h1, h2⟩ := ho
  cases hu with
  | tensor _ _ n hn hc => exact (hs.keys.tensor _ _ hn).2.1 op (by rw [← ht]; exact h1) true h2
  | rv r _ _ n hn hv hc =>
    simp only [Graph.valueOf, Option.map_eq_some_iff] at hv
    obtain ⟨rv', h3, h4⟩ := hv
    obtain ⟨op', h5, -, h6, -⟩ := hs.proper.sample rv' (List.mem_of_getElem? h3)
    have : rv'.value = o := by have := h4.trans ht.symm; simpa using congrArg Prod.fst this
    rw [this, h1] at h5
    simp at h5
    subst h5
    rw [h2] at h6
    simp at h6
  | var o' _ n hn hc => exact h n (by rw [show o = o' from congrArg Prod.fst ht]; exact hn)
  | op o' _ i hn =>
    obtain ⟨op', h5, h6⟩ := (hs.keys.op _ _ hn).2.2.1
    rw [← show o = o' from congrArg Prod.fst ht, h1] at h5
    simp at h5
    subst h5
    rcases h6 with ⟨k, h6⟩ | h6 <;> simp [h2] at h6

/-- Other tensors. -/
theorem tensor_not_swapped (hs : Setting uniq parents swap scope G0) {G : Graph} (he : Extends G0 G) {t : Tensor}
    (h1 : ∀ n, (.tensor t, n) ∉ swap) (h2 : ∀ r n, (.rv r, n) ∈ swap → G.valueOf r ≠ some t)
    (h3 : ¬ Mem G0 (.var t.1)) (h4 : ∀ n, (.op t.1, n) ∉ swap) (u : Tensor) : ¬ SwapTo G0 swap t u := by
  intro hu
  cases hu with
  | tensor _ _ n hn hc => exact h1 n hn
  | rv r _ _ n hn hv hc => exact h2 r n hn (convert_extends (y := .rv r) he hv)
  | var o _ n hn hc => exact h3 (hs.keys.var _ _ hn).1
  | op o o' i hn => exact h4 _ hn

theorem findIdx?_some' {α : Type} {l : List α} {p : α → Bool} {i : ℕ} (h : l.findIdx? p = some i) : ∃ a, l[i]? = some a ∧ p a = true := by
  rw [List.findIdx?_eq_some_iff_getElem] at h
  obtain ⟨hi, hp, -⟩ := h
  exact ⟨l[i], List.getElem?_eq_getElem hi, hp⟩

/-- A node found under the new name is a copy. -/
theorem found_op (hs : Setting uniq parents swap scope G0) {C : ℕ → ℕ → Prop} {P : ℕ → Prop} {G : Graph}
    (h : Inv G0 swap scope C P G) {o o' : ℕ} {op : Op} (ho : G0.ops[o]? = some op) (hf : G.findOp (scope ++ op.name) = some o') : C o o' := by
  obtain ⟨op', h1, h2⟩ := findIdx?_some' hf
  simp at h2
  have hlen : G0.ops.length ≤ o' := by
    by_contra hlt
    have := ops_back h.ext (Nat.lt_of_not_le hlt)
    rw [h1] at this
    exact hs.unused.ops op' (List.mem_of_getElem? this.symm) ⟨_, h2.symm⟩
  obtain ⟨o1, h3, h4⟩ := h.new o' op' h1 hlen
  rwa [h4 o op ho h2]

theorem found_rv (hs : Setting uniq parents swap scope G0) {C : ℕ → ℕ → Prop} {P : ℕ → Prop} {G : Graph}
    (h : Inv G0 swap scope C P G) {r r' : ℕ} {rv : RV} (hr : G0.rvs[r]? = some rv) (hf : G.findRV (scope ++ rv.name) = some r') :
    ∃ rv', G.rvs[r']? = some rv' ∧ C rv.value rv'.value := by
  obtain ⟨rv', h1, h2⟩ := findIdx?_some' hf
  simp at h2
  refine ⟨rv', h1, ?_⟩
  have hlen : G0.rvs.length ≤ r' := by
    by_contra hlt
    have := rvs_back h.ext (Nat.lt_of_not_le hlt)
    rw [h1] at this
    exact hs.unused.rvs rv' (List.mem_of_getElem? this.symm) ⟨_, h2.symm⟩
  obtain ⟨r1, rv1, h3, h4, h5⟩ := h.rvs r' rv' h1 hlen
  rw [h2] at h4
  have := hs.proper.rvNames r r1 rv rv1 hr h3 (List.append_cancel_left h4)
  subst this
  rw [hr] at h3
  simp at h3
  rwa [h3]

theorem PostT.rel {C : ℕ → ℕ → Prop} {t t' : Tensor} (h : PostT G0 swap true C t t') : Rel G0 swap C t t' :=
  h.imp (·.1) fun h => ⟨h.1 rfl, h.2⟩

theorem posts_rel {C : ℕ → ℕ → Prop} {G : Graph} {xs ys : List Node} {ts us : List Tensor}
    (h : List.Forall₂ (fun x y => Post G0 swap C G x true y) xs ys)
    (hx : List.Forall₂ (fun x t => G0.convert x = some t) xs ts) (hy : List.Forall₂ (fun x t => G.convert x = some t) ys us) :
    List.Forall₂ (Rel G0 swap C) ts us := by
  induction h generalizing ts us with
  | nil => cases hx; cases hy; exact .nil
  | cons h _ ih =>
    cases hx with
    | cons hx1 hx2 =>
      cases hy with
      | cons hy1 hy2 =>
        refine .cons ?_ (ih hx2 hy2)
        rcases h with ⟨o, o', rfl, -⟩ | ⟨t, t', h1, h2, h3⟩
        · simp [Graph.convert] at hx1
        · rw [hx1] at h1; rw [hy1] at h2
          simp at h1 h2
          subst h1 h2
          exact h3.rel

theorem forall₂_left {α β : Type} {R : α → β → Prop} {l : List α} {m : List β} (h : List.Forall₂ R l m) {a : α} (ha : a ∈ l) :
    ∃ b, R a b := by
  induction h with
  | nil => simp at ha
  | cons h _ ih =>
    rcases List.mem_cons.mp ha with rfl | ha
    · exact ⟨_, h⟩
    · exact ih ha

theorem first_ok (hs : Setting uniq parents swap scope G0) (cp : Bool) (x : Node) : OkTask G0 swap (.all (first parents cp x) true) := by
  intro y hy
  unfold first at hy
  split_ifs at hy
  · obtain ⟨r, hr, rfl⟩ := List.mem_map.mp hy
    exact ⟨hs.parents x r hr, by simp⟩
  · simp at hy

/-- Every call keeps the invariant, and returns what stands for its argument. -/
theorem copies_inv (hs : Setting uniq parents swap scope G0) {G G' : Graph} {task : Task} {ys : List Node}
    (h : Copies uniq parents swap scope false G task G' ys) : OkTask G0 swap task → ∀ C P, Inv G0 swap scope C P G →
    ∃ C', (∀ o o', C o o' → C' o o') ∧ Inv G0 swap scope C' P G' ∧ PostTask G0 swap C' G' task ys := by
  induction h with
  | swapped G x rep cp y h =>
    intro hok C P hinv
    refine ⟨C, fun _ _ => id, hinv, y, rfl, ?_⟩
    obtain ⟨rfl, h | ⟨t, r, n, rfl, h1, h2, h3⟩⟩ := swapStep_stop h
    · cases x with
      | op o =>
        obtain ⟨o', rfl⟩ := (hs.keys.op _ _ h).1
        exact .inl ⟨o, o', rfl, rfl, .inl h⟩
      | tensor t =>
        obtain ⟨t', ht⟩ := Option.isSome_iff_exists.mp (hs.keys.tensor _ _ h).2.2
        exact .inr ⟨t, t', rfl, convert_extends hinv.ext ht, .inl ⟨.tensor _ _ _ h ht, .inl rfl⟩⟩
      | var o =>
        obtain ⟨t', ht⟩ := Option.isSome_iff_exists.mp (hs.keys.var _ _ h).2
        exact .inr ⟨_, t', rfl, convert_extends hinv.ext ht, .inl ⟨.var _ _ _ h ht, .inl rfl⟩⟩
      | rv r =>
        obtain ⟨t', ht⟩ := Option.isSome_iff_exists.mp (hs.keys.rv _ _ h).2
        obtain ⟨t, ht0⟩ := mem_convert hok.1 (by simp)
        exact .inr ⟨t, t', ht0, convert_extends hinv.ext ht, .inl ⟨.rv _ _ _ _ h ht0 ht, .inl rfl⟩⟩
    · obtain ⟨hr, hc⟩ := hs.keys.rv _ _ h1
      obtain ⟨t', ht⟩ := Option.isSome_iff_exists.mp hc
      have hv : G0.valueOf r = some t := by
        simp only [Graph.valueOf] at h2 ⊢
        rwa [rvs_back hinv.ext hr] at h2
      exact .inr ⟨t, t', rfl, by rw [h3]; exact convert_extends hinv.ext ht, .inl ⟨.rv _ _ _ _ h1 hv ht, .inl rfl⟩⟩
  | var G x x1 rep cp y h h1 =>
    intro hok C P hinv
    refine ⟨C, fun _ _ => id, hinv, y, rfl, ?_⟩
    obtain ⟨rfl, hrep⟩ := swapStep_go h
    obtain ⟨o, hg, hy⟩ := varStep_stop h1
    obtain ⟨hx, hk⟩ := globalVar_some hg
    have ho : o < G0.ops.length := by
      rcases hx with rfl | rfl
      · obtain ⟨⟨op, h1, -⟩, -⟩ := hok
        exact (List.getElem?_eq_some_iff.mp h1).1
      · have := hok.1
        simp only [Mem, Option.map_eq_some_iff] at this
        obtain ⟨op, h1, -⟩ := this
        exact (List.getElem?_eq_some_iff.mp h1).1
    rw [ops_back hinv.ext ho] at hk
    have hc : G0.convert x1 = some (o, 0) := by rcases hx with rfl | rfl <;> rfl
    rcases hy with ⟨rfl, hy⟩ | ⟨hn, rfl⟩
    · obtain ⟨t', ht⟩ := Option.isSome_iff_exists.mp (hs.keys.var _ _ hy).2
      exact .inr ⟨_, t', hc, convert_extends hinv.ext ht, .inl ⟨.var _ _ _ hy ht, .inl rfl⟩⟩
    · refine .inr ⟨_, (o, 0), hc, rfl, .inr ⟨fun hr u => var_not_swapped hs hk (hn hr) u, .inl ?_⟩⟩
      simp only [Option.map_eq_some_iff] at hk
      obtain ⟨op, h1, h2⟩ := hk
      exact ⟨op, h1, by simp [h2], rfl⟩
  | name G x x1 x2 rep cp y h h1 h2 =>
    intro hok C P hinv
    refine ⟨C, fun _ _ => id, hinv, y, rfl, ?_⟩
    obtain ⟨rfl, hrep⟩ := swapStep_go h
    obtain ⟨rfl, hg⟩ := varStep_go h1
    cases x2 with
    | var o => simp [nameStep] at h2
    | rv r =>
      have hrl : r < G0.rvs.length := hok.1
      have hr := rvs_back hinv.ext hrl
      have hr0 := List.getElem?_eq_getElem hrl
      simp only [nameStep, hr, hr0, Option.bind_some, Option.map_eq_some_iff] at h2
      obtain ⟨r', h3, rfl⟩ := h2
      obtain ⟨rv', h4, h5⟩ := found_rv hs hinv hr0 h3
      refine .inr ⟨(G0.rvs[r].value, 0), (rv'.value, 0), by simp [Graph.convert, Graph.valueOf, hr0],
        by simp [Graph.convert, Graph.valueOf, h4], .inr ⟨fun hr u => rv_not_swapped hs hr0 ((hrep hr).1) u, .inr ⟨h5, rfl⟩⟩⟩
    | op o =>
      have ho := ops_back hinv.ext hok.1
      have ho0 := List.getElem?_eq_getElem hok.1
      simp only [nameStep, ho, ho0, Option.bind_some, Option.map_eq_some_iff] at h2
      obtain ⟨o', h3, rfl⟩ := h2
      have hC := found_op hs hinv ho0 h3
      obtain ⟨_, _, _, _, _, _, _, _, hn, _⟩ := hinv.img _ _ hC
      exact .inl ⟨o, o', rfl, rfl, .inr ⟨hn, .inr hC⟩⟩
    | tensor t =>
      obtain ⟨o, i⟩ := t
      obtain ⟨⟨op, ho0, hi⟩, -⟩ := hok
      have hlt := (List.getElem?_eq_some_iff.mp ho0).1
      have ho := ops_back hinv.ext hlt
      simp only at ho0
      simp only [nameStep, ho, ho0, Option.bind_some] at h2
      rcases h3 : G.findOp (scope ++ op.name) with _ | o'
      · simp [h3] at h2
      · simp only [h3, Option.bind_some] at h2
        split_ifs at h2
        simp at h2
        subst h2
        have hC := found_op hs hinv ho0 h3
        obtain ⟨op2, _, k, hop2, _, hk, _, _, hn, _⟩ := hinv.img _ _ hC
        refine .inr ⟨(o, i), (o', i), rfl, rfl, .inr ⟨fun hr u => ?_, .inr ⟨hC, rfl⟩⟩⟩
        exact tensor_not_swapped hs hinv.ext (hrep hr).1 ((hrep hr).2 _ rfl) (by simp [Mem, hop2, hk]) hn u
  | rv G x x1 r rep cp G1 ys rv G2 args inputs h h1 h2 h3 h4 h5 h6 ih1 ih2 =>
    intro hok C P hinv
    obtain ⟨rfl, hrep⟩ := swapStep_go h
    obtain ⟨rfl, hg⟩ := varStep_go h1
    obtain ⟨C1, hC1, hinv1, -⟩ := ih1 (first_ok hs _ _) C P hinv
    have hr0 : G0.rvs[r]? = some rv := by rw [← h4, rvs_back hinv1.ext hok.1]
    have hm := List.mem_of_getElem? hr0
    obtain ⟨op, ho, hname, hkind, hout, hin⟩ := hs.proper.sample rv hm
    have hargs := mapM_some hin
    obtain ⟨C2, hC2, hinv2, hpost⟩ := ih2 (fun x hx => ⟨hs.proper.args rv hm x hx, by
      rintro o rfl
      obtain ⟨t, ht⟩ := forall₂_left hargs hx
      simp [Graph.convert] at ht⟩) C1 P hinv1
    have hrel := posts_rel hpost hargs (mapM_some h6)
    refine ⟨_, fun a b hab => .inl (hC2 _ _ (hC1 _ _ hab)), hinv2.addRV hs hr0 ho args inputs hrel, _, rfl, .inr ?_⟩
    refine ⟨(rv.value, 0), (G2.ops.length, 0), by simp [Graph.convert, Graph.valueOf, hr0],
      by simp [Graph.convert, Graph.valueOf, Graph.addRV],
      .inr ⟨fun hr u => rv_not_swapped hs hr0 ((hrep hr).1) u, .inr ⟨.inr ⟨rfl, rfl⟩, rfl⟩⟩⟩
  | placeholder G x x1 o i rep cp G1 ys op h h1 h2 h3 h4 h5 ih =>
    intro hok C P hinv
    obtain ⟨rfl, hrep⟩ := swapStep_go h
    obtain ⟨rfl, hg⟩ := varStep_go h1
    obtain ⟨C1, hC1, hinv1, -⟩ := ih (first_ok hs _ _) C P hinv
    refine ⟨C1, hC1, hinv1, _, rfl, .inr ⟨(o, i), (o, i), rfl, rfl, .inr ⟨fun hr u => ?_, .inl ?_⟩⟩⟩
    all_goals
      obtain ⟨⟨op0, ho0, hi⟩, -⟩ := hok
      have hlt := (List.getElem?_eq_some_iff.mp ho0).1
      rw [ops_back hinv1.ext hlt] at h4
    · refine tensor_not_swapped hs hinv.ext (hrep hr).1 ((hrep hr).2 _ rfl) (by simp [Mem, h4, h5]) (fun n hn => ?_) u
      obtain ⟨op', h6, h7⟩ := (hs.keys.op _ _ hn).2.2.1
      simp only at h6
      rw [h4] at h6
      simp at h6
      subst h6
      rcases h7 with ⟨k, h7⟩ | h7 <;> simp [h5] at h7
    · exact ⟨op, h4, by simp [h5], rfl⟩
  | tensor G x x1 o i rep cp G1 ys op G2 o' op' h h1 h2 h3 h4 h5 h6 h7 h8 ih1 ih2 =>
    intro hok C P hinv
    obtain ⟨rfl, hrep⟩ := swapStep_go h
    obtain ⟨rfl, hg⟩ := varStep_go h1
    obtain ⟨C1, hC1, hinv1, -⟩ := ih1 (first_ok hs _ _) C P hinv
    obtain ⟨⟨op0, ho0, hi⟩, -⟩ := hok
    simp only at ho0 hi
    have hlt := (List.getElem?_eq_some_iff.mp ho0).1
    obtain rfl : op0 = op := by rw [ops_back hinv1.ext hlt, ho0] at h4; simpa using h4
    have hnv : ∀ g, op0.kind ≠ .variable g := fun g hk => by
      obtain ⟨rfl, hout⟩ := hs.proper.vars op0 (List.mem_of_getElem? ho0) g hk
      obtain rfl : i = 0 := by omega
      simp [Graph.globalVar, ops_back hinv.ext hlt, ho0, hk] at hg
    have hkind : (∃ k, op0.kind = .compute k) ∨ op0.kind = .queue := by
      rcases hk : op0.kind with g | _ | _ | k
      · exact absurd hk (hnv g)
      · exact absurd hk h5
      · exact .inr rfl
      · exact .inl ⟨k, rfl⟩
    obtain ⟨C2, hC2, hinv2, y, hy, hpost⟩ := ih2 ⟨hlt, fun o1 ho1 => by
      obtain rfl : o = o1 := by simpa using ho1
      exact ⟨by simp, op0, ho0, hkind⟩⟩ C1 P hinv1
    obtain rfl : .op o' = y := by simpa using hy
    refine ⟨C2, fun a b hab => hC2 _ _ (hC1 _ _ hab), hinv2, _, rfl, .inr ⟨(o, i), (o', i), rfl, rfl, ?_⟩⟩
    have hnot : (∀ n, (.op o, n) ∉ swap) → rep = true → ∀ u, ¬ SwapTo G0 swap (o, i) u := fun hn hr u =>
      tensor_not_swapped hs hinv.ext (hrep hr).1 ((hrep hr).2 _ rfl) (by
        simp only [Mem, ho0, Option.map_some, Option.some.injEq]; exact hnv true) hn u
    rcases hpost with ⟨a, b, hx, hy, hab⟩ | ⟨t, t', hx, -⟩
    · obtain rfl : o = a := by simpa using hx
      obtain rfl : o' = b := by simpa using hy
      rcases hab with hab | ⟨hn, ⟨op2, hop2, hq, rfl⟩ | hC⟩
      · exact .inl ⟨.op _ _ _ hab, .inr ⟨_, hab⟩⟩
      · exact .inr ⟨hnot hn, .inl ⟨op2, hop2, by simp [hq], rfl⟩⟩
      · exact .inr ⟨hnot hn, .inr ⟨hC, rfl⟩⟩
    · simp [Graph.convert] at hx
  | queue G x x1 o rep cp op h h1 h2 h4 h5 =>
    intro hok C P hinv
    refine ⟨C, fun _ _ => id, hinv, _, rfl, .inl ⟨o, o, ?_, rfl, .inr ⟨?_, .inl ?_⟩⟩⟩
    all_goals
      obtain ⟨rfl, hrep⟩ := swapStep_go h
      obtain ⟨rfl, hg⟩ := varStep_go h1
    · rfl
    · cases rep
      · exact (hok.2 o rfl).1 rfl
      · exact (hrep rfl).1
    · exact ⟨op, by rw [← ops_back hinv.ext hok.1]; exact h4, h5, rfl⟩
  | op G x x1 o rep cp op G1 control controls G2 inputs tensors h h1 h2 h4 h5 h6 h7 h8 h9 ih1 ih2 =>
    intro hok C P hinv
    obtain ⟨rfl, hrep⟩ := swapStep_go h
    obtain ⟨rfl, hg⟩ := varStep_go h1
    have ho0 : G0.ops[o]? = some op := by rw [← ops_back hinv.ext hok.1]; exact h4
    have hm := List.mem_of_getElem? ho0
    have hn : ∀ n, (.op o, n) ∉ swap := by
      cases rep
      · exact (hok.2 o rfl).1 rfl
      · exact (hrep rfl).1
    obtain ⟨op', ho', hk⟩ := (hok.2 o rfl).2
    obtain rfl : op = op' := by rw [ho0] at ho'; simpa using ho'
    obtain ⟨k, hk⟩ : ∃ k, op.kind = .compute k := hk.elim id fun hk => absurd hk h5
    have hinv' := hinv.addOp hs ho0 hk hn
    obtain ⟨C1, hC1, hinv1, -⟩ := ih1 (fun x hx => by
      obtain ⟨c, hc, rfl⟩ := List.mem_map.mp hx
      obtain ⟨op', h1, h2⟩ := hs.proper.control op hm c hc
      refine ⟨(List.getElem?_eq_some_iff.mp h1).1, fun o1 ho1 => ?_⟩
      obtain rfl : c = o1 := by simpa using ho1
      exact ⟨by simp, op', h1, h2⟩) _ _ hinv'
    obtain ⟨C2, hC2, hinv2, hpost⟩ := ih2 (fun x hx => by
      obtain ⟨t, ht, rfl⟩ := List.mem_map.mp hx
      exact ⟨hs.proper.inputs op hm t ht, by simp⟩) _ _ hinv1
    have hconv : List.Forall₂ (fun x t => G0.convert x = some t) (op.inputs.map .tensor) op.inputs := by
      rw [List.forall₂_map_left_iff, List.forall₂_same]
      intro t _
      rfl
    have hrel := posts_rel hpost hconv (mapM_some h9)
    have hnew := hC2 _ _ (hC1 _ _ (.inr ⟨rfl, rfl⟩ : C o G.ops.length ∨ (o = o ∧ G.ops.length = G.ops.length)))
    refine ⟨C2, fun a b hab => hC2 _ _ (hC1 _ _ (.inl hab)),
      hinv2.setInputs (hinv.ext.1.length_le) hnew ho0 controls tensors hrel, _, rfl,
      .inl ⟨o, _, rfl, rfl, .inr ⟨hn, .inr hnew⟩⟩⟩
  | nil G cp =>
    intro _ C P hinv
    exact ⟨C, fun _ _ => id, hinv, .nil⟩
  | cons G x xs cp G1 y G2 ys h h1 ih1 ih2 =>
    intro hok C P hinv
    obtain ⟨C1, hC1, hinv1, y', hy, hp⟩ := ih1 (hok x (by simp)) C P hinv
    obtain rfl : y = y' := by simpa using hy
    obtain ⟨C2, hC2, hinv2, hps⟩ := ih2 (fun x hx => hok x (by simp [hx])) C1 P hinv1
    exact ⟨C2, fun a b hab => hC2 _ _ (hC1 _ _ hab), hinv2, .cons (hp.mono hC2 (copies_extends h1)) hps⟩

/-- The empty relation, before anything is copied. -/
theorem inv_start (G0 : Graph) : Inv G0 swap scope (fun _ _ => False) (fun _ => False) G0 := by
  refine ⟨.refl _, by simp, by simp, fun o op h hl => ?_, fun r rv h hl => ?_, by simp⟩
  · exact absurd (List.getElem?_eq_some_iff.mp h).1 (by omega)
  · exact absurd (List.getElem?_eq_some_iff.mp h).1 (by omega)

theorem eval_rel {V : Type} (hs : Setting uniq parents swap scope G0) {C : ℕ → ℕ → Prop} {G : Graph}
    (hinv : Inv G0 swap scope C (fun _ => False) G) {ρ : ℕ → ℕ → V} {I : ℕ → List V → ℕ → V} {t : Tensor} {v : V}
    (h : EvalSub G0 swap ρ I t v) : ∀ t', Rel G0 swap C t t' → Eval G ρ I t' v := by
  induction h with
  | swapped t u v h he =>
    rintro t' (hr | ⟨hn, -⟩)
    · rw [swapTo_functional hs hr h]
      exact eval_extends hinv.ext he
    · exact absurd h (hn _)
  | source o i op hn h hk hi =>
    rintro t' (hr | ⟨-, ⟨op', h1, h2, rfl⟩ | ⟨h1, h2⟩⟩)
    · exact absurd hr (hn _)
    · exact .source o i op (prefix_getElem? hinv.ext.1 h) hk hi
    · obtain ⟨p, p', k, h3, h4, h5, -⟩ := hinv.img _ _ h1
      simp only at h3
      rw [h] at h3
      simp at h3
      subst h3
      exact absurd h5 (hk k)
  | compute o i op k vs hn h hk hi hl _ ih =>
    rintro ⟨o', i'⟩ (hr | ⟨-, ⟨op', h1, h2, -⟩ | ⟨h1, h2⟩⟩)
    · exact absurd hr (hn _)
    · simp only at h1
      rw [h] at h1
      simp at h1
      subst h1
      exact absurd hk (h2 k)
    · obtain ⟨p, p', k', h3, h4, h5, h6, h7, -, h8⟩ := hinv.img _ _ h1
      simp only at h3 h2 h4
      rw [h] at h3
      simp at h3
      subst h3 h2
      have hrel := List.forall₂_iff_get.mp (h8 id)
      refine .compute o' i' p' k vs h4 (h6.trans hk) (by rw [h7]; exact hi) (hl.trans hrel.1) fun j t v hj hv => ?_
      obtain ⟨hjl, hjt⟩ := List.getElem?_eq_some_iff.mp hj
      have hjl' : j < op.inputs.length := by rw [hrel.1]; exact hjl
      exact ih j _ v (List.getElem?_eq_getElem hjl') hv t (by rw [← hjt]; exact hrel.2 j hjl' hjl)

theorem eval_top {V : Type} (hs : Setting uniq parents swap scope G0) {C : ℕ → ℕ → Prop} {G : Graph}
    (hinv : Inv G0 swap scope C (fun _ => False) G) {ρ : ℕ → ℕ → V} {I : ℕ → List V → ℕ → V} {t t' : Tensor} {v : V}
    (h : EvalTop G0 swap ρ I t v) (hr : Core G0 C t t') : Eval G ρ I t' v := by
  cases h with
  | source o i op h hk hi =>
    rcases hr with ⟨op', h1, h2, rfl⟩ | ⟨h1, h2⟩
    · exact .source o i op (prefix_getElem? hinv.ext.1 h) hk hi
    · obtain ⟨p, p', k, h3, h4, h5, -⟩ := hinv.img _ _ h1
      simp only at h3
      rw [h] at h3
      simp at h3
      subst h3
      exact absurd h5 (hk k)
  | compute o i op k vs h hk hi hl hv =>
    obtain ⟨o', i'⟩ := t'
    rcases hr with ⟨op', h1, h2, -⟩ | ⟨h1, h2⟩
    · simp only at h1
      rw [h] at h1
      simp at h1
      subst h1
      exact absurd hk (h2 k)
    · obtain ⟨p, p', k', h3, h4, h5, h6, h7, -, h8⟩ := hinv.img _ _ h1
      simp only at h3 h2 h4
      rw [h] at h3
      simp at h3
      subst h3 h2
      have hrel := List.forall₂_iff_get.mp (h8 id)
      refine .compute o' i' p' k vs h4 (h6.trans hk) (by rw [h7]; exact hi) (hl.trans hrel.1) fun j t v hj hvj => ?_
      obtain ⟨hjl, hjt⟩ := List.getElem?_eq_some_iff.mp hj
      have hjl' : j < op.inputs.length := by rw [hrel.1]; exact hjl
      exact eval_rel hs hinv (hv j _ v (List.getElem?_eq_getElem hjl') hvj) t (by
        rw [← hjt]; exact hrel.2 j hjl' hjl)

end Edward
