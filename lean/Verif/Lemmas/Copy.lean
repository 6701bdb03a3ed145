/-
`copy` as an inductive relation, and what every call preserves.
-/
import Verif.Model.Copy
import Verif.Spec.Copy

namespace Edward

open Copy Spec

/-- A call of `copy`, or a series of calls with `replace_itself`. -/
inductive Task
  | one (x : Node) (replace cp : Bool)
  | all (xs : List Node) (cp : Bool)

section
variable (uniq : Graph → Name → Name) (parents : Node → List ℕ) (swap : List (Node × Node)) (scope : Name) (copyQ : Bool)

/-- The nodes copied first: the random variables `x` depends on. -/
def first (cp : Bool) (x : Node) : List Node := if cp && x.op?.isNone then (parents x).map .rv else []

/-- The calls that return, with what they return. -/
inductive Copies : Graph → Task → Graph → List Node → Prop
  | swapped (G x rep cp y) (h : swapStep G swap copyQ x rep = (y, true)) : Copies G (.one x rep cp) G [y]
  | var (G x x1 rep cp y) (h : swapStep G swap copyQ x rep = (x1, false)) (h1 : varStep G swap copyQ x1 rep = .inl y) :
    Copies G (.one x rep cp) G [y]
  | name (G x x1 x2 rep cp y) (h : swapStep G swap copyQ x rep = (x1, false))
    (h1 : varStep G swap copyQ x1 rep = .inr x2) (h2 : nameStep G scope x2 = some y) : Copies G (.one x rep cp) G [y]
  | rv (G x x1 r rep cp G1 ys rv G2 args inputs) (h : swapStep G swap copyQ x rep = (x1, false))
    (h1 : varStep G swap copyQ x1 rep = .inr (.rv r)) (h2 : nameStep G scope (.rv r) = none)
    (h3 : Copies G (.all (first parents cp (.rv r)) true) G1 ys) (h4 : G1.rvs[r]? = some rv)
    (h5 : Copies G1 (.all rv.args false) G2 args) (h6 : args.mapM G2.convert = some inputs) :
    Copies G (.one x rep cp) (G2.addRV uniq (scope ++ rv.name) rv.cls args inputs) [.rv G2.rvs.length]
  | placeholder (G x x1 o i rep cp G1 ys op) (h : swapStep G swap copyQ x rep = (x1, false))
    (h1 : varStep G swap copyQ x1 rep = .inr (.tensor (o, i))) (h2 : nameStep G scope (.tensor (o, i)) = none)
    (h3 : Copies G (.all (first parents cp (.tensor (o, i))) true) G1 ys) (h4 : G1.ops[o]? = some op)
    (h5 : op.kind = .placeholder) : Copies G (.one x rep cp) G1 [.tensor (o, i)]
  | tensor (G x x1 o i rep cp G1 ys op G2 o' op') (h : swapStep G swap copyQ x rep = (x1, false))
    (h1 : varStep G swap copyQ x1 rep = .inr (.tensor (o, i))) (h2 : nameStep G scope (.tensor (o, i)) = none)
    (h3 : Copies G (.all (first parents cp (.tensor (o, i))) true) G1 ys) (h4 : G1.ops[o]? = some op)
    (h5 : op.kind ≠ .placeholder) (h6 : Copies G1 (.one (.op o) true false) G2 [.op o']) (h7 : G2.ops[o']? = some op')
    (h8 : i < op'.nOut) : Copies G (.one x rep cp) G2 [.tensor (o', i)]
  | queue (G x x1 o rep cp op) (h : swapStep G swap copyQ x rep = (x1, false))
    (h1 : varStep G swap copyQ x1 rep = .inr (.op o)) (h2 : nameStep G scope (.op o) = none) (h4 : G.ops[o]? = some op)
    (h5 : op.kind = .queue) : Copies G (.one x rep cp) G [.op o]
  | op (G x x1 o rep cp op G1 control controls G2 inputs tensors) (h : swapStep G swap copyQ x rep = (x1, false))
    (h1 : varStep G swap copyQ x1 rep = .inr (.op o)) (h2 : nameStep G scope (.op o) = none) (h4 : G.ops[o]? = some op)
    (h5 : op.kind ≠ .queue)
    (h6 : Copies (G.addOp ⟨scope ++ op.name, op.kind, op.nOut, [], []⟩) (.all (op.control.map .op) false) G1 control)
    (h7 : control.mapM Node.op? = some controls)
    (h8 : Copies G1 (.all (op.inputs.map .tensor) false) G2 inputs) (h9 : inputs.mapM G2.convert = some tensors) :
    Copies G (.one x rep cp) (G2.setInputs G.ops.length controls tensors) [.op G.ops.length]
  | nil (G cp) : Copies G (.all [] cp) G []
  | cons (G x xs cp G1 y G2 ys) (h : Copies G (.one x true cp) G1 [y]) (h1 : Copies G1 (.all xs cp) G2 ys) :
    Copies G (.all (x :: xs) cp) G2 (y :: ys)

end

variable {uniq : Graph → Name → Name} {parents : Node → List ℕ} {swap : List (Node × Node)} {scope : Name} {copyQ : Bool}

theorem copies_of_copyAll {c : Graph → Node → Option (Graph × Node)} {cp : Bool}
    (hc : ∀ G x G' y, c G x = some (G', y) → Copies uniq parents swap scope copyQ G (.one x true cp) G' [y]) (xs : List Node) :
    ∀ G G' ys, copyAll c G xs = some (G', ys) → Copies uniq parents swap scope copyQ G (.all xs cp) G' ys := by
  induction xs with
  | nil =>
    intro G G' ys h
    simp only [copyAll, Option.some.injEq, Prod.mk.injEq] at h
    obtain ⟨rfl, rfl⟩ := h
    exact .nil G cp
  | cons x xs ih =>
    intro G G' ys h
    rw [copyAll] at h
    rcases h1 : c G x with _ | ⟨G1, y⟩
    · simp [h1] at h
    · simp only [h1] at h
      rcases h2 : copyAll c G1 xs with _ | ⟨G2, zs⟩
      · simp [h2] at h
      · simp only [h2, Option.some.injEq, Prod.mk.injEq] at h
        obtain ⟨rfl, rfl⟩ := h
        exact .cons _ _ _ _ _ _ _ _ (hc _ _ _ _ h1) (ih _ _ _ h2)

/-- Every call that returns is a derivation. -/
theorem copies_of_copy (fuel : ℕ) : ∀ G x rep cp G' y, copy uniq parents swap scope copyQ fuel G x rep cp = some (G', y) →
    Copies uniq parents swap scope copyQ G (.one x rep cp) G' [y] := by
  induction fuel with
  | zero => intro G x rep cp G' y h; simp [copy] at h
  | succ fuel ih =>
    intro G x rep cp G' y h
    have ihAll : ∀ cp, ∀ xs G G' ys, copyAll (fun G v => copy uniq parents swap scope copyQ fuel G v true cp) G xs = some (G', ys) →
        Copies uniq parents swap scope copyQ G (.all xs cp) G' ys :=
      fun cp => copies_of_copyAll (fun G x G' y h => ih G x true cp G' y h)
    rw [copy] at h
    rcases hs : swapStep G swap copyQ x rep with ⟨x1, stop⟩
    simp only [hs] at h
    cases stop
    · simp only [Bool.false_eq_true, if_false] at h
      rcases hv : varStep G swap copyQ x1 rep with v | x2
      · simp only [hv, Option.some.injEq, Prod.mk.injEq] at h
        obtain ⟨rfl, rfl⟩ := h
        exact .var _ _ _ _ _ _ hs hv
      · simp only [hv] at h
        rcases hn : nameStep G scope x2 with _ | z
        · simp only [hn] at h
          have hfirst : ∀ G1 ys, (if (cp && x2.op?.isNone) = true then
              copyAll (fun G v => copy uniq parents swap scope copyQ fuel G v true true) G ((parents x2).map .rv)
              else some (G, [])) = some (G1, ys) →
              Copies uniq parents swap scope copyQ G (.all (first parents cp x2) true) G1 ys := by
            intro G1 ys hh
            unfold first
            split_ifs at hh with hcp
            · rw [if_pos hcp]; exact ihAll true _ _ _ _ hh
            · rw [if_neg hcp]
              simp only [Option.some.injEq, Prod.mk.injEq] at hh
              obtain ⟨rfl, rfl⟩ := hh
              exact .nil _ _
          rcases hf : (if (cp && x2.op?.isNone) = true then
              copyAll (fun G v => copy uniq parents swap scope copyQ fuel G v true true) G ((parents x2).map .rv)
              else some (G, [])) with _ | ⟨G1, ys⟩
          · simp only [hf, reduceCtorEq] at h
          · have h3 := hfirst G1 ys hf
            simp only [hf] at h
            cases x2 with
            | var o => simp at h
            | rv r =>
              simp only at h
              rcases hr : G1.rvs[r]? with _ | rv
              · simp [hr] at h
              · simp only [hr] at h
                rcases ha : copyAll (fun G v => copy uniq parents swap scope copyQ fuel G v true false) G1 rv.args with _ | ⟨G2, args⟩
                · simp [ha] at h
                · simp only [ha] at h
                  rcases hm : args.mapM G2.convert with _ | inputs
                  · simp [hm] at h
                  · simp only [hm, Option.some.injEq, Prod.mk.injEq] at h
                    obtain ⟨rfl, rfl⟩ := h
                    exact .rv _ _ _ _ _ _ _ _ _ _ _ _ hs hv hn h3 hr (ihAll false _ _ _ _ ha) hm
            | tensor t =>
              obtain ⟨o, i⟩ := t
              simp only at h
              rcases ho : G1.ops[o]? with _ | op
              · simp [ho] at h
              · simp only [ho] at h
                by_cases hk : op.kind = .placeholder
                · simp only [hk, if_true, Option.some.injEq, Prod.mk.injEq] at h
                  obtain ⟨rfl, rfl⟩ := h
                  exact .placeholder _ _ _ _ _ _ _ _ _ _ hs hv hn h3 ho hk
                · simp only [hk, if_false] at h
                  rcases hc : copy uniq parents swap scope copyQ fuel G1 (.op o) true false with _ | ⟨G2, z⟩
                  · simp [hc] at h
                  · simp only [hc] at h
                    cases z with
                    | op o' =>
                      simp only at h
                      split_ifs at h with hi
                      simp only [Option.some.injEq, Prod.mk.injEq] at h
                      obtain ⟨rfl, rfl⟩ := h
                      rcases ho' : G2.ops[o']? with _ | op'
                      · simp [ho'] at hi
                      · simp only [ho', Option.map_some, Option.some.injEq, decide_eq_true_eq] at hi
                        exact .tensor _ _ _ _ _ _ _ _ _ _ _ _ _ hs hv hn h3 ho hk (ih _ _ _ _ _ _ hc) ho' hi
                    | _ => simp at h
            | op o =>
              have hG1 : G1 = G := by
                simp only [Node.op?, Option.isNone_some, Bool.and_false, Bool.false_eq_true, if_false, Option.some.injEq,
                  Prod.mk.injEq] at hf
                exact hf.1.symm
              subst hG1
              simp only at h
              rcases ho : G1.ops[o]? with _ | op
              · simp [ho] at h
              · simp only [ho] at h
                by_cases hk : op.kind = .queue
                · simp only [hk, if_true, Option.some.injEq, Prod.mk.injEq] at h
                  obtain ⟨rfl, rfl⟩ := h
                  exact .queue _ _ _ _ _ _ _ hs hv hn ho hk
                · simp only [hk, if_false] at h
                  rcases hc : copyAll (fun G v => copy uniq parents swap scope copyQ fuel G v true false)
                      (G1.addOp ⟨scope ++ op.name, op.kind, op.nOut, [], []⟩) (op.control.map .op) with _ | ⟨G2, control⟩
                  · simp [hc] at h
                  · simp only [hc] at h
                    rcases hm : control.mapM Node.op? with _ | controls
                    · simp [hm] at h
                    · simp only [hm] at h
                      rcases hc2 : copyAll (fun G v => copy uniq parents swap scope copyQ fuel G v true false) G2
                          (op.inputs.map .tensor) with _ | ⟨G3, inputs⟩
                      · simp [hc2] at h
                      · simp only [hc2] at h
                        rcases hm2 : inputs.mapM G3.convert with _ | tensors
                        · simp [hm2] at h
                        · simp only [hm2, Option.some.injEq, Prod.mk.injEq] at h
                          obtain ⟨rfl, rfl⟩ := h
                          exact .op _ _ _ _ _ _ _ _ _ _ _ _ _ hs hv hn ho hk (ihAll false _ _ _ _ hc) hm
                            (ihAll false _ _ _ _ hc2) hm2
        · simp only [hn, Option.some.injEq, Prod.mk.injEq] at h
          obtain ⟨rfl, rfl⟩ := h
          exact .name _ _ _ _ _ _ _ hs hv hn
    · simp only [if_true, Option.some.injEq, Prod.mk.injEq] at h
      obtain ⟨rfl, rfl⟩ := h
      exact .swapped _ _ _ _ _ hs

/-! ### Extension -/

theorem _root_.Edward.Spec.Extends.refl (G : Graph) : Extends G G := ⟨List.prefix_rfl, List.prefix_rfl⟩

theorem _root_.Edward.Spec.Extends.trans {G G' G'' : Graph} (h : Extends G G') (h' : Extends G' G'') : Extends G G'' :=
  ⟨h.1.trans h'.1, h.2.trans h'.2⟩

theorem extends_addOp (G : Graph) (op : Op) : Extends G (G.addOp op) := ⟨⟨[op], rfl⟩, List.prefix_rfl⟩

theorem extends_addRV (G : Graph) (name cls args inputs) : Extends G (G.addRV uniq name cls args inputs) :=
  ⟨⟨_, rfl⟩, ⟨_, rfl⟩⟩

theorem prefix_getElem? {α : Type*} {l l' : List α} (h : l <+: l') {i : ℕ} {a : α} (ha : l[i]? = some a) : l'[i]? = some a := by
  obtain ⟨t, rfl⟩ := h
  rw [List.getElem?_append_left (List.getElem?_eq_some_iff.mp ha).1, ha]

theorem extends_setInputs {G G2 : Graph} (h : Extends G G2) (c t) : Extends G (G2.setInputs G.ops.length c t) := by
  refine ⟨?_, h.2⟩
  rw [List.prefix_iff_getElem?]
  intro i hi
  obtain ⟨l, hl⟩ := h.1
  have h1 : G2.ops[i]? = some G.ops[i] := by rw [← hl, List.getElem?_append_left hi, List.getElem?_eq_getElem hi]
  show (List.modify _ _ _)[i]? = _
  rw [List.getElem?_modify, h1]
  simp [show ¬ G.ops.length = i by omega]

/-- Nothing that exists is changed. -/
theorem copies_extends {G G' : Graph} {task : Task} {ys : List Node} (h : Copies uniq parents swap scope copyQ G task G' ys) :
    Extends G G' := by
  induction h with
  | swapped => exact .refl _
  | var => exact .refl _
  | name => exact .refl _
  | rv _ _ _ _ _ _ _ _ _ _ _ _ _ _ _ _ _ _ _ ih1 ih2 => exact (ih1.trans ih2).trans (extends_addRV ..)
  | placeholder _ _ _ _ _ _ _ _ _ _ _ _ _ _ _ _ ih => exact ih
  | tensor _ _ _ _ _ _ _ _ _ _ _ _ _ _ _ _ _ _ _ _ _ _ ih1 ih2 => exact ih1.trans ih2
  | queue => exact .refl _
  | op _ _ _ _ _ _ _ _ _ _ _ _ _ _ _ _ _ _ _ _ _ _ ih1 ih2 =>
    exact extends_setInputs (((extends_addOp _ _).trans ih1).trans ih2) _ _
  | nil => exact .refl _
  | cons _ _ _ _ _ _ _ _ _ _ ih1 ih2 => exact ih1.trans ih2

theorem eval_extends {V : Type} {G G' : Graph} (h : Extends G G') {ρ : ℕ → ℕ → V} {I : ℕ → List V → ℕ → V} {t : Tensor} {v : V}
    (he : Eval G ρ I t v) : Eval G' ρ I t v := by
  induction he with
  | source o i op h1 hk hi => exact .source o i op (prefix_getElem? h.1 h1) hk hi
  | compute o i op k vs h1 hk hi hl _ ih => exact .compute o i op k vs (prefix_getElem? h.1 h1) hk hi hl ih

theorem eval_restrict {V : Type} {G G' : Graph} (h : Extends G G') (hc : Closed G) {ρ : ℕ → ℕ → V} {I : ℕ → List V → ℕ → V}
    {t : Tensor} {v : V} (he : Eval G' ρ I t v) (ht : t.1 < G.ops.length) : Eval G ρ I t v := by
  induction he with
  | source o i op h1 hk hi =>
    have h2 := prefix_getElem? h.1 (List.getElem?_eq_getElem ht)
    exact .source o i op (by rw [List.getElem?_eq_getElem ht, ← h2, h1]) hk hi
  | compute o i op k vs h1 hk hi hl _ ih =>
    have h2 := prefix_getElem? h.1 (List.getElem?_eq_getElem ht)
    have h3 : G.ops[o]? = some op := by rw [List.getElem?_eq_getElem ht, ← h2, h1]
    exact .compute o i op k vs h3 hk hi hl fun j t v hj hvj =>
      ih j t v hj hvj (hc.inputs op (List.mem_of_getElem? h3) t (List.mem_of_getElem? hj))

end Edward
