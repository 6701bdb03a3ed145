/-
Enough fuel, and when `copy` returns.
-/
import Verif.Lemmas.CopySubst

namespace Edward

open Copy Spec

variable {uniq : Graph → Name → Name} {parents : Node → List ℕ} {swap : List (Node × Node)} {scope : Name} {copyQ : Bool}

/-- What running a task means. -/
def Runs (uniq : Graph → Name → Name) (parents : Node → List ℕ) (swap : List (Node × Node)) (scope : Name) (copyQ : Bool)
    (fuel : ℕ) (G : Graph) (G' : Graph) (ys : List Node) : Task → Prop
  | .one x rep cp => ∃ y, ys = [y] ∧ copy uniq parents swap scope copyQ fuel G x rep cp = some (G', y)
  | .all xs cp => copyAll (fun G v => copy uniq parents swap scope copyQ fuel G v true cp) G xs = some (G', ys)

/-- Every derivation is a call that returns, with enough fuel. -/
theorem copy_of_copies {G G' : Graph} {task : Task} {ys : List Node} (h : Copies uniq parents swap scope copyQ G task G' ys) :
    ∃ N, ∀ fuel, N ≤ fuel → Runs uniq parents swap scope copyQ fuel G G' ys task := by
  have step : ∀ {P : ℕ → Prop}, (∀ f, P (f + 1)) → ∃ N, ∀ fuel, N ≤ fuel → P fuel := fun {P} hP =>
    ⟨1, fun fuel hf => by obtain ⟨f, rfl⟩ : ∃ f, fuel = f + 1 := ⟨fuel - 1, by omega⟩; exact hP f⟩
  have hfirst : ∀ {f G G1 ys cp x}, Runs uniq parents swap scope copyQ f G G1 ys (.all (first parents cp x) true) →
      (if (cp && x.op?.isNone) = true then
        copyAll (fun G v => copy uniq parents swap scope copyQ f G v true true) G ((parents x).map .rv)
      else some (G, [])) = some (G1, ys) := by
    intro f G G1 ys cp x h
    unfold first Runs at h
    split_ifs at h ⊢ with hc
    · exact h
    · simpa [copyAll] using h
  induction h with
  | swapped G x rep cp y h => exact step fun f => ⟨y, rfl, by simp [copy, h]⟩
  | var G x x1 rep cp y h h1 => exact step fun f => ⟨y, rfl, by simp [copy, h, h1]⟩
  | name G x x1 x2 rep cp y h h1 h2 => exact step fun f => ⟨y, rfl, by simp [copy, h, h1, h2]⟩
  | rv G x x1 r rep cp G1 ys rv G2 args inputs h h1 h2 h3 h4 h5 h6 ih1 ih2 =>
    obtain ⟨N1, ih1⟩ := ih1
    obtain ⟨N2, ih2⟩ := ih2
    refine ⟨max N1 N2 + 1, fun fuel hf => ?_⟩
    obtain ⟨f, rfl⟩ : ∃ f, fuel = f + 1 := ⟨fuel - 1, by omega⟩
    have r1 := hfirst (ih1 f (by omega))
    have r2 := ih2 f (by omega)
    simp only [Runs] at r2
    exact ⟨_, rfl, by rw [copy]; simp only [h, h1, h2, Bool.false_eq_true, if_false]; rw [r1]; simp only [h4, r2, h6]⟩
  | placeholder G x x1 o i rep cp G1 ys op h h1 h2 h3 h4 h5 ih =>
    obtain ⟨N, ih⟩ := ih
    refine ⟨N + 1, fun fuel hf => ?_⟩
    obtain ⟨f, rfl⟩ : ∃ f, fuel = f + 1 := ⟨fuel - 1, by omega⟩
    have r1 := hfirst (ih f (by omega))
    exact ⟨_, rfl, by rw [copy]; simp only [h, h1, h2, Bool.false_eq_true, if_false]; rw [r1]; simp only [h4, h5, if_true]⟩
  | tensor G x x1 o i rep cp G1 ys op G2 o' op' h h1 h2 h3 h4 h5 h6 h7 h8 ih1 ih2 =>
    obtain ⟨N1, ih1⟩ := ih1
    obtain ⟨N2, ih2⟩ := ih2
    refine ⟨max N1 N2 + 1, fun fuel hf => ?_⟩
    obtain ⟨f, rfl⟩ : ∃ f, fuel = f + 1 := ⟨fuel - 1, by omega⟩
    have r1 := hfirst (ih1 f (by omega))
    obtain ⟨y, hy, r2⟩ := ih2 f (by omega)
    obtain rfl : .op o' = y := by simpa using hy
    exact ⟨_, rfl, by
      rw [copy]; simp only [h, h1, h2, Bool.false_eq_true, if_false]; rw [r1]
      simp only [h4, h5, if_false, r2, h7, Option.map_some, h8, decide_true, if_true]⟩
  | queue G x x1 o rep cp op h h1 h2 h4 h5 =>
    exact step fun f => ⟨_, rfl, by simp [copy, h, h1, h2, Node.op?, h4, h5]⟩
  | op G x x1 o rep cp op G1 control controls G2 inputs tensors h h1 h2 h4 h5 h6 h7 h8 h9 ih1 ih2 =>
    obtain ⟨N1, ih1⟩ := ih1
    obtain ⟨N2, ih2⟩ := ih2
    refine ⟨max N1 N2 + 1, fun fuel hf => ?_⟩
    obtain ⟨f, rfl⟩ : ∃ f, fuel = f + 1 := ⟨fuel - 1, by omega⟩
    have r1 := ih1 f (by omega)
    have r2 := ih2 f (by omega)
    simp only [Runs] at r1 r2
    exact ⟨_, rfl, by
      rw [copy]; simp only [h, h1, h2, Bool.false_eq_true, if_false, Node.op?, Option.isNone_some, Bool.and_false, h4, h5]
      rw [r1]; simp only [h7]; simp only [r2, h9]⟩
  | nil G cp => exact ⟨0, fun _ _ => rfl⟩
  | cons G x xs cp G1 y G2 ys h h1 ih1 ih2 =>
    obtain ⟨N1, ih1⟩ := ih1
    obtain ⟨N2, ih2⟩ := ih2
    refine ⟨max N1 N2, fun fuel hf => ?_⟩
    obtain ⟨y', hy, r1⟩ := ih1 fuel (by omega)
    obtain rfl : y = y' := by simpa using hy
    have r2 := ih2 fuel (by omega)
    simp only [Runs] at r2 ⊢
    simp only [copyAll, r1, r2]

variable {G0 : Graph}

/-- Decreases in every recursive call. -/
def size (G0 : Graph) (rank : ℕ → ℕ) : Node → ℕ
  | .op o => 3 * rank o
  | .tensor t => 3 * rank t.1 + 2
  | .var _ => 0
  | .rv r => match G0.rvs[r]? with
    | some rv => 3 * rank rv.value + 1
    | none => 0

theorem total_all (hs : Setting uniq parents swap scope G0) (xs : List Node) (cp : Bool)
    (ih : ∀ x ∈ xs, ∀ G C P, Inv G0 swap scope C P G → ∃ G' y, Copies uniq parents swap scope false G (.one x true cp) G' [y])
    (hok : ∀ x ∈ xs, OkOne G0 swap x true) : ∀ G C P, Inv G0 swap scope C P G →
    ∃ G' ys, Copies uniq parents swap scope false G (.all xs cp) G' ys := by
  induction xs with
  | nil => exact fun G _ _ _ => ⟨G, [], .nil _ _⟩
  | cons x xs ihx =>
    intro G C P hinv
    obtain ⟨G1, y, h1⟩ := ih x (by simp) G C P hinv
    obtain ⟨C1, -, hinv1, -⟩ := copies_inv hs h1 (hok x (by simp)) C P hinv
    obtain ⟨G2, ys, h2⟩ := ihx (fun x hx => ih x (by simp [hx])) (fun x hx => hok x (by simp [hx])) G1 C1 P hinv1
    exact ⟨G2, _, .cons _ _ _ _ _ _ _ _ h1 h2⟩

theorem mapM_of_forall₂ {α β γ : Type} {f : β → Option γ} {R : α → β → Prop} {l : List α} {m : List β} (h : List.Forall₂ R l m)
    (hf : ∀ a b, a ∈ l → R a b → ∃ c, f b = some c) : ∃ cs, m.mapM f = some cs := by
  induction h with
  | nil => exact ⟨[], rfl⟩
  | cons h _ ih =>
    obtain ⟨c, hc⟩ := hf _ _ (by simp) h
    obtain ⟨cs, hcs⟩ := ih fun a b ha => hf a b (by simp [ha])
    exact ⟨c :: cs, by simp [List.mapM_cons, hc, hcs]⟩

theorem forall₂_mem {α β : Type} {R : α → β → Prop} {l : List α} {m : List β} (h : List.Forall₂ R l m) {a : α} (ha : a ∈ l) :
    ∃ b ∈ m, R a b := by
  induction h with
  | nil => simp at ha
  | @cons _ b _ _ h _ ih =>
    rcases List.mem_cons.mp ha with rfl | ha
    · exact ⟨b, by simp, h⟩
    · obtain ⟨c, h1, h2⟩ := ih ha
      exact ⟨c, by simp [h1], h2⟩

theorem post_convert {C : ℕ → ℕ → Prop} {G : Graph} {x y : Node} {rep : Bool} (h : Post G0 swap C G x rep y)
    (hx : ∀ o, x ≠ .op o) : ∃ t, G.convert y = some t := by
  rcases h with ⟨o, -, rfl, -⟩ | ⟨t, t', -, h, -⟩
  · exact absurd rfl (hx o)
  · exact ⟨t', h⟩

theorem total_one (hs : Setting uniq parents swap scope G0) {rank : ℕ → ℕ} (ha : Acyclic G0 parents swap rank) (n : ℕ) :
    ∀ x rep cp, size G0 rank x < n → OkOne G0 swap x rep → ∀ G C P, Inv G0 swap scope C P G →
    ∃ G' y, Copies uniq parents swap scope false G (.one x rep cp) G' [y] := by
  induction n with
  | zero => intro x _ _ h; omega
  | succ n ih =>
    intro x rep cp hsize hok G C P hinv
    rcases h : swapStep G swap false x rep with ⟨x1, stop⟩
    cases stop
    swap
    · exact ⟨_, _, .swapped _ _ _ _ _ h⟩
    obtain ⟨rfl, hrep⟩ := swapStep_go h
    rcases h1 : varStep G swap false x1 rep with y | x2
    · exact ⟨_, _, .var _ _ _ _ _ _ h h1⟩
    obtain ⟨rfl, hg⟩ := varStep_go h1
    rcases h2 : nameStep G scope x2 with _ | y
    swap
    · exact ⟨_, _, .name _ _ _ _ _ _ _ h h1 h2⟩
    have hpar : ∀ B, (∀ r' rv', r' ∈ parents x2 → G0.rvs[r']? = some rv' → rank rv'.value < B) → 3 * B ≤ n + 1 →
        ∃ G1 ys C1, Copies uniq parents swap scope false G (.all (first parents cp x2) true) G1 ys ∧ Inv G0 swap scope C1 P G1 := by
      intro B hB hBn
      obtain ⟨G1, ys, h3⟩ := total_all hs (first parents cp x2) true (fun y hy G C P hinv => by
        refine ih y true true ?_ (first_ok hs cp x2 y hy) G C P hinv
        unfold first at hy
        split_ifs at hy
        · obtain ⟨r, hr, rfl⟩ := List.mem_map.mp hy
          have hlt := hs.parents x2 r hr
          have := hB r _ hr (List.getElem?_eq_getElem hlt)
          simp only [size, List.getElem?_eq_getElem hlt]
          omega
        · simp at hy) (first_ok hs cp x2) G C P hinv
      obtain ⟨C1, -, hinv1, -⟩ := copies_inv hs h3 (first_ok hs cp x2) C P hinv
      exact ⟨G1, ys, C1, h3, hinv1⟩
    cases x2 with
    | var o =>
      have := hok.1
      simp only [Mem, Option.map_eq_some_iff] at this
      obtain ⟨op, ho, hk⟩ := this
      have hlt := (List.getElem?_eq_some_iff.mp ho).1
      simp [Graph.globalVar, ops_back hinv.ext hlt, ho, hk] at hg
    | rv r =>
      have hlt : r < G0.rvs.length := hok.1
      have hr0 := List.getElem?_eq_getElem hlt
      set rv := G0.rvs[r] with hrv
      have hm := List.mem_of_getElem? hr0
      have hsz : 3 * rank rv.value + 1 < n + 1 := by simpa [size, hr0] using hsize
      obtain ⟨op, ho, hname, hkind, hout, hin⟩ := hs.proper.sample rv hm
      have hargs := mapM_some hin
      have hnop : ∀ x ∈ rv.args, ∀ o, x ≠ .op o := by
        rintro x hx o rfl
        obtain ⟨t, ht⟩ := forall₂_left hargs hx
        simp [Graph.convert] at ht
      obtain ⟨G1, ys, C1, h3, hinv1⟩ := hpar (rank rv.value) (fun r' rv' hr' h => ha.parentsRV r r' rv rv' hr' hr0 h) (by omega)
      have hok1 : ∀ x ∈ rv.args, OkOne G0 swap x true := fun x hx =>
        ⟨hs.proper.args rv hm x hx, fun o ho => absurd ho (hnop x hx o)⟩
      obtain ⟨G2, args, h5⟩ := total_all hs rv.args false (fun x hx G C P hinv => by
        refine ih x true false ?_ (hok1 x hx) G C P hinv
        obtain ⟨t, htm, ht⟩ := forall₂_mem hargs hx
        have hlt := ha.inputs _ op ho t htm
        cases x with
        | op o => simp [Graph.convert] at ht
        | tensor t' => simp only [Graph.convert, Option.some.injEq] at ht; subst ht; simp only [size]; omega
        | var o => simp only [size]; omega
        | rv r' =>
          simp only [Graph.convert, Graph.valueOf, Option.map_eq_some_iff] at ht
          obtain ⟨rv', h1, rfl⟩ := ht
          simp only [size, h1] at hlt ⊢
          omega) hok1 G1 C1 P hinv1
      obtain ⟨C2, -, hinv2, hpost⟩ := copies_inv hs h5 hok1 C1 P hinv1
      obtain ⟨inputs, h6⟩ := mapM_of_forall₂ (f := G2.convert) hpost fun a b hab hp => post_convert hp (hnop a hab)
      exact ⟨_, _, .rv _ _ _ _ _ _ _ _ _ _ _ _ h h1 h2 h3 (by rw [rvs_back hinv1.ext hlt]; exact hr0) h5 h6⟩
    | tensor t =>
      obtain ⟨o, i⟩ := t
      obtain ⟨⟨op, ho, hi⟩, -⟩ := id hok
      simp only at ho hi
      have hlt := (List.getElem?_eq_some_iff.mp ho).1
      have hsz : 3 * rank o + 2 < n + 1 := hsize
      obtain ⟨G1, ys, C1, h3, hinv1⟩ := hpar (rank o + 1) (fun r' rv' hr' h => by
        have := ha.parentsTensor (o, i) r' rv' hr' h
        simp only at this
        omega) (by omega)
      have ho1 : G1.ops[o]? = some op := by rw [ops_back hinv1.ext hlt]; exact ho
      by_cases hk : op.kind = .placeholder
      · exact ⟨_, _, .placeholder _ _ _ _ _ _ _ _ _ _ h h1 h2 h3 ho1 hk⟩
      have hkind : (∃ k, op.kind = .compute k) ∨ op.kind = .queue := by
        rcases hk' : op.kind with g | _ | _ | k
        · obtain ⟨rfl, hout⟩ := hs.proper.vars op (List.mem_of_getElem? ho) g hk'
          obtain rfl : i = 0 := by omega
          simp [Graph.globalVar, ops_back hinv.ext hlt, ho, hk'] at hg
        · exact absurd hk' hk
        · exact .inr rfl
        · exact .inl ⟨k, rfl⟩
      have hok2 : OkOne G0 swap (.op o) true := ⟨hlt, fun o1 ho1 => by
        obtain rfl : o = o1 := by simpa using ho1
        exact ⟨by simp, op, ho, hkind⟩⟩
      obtain ⟨G2, y, h6⟩ := ih (.op o) true false (by simp only [size]; omega) hok2 G1 C1 P hinv1
      obtain ⟨C2, -, hinv2, y', hy, hpost⟩ := copies_inv hs h6 hok2 C1 P hinv1
      obtain rfl : y = y' := by simpa using hy
      rcases hpost with ⟨a, o', hx, rfl, hab⟩ | ⟨t, t', hx, -⟩
      · obtain rfl : o = a := by simpa using hx
        obtain ⟨op', ho', hi'⟩ : ∃ op' : Op, G2.ops[o']? = some op' ∧ i < op'.nOut := by
          rcases hab with hab | ⟨-, ⟨op2, hop2, -, rfl⟩ | hC⟩
          · obtain ⟨op', h7, h8⟩ := ha.outputs _ _ op hab ho
            exact ⟨op', prefix_getElem? hinv2.ext.1 h7, by omega⟩
          · exact ⟨op, prefix_getElem? hinv2.ext.1 ho, hi⟩
          · obtain ⟨p, p', _, h7, h8, _, _, h9, _⟩ := hinv2.img _ _ hC
            rw [ho] at h7
            simp at h7
            subst h7
            exact ⟨p', h8, by omega⟩
        exact ⟨_, _, .tensor _ _ _ _ _ _ _ _ _ _ _ _ _ h h1 h2 h3 ho1 hk h6 ho' hi'⟩
      · simp [Graph.convert] at hx
    | op o =>
      have hlt : o < G0.ops.length := hok.1
      obtain ⟨op, ho, hkind⟩ := (hok.2 o rfl).2
      have hm := List.mem_of_getElem? ho
      have hsz : 3 * rank o < n + 1 := hsize
      have ho1 : G.ops[o]? = some op := by rw [ops_back hinv.ext hlt]; exact ho
      by_cases hq : op.kind = .queue
      · exact ⟨_, _, .queue _ _ _ _ _ _ _ h h1 h2 ho1 hq⟩
      obtain ⟨k, hk⟩ : ∃ k, op.kind = .compute k := hkind.elim id fun hk => absurd hk hq
      have hn : ∀ n, (.op o, n) ∉ swap := by
        cases rep
        · exact (hok.2 o rfl).1 rfl
        · exact (hrep rfl).1
      have hinv' := hinv.addOp hs ho hk hn
      have hokc : ∀ x ∈ op.control.map Node.op, OkOne G0 swap x true := fun x hx => by
        obtain ⟨c, hc, rfl⟩ := List.mem_map.mp hx
        obtain ⟨op', h1, h2⟩ := hs.proper.control op hm c hc
        refine ⟨(List.getElem?_eq_some_iff.mp h1).1, fun o1 ho1 => ?_⟩
        obtain rfl : c = o1 := by simpa using ho1
        exact ⟨by simp, op', h1, h2⟩
      obtain ⟨G1, control, h6⟩ := total_all hs (op.control.map .op) false (fun x hx G C P hinv => by
        refine ih x true false ?_ (hokc x hx) G C P hinv
        obtain ⟨c, hc, rfl⟩ := List.mem_map.mp hx
        have := ha.control o op ho c hc
        simp only [size]
        omega) hokc _ _ _ hinv'
      obtain ⟨C1, -, hinv1, hpc⟩ := copies_inv hs h6 hokc _ _ hinv'
      have hoki : ∀ x ∈ op.inputs.map Node.tensor, OkOne G0 swap x true := fun x hx => by
        obtain ⟨t, ht, rfl⟩ := List.mem_map.mp hx
        exact ⟨hs.proper.inputs op hm t ht, by simp⟩
      obtain ⟨G2, inputs, h8⟩ := total_all hs (op.inputs.map .tensor) false (fun x hx G C P hinv => by
        refine ih x true false ?_ (hoki x hx) G C P hinv
        obtain ⟨t, ht, rfl⟩ := List.mem_map.mp hx
        have := ha.inputs o op ho t ht
        simp only [size]
        omega) hoki _ _ _ hinv1
      obtain ⟨C2, -, hinv2, hpi⟩ := copies_inv hs h8 hoki _ _ hinv1
      obtain ⟨controls, h7⟩ := mapM_of_forall₂ (f := Node.op?) hpc fun a b hab hp => by
        obtain ⟨c, -, rfl⟩ := List.mem_map.mp hab
        rcases hp with ⟨_, o', -, rfl, -⟩ | ⟨t, t', hx, -⟩
        · exact ⟨o', rfl⟩
        · simp [Graph.convert] at hx
      obtain ⟨tensors, h9⟩ := mapM_of_forall₂ (f := G2.convert) hpi fun a b hab hp => post_convert hp (by
        obtain ⟨c, -, rfl⟩ := List.mem_map.mp hab
        simp)
      exact ⟨_, _, .op _ _ _ _ _ _ _ _ _ _ _ _ _ h h1 h2 ho1 hq h6 h7 h8 h9⟩

end Edward
