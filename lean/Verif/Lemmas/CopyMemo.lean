/-
Copying again.
-/
import Verif.Lemmas.CopyTotal

namespace Edward

open Copy Spec

variable {uniq : Graph → Name → Name} {parents : Node → List ℕ} {swap : List (Node × Node)} {scope : Name} {G0 : Graph}

theorem findIdx?_prefix {α : Type} {l l' : List α} (h : l <+: l') {p : α → Bool} {i : ℕ} (hi : l.findIdx? p = some i) :
    l'.findIdx? p = some i := by
  obtain ⟨m, rfl⟩ := h
  rw [List.findIdx?_append, hi]
  rfl

theorem findRV_extends {G G' : Graph} (h : Extends G G') {n : Name} {r : ℕ} (hr : G.findRV n = some r) : G'.findRV n = some r :=
  findIdx?_prefix h.2 hr

theorem findOp_extends {G G' : Graph} (h : Extends G G') {n : Name} {o : ℕ} (ho : G.findOp n = some o) : G'.findOp n = some o :=
  findIdx?_prefix h.1 ho

theorem valueOf_extends {G : Graph} (h : Extends G0 G) {r : ℕ} (hr : r < G0.rvs.length) : G.valueOf r = G0.valueOf r := by
  simp only [Graph.valueOf, rvs_back h hr]

theorem find?_congr' {α : Type} {l : List α} {p q : α → Bool} (h : ∀ a ∈ l, p a = q a) : l.find? p = l.find? q := by
  induction l with
  | nil => rfl
  | cons a l ih =>
    rw [List.find?_cons, List.find?_cons, h a (by simp), ih fun b hb => h b (by simp [hb])]

/-- The keys mean the same in a larger graph. -/
theorem swapStep_extends (hs : Setting uniq parents swap scope G0) {G : Graph} (h : Extends G0 G) (x : Node) (rep : Bool) :
    swapStep G swap false x rep = swapStep G0 swap false x rep := by
  unfold swapStep
  cases rep
  · rfl
  · simp only [if_true]
    rcases swapOf swap x with _ | v
    · cases x with
      | tensor t =>
        simp only
        have hf : ∀ p ∈ swap, G.isValueOfKey t p = G0.isValueOfKey t p := by
          rintro ⟨k, n⟩ hp
          cases k with
          | rv r => simp only [Graph.isValueOfKey, valueOf_extends h (hs.keys.rv r n hp).1]
          | _ => rfl
        rw [find?_congr' hf]
        rcases hfind : swap.find? (G0.isValueOfKey t) with _ | ⟨k, n⟩
        · rfl
        · cases n with
          | rv r' =>
            have hm := List.mem_of_find?_eq_some hfind
            have hp := List.find?_some hfind
            cases k with
            | rv r =>
              have := (hs.keys.rv r _ hm).2
              obtain ⟨t', ht⟩ := Option.isSome_iff_exists.mp this
              have ht' : G.valueOf r' = some t' := convert_extends (y := .rv r') h ht
              simp only [Graph.convert] at ht
              simp only [ht, ht']
            | _ => simp [Graph.isValueOfKey] at hp
          | _ => rfl
      | _ => rfl
    · rfl

theorem globalVar_extends {G : Graph} (h : Extends G0 G) {x : Node} (hx : Mem G0 x) : G.globalVar x = G0.globalVar x := by
  cases x with
  | op o => rfl
  | rv r => rfl
  | var o =>
    simp only [Mem, Option.map_eq_some_iff] at hx
    obtain ⟨op, h1, -⟩ := hx
    simp only [Graph.globalVar, ops_back h (List.getElem?_eq_some_iff.mp h1).1]
  | tensor t =>
    obtain ⟨o, i⟩ := t
    obtain ⟨op, h1, -⟩ := hx
    simp only at h1
    cases i with
    | zero => simp only [Graph.globalVar, ops_back h (List.getElem?_eq_some_iff.mp h1).1]
    | succ i => rfl

theorem varStep_extends {G : Graph} (h : Extends G0 G) {x : Node} (hx : Mem G0 x) (rep : Bool) :
    varStep G swap false x rep = varStep G0 swap false x rep := by
  simp only [varStep, globalVar_extends h hx, Bool.not_false, if_true]

theorem nameStep_extends {G G' : Graph} (h : Extends G G') {x y : Node} (hx : nameStep G scope x = some y) :
    nameStep G' scope x = some y := by
  cases x with
  | var o => simp [nameStep] at hx
  | rv r =>
    simp only [nameStep, Option.map_eq_some_iff, Option.bind_eq_some_iff] at hx ⊢
    obtain ⟨r', ⟨rv, h1, h2⟩, h3⟩ := hx
    exact ⟨r', ⟨rv, prefix_getElem? h.2 h1, findRV_extends h h2⟩, h3⟩
  | op o =>
    simp only [nameStep, Option.map_eq_some_iff, Option.bind_eq_some_iff] at hx ⊢
    obtain ⟨r', ⟨rv, h1, h2⟩, h3⟩ := hx
    exact ⟨r', ⟨rv, prefix_getElem? h.1 h1, findOp_extends h h2⟩, h3⟩
  | tensor t =>
    obtain ⟨o, i⟩ := t
    simp only [nameStep, Option.bind_eq_some_iff] at hx ⊢
    obtain ⟨o', ⟨op, h1, h2⟩, h3⟩ := hx
    refine ⟨o', ⟨op, prefix_getElem? h.1 h1, findOp_extends h h2⟩, ?_⟩
    split_ifs at h3 with h4
    simp only [Option.map_eq_some_iff] at h4
    obtain ⟨op', h5, h6⟩ := h4
    rw [prefix_getElem? h.1 h5]
    simp only [Option.map_some, h6, if_true]
    exact h3

/-- A random variable that was copied is found by its name from then on. -/
theorem memo_rv (hs : Setting uniq parents swap scope G0) {G G' H : Graph} (hG : Extends G0 G) (hH : Extends G' H) {r : ℕ}
    (hr : r < G0.rvs.length) {cp : Bool} {ys : List Node}
    (h : Copies uniq parents swap scope false G (.one (.rv r) true cp) G' ys) :
    ∃ z, Copies uniq parents swap scope false H (.one (.rv r) true cp) H [z] := by
  have hGH : Extends G H := (copies_extends h).trans hH
  have hsw : swapStep H swap false (.rv r) true = swapStep G swap false (.rv r) true := by
    rw [swapStep_extends hs (hG.trans hGH), swapStep_extends hs hG]
  have hvar : varStep H swap false (.rv r) true = .inr (.rv r) := rfl
  have hr0 := List.getElem?_eq_getElem hr
  cases h with
  | swapped _ _ _ _ y h => exact ⟨y, .swapped _ _ _ _ _ (hsw.trans h)⟩
  | var _ _ x1 _ _ y h h1 =>
    obtain ⟨rfl, -⟩ := swapStep_go h
    obtain ⟨o, hg, -⟩ := varStep_stop h1
    simp [Graph.globalVar] at hg
  | name _ _ x1 x2 _ _ y h h1 h2 =>
    obtain ⟨rfl, -⟩ := swapStep_go h
    obtain ⟨rfl, -⟩ := varStep_go h1
    exact ⟨y, .name _ _ _ _ _ _ _ (hsw.trans h) hvar (nameStep_extends hGH h2)⟩
  | placeholder _ _ _ _ _ _ _ _ _ _ h h1 =>
    obtain ⟨rfl, -⟩ := swapStep_go h
    obtain ⟨h2, -⟩ := varStep_go h1
    simp at h2
  | tensor _ _ _ _ _ _ _ _ _ _ _ _ _ h h1 =>
    obtain ⟨rfl, -⟩ := swapStep_go h
    obtain ⟨h2, -⟩ := varStep_go h1
    simp at h2
  | queue _ _ _ _ _ _ _ h h1 =>
    obtain ⟨rfl, -⟩ := swapStep_go h
    obtain ⟨h2, -⟩ := varStep_go h1
    simp at h2
  | op _ _ _ _ _ _ _ _ _ _ _ _ _ h h1 =>
    obtain ⟨rfl, -⟩ := swapStep_go h
    obtain ⟨h2, -⟩ := varStep_go h1
    simp at h2
  | rv _ _ x1 r' _ _ G1 zs rv G2 args inputs h h1 h2 h3 h4 h5 h6 =>
    obtain ⟨rfl, -⟩ := swapStep_go h
    obtain ⟨h7, -⟩ := varStep_go h1
    obtain rfl : r' = r := by simpa using h7
    have hrv : rv = G0.rvs[r'] := by
      have := rvs_back (hG.trans (copies_extends h3)) hr
      rw [h4, hr0] at this
      simpa using this
    subst hrv
    have hex : ((G2.addRV uniq (scope ++ G0.rvs[r'].name) G0.rvs[r'].cls args inputs).findRV (scope ++ G0.rvs[r'].name)).isSome := by
      unfold Graph.findRV
      rw [List.findIdx?_isSome]
      simp [Graph.addRV]
    obtain ⟨z, hz⟩ := Option.isSome_iff_exists.mp hex
    refine ⟨.rv z, .name _ _ _ _ _ _ _ (hsw.trans h) hvar ?_⟩
    simp only [nameStep, rvs_back (hG.trans hGH) hr, hr0, Option.bind_some, findRV_extends hH hz, Option.map_some]

theorem memo_all (hs : Setting uniq parents swap scope G0) (rs : List ℕ) (hr : ∀ r ∈ rs, r < G0.rvs.length) (cp : Bool) :
    ∀ {G G' H : Graph} {ys : List Node}, Extends G0 G → Extends G' H →
    Copies uniq parents swap scope false G (.all (rs.map .rv) cp) G' ys →
    ∃ zs, Copies uniq parents swap scope false H (.all (rs.map .rv) cp) H zs := by
  induction rs with
  | nil => exact fun {_ _ H _} _ _ _ => ⟨[], .nil _ _⟩
  | cons r rs ih =>
    intro G G' H ys hG hH h
    cases h with
    | cons _ _ _ _ G1 y _ ys h h1 =>
      obtain ⟨z, hz⟩ := memo_rv hs hG ((copies_extends h1).trans hH) (hr r (by simp)) h
      obtain ⟨zs, hzs⟩ := ih (fun r hr' => hr r (by simp [hr'])) (hG.trans (copies_extends h)) hH h1
      exact ⟨z :: zs, .cons _ _ _ _ _ _ _ _ hz hzs⟩

theorem memo_first (hs : Setting uniq parents swap scope G0) {cp : Bool} {x : Node} {G G' H : Graph} {ys : List Node}
    (hG : Extends G0 G) (hH : Extends G' H)
    (h : Copies uniq parents swap scope false G (.all (first parents cp x) true) G' ys) :
    ∃ zs, Copies uniq parents swap scope false H (.all (first parents cp x) true) H zs := by
  unfold first at h ⊢
  split_ifs at h ⊢
  · exact memo_all hs _ (fun r hr => hs.parents x r hr) true hG hH h
  · exact ⟨[], .nil _ _⟩

/-- The rank of what a task copies. -/
def Below (G0 : Graph) (rank : ℕ → ℕ) (K : ℕ) : Node → Prop
  | .op o => rank o < K
  | .tensor t => rank t.1 < K
  | .var _ => True
  | .rv r => ∀ rv, G0.rvs[r]? = some rv → rank rv.value < K

def BelowTask (G0 : Graph) (rank : ℕ → ℕ) (K : ℕ) : Task → Prop
  | .one x _ _ => Below G0 rank K x
  | .all xs _ => ∀ x ∈ xs, Below G0 rank K x

/-- New random variables are copies of random variables of the ranks that occur. -/
theorem copies_new_rvs (hs : Setting uniq parents swap scope G0) {rank : ℕ → ℕ} (ha : Acyclic G0 parents swap rank) {G G' : Graph}
    {task : Task} {ys : List Node} (h : Copies uniq parents swap scope false G task G' ys) : ∀ K, OkTask G0 swap task →
    BelowTask G0 rank K task → Extends G0 G → ∀ (r' : ℕ) (rv' : RV), G'.rvs[r']? = some rv' → G.rvs.length ≤ r' →
    ∃ (r : ℕ) (rv : RV), G0.rvs[r]? = some rv ∧ rv'.name = scope ++ rv.name ∧ rank rv.value < K := by
  have same : ∀ {G : Graph} {r' : ℕ} {rv' : RV}, G.rvs[r']? = some rv' → ¬ G.rvs.length ≤ r' := fun h hl =>
    absurd (List.getElem?_eq_some_iff.mp h).1 (by omega)
  have hbf : ∀ {cp x K}, (∀ r ∈ parents x, ∀ rv, G0.rvs[r]? = some rv → rank rv.value < K) →
      BelowTask G0 rank K (.all (first parents cp x) true) := by
    intro cp x K hK y hy
    unfold first at hy
    split_ifs at hy
    · obtain ⟨r, hr, rfl⟩ := List.mem_map.mp hy
      exact hK r hr
    · simp at hy
  induction h with
  | swapped | var | name => exact fun K _ _ _ r' rv' h hl => absurd hl (same h)
  | queue => exact fun K _ _ _ r' rv' h hl => absurd hl (same h)
  | nil => exact fun K _ _ _ r' rv' h hl => absurd hl (same h)
  | cons G x xs cp G1 y G2 ys h h1 ih1 ih2 =>
    intro K hok hb he r' rv' hr hl
    by_cases hl1 : G1.rvs.length ≤ r'
    · exact ih2 K (fun x hx => hok x (by simp [hx])) (fun x hx => hb x (by simp [hx])) (he.trans (copies_extends h)) r' rv' hr hl1
    · exact ih1 K (hok x (by simp)) (hb x (by simp)) he r' rv'
        (by rw [← rvs_back (copies_extends h1) (Nat.lt_of_not_le hl1)]; exact hr) hl
  | placeholder G x x1 o i rep cp G1 ys op h h1 h2 h3 h4 h5 ih =>
    intro K hok hb he r' rv' hr hl
    obtain ⟨rfl, -⟩ := swapStep_go h
    obtain ⟨rfl, -⟩ := varStep_go h1
    exact ih K (first_ok hs _ _) (hbf fun r hr rv hrv => by
      have := ha.parentsTensor _ _ _ hr hrv
      simp only [BelowTask, Below] at hb
      simp only at this
      omega) he r' rv' hr hl
  | tensor G x x1 o i rep cp G1 ys op G2 o' op' h h1 h2 h3 h4 h5 h6 h7 h8 ih1 ih2 =>
    intro K hok hb he r' rv' hr hl
    obtain ⟨rfl, -⟩ := swapStep_go h
    obtain ⟨rfl, hg⟩ := varStep_go h1
    by_cases hl1 : G1.rvs.length ≤ r'
    · refine ih2 K ?_ hb (he.trans (copies_extends h3)) r' rv' hr hl1
      obtain ⟨⟨op0, ho0, hi⟩, -⟩ := hok
      simp only at ho0 hi
      have hlt := (List.getElem?_eq_some_iff.mp ho0).1
      obtain rfl : op0 = op := by rw [ops_back (he.trans (copies_extends h3)) hlt, ho0] at h4; simpa using h4
      refine ⟨hlt, fun o1 ho1 => ?_⟩
      obtain rfl : o = o1 := by simpa using ho1
      refine ⟨by simp, op0, ho0, ?_⟩
      rcases hk : op0.kind with g | _ | _ | k
      · obtain ⟨rfl, hout⟩ := hs.proper.vars op0 (List.mem_of_getElem? ho0) g hk
        obtain rfl : i = 0 := by omega
        simp [Graph.globalVar, ops_back he hlt, ho0, hk] at hg
      · exact absurd hk h5
      · exact .inr rfl
      · exact .inl ⟨k, rfl⟩
    · exact ih1 K (first_ok hs _ _) (hbf fun r hr rv hrv => by
        have := ha.parentsTensor _ _ _ hr hrv
        simp only [BelowTask, Below] at hb
        simp only at this
        omega) he r' rv' (by rw [← rvs_back (copies_extends h6) (Nat.lt_of_not_le hl1)]; exact hr) hl
  | op G x x1 o rep cp op G1 control controls G2 inputs tensors h h1 h2 h4 h5 h6 h7 h8 h9 ih1 ih2 =>
    intro K hok hb he r' rv' hr hl
    obtain ⟨rfl, -⟩ := swapStep_go h
    obtain ⟨rfl, hg⟩ := varStep_go h1
    have ho0 : G0.ops[o]? = some op := by rw [← ops_back he hok.1]; exact h4
    have hm := List.mem_of_getElem? ho0
    have he1 := he.trans (extends_addOp G ⟨scope ++ op.name, op.kind, op.nOut, [], []⟩)
    simp only [BelowTask, Below] at hb
    by_cases hl1 : G1.rvs.length ≤ r'
    · refine ih2 K ?_ ?_ (he1.trans (copies_extends h6)) r' rv' hr hl1
      · intro x hx
        obtain ⟨t, ht, rfl⟩ := List.mem_map.mp hx
        exact ⟨hs.proper.inputs op hm t ht, by simp⟩
      · intro x hx
        obtain ⟨t, ht, rfl⟩ := List.mem_map.mp hx
        exact Nat.lt_trans (ha.inputs o op ho0 t ht) hb
    · refine ih1 K ?_ ?_ he1 r' rv' (by rw [← rvs_back (copies_extends h8) (Nat.lt_of_not_le hl1)]; exact hr) hl
      · intro x hx
        obtain ⟨c, hc, rfl⟩ := List.mem_map.mp hx
        obtain ⟨op', h1, h2⟩ := hs.proper.control op hm c hc
        refine ⟨(List.getElem?_eq_some_iff.mp h1).1, fun o1 ho1 => ?_⟩
        obtain rfl : c = o1 := by simpa using ho1
        exact ⟨by simp, op', h1, h2⟩
      · intro x hx
        obtain ⟨t, ht, rfl⟩ := List.mem_map.mp hx
        exact Nat.lt_trans (ha.control o op ho0 t ht) hb
  | rv G x x1 r rep cp G1 ys rv G2 args inputs h h1 h2 h3 h4 h5 h6 ih1 ih2 =>
    intro K hok hb he r' rv' hr hl
    obtain ⟨rfl, -⟩ := swapStep_go h
    obtain ⟨rfl, hg⟩ := varStep_go h1
    have he1 := he.trans (copies_extends h3)
    have hlt : r < G0.rvs.length := hok.1
    have hr0 : G0.rvs[r]? = some rv := by rw [← h4, rvs_back he1 hlt]
    have hm := List.mem_of_getElem? hr0
    have hK := hb rv hr0
    obtain ⟨op, ho, -, -, -, hin⟩ := hs.proper.sample rv hm
    have hargs := mapM_some hin
    by_cases hl2 : G2.rvs.length ≤ r'
    · have hb' : r' = G2.rvs.length := by
        have := (List.getElem?_eq_some_iff.mp hr).1
        simp [Graph.addRV] at this
        omega
      subst hb'
      have hp : rv' = ⟨scope ++ rv.name, rv.cls, args, G2.ops.length⟩ := by simpa [Graph.addRV] using hr.symm
      subst hp
      exact ⟨r, rv, hr0, rfl, hK⟩
    · have hr2 : G2.rvs[r']? = some rv' := by
        simpa [Graph.addRV, List.getElem?_append_left (Nat.lt_of_not_le hl2)] using hr
      by_cases hl1 : G1.rvs.length ≤ r'
      · refine ih2 K (fun x hx => ⟨hs.proper.args rv hm x hx, ?_⟩) (fun x hx => ?_) he1 r' rv' hr2 hl1
        · rintro o rfl
          obtain ⟨t, ht⟩ := forall₂_left hargs hx
          simp [Graph.convert] at ht
        · obtain ⟨t, htm, ht⟩ := forall₂_mem hargs hx
          have hlt := ha.inputs _ op ho t htm
          cases x with
          | op o => simp [Graph.convert] at ht
          | tensor t' => simp only [Graph.convert, Option.some.injEq] at ht; subst ht; exact Nat.lt_trans hlt hK
          | var o => trivial
          | rv r'' =>
            simp only [Graph.convert, Graph.valueOf, Option.map_eq_some_iff] at ht
            obtain ⟨rv'', h1, rfl⟩ := ht
            intro rv3 h3
            rw [h1] at h3
            simp at h3
            subst h3
            exact Nat.lt_trans hlt hK
      · refine ih1 K (first_ok hs _ _) (hbf fun r1 hr1 rv1 hrv1 => Nat.lt_trans (ha.parentsRV r r1 rv rv1 hr1 hr0 hrv1) hK) he r' rv'
          (by rw [← rvs_back (copies_extends h5) (Nat.lt_of_not_le hl1)]; exact hr2) hl

theorem findOp_names (G : Graph) (n : Name) : G.findOp n = (G.ops.map (·.name)).findIdx? (· = n) := by
  unfold Graph.findOp
  rw [List.findIdx?_map]
  rfl

theorem setInputs_names (G : Graph) (o c t) : (G.setInputs o c t).ops.map (·.name) = G.ops.map (·.name) := by
  apply List.ext_getElem?
  intro i
  simp only [List.getElem?_map, setInputs_getElem?, Option.map_map]
  congr 1
  funext op
  simp only [Function.comp]
  split_ifs <;> rfl

/-- The name of a new operation is found at the new operation. -/
theorem findOp_new {G G2 : Graph} {op : Op} (h : G.findOp op.name = none) (he : Extends (G.addOp op) G2) (c t) :
    (G2.setInputs G.ops.length c t).findOp op.name = some G.ops.length := by
  rw [findOp_names, setInputs_names, ← findOp_names]
  refine findOp_extends he ?_
  unfold Graph.findOp Graph.addOp
  unfold Graph.findOp at h
  rw [List.findIdx?_append, h]
  simp

/-- Copying again returns the same node, and adds nothing. -/
theorem copies_again (hs : Setting uniq parents swap scope G0) {rank : ℕ → ℕ} (ha : Acyclic G0 parents swap rank) {G' : Graph}
    {x y : Node} {rep cp : Bool} (hok : OkOne G0 swap x rep)
    (h : Copies uniq parents swap scope false G0 (.one x rep cp) G' [y]) :
    Copies uniq parents swap scope false G' (.one x rep cp) G' [y] := by
  obtain ⟨C, -, hinv, -⟩ := copies_inv hs h hok _ _ (inv_start G0)
  have he := hinv.ext
  have hsw := swapStep_extends hs he x rep
  have hvs := varStep_extends (swap := swap) he hok.1 rep
  generalize hys : [y] = ys at h
  cases h with
  | swapped _ _ _ _ y' h => exact .swapped _ _ _ _ _ (hsw.trans h)
  | var _ _ x1 _ _ y' h h1 =>
    obtain ⟨rfl, -⟩ := swapStep_go h
    exact .var _ _ _ _ _ _ (hsw.trans h) (hvs.trans h1)
  | name _ _ x1 x2 _ _ y' h h1 h2 =>
    obtain ⟨rfl, -⟩ := swapStep_go h
    exact .name _ _ _ _ _ _ _ (hsw.trans h) (hvs.trans h1) h2
  | rv _ _ x1 r _ _ G1 zs rv G2 args inputs h h1 h2 h3 h4 h5 h6 =>
    obtain ⟨rfl, -⟩ := swapStep_go h
    obtain ⟨rfl, -⟩ := varStep_go h1
    have hlt : r < G0.rvs.length := hok.1
    have he1 := copies_extends h3
    have he2 := he1.trans (copies_extends h5)
    have hr0 : G0.rvs[r]? = some rv := by rw [← h4, rvs_back he1 hlt]
    have hm := List.mem_of_getElem? hr0
    obtain ⟨op, ho, -, -, -, hin⟩ := hs.proper.sample rv hm
    have hargs := mapM_some hin
    have hnone : G2.findRV (scope ++ rv.name) = none := by
      rcases hf : G2.findRV (scope ++ rv.name) with _ | r'
      · rfl
      · exfalso
        obtain ⟨rv', h7, h8⟩ := findIdx?_some' hf
        simp at h8
        have hkey : ∃ (r2 : ℕ) (rv2 : RV), G0.rvs[r2]? = some rv2 ∧ rv'.name = scope ++ rv2.name ∧ rank rv2.value < rank rv.value := by
          by_cases hl0 : G0.rvs.length ≤ r'
          · by_cases hl1 : G1.rvs.length ≤ r'
            · refine copies_new_rvs hs ha h5 (rank rv.value) (fun x hx => ⟨hs.proper.args rv hm x hx, ?_⟩) (fun x hx => ?_) he1 r' rv' h7 hl1
              · rintro o rfl
                obtain ⟨t, ht⟩ := forall₂_left hargs hx
                simp [Graph.convert] at ht
              · obtain ⟨t, htm, ht⟩ := forall₂_mem hargs hx
                have hlt := ha.inputs _ op ho t htm
                cases x with
                | op o => simp [Graph.convert] at ht
                | tensor t' => simp only [Graph.convert, Option.some.injEq] at ht; subst ht; exact hlt
                | var o => trivial
                | rv r'' =>
                  simp only [Graph.convert, Graph.valueOf, Option.map_eq_some_iff] at ht
                  obtain ⟨rv'', h1, rfl⟩ := ht
                  intro rv3 h3
                  rw [h1] at h3
                  simp at h3
                  subst h3
                  exact hlt
            · refine copies_new_rvs hs ha h3 (rank rv.value) (first_ok hs _ _) (fun y hy => ?_) (.refl _) r' rv'
                (by rw [← rvs_back (copies_extends h5) (Nat.lt_of_not_le hl1)]; exact h7) hl0
              unfold first at hy
              split_ifs at hy
              · obtain ⟨r1, hr1, rfl⟩ := List.mem_map.mp hy
                exact fun rv1 hrv1 => ha.parentsRV r r1 rv rv1 hr1 hr0 hrv1
              · simp at hy
          · exfalso
            have := rvs_back he2 (Nat.lt_of_not_le hl0)
            rw [h7] at this
            exact hs.unused.rvs rv' (List.mem_of_getElem? this.symm) ⟨_, h8.symm⟩
        obtain ⟨r2, rv2, h9, h10, h11⟩ := hkey
        rw [h8] at h10
        have := hs.proper.rvNames r r2 rv rv2 hr0 h9 (List.append_cancel_left h10)
        subst this
        rw [hr0] at h9
        simp at h9
        subst h9
        omega
    refine .name _ _ _ _ _ _ _ (hsw.trans h) (hvs.trans h1) ?_
    have hfind : (G2.addRV uniq (scope ++ rv.name) rv.cls args inputs).findRV (scope ++ rv.name) = some G2.rvs.length := by
      unfold Graph.findRV Graph.addRV
      unfold Graph.findRV at hnone
      simp only
      rw [List.findIdx?_append, hnone]
      simp
    simp only [nameStep, rvs_back he hlt, hr0, Option.bind_some, hfind, Option.map_some]
  | placeholder _ _ x1 o i _ _ _ zs op h h1 h2 h3 h4 h5 =>
    obtain ⟨rfl, -⟩ := swapStep_go h
    obtain ⟨rfl, -⟩ := varStep_go h1
    obtain ⟨ws, hw⟩ := memo_first hs (.refl _) (.refl _) h3
    obtain ⟨⟨op0, ho0, hi⟩, -⟩ := id hok
    simp only at ho0
    have hlt := (List.getElem?_eq_some_iff.mp ho0).1
    refine .placeholder _ _ _ _ _ _ _ _ _ _ (hsw.trans h) (hvs.trans h1) ?_ hw h4 h5
    have h4' := h4
    rw [ops_back he hlt] at h4'
    rcases hf : G'.findOp (scope ++ op.name) with _ | o'
    · simp [nameStep, h4, hf]
    · obtain ⟨p, _, k, hp, _, hk, _⟩ := hinv.img _ _ (found_op hs hinv h4' hf)
      rw [h4'] at hp
      simp at hp
      subst hp
      simp [h5] at hk
  | tensor _ _ x1 o i _ _ G1 zs op _ o' op' h h1 h2 h3 h4 h5 h6 h7 h8 =>
    obtain ⟨rfl, -⟩ := swapStep_go h
    obtain ⟨rfl, -⟩ := varStep_go h1
    have he1 := copies_extends h3
    obtain ⟨ws, hw⟩ := memo_first hs (.refl _) (copies_extends h6) h3
    obtain ⟨⟨op0, ho0, hi⟩, -⟩ := id hok
    simp only at ho0
    have hlt := (List.getElem?_eq_some_iff.mp ho0).1
    obtain rfl : op0 = op := by rw [ops_back he1 hlt, ho0] at h4; simpa using h4
    have h4' : G'.ops[o]? = some op0 := by rw [ops_back he hlt]; exact ho0
    have hsw1 : ∀ r, swapStep G' swap false (.op o) r = swapStep G1 swap false (.op o) r := fun r => by
      rw [swapStep_extends hs he, swapStep_extends hs he1]
    -- found by name
    have viaName : G'.findOp (scope ++ op0.name) = some o' →
        Copies uniq parents swap scope false G' (.one (.tensor (o, i)) rep cp) G' [.tensor (o', i)] := fun hf => by
      refine .name _ _ _ _ _ _ _ (hsw.trans h) (hvs.trans h1) ?_
      simp [nameStep, h4', hf, h7, h8]
    -- not found, and the operation is not a copy
    have notFound : ((∃ n, (.op o, n) ∈ swap) ∨ op0.kind = .queue) → G'.findOp (scope ++ op0.name) = none := fun hc => by
      rcases hf : G'.findOp (scope ++ op0.name) with _ | o''
      · rfl
      · obtain ⟨p, _, k, hp, _, hk, _, _, hn, _⟩ := hinv.img _ _ (found_op hs hinv ho0 hf)
        rw [ho0] at hp
        simp at hp
        subst hp
        rcases hc with ⟨n, hc⟩ | hc
        · exact absurd hc (hn n)
        · simp [hc] at hk
    generalize hzs : [Node.op o'] = zs' at h6
    cases h6 with
    | swapped _ _ _ _ y' h' =>
      obtain rfl : .op o' = y' := by simpa using hzs
      have hkey : ∃ n, (.op o, n) ∈ swap := by
        rcases (swapStep_stop h').2 with hk | ⟨_, _, _, hk, _⟩
        · exact ⟨_, hk⟩
        · simp at hk
      refine .tensor _ _ _ _ _ _ _ _ _ _ _ _ _ (hsw.trans h) (hvs.trans h1) ?_ hw h4' h5
        (.swapped _ _ _ _ _ ((hsw1 true).trans h')) h7 h8
      simp [nameStep, h4', notFound (.inl hkey)]
    | var _ _ _ _ _ y' h' h1' =>
      obtain ⟨rfl, -⟩ := swapStep_go h'
      obtain ⟨_, hg, -⟩ := varStep_stop h1'
      simp [Graph.globalVar] at hg
    | name _ _ _ _ _ _ y' h' h1' h2' =>
      obtain ⟨rfl, -⟩ := swapStep_go h'
      obtain ⟨rfl, -⟩ := varStep_go h1'
      obtain rfl : .op o' = y' := by simpa using hzs
      refine viaName ?_
      simpa [nameStep, h4] using h2'
    | rv _ _ _ _ _ _ _ _ _ _ _ _ h' h1' =>
      obtain ⟨rfl, -⟩ := swapStep_go h'
      obtain ⟨h2', -⟩ := varStep_go h1'
      simp at h2'
    | placeholder _ _ _ _ _ _ _ _ _ _ h' h1' =>
      obtain ⟨rfl, -⟩ := swapStep_go h'
      obtain ⟨h2', -⟩ := varStep_go h1'
      simp at h2'
    | tensor _ _ _ _ _ _ _ _ _ _ _ _ _ h' h1' =>
      obtain ⟨rfl, -⟩ := swapStep_go h'
      obtain ⟨h2', -⟩ := varStep_go h1'
      simp at h2'
    | queue _ _ _ o1 _ _ op1 h' h1' h2' h4'' h5' =>
      obtain ⟨rfl, -⟩ := swapStep_go h'
      obtain ⟨hq, -⟩ := varStep_go h1'
      obtain rfl : o1 = o := by simpa using hq
      obtain rfl : o' = o1 := by simpa using hzs
      obtain rfl : op0 = op1 := by rw [h4] at h4''; simpa using h4''
      refine .tensor _ _ _ _ _ _ _ _ _ _ _ _ _ (hsw.trans h) (hvs.trans h1) ?_ hw h4' h5
        (.queue _ _ _ _ _ _ _ h' h1' h2' h4'' h5') h7 h8
      simp [nameStep, h4', notFound (.inr h5')]
    | op _ _ _ o1 _ _ op1 G3 control controls G4 inputs tensors h' h1' h2' h4'' h5' h6' h7' h8' h9' =>
      obtain ⟨rfl, -⟩ := swapStep_go h'
      obtain ⟨hq, -⟩ := varStep_go h1'
      obtain rfl : o1 = o := by simpa using hq
      obtain rfl : o' = G1.ops.length := by simpa using hzs
      obtain rfl : op0 = op1 := by rw [h4] at h4''; simpa using h4''
      refine viaName (findOp_new (op := ⟨scope ++ op0.name, op0.kind, op0.nOut, [], []⟩) ?_
        ((copies_extends h6').trans (copies_extends h8')) _ _)
      simpa [nameStep, h4] using h2'
  | queue _ _ x1 o _ _ op h h1 h2 h4 h5 => exact .queue _ _ _ _ _ _ _ h h1 h2 h4 h5
  | op _ _ x1 o _ _ op G1 control controls G2 inputs tensors h h1 h2 h4 h5 h6 h7 h8 h9 =>
    obtain ⟨rfl, -⟩ := swapStep_go h
    obtain ⟨rfl, -⟩ := varStep_go h1
    refine .name _ _ _ _ _ _ _ (hsw.trans h) (hvs.trans h1) ?_
    have hf := findOp_new (G := G0) (op := ⟨scope ++ op.name, op.kind, op.nOut, [], []⟩) (by simpa [nameStep, h4] using h2)
      ((copies_extends h6).trans (copies_extends h8)) controls tensors
    simp only at hf
    simp [nameStep, ops_back he hok.1, h4, hf]

/-! ### Kinds of new operations, for all arguments -/

/-- A node whose copy is not a variable, placeholder or queue. -/
def Plain (G0 : Graph) (x : Node) : Prop :=
  Mem G0 x ∧ ∀ o, x = .op o → ∃ op, G0.ops[o]? = some op ∧ ((∃ k, op.kind = .compute k) ∨ op.kind = .queue)

def PlainTask (G0 : Graph) : Task → Prop
  | .one x _ _ => Plain G0 x
  | .all xs _ => ∀ x ∈ xs, Plain G0 x

theorem swapStep_cases {copyQ : Bool} {G : Graph} {x x1 : Node} {rep b : Bool} (h : swapStep G swap copyQ x rep = (x1, b)) :
    x1 = x ∨ (∃ k, (k, x1) ∈ swap) ∨ ∃ k r t, (k, .rv r) ∈ swap ∧ G.valueOf r = some t ∧ x1 = .tensor t := by
  unfold swapStep at h
  split_ifs at h
  · rcases hs : swapOf swap x with _ | v
    · simp only [hs] at h
      cases x with
      | tensor t =>
        simp only at h
        split at h
        · rename_i a r' heq
          simp only [Prod.mk.injEq] at h
          rcases hv : G.valueOf r' with _ | t'
          · exact .inr (.inl ⟨_, by rw [← h.1, hv]; exact List.mem_of_find?_eq_some heq⟩)
          · exact .inr (.inr ⟨_, r', t', List.mem_of_find?_eq_some heq, hv, by rw [← h.1, hv]⟩)
        · rename_i a v _ heq
          simp only [Prod.mk.injEq] at h
          exact .inr (.inl ⟨_, by rw [← h.1]; exact List.mem_of_find?_eq_some heq⟩)
        · simp at h; exact .inl h.1.symm
      | _ => simp at h; exact .inl h.1.symm
    · simp only [hs, Prod.mk.injEq] at h
      exact .inr (.inl ⟨x, by rw [← h.1]; exact swapOf_some hs⟩)
  · simp at h; exact .inl h.1.symm

theorem varStep_cases {copyQ : Bool} {G : Graph} {x x1 : Node} {rep : Bool} (h : varStep G swap copyQ x rep = .inr x1) :
    (x1 = x ∨ ∃ k, (k, x1) ∈ swap) ∧ G.globalVar x1 = none := by
  rw [varStep] at h
  rcases hg : G.globalVar x with _ | o
  · simp only [hg, Sum.inr.injEq] at h
    subst h
    exact ⟨.inl rfl, hg⟩
  · simp only [hg] at h
    split at h
    · simp at h
    · rename_i v hv
      have hm : (.var o, v) ∈ swap := by
        split_ifs at hv
        exact swapOf_some hv
      split_ifs at h
      split at h
      · simp at h
      · split at h
        · simp at h
        · rename_i hgv
          simp only [Sum.inr.injEq] at h
          subst h
          exact ⟨.inr ⟨_, hm⟩, hgv⟩

theorem copies_kinds {copyQ : Bool} (hp : Proper G0) (hpar : ∀ x r, r ∈ parents x → r < G0.rvs.length)
    (hswap : ∀ k n, (k, n) ∈ swap → Plain G0 n) {G G' : Graph}
    {task : Task} {ys : List Node} (h : Copies uniq parents swap scope copyQ G task G' ys) :
    PlainTask G0 task → Extends G0 G → ∀ (o : ℕ) (op : Op), G'.ops[o]? = some op → G.ops.length ≤ o → ∃ k, op.kind = .compute k := by
  have same : ∀ {G : Graph} {o : ℕ} {op : Op}, G.ops[o]? = some op → ¬ G.ops.length ≤ o := fun h hl =>
    absurd (List.getElem?_eq_some_iff.mp h).1 (by omega)
  have hfirst : ∀ cp x, PlainTask G0 (.all (first parents cp x) true) := by
    intro cp x y hy
    unfold first at hy
    split_ifs at hy
    · obtain ⟨r, hr, rfl⟩ := List.mem_map.mp hy
      exact ⟨hpar x r hr, by simp⟩
    · simp at hy
  -- what is copied is a node of the original graph
  have hgo : ∀ {G : Graph} {x x1 x2 : Node} {rep : Bool}, Extends G0 G → Plain G0 x → swapStep G swap copyQ x rep = (x1, false) →
      varStep G swap copyQ x1 rep = .inr x2 → Plain G0 x2 ∧ G.globalVar x2 = none := by
    intro G x x1 x2 rep he hx h h1
    obtain ⟨h2, h3⟩ := varStep_cases h1
    refine ⟨?_, h3⟩
    rcases h2 with rfl | ⟨k, h2⟩
    · rcases swapStep_cases h with rfl | ⟨k, h4⟩ | ⟨k, r, t, h4, h5, rfl⟩
      · exact hx
      · exact hswap _ _ h4
      · have hr : r < G0.rvs.length := (hswap _ _ h4).1
        rw [valueOf_extends he hr] at h5
        simp only [Graph.valueOf, Option.map_eq_some_iff] at h5
        obtain ⟨rv, h6, rfl⟩ := h5
        obtain ⟨op, h7, -, -, h8, -⟩ := hp.sample rv (List.mem_of_getElem? h6)
        exact ⟨⟨op, h7, by rw [h8]; exact Nat.zero_lt_one⟩, by simp⟩
    · exact hswap _ _ h2
  induction h with
  | swapped | var | name => exact fun _ _ o op h hl => absurd hl (same h)
  | queue => exact fun _ _ o op h hl => absurd hl (same h)
  | nil => exact fun _ _ o op h hl => absurd hl (same h)
  | cons G x xs cp G1 y G2 ys h h1 ih1 ih2 =>
    intro hok he o op ho hl
    by_cases hl1 : G1.ops.length ≤ o
    · exact ih2 (fun x hx => hok x (by simp [hx])) (he.trans (copies_extends h)) o op ho hl1
    · exact ih1 (hok x (by simp)) he o op (by rw [← ops_back (copies_extends h1) (Nat.lt_of_not_le hl1)]; exact ho) hl
  | placeholder G x x1 o i rep cp G1 ys op h h1 h2 h3 h4 h5 ih =>
    intro hok he o' op' ho hl
    exact ih (hfirst _ _) he o' op' ho hl
  | tensor G x x1 o i rep cp G1 ys op G2 o' op' h h1 h2 h3 h4 h5 h6 h7 h8 ih1 ih2 =>
    intro hok he o1 op1 ho hl
    obtain ⟨hx2, hg⟩ := hgo he hok h h1
    by_cases hl1 : G1.ops.length ≤ o1
    · refine ih2 ?_ (he.trans (copies_extends h3)) o1 op1 ho hl1
      obtain ⟨⟨op0, ho0, hi⟩, -⟩ := hx2
      simp only at ho0 hi
      have hlt := (List.getElem?_eq_some_iff.mp ho0).1
      obtain rfl : op0 = op := by rw [ops_back (he.trans (copies_extends h3)) hlt, ho0] at h4; simpa using h4
      refine ⟨hlt, fun o1 ho1 => ?_⟩
      obtain rfl : o = o1 := by simpa using ho1
      refine ⟨op0, ho0, ?_⟩
      rcases hk : op0.kind with g | _ | _ | k
      · obtain ⟨rfl, hout⟩ := hp.vars op0 (List.mem_of_getElem? ho0) g hk
        obtain rfl : i = 0 := by omega
        simp [Graph.globalVar, ops_back he hlt, ho0, hk] at hg
      · exact absurd hk h5
      · exact .inr rfl
      · exact .inl ⟨k, rfl⟩
    · exact ih1 (hfirst _ _) he o1 op1 (by rw [← ops_back (copies_extends h6) (Nat.lt_of_not_le hl1)]; exact ho) hl
  | op G x x1 o rep cp op G1 control controls G2 inputs tensors h h1 h2 h4 h5 h6 h7 h8 h9 ih1 ih2 =>
    intro hok he o1 op1 ho hl
    obtain ⟨hx2, -⟩ := hgo he hok h h1
    have ho0 : G0.ops[o]? = some op := by rw [← ops_back he hx2.1]; exact h4
    have hm := List.mem_of_getElem? ho0
    have he1 := he.trans (extends_addOp G ⟨scope ++ op.name, op.kind, op.nOut, [], []⟩)
    rw [setInputs_getElem?, Option.map_eq_some_iff] at ho
    obtain ⟨p, hp1, hp2⟩ := ho
    have hkind : op1.kind = p.kind := by rw [← hp2]; split_ifs <;> rfl
    rw [hkind]
    by_cases hl1 : G1.ops.length ≤ o1
    · refine ih2 ?_ (he1.trans (copies_extends h6)) o1 p hp1 hl1
      intro x hx
      obtain ⟨t, ht, rfl⟩ := List.mem_map.mp hx
      exact ⟨hp.inputs op hm t ht, by simp⟩
    · have hp3 : G1.ops[o1]? = some p := by rw [← ops_back (copies_extends h8) (Nat.lt_of_not_le hl1)]; exact hp1
      by_cases hl2 : (G.addOp ⟨scope ++ op.name, op.kind, op.nOut, [], []⟩).ops.length ≤ o1
      · refine ih1 ?_ he1 o1 p hp3 hl2
        intro x hx
        obtain ⟨c, hc, rfl⟩ := List.mem_map.mp hx
        obtain ⟨op', h1, h2⟩ := hp.control op hm c hc
        refine ⟨(List.getElem?_eq_some_iff.mp h1).1, fun o1 ho1 => ?_⟩
        obtain rfl : c = o1 := by simpa using ho1
        exact ⟨op', h1, h2⟩
      · rw [ops_back (copies_extends h6) (Nat.lt_of_not_le hl2)] at hp3
        obtain rfl : o1 = G.ops.length := by
          simp [Graph.addOp] at hl2
          omega
        simp [Graph.addOp] at hp3
        subst hp3
        obtain ⟨op2, h10, h11⟩ := hx2.2 o rfl
        rw [ho0] at h10
        simp at h10
        subst h10
        exact h11.elim id fun h => absurd h h5
  | rv G x x1 r rep cp G1 ys rv G2 args inputs h h1 h2 h3 h4 h5 h6 ih1 ih2 =>
    intro hok he o1 op1 ho hl
    obtain ⟨hx2, -⟩ := hgo he hok h h1
    have he1 := he.trans (copies_extends h3)
    have hlt : r < G0.rvs.length := hx2.1
    have hr0 : G0.rvs[r]? = some rv := by rw [← h4, rvs_back he1 hlt]
    have hm := List.mem_of_getElem? hr0
    obtain ⟨op, hop, -, -, -, hin⟩ := hp.sample rv hm
    have hargs := mapM_some hin
    by_cases hl2 : G2.ops.length ≤ o1
    · obtain rfl : o1 = G2.ops.length := by
        have := (List.getElem?_eq_some_iff.mp ho).1
        simp [Graph.addRV] at this
        omega
      simp [Graph.addRV] at ho
      exact ⟨rv.cls, by rw [← ho]⟩
    · have ho2 : G2.ops[o1]? = some op1 := by
        simpa [Graph.addRV, List.getElem?_append_left (Nat.lt_of_not_le hl2)] using ho
      by_cases hl1 : G1.ops.length ≤ o1
      · refine ih2 (fun x hx => ⟨hp.args rv hm x hx, ?_⟩) he1 o1 op1 ho2 hl1
        rintro o rfl
        obtain ⟨t, ht⟩ := forall₂_left hargs hx
        simp [Graph.convert] at ht
      · exact ih1 (hfirst _ _) he o1 op1 (by rw [← ops_back (copies_extends h5) (Nat.lt_of_not_le hl1)]; exact ho2) hl

end Edward
