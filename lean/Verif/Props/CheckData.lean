/-
Properties C46 and C47: validation and storing of data dictionaries.
-/
import Verif.Model.CheckData
import Verif.Spec.Shape

namespace Edward

/-! Documented rules, written independently of the code's control flow. -/

def DKey.info? : DKey → Option NodeInfo
  | .placeholder i | .tensor i | .rv i => some i
  | .other => none

def DVal.node? : DVal → Option NodeInfo
  | .tensor i | .rv i => some i
  | _ => none

/-- A valid pair of a data dictionary. -/
inductive ValidData : DKey → DVal → Prop
  /-- placeholders take anything but graph nodes -/
  | feed (i : NodeInfo) (v : DVal) (h : v.node? = none) : ValidData (.placeholder i) v
  /-- graph nodes take nodes of consistent shape and equal dtype -/
  | node (k : DKey) (ik : NodeInfo) (v : DVal) (iv : NodeInfo) (hp : ∀ i, k ≠ .placeholder i)
      (hk : k.info? = some ik) (hv : v.node? = some iv) (hs : Consistent ik.shape iv.shape)
      (hd : ik.dtype = iv.dtype) : ValidData k v
  /-- graph nodes take Python values of consistent shape -/
  | host (k : DKey) (ik : NodeInfo) (s : List Nat) (hp : ∀ i, k ≠ .placeholder i)
      (hk : k.info? = some ik) (hs : Describes ik.shape s) : ValidData k (.host s)
  /-- and NumPy values of consistent shape and numeric or string dtype -/
  | np (k : DKey) (ik : NodeInfo) (s : List Nat) (hp : ∀ i, k ≠ .placeholder i)
      (hk : k.info? = some ik) (hs : Describes ik.shape s) : ValidData k (.np s true)

/-- A valid pair of a latent variable dictionary. -/
def ValidLatent (k : DKey) (v : DVal) : Prop :=
  ∃ ik iv, k.info? = some ik ∧ v.node? = some iv ∧ Consistent ik.shape iv.shape ∧ ik.dtype = iv.dtype

theorem consistent_hostShape (s : Shape) (m : List Nat) : Consistent s (hostShape m) ↔ Describes s m := by
  constructor
  · rintro ⟨l, h1, h2⟩; rw [describes_hostShape] at h2; exact h2 ▸ h1
  · intro h; exact ⟨m, h, (describes_hostShape m m).mpr rfl⟩

theorem checkNode_iff (k : NodeInfo) (v : DVal) : checkPair.checkNode k v = true ↔
    (∃ iv, v.node? = some iv ∧ Consistent k.shape iv.shape ∧ k.dtype = iv.dtype) ∨
    (∃ s, v = .host s ∧ Describes k.shape s) ∨ (∃ s, v = .np s true ∧ Describes k.shape s) := by
  cases v with
  | tensor i =>
    simp only [checkPair.checkNode, DVal.node?]
    by_cases h : shapeCompat k.shape i.shape = true
    · simp [h, (shapeCompat_iff _ _).mp h]
    · have : ¬ Consistent k.shape i.shape := fun hc => h ((shapeCompat_iff _ _).mpr hc)
      simp [h, this]
  | rv i =>
    simp only [checkPair.checkNode, DVal.node?]
    by_cases h : shapeCompat k.shape i.shape = true
    · simp [h, (shapeCompat_iff _ _).mp h]
    · have : ¬ Consistent k.shape i.shape := fun hc => h ((shapeCompat_iff _ _).mpr hc)
      simp [h, this]
  | host s =>
    simp [checkPair.checkNode, DVal.node?, shapeCompat_iff, consistent_hostShape]
  | np s ok =>
    simp only [checkPair.checkNode, DVal.node?]
    by_cases h : shapeCompat k.shape (hostShape s) = true
    · have := (consistent_hostShape _ _).mp ((shapeCompat_iff _ _).mp h)
      cases ok <;> simp [h, this]
    · have : ¬ Describes k.shape s := fun hc =>
        h ((shapeCompat_iff _ _).mpr ((consistent_hostShape _ _).mpr hc))
      simp [h]; rintro rfl; exact this
  | other => simp [checkPair.checkNode, DVal.node?]

theorem checkPair_iff (k : DKey) (v : DVal) : checkPair k v = true ↔ ValidData k v := by
  have hn : ∀ (k : DKey) (ik : NodeInfo), (∀ i, k ≠ .placeholder i) → k.info? = some ik →
      (checkPair.checkNode ik v = true ↔ ValidData k v) := by
    intro k ik hp hk
    rw [checkNode_iff]
    constructor
    · rintro (⟨iv, h1, h2, h3⟩ | ⟨s, rfl, h⟩ | ⟨s, rfl, h⟩)
      · exact .node k ik v iv hp hk h1 h2 h3
      · exact .host k ik s hp hk h
      · exact .np k ik s hp hk h
    · intro h
      cases h with
      | feed i _ _ => exact absurd rfl (hp i)
      | node _ ik' _ iv _ hk' hv hs hd =>
        obtain rfl := Option.some.inj (hk.symm.trans hk')
        exact Or.inl ⟨iv, hv, hs, hd⟩
      | host _ ik' s _ hk' hs =>
        obtain rfl := Option.some.inj (hk.symm.trans hk')
        exact Or.inr (Or.inl ⟨s, rfl, hs⟩)
      | np _ ik' s _ hk' hs =>
        obtain rfl := Option.some.inj (hk.symm.trans hk')
        exact Or.inr (Or.inr ⟨s, rfl, hs⟩)
  cases k with
  | placeholder i =>
    constructor
    · intro h
      cases v <;> simp [checkPair] at h <;> exact .feed i _ rfl
    · intro h
      cases h with
      | feed _ _ hv => cases v <;> simp [checkPair, DVal.node?] at hv ⊢
      | node _ _ _ _ hp _ _ _ _ => exact absurd rfl (hp i)
      | host _ _ _ hp _ _ => exact absurd rfl (hp i)
      | np _ _ _ hp _ _ => exact absurd rfl (hp i)
  | tensor i => exact hn (.tensor i) i (by simp) rfl
  | rv i => exact hn (.rv i) i (by simp) rfl
  | other =>
    constructor
    · intro h; simp [checkPair] at h
    · intro h
      cases h with
      | node _ _ _ _ _ hk _ _ _ => simp [DKey.info?] at hk
      | host _ _ _ _ hk _ => simp [DKey.info?] at hk
      | np _ _ _ _ hk _ => simp [DKey.info?] at hk

theorem checkLatentPair_iff (k : DKey) (v : DVal) : checkLatentPair k v = true ↔ ValidLatent k v := by
  have hb : ∀ ik : NodeInfo, checkLatentPair.checkBoth ik v = true ↔
      ∃ iv, v.node? = some iv ∧ Consistent ik.shape iv.shape ∧ ik.dtype = iv.dtype := by
    intro ik
    have hi : ∀ i : NodeInfo, ((if !shapeCompat ik.shape i.shape then false
        else decide (ik.dtype = i.dtype)) = true) ↔ Consistent ik.shape i.shape ∧ ik.dtype = i.dtype := by
      intro i
      by_cases h : shapeCompat ik.shape i.shape = true
      · simp [h, (shapeCompat_iff _ _).mp h]
      · have : ¬ Consistent ik.shape i.shape := fun hc => h ((shapeCompat_iff _ _).mpr hc)
        simp [h, this]
    cases v with
    | tensor i => simp only [checkLatentPair.checkBoth, hi, DVal.node?, Option.some.injEq, exists_eq_left']
    | rv i => simp only [checkLatentPair.checkBoth, hi, DVal.node?, Option.some.injEq, exists_eq_left']
    | host s => simp [checkLatentPair.checkBoth, DVal.node?]
    | np s ok => simp [checkLatentPair.checkBoth, DVal.node?]
    | other => simp [checkLatentPair.checkBoth, DVal.node?]
  unfold ValidLatent
  cases k with
  | placeholder i => simp only [checkLatentPair, hb, DKey.info?, Option.some.injEq, exists_and_left, exists_eq_left']
  | tensor i => simp only [checkLatentPair, hb, DKey.info?, Option.some.injEq, exists_and_left, exists_eq_left']
  | rv i => simp only [checkLatentPair, hb, DKey.info?, Option.some.injEq, exists_and_left, exists_eq_left']
  | other => simp [checkLatentPair, DKey.info?]

/-- C46: `check_data` accepts a dictionary iff every pair obeys the documented
rules; otherwise, and for anything but a dictionary, it raises `TypeError`. -/
theorem C46_checkData_iff (items : List (DKey × DVal)) :
    (checkData (some items) = .ok () ↔ ∀ kv ∈ items, ValidData kv.1 kv.2) ∧
    (checkData (some items) = .error () ↔ ∃ kv ∈ items, ¬ ValidData kv.1 kv.2) ∧
    checkData none = .error () := by
  have h1 : ∀ l : List (DKey × DVal), checkData.go l = .ok () ↔ ∀ kv ∈ l, ValidData kv.1 kv.2 := by
    intro l
    induction l with
    | nil => simp [checkData.go]
    | cons a l ih =>
      obtain ⟨k, v⟩ := a
      rw [checkData.go]
      by_cases h : checkPair k v = true
      · rw [if_pos h, ih]; simp [(checkPair_iff k v).mp h]
      · rw [if_neg h]
        simp only [reduceCtorEq, List.mem_cons, forall_eq_or_imp, false_iff, not_and]
        exact fun hv => absurd ((checkPair_iff k v).mpr hv) h
  refine ⟨h1 items, ?_, rfl⟩
  have : checkData (some items) = .error () ↔ ¬ checkData (some items) = .ok () := by
    cases checkData (some items) <;> simp
  rw [this]
  simp only [checkData, h1 items, not_forall, exists_prop]

/-- C46 for `check_latent_vars`. -/
theorem C46_checkLatentVars_iff (items : List (DKey × DVal)) :
    (checkLatentVars (some items) = .ok () ↔ ∀ kv ∈ items, ValidLatent kv.1 kv.2) ∧
    (checkLatentVars (some items) = .error () ↔ ∃ kv ∈ items, ¬ ValidLatent kv.1 kv.2) ∧
    checkLatentVars none = .error () := by
  have h1 : ∀ l : List (DKey × DVal), checkLatentVars.go l = .ok () ↔ ∀ kv ∈ l, ValidLatent kv.1 kv.2 := by
    intro l
    induction l with
    | nil => simp [checkLatentVars.go]
    | cons a l ih =>
      obtain ⟨k, v⟩ := a
      rw [checkLatentVars.go]
      by_cases h : checkLatentPair k v = true
      · rw [if_pos h, ih]; simp [(checkLatentPair_iff k v).mp h]
      · rw [if_neg h]
        simp only [reduceCtorEq, List.mem_cons, forall_eq_or_imp, false_iff, not_and]
        exact fun hv => absurd ((checkLatentPair_iff k v).mpr hv) h
  refine ⟨h1 items, ?_, rfl⟩
  have : checkLatentVars (some items) = .error () ↔ ¬ checkLatentVars (some items) = .ok () := by
    cases checkLatentVars (some items) <;> simp
  rw [this]
  simp only [checkLatentVars, h1 items, not_forall, exists_prop]

/-- C46: iteration order does not matter. -/
theorem C46_order_independent {l l' : List (DKey × DVal)} (h : l.Perm l') :
    checkData (some l) = checkData (some l') ∧ checkLatentVars (some l) = checkLatentVars (some l') := by
  constructor
  · by_cases hv : ∀ kv ∈ l, ValidData kv.1 kv.2
    · rw [(C46_checkData_iff l).1.mpr hv,
        (C46_checkData_iff l').1.mpr (fun kv hk => hv kv (h.mem_iff.mpr hk))]
    · have hv' : ¬ ∀ kv ∈ l', ValidData kv.1 kv.2 := fun hh => hv (fun kv hk => hh kv (h.mem_iff.mp hk))
      simp only [not_forall, exists_prop] at hv hv'
      rw [(C46_checkData_iff l).2.1.mpr hv, (C46_checkData_iff l').2.1.mpr hv']
  · by_cases hv : ∀ kv ∈ l, ValidLatent kv.1 kv.2
    · rw [(C46_checkLatentVars_iff l).1.mpr hv,
        (C46_checkLatentVars_iff l').1.mpr (fun kv hk => hv kv (h.mem_iff.mpr hk))]
    · have hv' : ¬ ∀ kv ∈ l', ValidLatent kv.1 kv.2 := fun hh => hv (fun kv hk => hh kv (h.mem_iff.mp hk))
      simp only [not_forall, exists_prop] at hv hv'
      rw [(C46_checkLatentVars_iff l).2.1.mpr hv, (C46_checkLatentVars_iff l').2.1.mpr hv']

/-- C46: a dictionary is accepted iff each of its pairs is accepted on its own. -/
theorem C46_pairwise (l : List (DKey × DVal)) :
    checkData (some l) = .ok () ↔ ∀ kv ∈ l, checkData (some [kv]) = .ok () := by
  simp only [(C46_checkData_iff _).1, List.mem_singleton, forall_eq]

example : checkData (some [(.rv ⟨some [none, some 2], .float32⟩, .np [3, 2] true),
    (.placeholder ⟨none, .float32⟩, .host [5])]) = .ok () := by decide

example : checkData (some [(.rv ⟨some [none, some 2], .float32⟩, .np [3, 3] true)]) = .error () := by
  decide

/-! ### C47 -/

section
variable {Id Obj : Type}

/-- What a binding holds. -/
def Holds (convert : Id → Obj → Option Obj) (s : Storage Id Obj) (k : Id) (v : Obj) : Prop :=
  (k, Bound.given v) ∈ s.data ∨
  ∃ n w, (k, Bound.variable n) ∈ s.data ∧ s.vars[n]? = some w ∧ convert k v = some w

/-- Bindings and variable contents are never removed. -/
def Extends (s s' : Storage Id Obj) : Prop :=
  (∃ d, s'.data = s.data ++ d) ∧ ∃ e, s'.vars = s.vars ++ e

theorem Extends.refl (s : Storage Id Obj) : Extends s s := ⟨⟨[], by simp⟩, ⟨[], by simp⟩⟩

theorem Extends.trans {s t u : Storage Id Obj} (h1 : Extends s t) (h2 : Extends t u) : Extends s u := by
  obtain ⟨⟨d1, hd1⟩, e1, he1⟩ := h1
  obtain ⟨⟨d2, hd2⟩, e2, he2⟩ := h2
  exact ⟨⟨d1 ++ d2, by rw [hd2, hd1, List.append_assoc]⟩, ⟨e1 ++ e2, by rw [he2, he1, List.append_assoc]⟩⟩

theorem Holds.mono {convert : Id → Obj → Option Obj} {s s' : Storage Id Obj} (he : Extends s s')
    {k : Id} {v : Obj} (h : Holds convert s k v) : Holds convert s' k v := by
  obtain ⟨⟨d, hd⟩, e, hv⟩ := he
  rcases h with h | ⟨n, w, h1, h2, h3⟩
  · left; rw [hd]; exact List.mem_append_left _ h
  · right
    refine ⟨n, w, by rw [hd]; exact List.mem_append_left _ h1, ?_, h3⟩
    rw [hv, List.getElem?_append_left]
    · exact h2
    · exact (List.getElem?_eq_some_iff.mp h2).1

theorem storeData_spec (kind : Id → DKey) (vkind : Obj → DVal) (convert : Id → Obj → Option Obj) :
    ∀ (data : List (Id × Obj)) (s s' : Storage Id Obj),
      (∀ kv ∈ data, ValidData (kind kv.1) (vkind kv.2)) →
      storeData kind vkind convert data s = some s' →
      Extends s s' ∧ (∀ kv ∈ data, Holds convert s' kv.1 kv.2) ∧
        s'.data.map Prod.fst = s.data.map Prod.fst ++ data.map Prod.fst := by
  intro data
  induction data with
  | nil =>
    intro s s' _ h
    obtain rfl := Option.some.inj h
    exact ⟨Extends.refl _, by simp, by simp⟩
  | cons kv data ih =>
    obtain ⟨k, v⟩ := kv
    intro s s' hval h
    have hk := (checkPair_iff _ _).mpr (hval (k, v) (by simp))
    have hrest : ∀ kv ∈ data, ValidData (kind kv.1) (vkind kv.2) :=
      fun kv hkv => hval kv (by simp [hkv])
    -- the two kinds of steps
    have given : storeData kind vkind convert data { s with data := s.data ++ [(k, .given v)] } = some s' →
        Extends s s' ∧ (∀ kv ∈ (k, v) :: data, Holds convert s' kv.1 kv.2) ∧
        s'.data.map Prod.fst = s.data.map Prod.fst ++ ((k, v) :: data).map Prod.fst := by
      intro h
      obtain ⟨he, hh, hd⟩ := ih _ _ hrest h
      refine ⟨Extends.trans ⟨⟨_, rfl⟩, ⟨[], by simp⟩⟩ he, ?_, by simpa using hd⟩
      intro kv hkv
      rcases List.mem_cons.mp hkv with rfl | hkv
      · exact Holds.mono he (Or.inl (by simp))
      · exact hh kv hkv
    have fresh : ∀ w, convert k v = some w →
        storeData kind vkind convert data
          { data := s.data ++ [(k, .variable s.vars.length)], vars := s.vars ++ [w] } = some s' →
        Extends s s' ∧ (∀ kv ∈ (k, v) :: data, Holds convert s' kv.1 kv.2) ∧
        s'.data.map Prod.fst = s.data.map Prod.fst ++ ((k, v) :: data).map Prod.fst := by
      intro w hw h
      obtain ⟨he, hh, hd⟩ := ih _ _ hrest h
      refine ⟨Extends.trans ⟨⟨_, rfl⟩, ⟨_, rfl⟩⟩ he, ?_, by simpa using hd⟩
      intro kv hkv
      rcases List.mem_cons.mp hkv with rfl | hkv
      · exact Holds.mono he (Or.inr ⟨s.vars.length, w, by simp, by simp, hw⟩)
      · exact hh kv hkv
    rw [storeData] at h
    cases hkk : kind k with
    | placeholder i => rw [hkk] at h; exact given h
    | tensor i =>
      rw [hkk] at h hk
      cases hvk : vkind v with
      | tensor _ => rw [hvk] at h; exact given h
      | rv _ => rw [hvk] at h; exact given h
      | host _ =>
        rw [hvk] at h
        cases hc : convert k v with
        | none => rw [hc] at h; simp at h
        | some w => rw [hc] at h; exact fresh w hc h
      | np _ _ =>
        rw [hvk] at h
        cases hc : convert k v with
        | none => rw [hc] at h; simp at h
        | some w => rw [hc] at h; exact fresh w hc h
      | other => rw [hvk] at hk; simp [checkPair, checkPair.checkNode] at hk
    | rv i =>
      rw [hkk] at h hk
      cases hvk : vkind v with
      | tensor _ => rw [hvk] at h; exact given h
      | rv _ => rw [hvk] at h; exact given h
      | host _ =>
        rw [hvk] at h
        cases hc : convert k v with
        | none => rw [hc] at h; simp at h
        | some w => rw [hc] at h; exact fresh w hc h
      | np _ _ =>
        rw [hvk] at h
        cases hc : convert k v with
        | none => rw [hc] at h; simp at h
        | some w => rw [hc] at h; exact fresh w hc h
      | other => rw [hvk] at hk; simp [checkPair, checkPair.checkNode] at hk
    | other => rw [hkk] at hk; simp [checkPair] at hk

/-- C47: when the constructor succeeds, the keys bound are exactly the keys given,
in order, and each is bound to the given object or to a variable holding the given
value converted to the key's dtype. -/
theorem C47_all_bound (kind : Id → DKey) (vkind : Obj → DVal) (convert : Id → Obj → Option Obj)
    (data : List (Id × Obj)) (s : Storage Id Obj) (h : initData kind vkind convert data = some s) :
    (∀ kv ∈ data, Holds convert s kv.1 kv.2) ∧ s.data.map Prod.fst = data.map Prod.fst := by
  unfold initData at h
  split at h
  · cases h
  · rename_i hok
    have hval := (C46_checkData_iff _).1.mp hok
    obtain ⟨-, h2, h3⟩ := storeData_spec kind vkind convert data _ _
      (fun kv hkv => hval _ (List.mem_map_of_mem hkv)) h
    exact ⟨h2, by simpa using h3⟩

/-- C47: an accepted dictionary is never rejected later, provided its host values
convert to their keys' dtypes. -/
theorem C47_accepted_constructs (kind : Id → DKey) (vkind : Obj → DVal)
    (convert : Id → Obj → Option Obj) (data : List (Id × Obj))
    (hok : checkData (some (data.map (fun kv => (kind kv.1, vkind kv.2)))) = .ok ())
    (hconv : ∀ kv ∈ data, (convert kv.1 kv.2).isSome = true) :
    (initData kind vkind convert data).isSome = true := by
  unfold initData
  rw [hok]
  dsimp only
  have : ∀ (data : List (Id × Obj)) (s : Storage Id Obj),
      (∀ kv ∈ data, (convert kv.1 kv.2).isSome = true) →
      (storeData kind vkind convert data s).isSome = true := by
    intro data
    induction data with
    | nil => intro s _; rfl
    | cons kv data ih =>
      obtain ⟨k, v⟩ := kv
      intro s hc
      have hrest : ∀ kv ∈ data, (convert kv.1 kv.2).isSome = true := fun kv h => hc kv (by simp [h])
      obtain ⟨w, hw⟩ := Option.isSome_iff_exists.mp (hc (k, v) (by simp))
      dsimp only at hw
      rw [storeData]
      cases kind k with
      | placeholder i => exact ih _ hrest
      | tensor i => cases vkind v <;> simp only [hw] <;> exact ih _ hrest
      | rv i => cases vkind v <;> simp only [hw] <;> exact ih _ hrest
      | other => exact ih _ hrest
  exact this data _ hconv

end

/-- A concrete dictionary: a random variable bound to an array, a placeholder fed. -/
example : ∃ s, initData (Id := Nat) (Obj := Nat)
    (fun i => if i = 0 then .rv ⟨some [some 2], .float32⟩ else .placeholder ⟨none, .int32⟩)
    (fun _ => .np [2] true) (fun _ v => some (v + 10)) [(0, 5), (1, 6)] = some s ∧
    s.vars = [15] := ⟨_, rfl, rfl⟩

end Edward
