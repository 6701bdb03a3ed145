/-
C91: what an update feeds is determined by the data and the dictionary of that call, and the caller's dictionary is
left alone.
C92: Gibbs conditions on the current values of the data.
-/
import Verif.Model.Feed
import Mathlib.Data.List.Basic
import Mathlib.Tactic

namespace Edward.Feeds
variable {K V : Type} [DecidableEq K]

/-- `data` binds the placeholder `k` to `v`. -/
def Spec.Binds (data : List (DataItem K V)) (k : K) (v : V) : Prop :=
  ⟨k, .placeholder, .host v⟩ ∈ data

/-- The documented feed: the data for the placeholders bound in `data`, the caller's values for the others. -/
def Spec.IsFeed (data : List (DataItem K V)) (feed used : Dict K V) : Prop :=
  (∀ k v, Spec.Binds data k v → used k = some v) ∧ ∀ k, (∀ v, ¬ Spec.Binds data k v) → used k = feed k

/-- `data` is a dictionary: no key occurs twice. -/
def KeysOk (data : List (DataItem K V)) : Prop := (data.map DataItem.key).Nodup

omit [DecidableEq K] in
theorem KeysOk.unique {data : List (DataItem K V)} (h : KeysOk data) {k : K} {v w : V} (hv : Spec.Binds data k v)
    (hw : Spec.Binds data k w) : v = w := by
  have := List.inj_on_of_nodup_map h hv hw rfl
  simpa using this

theorem feedLoop_isFeed {data : List (DataItem K V)} (h : KeysOk data) (d : Dict K V) :
    Spec.IsFeed data d (feedLoop data d) := by
  induction data generalizing d with
  | nil => exact ⟨fun k v hb => by simp [Spec.Binds] at hb, fun k _ => rfl⟩
  | cons it data ih =>
    have hn := h
    simp only [KeysOk, List.map_cons, List.nodup_cons] at hn
    obtain ⟨i1, i2⟩ := ih hn.2 (feedItem d it)
    have hfresh : ∀ v, ¬ Spec.Binds data it.key v := fun v hb => hn.1 (List.mem_map.mpr ⟨_, hb, rfl⟩)
    refine ⟨fun k v hb => ?_, fun k hb => ?_⟩
    · rcases List.mem_cons.mp hb with e | hb
      · have hk : k = it.key := by rw [← e]
        subst hk
        show feedLoop data (feedItem d it) it.key = _
        rw [i2 _ hfresh, ← e]
        simp [feedItem, Dict.set]
      · exact i1 k v hb
    · show feedLoop data (feedItem d it) k = _
      rw [i2 k (fun v hv => hb v (List.mem_cons_of_mem _ hv))]
      obtain ⟨ik, kind, val⟩ := it
      cases kind <;> cases val <;> simp only [feedItem]
      rename_i v
      have hne : k ≠ ik := fun e => hb v (by subst e; exact List.mem_cons_self)
      simp [Dict.set, hne]

/-- C91: every update other than Gibbs' uses the documented feed. -/
theorem C91_used {data : List (DataItem K V)} (h : KeysOk data) (d : Dict K V) :
    Spec.IsFeed data d (update data d).used := feedLoop_isFeed h d

/-- C91: the caller's dictionary is left as it was exactly if it already contains the data. -/
theorem C91_caller_partial {data : List (DataItem K V)} (h : KeysOk data) (d : Dict K V) :
    (update data d).after = d ↔ ∀ k v, Spec.Binds data k v → d k = some v := by
  obtain ⟨i1, i2⟩ := feedLoop_isFeed h d
  constructor
  · intro e k v hb
    rw [← congrFun e k]
    exact i1 k v hb
  · intro hd
    funext k
    by_cases hk : ∃ v, Spec.Binds data k v
    · obtain ⟨v, hv⟩ := hk
      rw [hd k v hv]
      exact i1 k v hv
    · push Not at hk
      exact i2 k hk

/-- C91 fails: an update writes the data into the caller's dictionary, also over a value the caller put there. -/
theorem C91_caller_fails : ∃ (data : List (DataItem ℕ ℕ)) (d : Dict ℕ ℕ), KeysOk data ∧ d 0 = some 5 ∧
    (update data d).after 0 = some 7 :=
  ⟨[⟨0, .placeholder, .host 7⟩], fun _ => some 5, by simp [KeysOk], rfl, rfl⟩

/-- C91: with one dictionary object for a sequence of updates, of any inferences, every update uses the documented
feed, provided that they bind the same placeholders. -/
theorem C91_shared_partial {datas : List (List (DataItem K V))} (h : ∀ data ∈ datas, KeysOk data) (d : Dict K V)
    (hsame : ∀ data ∈ datas, ∀ data' ∈ datas, ∀ k, (∃ v, Spec.Binds data k v) → ∃ v, Spec.Binds data' k v) :
    List.Forall₂ (fun data used => Spec.IsFeed data d used) datas (sharedCalls datas d) := by
  have key : ∀ (l : List (List (DataItem K V))) (e : Dict K V), (∀ data ∈ l, data ∈ datas) →
      (∀ k, (∀ data ∈ datas, ∀ v, ¬ Spec.Binds data k v) → e k = d k) →
      List.Forall₂ (fun data used => Spec.IsFeed data d used) l (sharedCalls l e) := by
    intro l
    induction l with
    | nil => intro _ _ _; exact List.Forall₂.nil
    | cons data l ih =>
      intro e hl he
      have hm := hl data List.mem_cons_self
      obtain ⟨i1, i2⟩ := feedLoop_isFeed (h data hm) e
      refine List.Forall₂.cons ⟨i1, fun k hk => ?_⟩ (ih _ (fun x hx => hl x (List.mem_cons_of_mem _ hx)) fun k hk => ?_)
      · show feedLoop data e k = _
        rw [i2 k hk]
        exact he k fun data' hd' v hv => by
          obtain ⟨w, hw⟩ := hsame data' hd' data hm k ⟨v, hv⟩
          exact hk w hw
      · show feedLoop data e k = _
        rw [i2 k (hk data hm)]
        exact he k hk
  exact key datas d (fun _ h => h) (fun _ _ => rfl)

/-- C91 fails: an inference whose model has a placeholder which it does not bind gets, through a dictionary which
another inference was updated with, the value of that placeholder in the data of the other inference, instead of
TensorFlow's error that the placeholder must be fed. -/
theorem C91_shared_fails : ∃ (data₁ data₂ : List (DataItem ℕ ℕ)), KeysOk data₁ ∧ KeysOk data₂ ∧
    (update data₂ (fun _ => none)).used 0 = none ∧
    (sharedCalls [data₁, data₂] (fun _ => none)).map (fun u => u 0) = [some 7, some 7] :=
  ⟨[⟨0, .placeholder, .host 7⟩], [⟨1, .placeholder, .host 8⟩], by simp [KeysOk], by simp [KeysOk], rfl, rfl⟩

/-! ### Gibbs -/

theorem foldl_set_of_not_mem (l : List (K × V)) (d : Dict K V) {k : K} (h : k ∉ l.map Prod.fst) :
    l.foldl (fun d p => d.set p.1 p.2) d k = d k := by
  induction l generalizing d with
  | nil => rfl
  | cons p l ih =>
    simp only [List.map_cons, List.mem_cons, not_or] at h
    rw [List.foldl_cons, ih _ h.2]
    simp [Dict.set, h.1]

/-- What the first update of Gibbs puts into its dictionary for an item of the data, at the moment `n`. -/
def firstFeed (n : ℕ) (it : DataItem K V) : Option V :=
  match it.kind, it.val with
  | .placeholder, .host v => some v
  | .rv, .tensor cur => some (cur n)
  | _, _ => none

theorem gibbsItem_self (n : ℕ) (d : Dict K V) (it : DataItem K V) :
    gibbsItem n d it it.key = (firstFeed n it).or (d it.key) := by
  obtain ⟨k, kind, val⟩ := it
  cases kind <;> cases val <;> simp [gibbsItem, firstFeed, Dict.set]

theorem gibbsItem_ne (n : ℕ) (d : Dict K V) (it : DataItem K V) {k : K} (h : k ≠ it.key) :
    gibbsItem n d it k = d k := by
  obtain ⟨k', kind, val⟩ := it
  have h' : k ≠ k' := h
  cases kind <;> cases val <;> simp [gibbsItem, Dict.set, h']

theorem foldl_gibbsItem_ne (n : ℕ) (data : List (DataItem K V)) (d : Dict K V) {k : K}
    (h : k ∉ data.map DataItem.key) : data.foldl (gibbsItem n) d k = d k := by
  induction data generalizing d with
  | nil => rfl
  | cons it data ih =>
    simp only [List.map_cons, List.mem_cons, not_or] at h
    rw [List.foldl_cons, ih _ h.2, gibbsItem_ne n d it h.1]

theorem foldl_gibbsItem {data : List (DataItem K V)} (hk : KeysOk data) (n : ℕ) (d : Dict K V) {it : DataItem K V}
    (h : it ∈ data) : data.foldl (gibbsItem n) d it.key = (firstFeed n it).or (d it.key) := by
  induction data generalizing d with
  | nil => simp at h
  | cons x data ih =>
    simp only [KeysOk, List.map_cons, List.nodup_cons] at hk
    rw [List.foldl_cons]
    rcases List.mem_cons.mp h with e | hm
    · subst e
      rw [foldl_gibbsItem_ne n data _ hk.1, gibbsItem_self]
    · rw [ih hk.2 _ hm, gibbsItem_ne]
      intro e
      exact hk.1 (e ▸ List.mem_map.mpr ⟨it, hm, rfl⟩)

/-- The last value the caller gave for `k` in the first `n + 1` calls. -/
def Spec.lastFed (feeds : ℕ → Dict K V) (k : K) : ℕ → Option V
  | 0 => feeds 0 k
  | n + 1 => (feeds (n + 1) k).or (Spec.lastFed feeds k n)

/-- The dictionary of a Gibbs update, at a key which is not a latent variable: the last value the caller ever gave
for it, else what the first update put there. -/
theorem gibbsRun_eq (inits : List (K × V)) (data : List (DataItem K V)) (feeds : ℕ → Dict K V)
    (draws : ℕ → List (K × V)) {k : K} (hd : ∀ n, k ∉ (draws n).map Prod.fst) (hi : k ∉ inits.map Prod.fst) (n : ℕ) :
    gibbsRun inits data feeds draws n k =
      (Spec.lastFed feeds k n).or (data.foldl (gibbsItem 0) (fun _ => none) k) := by
  induction n with
  | zero =>
    show (feeds 0 k).or (data.foldl (gibbsItem 0) (inits.foldl (fun d p => d.set p.1 p.2) (fun _ => none)) k) = _
    have : ∀ (l : List (DataItem K V)) (d e : Dict K V), d k = e k →
        l.foldl (gibbsItem 0) d k = l.foldl (gibbsItem 0) e k := by
      intro l
      induction l with
      | nil => intro d e h; exact h
      | cons it l ih =>
        intro d e h
        rw [List.foldl_cons, List.foldl_cons]
        refine ih _ _ ?_
        by_cases hk : k = it.key
        · subst hk
          rw [gibbsItem_self, gibbsItem_self, h]
        · rw [gibbsItem_ne _ _ _ hk, gibbsItem_ne _ _ _ hk, h]
    rw [this data _ (fun _ => none) (foldl_set_of_not_mem inits _ hi)]
    rfl
  | succ n ih =>
    show (feeds (n + 1) k).or ((draws n).foldl (fun d p => d.set p.1 p.2) (gibbsRun inits data feeds draws n) k) = _
    rw [foldl_set_of_not_mem _ _ (hd n), ih]
    simp [Spec.lastFed, Option.or_assoc]

/-- C91 for Gibbs: an update uses the documented feed (at placeholders), provided that the caller feeds no
placeholder which is bound in the data, and that whatever was fed once is fed in every later call. -/
theorem C91_gibbs_partial (inits : List (K × V)) {data : List (DataItem K V)} (hk : KeysOk data)
    (feeds : ℕ → Dict K V) (draws : ℕ → List (K × V)) {k : K} (hd : ∀ n, k ∉ (draws n).map Prod.fst)
    (hi : k ∉ inits.map Prod.fst) (hfree : ∀ v, Spec.Binds data k v → ∀ n, feeds n k = none)
    (hkeep : ∀ n, feeds (n + 1) k = none → feeds n k = none)
    (hph : ∀ it ∈ data, it.key = k → it.kind = .placeholder ∧ ∃ v, it.val = .host v) (n : ℕ) :
    (∀ v, Spec.Binds data k v → gibbsRun inits data feeds draws n k = some v) ∧
      ((∀ v, ¬ Spec.Binds data k v) → gibbsRun inits data feeds draws n k = feeds n k) := by
  rw [gibbsRun_eq inits data feeds draws hd hi n]
  constructor
  · intro v hb
    have hl : Spec.lastFed feeds k n = none := by
      induction n with
      | zero => exact hfree v hb 0
      | succ n ih => simp [Spec.lastFed, hfree v hb (n + 1), ih]
    rw [hl]
    simpa [firstFeed] using foldl_gibbsItem hk 0 (fun _ => none) hb
  · intro hb
    have hnot : k ∉ data.map DataItem.key := by
      intro hm
      obtain ⟨it, hit, e⟩ := List.mem_map.mp hm
      obtain ⟨h1, v, h2⟩ := hph it hit e
      obtain ⟨ik, kind, val⟩ := it
      simp only at e h1 h2
      subst e h1 h2
      exact hb v hit
    rw [foldl_gibbsItem_ne 0 data _ hnot, Option.or_none]
    induction n with
    | zero => rfl
    | succ n ih =>
      rw [Spec.lastFed, ih]
      cases hf : feeds (n + 1) k with
      | none => simp [hkeep n hf]
      | some v => rfl

example : ∃ (data : List (DataItem ℕ ℕ)) (feeds : ℕ → Dict ℕ ℕ), KeysOk data ∧
    (∀ n, gibbsRun [(2, 0)] data feeds (fun _ => [(2, 1)]) n 0 = some 7) ∧
    ∀ n, gibbsRun [(2, 0)] data feeds (fun _ => [(2, 1)]) n 1 = some n := by
  refine ⟨[⟨0, .placeholder, .host 7⟩], fun n k => if k = 1 then some n else none, by simp [KeysOk], fun n => ?_,
    fun n => ?_⟩
  · exact (C91_gibbs_partial [(2, 0)] (by simp [KeysOk]) _ _ (k := 0) (by simp) (by simp) (by simp) (by simp)
      (by simp) n).1 7 (by simp [Spec.Binds])
  · have := (C91_gibbs_partial [(2, 0)] (data := [⟨0, .placeholder, .host 7⟩])
      (by simp [KeysOk]) (fun n k => if k = 1 then some n else none) (fun _ => [(2, 1)]) (k := 1) (by simp) (by simp)
      (by simp [Spec.Binds]) (by simp) (by simp) n).2 (by simp [Spec.Binds])
    simpa using this

/-- C91 fails for Gibbs: a value fed once replaces the data, in that call and in every later one, even though the
later calls feed nothing. -/
theorem C91_gibbs_fails : ∃ (data : List (DataItem ℕ ℕ)) (feeds : ℕ → Dict ℕ ℕ), KeysOk data ∧
    Spec.Binds data 0 7 ∧ (∀ n, feeds (n + 1) = fun _ => none) ∧
    ∀ n, gibbsRun [(2, 0)] data feeds (fun _ => [(2, 1)]) n 0 = some 9 := by
  refine ⟨[⟨0, .placeholder, .host 7⟩], fun n => if n = 0 then fun k => if k = 0 then some 9 else none else
    fun _ => none, by simp [KeysOk], by simp [Spec.Binds], by simp, fun n => ?_⟩
  rw [gibbsRun_eq _ _ _ _ (by simp) (by simp) n]
  have : ∀ n, Spec.lastFed (fun n => if n = 0 then fun k => if k = 0 then some 9 else none else
      fun _ => none : ℕ → Dict ℕ ℕ) 0 n = some 9 := by
    intro n
    induction n with
    | zero => rfl
    | succ n ih => rw [Spec.lastFed, ih]; rfl
  rw [this n]
  rfl

/-! ### C92 -/

/-- The value of the observation at update `n`. -/
def Spec.current (n : ℕ) : DataVal V → V
  | .host v => v
  | .tensor cur => cur n
  | .rv cur => cur n

/-- The observations Gibbs can condition on: placeholders, and random variables bound to a tensor whose value is the
same at every update (such as the `tf.Variable` made from an array). -/
def Fixed : DataItem K V → Prop
  | ⟨_, .placeholder, .host _⟩ => True
  | ⟨_, .rv, .tensor cur⟩ => ∀ n, cur n = cur 0
  | _ => False

/-- C92: for such observations, every update evaluates the complete conditionals at the value of the observation, if
the caller does not feed it. -/
theorem C92_partial (inits : List (K × V)) {data : List (DataItem K V)} (hk : KeysOk data)
    (feeds : ℕ → Dict K V) (draws : ℕ → List (K × V)) {it : DataItem K V} (hit : it ∈ data) (hfix : Fixed it)
    (hd : ∀ n, it.key ∉ (draws n).map Prod.fst) (hi : it.key ∉ inits.map Prod.fst)
    (hfree : ∀ n, feeds n it.key = none) (n : ℕ) :
    gibbsRun inits data feeds draws n it.key = some (Spec.current n it.val) := by
  rw [gibbsRun_eq inits data feeds draws hd hi n, foldl_gibbsItem hk 0 _ hit]
  have hl : Spec.lastFed feeds it.key n = none := by
    induction n with
    | zero => exact hfree 0
    | succ n ih => simp [Spec.lastFed, hfree (n + 1), ih]
  rw [hl]
  obtain ⟨k, kind, val⟩ := it
  cases kind <;> cases val <;> simp_all [Fixed, firstFeed, Spec.current]

example : Fixed (⟨0, .rv, .tensor fun _ => 3⟩ : DataItem ℕ ℕ) ∧
    gibbsRun [(2, 0)] [⟨0, .rv, .tensor fun _ => 3⟩] (fun _ _ => none) (fun _ => [(2, 1)]) 5 0 = some 3 :=
  ⟨fun _ => rfl, C92_partial [(2, 0)] (it := ⟨0, .rv, .tensor fun _ => 3⟩) (by simp [KeysOk]) _ _ (by simp)
    (fun _ => rfl) (by simp) (by simp) (fun _ => rfl) 5⟩

/-- C92 fails for random data, and for data bound to a tensor which is not a placeholder: they are never fed, so that
the conditionals are evaluated at a draw of the model's own observed variable. -/
theorem C92_unfed_fails (inits : List (K × V)) {data : List (DataItem K V)} (hk : KeysOk data)
    (feeds : ℕ → Dict K V) (draws : ℕ → List (K × V)) {it : DataItem K V} (hit : it ∈ data)
    (hrv : (∃ cur, it.val = .rv cur) ∨ it.kind = .tensor)
    (hd : ∀ n, it.key ∉ (draws n).map Prod.fst) (hi : it.key ∉ inits.map Prod.fst)
    (hfree : ∀ n, feeds n it.key = none) (n : ℕ) :
    gibbsRun inits data feeds draws n it.key = none := by
  rw [gibbsRun_eq inits data feeds draws hd hi n, foldl_gibbsItem hk 0 _ hit]
  have hl : Spec.lastFed feeds it.key n = none := by
    induction n with
    | zero => exact hfree 0
    | succ n ih => simp [Spec.lastFed, hfree (n + 1), ih]
  rw [hl]
  obtain ⟨k, kind, val⟩ := it
  cases kind <;> cases val <;> simp_all [firstFeed]

example : gibbsRun [(2, 0)] [⟨0, .rv, .rv fun n => n⟩] (fun _ _ => none) (fun _ => [(2, 1)]) 5 (0 : ℕ) = none :=
  C92_unfed_fails [(2, 0)] (it := ⟨0, .rv, .rv fun n => n⟩) (by simp [KeysOk]) _ _ (by simp)
    (.inl ⟨_, rfl⟩) (by simp) (by simp) (fun _ => rfl) 5

/-- C92 fails for a tensor whose value changes, such as a minibatch from a queue: all updates use its first value. -/
theorem C92_stale_fails (inits : List (K × V)) {data : List (DataItem K V)} (hk : KeysOk data)
    (feeds : ℕ → Dict K V) (draws : ℕ → List (K × V)) {k : K} {cur : ℕ → V} (hit : ⟨k, .rv, .tensor cur⟩ ∈ data)
    (hd : ∀ n, k ∉ (draws n).map Prod.fst) (hi : k ∉ inits.map Prod.fst)
    (hfree : ∀ n, feeds n k = none) (n : ℕ) (hn : cur n ≠ cur 0) :
    gibbsRun inits data feeds draws n k = some (cur 0) ∧
      gibbsRun inits data feeds draws n k ≠ some (Spec.current n (.tensor cur)) := by
  have : gibbsRun inits data feeds draws n k = some (cur 0) := by
    have hl : Spec.lastFed feeds k n = none := by
      clear hn
      induction n with
      | zero => exact hfree 0
      | succ n ih => simp [Spec.lastFed, hfree (n + 1), ih]
    rw [gibbsRun_eq inits data feeds draws hd hi n, hl]
    exact foldl_gibbsItem hk 0 _ hit
  refine ⟨this, ?_⟩
  rw [this]
  simpa [Spec.current] using fun e => hn e.symm

example : gibbsRun [(2, 0)] [⟨0, .rv, .tensor fun n => n⟩] (fun _ _ => none) (fun _ => [(2, 1)]) 5 (0 : ℕ) = some 0 :=
  (C92_stale_fails [(2, 0)] (data := [⟨0, .rv, .tensor fun n => n⟩]) (k := 0) (cur := fun n => n) (by simp [KeysOk])
    (fun _ _ => none) (fun _ => [(2, 1)]) (by simp) (by simp) (by simp) (fun _ => rfl) 5 (by simp)).1

end Edward.Feeds
