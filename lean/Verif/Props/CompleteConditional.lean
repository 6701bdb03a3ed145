/-
C25: `complete_conditional` returns the conditional distribution, where it does.
-/
import Verif.Lemmas.CompleteConditional
import Verif.Props.NaturalParams

namespace Edward

open Expr Spec

mutual
/-- If an expression can be rebuilt, the result has its value. -/
theorem reconstruct_sound (ρ : Env) (val : TfNode → ℝ) : ∀ (e : Expr) (v : ℝ), reconstruct ρ.oneHot val e = .ok v → GraphValues ρ val e → v = eval ρ e
  | node h as, v, hr, hv => by
    have hargs : ∀ vs, reconstructs ρ.oneHot val as = .ok vs → vs = as.map (eval ρ) := fun vs hvs =>
      reconstructs_sound ρ val as vs hvs fun a ha t bs hs => hv t bs (.arg h as a ha hs)
    cases h with
    | num c => simp only [reconstruct, Except.ok.injEq] at hr; rw [← hr, eval_num]
    | tensor t => simp only [reconstruct, Except.ok.injEq] at hr; rw [← hr]; exact hv t as (.refl _)
    | x => simp [reconstruct] at hr
    | _ =>
      simp only [reconstruct] at hr
      cases hvs : reconstructs ρ.oneHot val as with
      | error e => rw [hvs] at hr; simp [bind, Except.bind] at hr
      | ok vs =>
        rw [hvs] at hr
        rw [eval_node, ← hargs vs hvs]
        simp only [bind, Except.bind] at hr
        first
          | (unfold applyTf at hr; split at hr <;> simp_all [headVal])
          | (split at hr <;> simp_all [headVal])
theorem reconstructs_sound (ρ : Env) (val : TfNode → ℝ) : ∀ (as : List Expr) (vs : List ℝ), reconstructs ρ.oneHot val as = .ok vs →
    (∀ a ∈ as, GraphValues ρ val a) → vs = as.map (eval ρ)
  | [], vs, h, _ => by simp [reconstructs] at h; simp [← h]
  | a :: as, vs, h, hv => by
    rw [reconstructs] at h
    cases h1 : reconstruct ρ.oneHot val a with
    | error e => rw [h1] at h; simp [bind, Except.bind] at h
    | ok v =>
      cases h2 : reconstructs ρ.oneHot val as with
      | error e => rw [h1, h2] at h; simp [bind, Except.bind] at h
      | ok ws =>
        rw [h1, h2] at h
        simp [bind, Except.bind, pure, Except.pure] at h
        rw [← h, List.map_cons, ← reconstruct_sound ρ val a v h1 (hv a (by simp)),
          ← reconstructs_sound ρ val as ws h2 fun b hb => hv b (by simp [hb])]
end

theorem reconstructMultiplier_sound (ρ : Env) (val : TfNode → ℝ) (ms : List Expr) (v : ℝ) (h : reconstructMultiplier ρ.oneHot val ms = .ok v)
    (hv : ∀ m ∈ ms, GraphValues ρ val m) : v = (ms.map (eval ρ)).prod := by
  have : ∀ (ms : List Expr) (r v : ℝ), (∀ m ∈ ms, GraphValues ρ val m) →
      ms.foldlM (fun r m => (do return r * (← reconstruct ρ.oneHot val m) : Except PyErr ℝ)) r = .ok v → v = r * (ms.map (eval ρ)).prod := by
    intro ms
    induction ms with
    | nil => intro r v _ h; simp [pure, Except.pure] at h; simp [h]
    | cons m ms ih =>
      intro r v hv h
      rw [List.foldlM_cons] at h
      cases h1 : reconstruct ρ.oneHot val m with
      | error e => rw [h1] at h; simp [bind, Except.bind] at h
      | ok w =>
        rw [h1] at h
        have := ih (r * w) v (fun m hm => hv m (by simp [hm])) h
        rw [this, reconstruct_sound ρ val m w h1 (hv m (by simp))]
        simp [mul_assoc]
  simpa using this ms 1 v hv h

/-- Every expression is the product of its multipliers and of the factors spelt out by its key. -/
theorem extract_product (e : Expr) : ∃ fs : List Expr, (extractMultipliers e).2 = fs.flatMap tupleOf ∧
    ∀ ρ : Env, eval ρ e = ((extractMultipliers e).1.map (eval ρ)).prod * (fs.map (eval ρ)).prod := by
  obtain ⟨h, as⟩ := e
  by_cases hm : h = .mul
  · subst hm
    rw [extractMultipliers]
    obtain ⟨fs, h1, h2⟩ := extractArgs_splits as
    exact ⟨fs, h1, h2.product⟩
  · have he : extractMultipliers (node h as) = ([], tupleOf (node h as)) := by
      cases h <;> first | exact absurd rfl hm | rfl
    rw [he]
    exact ⟨[node h as], by simp, fun ρ => by simp⟩

/-! ### Sums over lists -/

theorem sum_by_key {α κ : Type} [DecidableEq κ] (key : α → κ) (f : α → ℝ) (ks : List κ) (hks : ks.Nodup) (l : List α) (h : ∀ s ∈ l, key s ∈ ks) :
    (ks.map fun k => ((l.filter fun s => key s = k).map f).sum).sum = (l.map f).sum := by
  induction l with
  | nil => simp
  | cons s l ih =>
    have h1 : ∀ k, (((s :: l).filter fun s => key s = k).map f).sum = (if key s = k then f s else 0) + ((l.filter fun s => key s = k).map f).sum := by
      intro k
      rw [List.filter_cons]
      by_cases hk : key s = k <;> simp [hk]
    simp only [h1, List.sum_map_add, List.map_cons, List.sum_cons]
    rw [ih fun s hs => h s (by simp [hs])]
    congr 1
    have h2 := h s (by simp)
    rw [← List.sum_toFinset _ hks, Finset.sum_ite_eq]
    simp [h2]

theorem sum_fin_list {α : Type} (l : List α) (f : α → ℝ) : ∑ i : Fin l.length, f l[i] = (l.map f).sum := by
  rw [← List.sum_ofFn]
  congr 1
  conv_rhs => rw [← List.ofFn_getElem (xs := l)]
  rw [List.map_ofFn]
  rfl

theorem list_sum_comm {α β : Type} (l : List α) (m : List β) (f : α → β → ℝ) :
    (l.map fun a => (m.map (f a)).sum).sum = (m.map fun b => (l.map fun a => f a b).sum).sum := by
  induction l with
  | nil => simp
  | cons a l ih => simp only [List.map_cons, List.sum_cons, List.sum_map_add, ih]

theorem filter_single {α : Type} [DecidableEq α] {l : List α} (h : l.Nodup) {j : α} (hj : j ∈ l) : (l.filter fun i => i = j) = [j] := by
  induction l with
  | nil => simp at hj
  | cons a l ih =>
    rw [List.nodup_cons] at h
    rcases List.mem_cons.1 hj with rfl | hj'
    · rw [List.filter_cons_of_pos (by simp)]
      congr 1
      rw [List.filter_eq_nil_iff]
      intro b hb
      simp only [decide_eq_true_eq]
      rintro rfl
      exact h.1 hb
    · rw [List.filter_cons_of_neg, ih h.2 hj']
      simp only [decide_eq_true_eq]
      rintro rfl
      exact h.1 hj'

/-! ### Natural parameters -/

/-- The values of the statistics, by identity. -/
noncomputable def statVal (S : Sem) (base : ℕ) (stats : List Stat) (x : Arr) (id : ℕ) : Arr := fun i =>
  (stats.find? (·.id = id)).elim 0 fun s => valueAt S base x s.sub (bidx s.sub.root.shape i)

theorem find_stat {stats : List Stat} (hn : (stats.map (·.id)).Nodup) {s : Stat} (hs : s ∈ stats) : stats.find? (·.id = s.id) = some s := by
  induction stats with
  | nil => simp at hs
  | cons a l ih =>
    rw [List.find?_cons]
    simp only [List.map_cons, List.nodup_cons, List.mem_map, not_exists, not_and] at hn
    rcases List.mem_cons.1 hs with rfl | h
    · simp
    · have : a.id ≠ s.id := fun h' => hn.1 s h h'.symm
      simp only [this, decide_false]
      exact ih hn.2 h

theorem find_stat_none {stats : List Stat} {id : ℕ} (h : id ∉ stats.map (·.id)) : stats.find? (·.id = id) = none := by
  rw [List.find?_eq_none]
  intro s hs
  simp only [decide_eq_true_eq]
  intro h'
  exact h (List.mem_map.2 ⟨s, hs, h'⟩)

theorem swapped_eq {S : Sem} {base : ℕ} {x : Arr} {T : Sub} {stats : List Stat} {sh : List ℕ} (hn : (stats.map (·.id)).Nodup)
    (hsh : ∀ s ∈ stats, fakeShape T stats s = sh) (id' : ℕ) (j : List ℕ) (v : ℝ) :
    swapped S base x T stats id' j v = statVals (stats.map (·.id)) sh
      (Function.update (statVal S base stats x) id' (Function.update (statVal S base stats x id') j v)) := by
  funext id
  by_cases h : id ∈ stats.map (·.id)
  · obtain ⟨s, hs, rfl⟩ := List.mem_map.1 h
    simp only [swapped, find_stat hn hs, Option.map_some, statVals, if_pos h, hsh s hs]
    congr 2
    have : statVal S base stats x s.id = fun i => valueAt S base x s.sub (bidx s.sub.root.shape i) := by
      funext i; rw [statVal, find_stat hn hs]; rfl
    by_cases hid : s.id = id'
    · subst hid; rw [if_pos rfl, Function.update_self, this]
    · rw [if_neg hid, Function.update_of_ne hid, this]
  · rw [swapped, find_stat_none h, statVals, if_neg h]; rfl

/-- The derivative of an affine function with respect to one entry. -/
theorem deriv_aff {ids sh : List ℕ} {f : (ℕ → Arr) → ℝ} {c : ℝ} {w : ℕ × List ℕ → ℝ}
    (hf : ∀ a, f a = c + ∑ p ∈ ids.toFinset ×ˢ (indices sh).toFinset, w p * a p.1 p.2) (a : ℕ → Arr) {id : ℕ} {j : List ℕ}
    (hid : id ∈ ids) (hj : j ∈ indices sh) (v0 : ℝ) :
    deriv (fun v => f (Function.update a id (Function.update (a id) j v))) v0 = w (id, j) := by
  have h : ∀ v, f (Function.update a id (Function.update (a id) j v)) = f a + w (id, j) * (v - a id j) := by
    intro v
    rw [hf, hf, add_assoc, add_right_inj, ← sub_eq_iff_eq_add', ← Finset.sum_sub_distrib, Finset.sum_eq_single (id, j)]
    · simp [mul_sub]
    · rintro ⟨i, k⟩ _ hb
      by_cases hi : i = id
      · subst hi
        have hk : k ≠ j := fun h => hb (by rw [h])
        simp [Function.update_of_ne hk]
      · simp [Function.update_of_ne hi]
    · intro hn; simp [hid, hj] at hn
  simp only [h]
  have : HasDerivAt (fun v : ℝ => f a + w (id, j) * (v - a id j)) (w (id, j) * 1) v0 :=
    (((hasDerivAt_id v0).sub_const _).const_mul _).const_add _
  rw [this.deriv, mul_one]

open Classical in
/-- Without broadcasting, the natural parameter is the sum of the coefficients of the nodes, times their multipliers. -/
theorem natParam_eq {S : Sem} {base : ℕ} {x : Arr} {T : Sub} {stats : List Stat} {sh : List ℕ} (hn : (stats.map (·.id)).Nodup)
    (hsh : ∀ s ∈ stats, fakeShape T stats s = sh) (hsh' : ∀ s ∈ stats, s.sub.root.shape = sh) (mult : Stat → Arr) {c : ℝ} {w : ℕ × List ℕ → ℝ}
    (hf : ∀ a x, (evalWith S base (statVals (stats.map (·.id)) sh a) x T).2 [] =
      c + ∑ p ∈ (stats.map (·.id)).toFinset ×ˢ (indices sh).toFinset, w p * a p.1 p.2) (k : Key) (hk : ∃ s ∈ stats, s.key = k) (j : List ℕ)
    (hj : j ∈ indices sh) : natParam S base x T stats mult k (bidx (phShape stats k) j) =
      ((stats.filter fun s => s.key = k).map fun s => mult s j * w (s.id, j)).sum := by
  have hph : phShape stats k = sh := by
    rw [phShape]
    cases hf : stats.find? fun s => s.key = k with
    | none =>
      obtain ⟨s, hs, hk⟩ := hk
      exact absurd hk (by simpa using List.find?_eq_none.1 hf s hs)
    | some s => exact hsh' s (List.mem_of_find?_eq_some hf)
  rw [natParam, hph, bidx_self sh j hj]
  congr 1
  refine List.map_congr_left fun s hs => ?_
  have hs := List.mem_of_mem_filter hs
  rw [hsh s hs]
  have h1 : (indices sh).filter (fun i => bidx sh i = j) = (indices sh).filter (fun i => i = j) :=
    List.filter_congr fun i hi => by rw [bidx_self sh i hi]
  have h2 : (indices sh).filter (fun i => i = j) = [j] := by
    convert filter_single (indices_nodup sh) hj
  rw [h1, h2]
  simp only [List.map_cons, List.map_nil, List.sum_cons, List.sum_nil, add_zero, swapped_eq hn hsh]
  rw [deriv_aff (f := fun a => (evalWith S base (statVals (stats.map (·.id)) sh a) x T).2 []) (fun a => hf a x) _ (List.mem_map.2 ⟨s, hs, rfl⟩) hj]

/-- Entry `i` of a statistic of the table, in the environment of the graph. -/
theorem table_statistic {S : Sem} {base : ℕ} {T : Sub} (x : Arr) {sup : Support} {fss : List (List Expr)} {fam : Family} (ht : tableEntry sup fss fam)
    {xs sh : List ℕ} (hx : fam = .categorical → sh.length = 1) (x' : Arr) (i : Fin (indices sh).length) (fs : List Expr) (hfs : fs ∈ fss) :
    (fs.map (eval (nodeEnv S base x T (indices sh)[i] (x' (bidx xs (indices sh)[i]))))).prod =
      statistic (fun _ _ => 0) fs (entries xs sh x') i := by
  by_cases hc : fam = .categorical
  · obtain ⟨K, rfl⟩ := List.length_eq_one_iff.1 (hx hc)
    subst hc
    obtain ⟨-, rfl⟩ := ht
    obtain rfl := List.mem_singleton.1 hfs
    have hK : indices [K] = (List.range K).map fun k => [k] := by simp [indices]
    have : (indices [K])[i] = [(i : ℕ)] := by
      rw [Fin.getElem_fin, List.getElem_of_eq hK, List.getElem_map, List.getElem_range]
    simp [statistic, eval_node, headVal, nodeEnv, entryEnv, oneHotEntry, entries, this]
  · cases fam <;> first | exact absurd rfl hc | skip
    all_goals
      obtain ⟨-, rfl⟩ := ht
      simp only [List.mem_cons, List.not_mem_nil, or_false] at hfs
      rcases hfs with rfl | rfl <;> simp [statistic, eval_node, headVal, nodeEnv, entryEnv, entries]

/-- C25, shapes: an elementwise operation on two compatible shapes has the rank of the longer, and every axis has the
size of the argument that is not repeated along it. -/
theorem C25_broadcast (s t : List ℕ) (h : ∀ i, s.getD i 1 = t.getD i 1 ∨ s.getD i 1 = 1 ∨ t.getD i 1 = 1) :
    (bcast s t).length = max s.length t.length ∧ ∀ i, (s.getD i 1 = 1 → (bcast s t).getD i 1 = t.getD i 1) ∧
      (t.getD i 1 = 1 → (bcast s t).getD i 1 = s.getD i 1) := by
  induction s generalizing t with
  | nil => exact ⟨by simp [bcast], fun i => by simp [bcast]⟩
  | cons a s ih =>
    cases t with
    | nil => exact ⟨by simp [bcast], fun i => by simp [bcast]⟩
    | cons b t =>
      obtain ⟨h1, h2⟩ := ih t (fun i => by simpa using h (i + 1))
      refine ⟨by simp [bcast, h1], fun i => ?_⟩
      cases i with
      | zero =>
        have h0 := h 0
        simp only [List.getD_cons_zero, bcast] at h0 ⊢
        split_ifs with ha
        · exact ⟨fun _ => rfl, fun hb => by rw [ha, hb]⟩
        · exact ⟨fun h => absurd h ha, fun _ => rfl⟩
      | succ i => simpa [bcast] using h2 i

example : (bcast [3, 1] [1, 4, 2]).length = 3 :=
  (C25_broadcast [3, 1] [1, 4, 2] (fun i => by rcases i with _ | _ | _ | i <;> simp)).1

open Classical in
/-- C25, partial. Let `complete_conditional` return `d` for a random variable whose tensor has shape `xs`. If the log
joint is linear in the statistics found (no product of two factors that depend on the variable), nothing is broadcast
(`hsh`), statistics are computed entry by entry with the operations the simplifier knows, and are in the domain of its
rules (`Separated`, `PowOk`, `Ok`, see C20), the family is not Chi2 or Poisson, and the parameters are valid, then the log
joint is the log density of `d` up to a constant. -/
theorem C25_partial {S : Sem} {base : ℕ} {stop : ℕ → Bool} {T : Sub} {sup : Support} {x : Arr} {stats : List Stat} {keys : List Key}
    {mult : Stat → Arr} {fam : Family} {sh : List ℕ} {d : CondDist (indices sh).length}
    (h : Returns S base stop T sup x stats keys mult fam sh d) (hT : GraphOk S base stop T) (hlin : Lin base T)
    (xs : List ℕ) (hxs : ∀ s, Within s T → s.root.id = base → s.root.shape = xs)
    (hx : (fam ≠ .categorical ∧ xs = sh) ∨ (fam = .categorical ∧ xs = [] ∧ sh.length = 1))
    (hsh : ∀ s ∈ stats, s.sub.root.shape = sh ∧ fakeShape T stats s = sh)
    (hbuilt : ∀ s ∈ stats, BuiltStat base stop s.sub)
    (hdom : ∀ s ∈ stats, Separated (symbolic base stop s.sub) ∧ PowOk 7 (symbolic base stop s.sub))
    (hcast : ∀ s ∈ stats, ∀ m ∈ s.ms, ∀ t as, Subexpr (node (.tensor t) as) m → t.isCast = true → as = [])
    (hf : fam ≠ .chi2) (hf' : fam ≠ .poisson) (hv : CondDist.Valid d) :
    ∃ c : ℝ, ∀ x', InSupport sup (entries xs sh x') →
      (∀ s ∈ stats, ∀ j ∈ indices sh, Ok (nodeEnv S base x T j (x' (bidx xs j))) false (symbolic base stop s.sub)) →
      valueAt S base x' T [] = CondDist.logDensity d (entries xs sh x') + c := by
  have hleaf : ∀ s, Within s T → s.root.id = base → s.inputs = [] := fun s hs hb => hT.leaf s hs (.inl hb)
  have hstat : ∀ s ∈ stats, Within s.sub T ∧ Depends base s.sub := fun s hs =>
    suff_within T hleaf s.sub ((h.nodes s.sub).1 ⟨s, hs, rfl⟩)
  set ids := stats.map (·.id) with hids
  -- the log joint is affine in the statistics
  obtain ⟨shp, -, haff⟩ := lin_aff (ids := ids) hT sh (by
    intro s hs hi
    obtain ⟨s', hs', hid⟩ := List.mem_map.1 hi
    have := hstat s' hs'
    rw [hT.unique s s'.sub hs this.1 hid.symm]
    exact this.2) T hlin .refl (by
    intro s hs
    obtain ⟨s', hs', rfl⟩ := (h.nodes s).2 hs
    exact List.mem_map.2 ⟨s', hs', rfl⟩)
  obtain ⟨c0, w, hw⟩ := haff []
  -- the statistics as expressions
  have hfac : ∀ k : Key, ∃ fs : List Expr, k ∈ keys → fs.flatMap tupleOf = k := by
    intro k
    by_cases hk : k ∈ keys
    · obtain ⟨s, hs, rfl⟩ := (h.keys_eq k).1 hk
      obtain ⟨i, o, e, -, he⟩ := h.expr s hs
      obtain ⟨fs, h1, -⟩ := extract_product e
      exact ⟨fs, fun _ => by rw [← h1, he]⟩
    · exact ⟨[], fun h => absurd h hk⟩
  choose g hg using hfac
  have hgk : (keys.map g).map (·.flatMap tupleOf) = keys := by
    rw [List.map_map]
    conv_rhs => rw [← List.map_id keys]
    exact List.map_congr_left fun k hk => hg k hk
  have hfam : suffStatToDist sup ((keys.map g).map (·.flatMap tupleOf)) = some fam := by rw [hgk]; exact h.family
  have htab := table_lookup sup (keys.map g) fam hfam
  obtain ⟨c1, hc1⟩ := C23_partial (fun _ _ => 0) sup (keys.map g) fam hfam hf hf' _ d h.dist hv
  -- every entry of a statistic
  have hentry : ∀ (s : Stat) (j : List ℕ), ∃ C : ℝ, s ∈ stats → j ∈ indices sh → ∀ x',
      Ok (nodeEnv S base x T j (x' (bidx xs j))) false (symbolic base stop s.sub) →
      valueAt S base x' s.sub j = mult s j * ((g s.key).map (eval (nodeEnv S base x T j (x' (bidx xs j))))).prod + C := by
    intro s j
    by_cases hs : s ∈ stats
    swap
    · exact ⟨0, fun h => absurd h hs⟩
    by_cases hj : j ∈ indices sh
    swap
    · exact ⟨0, fun _ h => absurd h hj⟩
    obtain ⟨i, o, e, he, hext⟩ := h.expr s hs
    obtain ⟨C, hC⟩ := C20_partial i o _ e he (hdom s hs).1 (hdom s hs).2 (nodeEnv S base x T j 0) (nodeEnv_regular _ _ _ _ _ _)
    refine ⟨C, fun _ _ x' hok => ?_⟩
    obtain ⟨hs1, hs2⟩ := hsh s hs
    rw [builtStat_entry hT x x' xs hxs s.sub (hbuilt s hs) (hstat s hs).1 j (by rw [hs1]; exact hj)]
    have h1 := hC (x' (bidx xs j)) hok
    rw [nodeEnv_withX] at h1
    rw [h1]
    obtain ⟨fs, h2, h3⟩ := extract_product e
    rw [hext] at h2 h3
    have hfs : g s.key = fs := C22_key_injective _ _ (by rw [hg s.key ((h.keys_eq _).2 ⟨s, hs, rfl⟩)]; exact h2)
    rw [h3, hfs]
    congr 2
    refine (reconstructMultiplier_sound (nodeEnv S base x T j (x' (bidx xs j))) _ s.ms _ (h.mult_eq s hs j (by rw [hs2]; exact hj)) ?_).symm
    intro m hm t as hsub
    rw [eval_node, headVal]
    cases hcast' : t.isCast with
    | false => simp [nodeEnv, hcast']
    | true => rw [hcast s hs m hm t as hsub hcast']; simp [nodeEnv, hcast']
  choose C hC using hentry
  refine ⟨c0 + (stats.map fun s => ((indices sh).map fun j => w (s.id, j) * C s j).sum).sum - c1, fun x' hsup hok => ?_⟩
  -- the log joint as a sum over statistics
  have hval : valueAt S base x' T [] = c0 + (stats.map fun s => ((indices sh).map fun j => w (s.id, j) * valueAt S base x' s.sub j).sum).sum := by
    have hA : ∀ s ∈ stats, ∀ j ∈ indices sh, statVal S base stats x' s.id j = valueAt S base x' s.sub j := by
      intro s hs j hj
      rw [statVal, find_stat h.nodup hs]
      simp only [Option.elim]
      rw [(hsh s hs).1, bidx_self sh j hj]
    have hsw : evalWith S base (statVals ids sh (statVal S base stats x')) x' T = evalWith S base (fun _ => none) x' T := by
      refine eval_swap S base _ x' T fun s hs b hb => ?_
      rw [statVals] at hb
      split at hb
      swap
      · simp at hb
      next hi =>
      obtain ⟨s', hs', hid⟩ := List.mem_map.1 hi
      have hss : s = s'.sub := hT.unique s s'.sub hs (hstat s' hs').1 hid.symm
      simp only [Option.some.injEq] at hb
      subst hb
      have hval := valueAt_mask hT x' s hs
      have hshape := eval_shape hT x' s hs
      have hss' : s.root.shape = sh := by rw [hss]; exact (hsh s' hs').1
      refine Prod.ext (by rw [hshape, hss']) ?_
      change _ = valueAt S base x' s
      rw [← hval, hss']
      funext j
      simp only [mask]
      split
      · next hj => rw [← hid, hA s' hs' j hj, hss]
      · rfl
    have := hw (statVal S base stats x') x'
    simp only [hsw] at this
    change valueAt S base x' T [] = _ at this
    rw [this, Finset.sum_product, List.sum_toFinset _ h.nodup, List.map_map]
    congr 2
    refine List.map_congr_left fun s hs => ?_
    simp only [Function.comp]
    rw [List.sum_toFinset _ (indices_nodup sh)]
    congr 1
    refine List.map_congr_left fun j hj => ?_
    rw [hA s hs j hj]
  -- the pairing as a sum over statistics
  have hpair : pairing (fun _ _ => 0) (keys.map g) (keys.map fun k (i : Fin (indices sh).length) =>
      natParam S base x T stats mult k (bidx (phShape stats k) ((indices sh)[i]))) (entries xs sh x') =
      (stats.map fun s => ((indices sh).map fun j => mult s j * w (s.id, j) *
        ((g s.key).map (eval (nodeEnv S base x T j (x' (bidx xs j))))).prod).sum).sum := by
    rw [pairing, List.zip_map', List.map_map, ← sum_by_key (fun s : Stat => s.key) _ keys h.keys_nodup stats
      fun s hs => (h.keys_eq _).2 ⟨s, hs, rfl⟩]
    congr 1
    refine List.map_congr_left fun k hk => ?_
    simp only [Function.comp]
    have hk' := (h.keys_eq k).1 hk
    have : ∀ i : Fin (indices sh).length, natParam S base x T stats mult k (bidx (phShape stats k) ((indices sh)[i])) *
        statistic (fun _ _ => 0) (g k) (entries xs sh x') i = (fun j => ((stats.filter fun s => decide (s.key = k)).map fun s => mult s j * w (s.id, j)).sum *
          ((g k).map (eval (nodeEnv S base x T j (x' (bidx xs j))))).prod) (indices sh)[i] := by
      intro i
      rw [natParam_eq h.nodup (fun s hs => (hsh s hs).2) (fun s hs => (hsh s hs).1) mult hw k hk' ((indices sh)[i])
          (by rw [Fin.getElem_fin]; exact List.getElem_mem _),
        ← table_statistic (S := S) (base := base) (T := T) x htab (fun hc => ?_) x' i (g k) (List.mem_map.2 ⟨k, hk, rfl⟩)]
      rcases hx with hx | hx
      · exact absurd hc hx.1
      · exact hx.2.2
    refine (Finset.sum_congr rfl fun i _ => this i).trans ((sum_fin_list (indices sh) fun j =>
      ((stats.filter fun s => decide (s.key = k)).map fun s => mult s j * w (s.id, j)).sum *
        ((g k).map (eval (nodeEnv S base x T j (x' (bidx xs j))))).prod).trans ?_)
    simp only [← List.sum_map_mul_right]
    rw [list_sum_comm]
    congr 1
    refine List.map_congr_left fun s hs => ?_
    have : s.key = k := by simpa using (List.mem_filter.1 hs).2
    rw [this]
  rw [hc1 _ hsup, hpair, hval]
  have hfin : (stats.map fun s => ((indices sh).map fun j => w (s.id, j) * valueAt S base x' s.sub j).sum).sum =
      (stats.map fun s => ((indices sh).map fun j => mult s j * w (s.id, j) *
        ((g s.key).map (eval (nodeEnv S base x T j (x' (bidx xs j))))).prod).sum).sum +
      (stats.map fun s => ((indices sh).map fun j => w (s.id, j) * C s j).sum).sum := by
    rw [← List.sum_map_add]
    congr 1
    refine List.map_congr_left fun s hs => ?_
    rw [← List.sum_map_add]
    congr 1
    refine List.map_congr_left fun j hj => ?_
    rw [hC s j hs hj x' (hok s hs j hj)]
    ring
  rw [hfin]
  ring

end Edward
