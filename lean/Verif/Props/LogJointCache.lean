/-
C89: the log joint used by `complete_conditional`, whatever has been built before.
-/
import Mathlib.Tactic.Linarith
import Verif.Model.LogJointCache

namespace Edward
variable {E : Type}

/-- The log joint of a set of random variables. -/
noncomputable def Spec.condLogJoint (S : List (CondRv E)) (e : E) : ℝ :=
  (S.map fun b => (b.logProb.getD fun _ => 0) e).sum

/-- A naming scheme: names are tokens joined by `_`; the first token is not a continuation, the others are. For
TensorFlow's default names (`Normal`, `Normal_1`, `Beta_2`) the continuations are the numbers. -/
def TokenName (cont : OpName → Prop) (n : OpName) : Prop :=
  ∃ h cs, n = ['_'].intercalate (h :: cs) ∧ (∀ t ∈ h :: cs, '_' ∉ t) ∧ ¬ cont h ∧ ∀ c ∈ cs, cont c

theorem intercalate_flatten (sep : List Char) (L : List (List (List Char))) (h : ∀ l ∈ L, l ≠ []) :
    sep.intercalate (L.map fun l => sep.intercalate l) = sep.intercalate L.flatten := by
  induction L with
  | nil => rfl
  | cons a L ih =>
    have ih := ih fun l hl => h l (List.mem_cons_of_mem _ hl)
    cases L with
    | nil => simp
    | cons b L =>
      have hb : (b :: L).flatten ≠ [] := by
        simp [h b (by simp)]
      have happ : ∀ a b : List (List Char), a ≠ [] → b ≠ [] →
          sep.intercalate (a ++ b) = sep.intercalate a ++ sep ++ sep.intercalate b := by
        intro a b ha hb
        induction a with
        | nil => exact absurd rfl ha
        | cons x a iha =>
          cases a with
          | nil =>
            cases b with
            | nil => exact absurd rfl hb
            | cons y b => simp
          | cons y a =>
            have := iha (by simp)
            simp only [List.cons_append, List.intercalate_cons_cons] at this ⊢
            rw [this]
            simp
      rw [List.flatten_cons, happ a _ (h a (by simp)) hb, ← ih]
      simp

/-- Blocks that start with a non-continuation and go on with continuations can be read off their concatenation. -/
theorem flatten_blocks {T : Type} (cont : T → Prop) :
    ∀ L L' : List (List T), (∀ l ∈ L, ∃ h cs, l = h :: cs ∧ ¬ cont h ∧ ∀ c ∈ cs, cont c) →
      (∀ l ∈ L', ∃ h cs, l = h :: cs ∧ ¬ cont h ∧ ∀ c ∈ cs, cont c) → L.flatten = L'.flatten → L = L'
  | [], [], _, _, _ => rfl
  | [], l :: L', _, h', he => by
    obtain ⟨h, cs, rfl, -⟩ := h' l (by simp)
    simp at he
  | l :: L, [], h, _, he => by
    obtain ⟨h, cs, rfl, -⟩ := h l (by simp)
    simp at he
  | l :: L, l' :: L', hL, hL', he => by
    classical
    obtain ⟨h, cs, rfl, hh, hcs⟩ := hL l (by simp)
    obtain ⟨h', cs', rfl, hh', hcs'⟩ := hL' l' (by simp)
    have tw : ∀ (cs : List T) (M : List (List T)), (∀ c ∈ cs, cont c) →
        (∀ l ∈ M, ∃ h cs, l = h :: cs ∧ ¬ cont h ∧ ∀ c ∈ cs, cont c) →
        (cs ++ M.flatten).takeWhile (fun t => decide (cont t)) = cs ∧
        (cs ++ M.flatten).dropWhile (fun t => decide (cont t)) = M.flatten := by
      intro cs M hc hM
      have : M.flatten.takeWhile (fun t => decide (cont t)) = [] ∧
          M.flatten.dropWhile (fun t => decide (cont t)) = M.flatten := by
        cases M with
        | nil => simp
        | cons m M =>
          obtain ⟨a, b, rfl, ha, -⟩ := hM m (by simp)
          simp [ha]
      constructor
      · rw [List.takeWhile_append_of_pos (by simpa using hc), this.1, List.append_nil]
      · rw [List.dropWhile_append_of_pos (by simpa using hc), this.2]
    simp only [List.flatten_cons, List.cons_append, List.cons.injEq] at he
    obtain ⟨t1, d1⟩ := tw cs L hcs fun l hl => hL l (List.mem_cons_of_mem _ hl)
    obtain ⟨t2, d2⟩ := tw cs' L' hcs' fun l hl => hL' l (List.mem_cons_of_mem _ hl)
    have hcc : cs = cs' := by rw [← t1, ← t2, he.2]
    have hf : L.flatten = L'.flatten := by rw [← d1, ← d2, he.2]
    rw [flatten_blocks cont L L' (fun l hl => hL l (List.mem_cons_of_mem _ hl))
      (fun l hl => hL' l (List.mem_cons_of_mem _ hl)) hf, hcc, he.1]

/-- With such names, the key determines the names. -/
theorem condSetName_inj (cont : OpName → Prop) (N N' : List OpName) (hN : ∀ n ∈ N, TokenName cont n)
    (hN' : ∀ n ∈ N', TokenName cont n) (h0 : N ≠ []) (h0' : N' ≠ []) (h : condSetName N = condSetName N') :
    N.Perm N' := by
  have hj := List.append_cancel_left h
  have hsplit : ∀ n, TokenName cont n → ∃ a cs, n.splitOn '_' = a :: cs ∧ (∀ t ∈ a :: cs, '_' ∉ t) ∧ ¬ cont a ∧
      ∀ c ∈ cs, cont c := by
    rintro n ⟨a, cs, hn, h1, h2, h3⟩
    exact ⟨a, cs, by rw [hn, List.splitOn_intercalate '_' h1 (by simp)], h1, h2, h3⟩
  have key : ∀ M : List OpName, (∀ n ∈ M, TokenName cont n) → M ≠ [] →
      (['_'].intercalate M).splitOn '_' = (M.map (·.splitOn '_')).flatten := by
    intro M hM hM0
    have e : M = (M.map (·.splitOn '_')).map fun l => ['_'].intercalate l := by
      rw [List.map_map]
      conv_lhs => rw [← List.map_id M]
      refine List.map_congr_left fun n _ => ?_
      simp [List.intercalate_splitOn]
    have hne : ∀ l ∈ M.map (·.splitOn '_'), l ≠ [] := by
      intro l hl
      obtain ⟨n, hn, rfl⟩ := List.mem_map.mp hl
      obtain ⟨a, cs, ha, -⟩ := hsplit n (hM n hn)
      simp only [ha]
      simp
    conv_lhs => rw [e, intercalate_flatten _ _ hne]
    refine List.splitOn_intercalate '_' ?_ ?_
    · intro l hl
      obtain ⟨l', hl', hl⟩ := List.mem_flatten.mp hl
      obtain ⟨n, hn, rfl⟩ := List.mem_map.mp hl'
      obtain ⟨a, cs, ha, h1, -⟩ := hsplit n (hM n hn)
      simp only [ha] at hl
      exact h1 l hl
    · cases M with
      | nil => exact absurd rfl hM0
      | cons n M =>
        have := hne (n.splitOn '_') (by simp)
        simp [this]
  have p := List.perm_insertionSort (· ≤ ·) N
  have p' := List.perm_insertionSort (· ≤ ·) N'
  have k1 := key _ (fun n hn => hN n (p.mem_iff.mp hn)) (fun hc => h0 (by rw [hc] at p; simpa using p))
  have k2 := key _ (fun n hn => hN' n (p'.mem_iff.mp hn)) (fun hc => h0' (by rw [hc] at p'; simpa using p'))
  rw [hj, k2] at k1
  have hb := flatten_blocks cont _ _ (fun l hl => by
      obtain ⟨n, hn, rfl⟩ := List.mem_map.mp hl
      obtain ⟨a, cs, ha, -, h2, h3⟩ := hsplit n (hN' n (p'.mem_iff.mp hn))
      exact ⟨a, cs, ha, h2, h3⟩) (fun l hl => by
      obtain ⟨n, hn, rfl⟩ := List.mem_map.mp hl
      obtain ⟨a, cs, ha, -, h2, h3⟩ := hsplit n (hN n (p.mem_iff.mp hn))
      exact ⟨a, cs, ha, h2, h3⟩) k1
  have hinj : Function.Injective fun n : OpName => n.splitOn '_' := by
    intro a b hab
    have := congrArg (fun l => ['_'].intercalate l) hab
    simpa [List.intercalate_splitOn] using this
  have := (List.map_injective_iff.mpr hinj) hb
  exact p.symm.trans (this ▸ p')

/-- The random variables of the model: names identify them, follow the naming scheme, contain no `:` and do not
start with `log_joint_of_`. -/
structure CondNamesOk (cont : OpName → Prop) (U : Set (CondRv E)) : Prop where
  unique : ∀ a ∈ U, ∀ b ∈ U, a.name = b.name → a = b
  tokens : ∀ b ∈ U, TokenName cont b.name
  colon : ∀ b ∈ U, ':' ∉ b.name
  prefix_ok : ∀ b ∈ U, ¬ logJointPrefix <+: b.name

/-- Every tensor kept in the graph has the value its name stands for. -/
def CacheOk (U : Set (CondRv E)) (ops : LogJointOps E) : Prop :=
  ∀ k t, (k, t) ∈ ops → (∃ b ∈ U, k = termName b.name ∧ b.logProb = some t) ∨
    ∃ S : List (CondRv E), S ≠ [] ∧ (∀ b ∈ S, b ∈ U ∧ b.logProb.isSome) ∧ k = condSetName (S.map (·.name)) ∧
      t = Spec.condLogJoint S

theorem mem_of_lookup {K V : Type} [BEq K] [LawfulBEq K] (l : List (K × V)) (k : K) (v : V) (h : l.lookup k = some v) :
    (k, v) ∈ l := by
  induction l with
  | nil => simp at h
  | cons a l ih =>
    obtain ⟨a, b⟩ := a
    rw [List.lookup_cons] at h
    split at h
    · next he => simp_all
    · exact List.mem_cons_of_mem _ (ih h)

theorem termName_eq (n : OpName) (h : ':' ∉ n) : termName n = n ++ '/' :: termSuffix := by
  have : ∀ m : OpName, ':' ∉ m → m.map (fun c => if c = ':' then '_' else c) = m := by
    intro m hm
    induction m with
    | nil => rfl
    | cons c m ih =>
      simp only [List.mem_cons, not_or] at hm
      rw [List.map_cons, ih hm.2, if_neg (Ne.symm hm.1)]
  rw [termName, this _ (by simp [h])]
  simp

theorem termName_ne {cont : OpName → Prop} {U : Set (CondRv E)} (hU : CondNamesOk cont U) (b : CondRv E) (hb : b ∈ U)
    (N : List OpName) : termName b.name ≠ condSetName N := by
  rw [termName_eq _ (hU.colon b hb), condSetName]
  intro h
  have hp : logJointPrefix <+: b.name ++ '/' :: termSuffix := ⟨_, h.symm⟩
  rcases List.prefix_or_prefix_of_prefix hp (List.prefix_append _ _) with h1 | ⟨r, h1⟩
  · exact hU.prefix_ok b hb h1
  · cases r with
    | nil =>
      refine hU.prefix_ok b hb ?_
      rw [← h1]; simp
    | cons c r =>
      rw [← h1, List.prefix_append_right_inj] at hp
      obtain ⟨rfl, -⟩ := List.cons_prefix_cons.mp hp
      have : '/' ∈ logJointPrefix := by rw [← h1]; simp
      exact absurd this (by decide)

theorem termName_inj {cont : OpName → Prop} {U : Set (CondRv E)} (hU : CondNamesOk cont U) (a b : CondRv E) (ha : a ∈ U)
    (hb : b ∈ U) (h : termName a.name = termName b.name) : a = b := by
  rw [termName_eq _ (hU.colon a ha), termName_eq _ (hU.colon b hb)] at h
  exact hU.unique a ha b hb (List.append_cancel_right h)

theorem condLogJoint_perm {cont : OpName → Prop} {U : Set (CondRv E)} (hU : CondNamesOk cont U) (S S' : List (CondRv E))
    (hS : ∀ b ∈ S, b ∈ U) (hS' : ∀ b ∈ S', b ∈ U) (h : (S.map (·.name)).Perm (S'.map (·.name))) : S.Perm S' := by
  classical
  have g : ∀ n, ∃ f : CondRv E, ∀ b ∈ U, b.name = n → f = b := by
    intro n
    by_cases hn : ∃ b ∈ U, b.name = n
    · obtain ⟨b, hb, hbn⟩ := hn
      exact ⟨b, fun c hc hcn => hU.unique b hb c hc (hbn.trans hcn.symm)⟩
    · exact ⟨⟨n, none⟩, fun b hb hbn => absurd ⟨b, hb, hbn⟩ hn⟩
  choose f hf using g
  have e : ∀ S : List (CondRv E), (∀ b ∈ S, b ∈ U) → (S.map (·.name)).map f = S := by
    intro S hS
    rw [List.map_map]
    conv_rhs => rw [← List.map_id S]
    exact List.map_congr_left fun b hb => hf _ b (hS b hb) rfl
  have := h.map f
  rwa [e S hS, e S' hS'] at this

theorem logJointTerms_ok {cont : OpName → Prop} {U : Set (CondRv E)} (hU : CondNamesOk cont U) (S : List (CondRv E))
    (hS : ∀ b ∈ S, b ∈ U) (ops : LogJointOps E) (hc : CacheOk U ops) :
    CacheOk U (logJointTerms ops S).1 ∧
    ((∀ b ∈ S, b.logProb.isSome) → (logJointTerms ops S).2 = .ok (S.map fun b => b.logProb.getD fun _ => 0)) ∧
    ((∃ b ∈ S, b.logProb = none) → (logJointTerms ops S).2 = .error .notImplementedError) := by
  induction S generalizing ops with
  | nil => simp [logJointTerms, hc]
  | cons b S ih =>
    have hb := hS b (by simp)
    have step : (∀ f, b.logProb = some f → ∃ ops', logJointTerm ops b = (ops', .ok f) ∧ CacheOk U ops') ∧
        (b.logProb = none → logJointTerm ops b = (ops, .error .notImplementedError)) := by
      have hl : ∀ t, ops.lookup (termName b.name) = some t → b.logProb = some t := by
        intro t ht
        rcases hc _ _ (mem_of_lookup _ _ _ ht) with ⟨c, hcU, hk, hp⟩ | ⟨S', -, -, hk, -⟩
        · rw [termName_inj hU b c hb hcU hk, hp]
        · exact absurd hk (termName_ne hU b hb _)
      constructor
      · intro f hf
        rw [logJointTerm]
        cases ho : ops.lookup (termName b.name) with
        | some t =>
          have := hl t ho
          rw [hf] at this
          rw [Option.some.inj this]
          exact ⟨_, rfl, hc⟩
        | none =>
          simp only [hf]
          refine ⟨_, rfl, ?_⟩
          intro k t hk
          rcases List.mem_append.mp hk with h | h
          · exact hc k t h
          · simp only [List.mem_singleton, Prod.mk.injEq] at h
            exact Or.inl ⟨b, hb, h.1, by rw [h.2, hf]⟩
      · intro hn
        rw [logJointTerm]
        cases ho : ops.lookup (termName b.name) with
        | some t => have := hl t ho; rw [hn] at this; cases this
        | none => simp only [hn]
    have hS' : ∀ c ∈ S, c ∈ U := fun c hc => hS c (List.mem_cons_of_mem _ hc)
    cases hp : b.logProb with
    | none =>
      rw [logJointTerms, step.2 hp]
      exact ⟨hc, fun h => by simpa [hp] using h b (by simp), fun _ => rfl⟩
    | some f =>
      obtain ⟨ops', e, hc'⟩ := step.1 f hp
      obtain ⟨i1, i2, i3⟩ := ih hS' ops' hc'
      rw [logJointTerms, e]
      simp only
      rcases hr : logJointTerms ops' S with ⟨ops'', r⟩
      rw [hr] at i1 i2 i3
      refine ⟨?_, fun h => ?_, fun h => ?_⟩
      · cases r <;> exact i1
      · have := i2 fun c hc => h c (List.mem_cons_of_mem _ hc)
        simp only at this
        simp [this, hp]
      · have : ∃ c ∈ S, c.logProb = none := by
          obtain ⟨c, hc, hn⟩ := h
          rcases List.mem_cons.mp hc with rfl | hc
          · rw [hp] at hn; cases hn
          · exact ⟨c, hc, hn⟩
        have := i3 this
        simp only at this
        simp [this]

/-- One call, from a graph whose kept tensors are right. -/
theorem getLogJoint_ok {cont : OpName → Prop} {U : Set (CondRv E)} (hU : CondNamesOk cont U) (S : List (CondRv E))
    (hS : ∀ b ∈ S, b ∈ U) (ops : LogJointOps E) (hc : CacheOk U ops) :
    CacheOk U (getLogJoint ops S).1 ∧
    (S ≠ [] → (∀ b ∈ S, b.logProb.isSome) → (getLogJoint ops S).2 = .ok (Spec.condLogJoint S)) ∧
    (S ≠ [] → (∃ b ∈ S, b.logProb = none) → (getLogJoint ops S).2 = .error .notImplementedError) := by
  rw [getLogJoint]
  cases ho : ops.lookup (condSetName (S.map (·.name))) with
  | some t =>
    refine ⟨hc, fun h0 _ => ?_, fun h0 hn => ?_⟩
    all_goals
      rcases hc _ _ (mem_of_lookup _ _ _ ho) with ⟨b, hb, hk, -⟩ | ⟨S', h0', hS', hk, ht⟩
      · exact absurd hk.symm (termName_ne hU b hb _)
    all_goals
      have hp := condLogJoint_perm hU S S' hS (fun b hb => (hS' b hb).1) (condSetName_inj cont _ _
        (by simpa using fun b hb => hU.tokens b (hS b hb)) (by simpa using fun b hb => hU.tokens b (hS' b hb).1)
        (by simpa using h0) (by simpa using h0') hk)
    · rw [ht]
      show Except.ok _ = Except.ok _
      congr 1
      funext e
      exact ((hp.map _).sum_eq).symm
    · obtain ⟨b, hb, hbn⟩ := hn
      have := (hS' b (hp.mem_iff.mp hb)).2
      rw [hbn] at this
      cases this
  | none =>
    obtain ⟨i1, i2, i3⟩ := logJointTerms_ok hU S hS ops hc
    rcases hr : logJointTerms ops S with ⟨ops', r⟩
    rw [hr] at i1 i2 i3
    simp only at i1 i2 i3 ⊢
    by_cases hall : ∀ b ∈ S, b.logProb.isSome
    · rw [i2 hall]
      cases S with
      | nil => exact ⟨i1, fun h => absurd rfl h, fun h => absurd rfl h⟩
      | cons b S =>
        have hval : (fun e => ((((b :: S).map fun b => b.logProb.getD fun _ => 0)).map (· e)).sum) =
            Spec.condLogJoint (b :: S) := by
          funext e
          simp [Spec.condLogJoint, Function.comp_def]
        simp only [List.map_cons] at hval ⊢
        rw [hval]
        refine ⟨?_, fun _ _ => rfl, fun _ ⟨c, hc, hn⟩ => ?_⟩
        · intro k t hk
          rcases List.mem_append.mp hk with h | h
          · exact i1 k t h
          · simp only [List.mem_singleton, Prod.mk.injEq] at h
            exact Or.inr ⟨b :: S, by simp, fun c hc => ⟨hS c hc, hall c hc⟩, by simpa using h.1, h.2⟩
        · have := hall c hc
          rw [hn] at this
          cases this
    · have hn : ∃ b ∈ S, b.logProb = none := by
        push Not at hall
        obtain ⟨b, hb, h⟩ := hall
        exact ⟨b, hb, by simpa using h⟩
      rw [i3 hn]
      exact ⟨i1, fun _ h => absurd h hall, fun _ _ => rfl⟩

/-- C89, what holds: if the names of all variables follow a naming scheme that tells where a name begins, then
after any sequence of calls a call returns the log joint of its own set, or raises NotImplementedError if a
variable has no `conjugate_log_prob`. -/
theorem C89_partial (cont : OpName → Prop) (U : Set (CondRv E)) (hU : CondNamesOk cont U)
    (calls : List (List (CondRv E))) (hcalls : ∀ S ∈ calls, ∀ b ∈ S, b ∈ U) (S : List (CondRv E))
    (hS : ∀ b ∈ S, b ∈ U) (h0 : S ≠ []) :
    ((∀ b ∈ S, b.logProb.isSome) → (getLogJoint (afterCalls calls) S).2 = .ok (Spec.condLogJoint S)) ∧
    ((∃ b ∈ S, b.logProb = none) → (getLogJoint (afterCalls calls) S).2 = .error .notImplementedError) := by
  have hc : ∀ (calls : List (List (CondRv E))) (ops : LogJointOps E), (∀ S ∈ calls, ∀ b ∈ S, b ∈ U) → CacheOk U ops →
      CacheOk U (calls.foldl (fun ops S => (getLogJoint ops S).1) ops) := by
    intro calls
    induction calls with
    | nil => intro ops _ h; exact h
    | cons T calls ih =>
      intro ops hcalls h
      exact ih _ (fun S hS => hcalls S (List.mem_cons_of_mem _ hS)) (getLogJoint_ok hU T (hcalls T (by simp)) ops h).1
  obtain ⟨-, h1, h2⟩ := getLogJoint_ok hU S hS _ (hc calls [] hcalls (by intro k t h; simp at h))
  exact ⟨h1 h0, h2 h0⟩

/-- The names TensorFlow gives by default follow the scheme: a class name without underscore that is not a number,
then possibly an underscore and a number. -/
theorem tokenName_default (F k : OpName) (hF : '_' ∉ F) (hF' : ¬ (F ≠ [] ∧ ∀ c ∈ F, c.isDigit)) (hk : k ≠ [])
    (hd : ∀ c ∈ k, c.isDigit) :
    TokenName (fun t => t ≠ [] ∧ ∀ c ∈ t, c.isDigit) F ∧
    TokenName (fun t => t ≠ [] ∧ ∀ c ∈ t, c.isDigit) (F ++ '_' :: k) := by
  refine ⟨⟨F, [], by simp, by simpa using hF, hF', by simp⟩, ⟨F, [k], by simp, ?_, hF', by simpa using ⟨hk, hd⟩⟩⟩
  have : '_' ∉ k := fun h => absurd (hd _ h) (by decide)
  simp [hF, this]

/-- C89 fails for names with underscores: after a call with variables `a`, `b_c` and `r`, a call with `a_b`, `c` and
`r` returns the log joint of the first three. -/
theorem C89_fails (f1 f2 f3 g1 g2 : E → ℝ) (e : E) (hne : f1 e + f2 e ≠ g1 e + g2 e) :
    let r : CondRv E := ⟨"r".toList, some f3⟩
    let S1 : List (CondRv E) := [⟨"a".toList, some f1⟩, ⟨"b_c".toList, some f2⟩, r]
    let S2 : List (CondRv E) := [⟨"a_b".toList, some g1⟩, ⟨"c".toList, some g2⟩, r]
    ∃ t, (getLogJoint (afterCalls [S1]) S2).2 = .ok t ∧ t = Spec.condLogJoint S1 ∧ t ≠ Spec.condLogJoint S2 := by
  intro r S1 S2
  have hk : condSetName ["a_b".toList, "c".toList, "r".toList] = condSetName ["a".toList, "b_c".toList, "r".toList] := by
    decide
  have n1 : (termName "b_c".toList == termName "a".toList) = false := by decide
  have n2 : (termName "r".toList == termName "a".toList) = false := by decide
  have n3 : (termName "r".toList == termName "b_c".toList) = false := by decide
  have n4 : ∀ n ∈ ["a".toList, "b_c".toList, "r".toList],
      (condSetName ["a".toList, "b_c".toList, "r".toList] == termName n) = false := by decide
  have h1 : afterCalls [S1] = [(termName "a".toList, f1), (termName "b_c".toList, f2), (termName "r".toList, f3),
      (condSetName ["a".toList, "b_c".toList, "r".toList], Spec.condLogJoint S1)] := by
    simp only [afterCalls, List.foldl, getLogJoint, S1, r, List.lookup, logJointTerms, logJointTerm, n1, n2, n3,
      List.nil_append, List.cons_append, List.map_cons, List.map_nil]
    rfl
  refine ⟨Spec.condLogJoint S1, ?_, rfl, fun h => hne ?_⟩
  · simp only [getLogJoint, h1, S2, r, List.map_cons, List.map_nil, hk, List.lookup,
      n4 "a".toList (by simp), n4 "b_c".toList (by simp), n4 "r".toList (by simp), beq_self_eq_true]
  · have := congrFun h e
    simp only [Spec.condLogJoint, S1, S2, r, List.map_cons, List.map_nil, List.sum_cons, List.sum_nil,
      Option.getD_some] at this
    linarith

/-- TensorFlow's default names follow the scheme, the continuations being the numbers: here `Normal`, `Normal_1` and
`Beta`. -/
example (f g h : ℝ → ℝ) :
    let cont : OpName → Prop := fun t => t ≠ [] ∧ ∀ c ∈ t, c.isDigit
    let U : Set (CondRv ℝ) := {⟨"Normal".toList, some f⟩, ⟨"Normal_1".toList, some g⟩, ⟨"Beta".toList, some h⟩}
    CondNamesOk cont U := by
  intro cont U
  have t1 : TokenName cont "Normal".toList := ⟨"Normal".toList, [], by decide, by decide, by simp [cont], by simp⟩
  have t2 : TokenName cont "Normal_1".toList :=
    ⟨"Normal".toList, ["1".toList], by decide, by decide, by simp [cont], by simp [cont]⟩
  have t3 : TokenName cont "Beta".toList := ⟨"Beta".toList, [], by decide, by decide, by simp [cont], by simp⟩
  have d12 : "Normal".toList ≠ "Normal_1".toList := by decide
  have d13 : "Normal".toList ≠ "Beta".toList := by decide
  have d23 : "Normal_1".toList ≠ "Beta".toList := by decide
  constructor
  · rintro a (rfl | rfl | rfl) b (rfl | rfl | rfl) hab
    · rfl
    · exact absurd hab d12
    · exact absurd hab d13
    · exact absurd hab.symm d12
    · rfl
    · exact absurd hab d23
    · exact absurd hab.symm d13
    · exact absurd hab.symm d23
    · rfl
  · rintro b (rfl | rfl | rfl)
    exacts [t1, t2, t3]
  · rintro b (rfl | rfl | rfl)
    · show ':' ∉ "Normal".toList; decide
    · show ':' ∉ "Normal_1".toList; decide
    · show ':' ∉ "Beta".toList; decide
  · rintro b (rfl | rfl | rfl)
    · show ¬ logJointPrefix <+: "Normal".toList; decide
    · show ¬ logJointPrefix <+: "Normal_1".toList; decide
    · show ¬ logJointPrefix <+: "Beta".toList; decide

end Edward
