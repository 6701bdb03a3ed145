/-
Properties C43, C44, C45 and C75: running and resetting an inference algorithm.
-/
import Mathlib.Data.List.Basic
import Mathlib.Data.List.Range
import Mathlib.Tactic.Linarith
import Verif.Model.Run

set_option linter.unusedSectionVars false

namespace Edward

/-! ### Vocabulary of the statements -/

/-- Iteration numbers of the updates in a log. -/
def updatesOf (l : List Ev) : List Nat := l.filterMap (fun e => match e with | .update t => some t | _ => none)

/-- Iteration numbers at which progress was shown. -/
def shownAt (l : List Ev) : List Nat :=
  l.filterMap (fun e => match e with | .report t true => some t | _ => none)

/-- Each update is directly followed by its report. -/
def Reported (l : List Ev) : Prop :=
  ∀ pre post t, l = pre ++ .update t :: post → ∃ b post', post = .report t b :: post'

/-! ### Execution lemmas -/

def noFail : Nat → Bool := fun _ => false

def iterLog (nPrint : Int) (k n : Nat) : List Ev :=
  (List.range' (k + 1) n).flatMap (fun t => [.update t, .report t (showsProgress nPrint t)])

theorem iterate_ok (c : RunConfig) (n : Nat) : ∀ (k : Nat) (l : List Ev) (m : Nat),
    iterate c noFail n ⟨some k, l, m⟩ =
      .ok ⟨some (k + n), l ++ iterLog c.nPrint k n, m + 2 * n⟩ := by
  induction n with
  | zero => intro k l m; simp [iterate, iterLog]
  | succ n ih =>
    intro k l m
    simp only [iterate, andThen, iteration, call, noFail, Bool.false_eq_true, if_false, id]
    have := ih (k + 1) (l ++ [.update (k + 1)] ++ [.report (k + 1) (showsProgress c.nPrint (k + 1))])
      (m + 1 + 1)
    rw [this]
    simp only [iterLog, List.range'_succ, List.flatMap_cons, List.append_assoc, List.cons_append,
      List.nil_append]
    congr 2
    · congr 1; omega
    · omega

def prologue (c : RunConfig) : List Ev :=
  [.initialize, .initVars] ++ if c.useCoordinator then [.startThreads] else []

def epilogue (c : RunConfig) : List Ev :=
  (if c.logging then [.closeWriter] else []) ++
    if c.useCoordinator then [.requestStop, .joinThreads] else []

theorem run_ok (c : RunConfig) (hv : c.initList = none) (s : RunState) :
    ∃ m, run c noFail s =
      .ok ⟨some c.nIter, s.log ++ prologue c ++ iterLog c.nPrint 0 c.nIter ++ epilogue c, m⟩ := by
  obtain ⟨t, l, m⟩ := s
  have key := fun l m => iterate_ok c c.nIter 0 l m
  rcases hc : c.useCoordinator <;> rcases hl : c.logging <;>
  simp [run, andThen, call, hv, hc, hl, skip, key, prologue, epilogue, noFail]

theorem updatesOf_append (a b : List Ev) : updatesOf (a ++ b) = updatesOf a ++ updatesOf b := by
  simp [updatesOf]

theorem shownAt_append (a b : List Ev) : shownAt (a ++ b) = shownAt a ++ shownAt b := by
  simp [shownAt]

theorem updatesOf_iterLog (np : Int) (n : Nat) : ∀ k, updatesOf (iterLog np k n) = List.range' (k + 1) n := by
  induction n with
  | zero => intro k; rfl
  | succ n ih =>
    intro k
    have : iterLog np k (n + 1) = [.update (k + 1), .report (k + 1) (showsProgress np (k + 1))] ++
        iterLog np (k + 1) n := by simp [iterLog, List.range'_succ]
    rw [this, updatesOf_append, ih (k + 1), List.range'_succ]
    simp [updatesOf]

theorem shownAt_iterLog (np : Int) (n : Nat) : ∀ k, shownAt (iterLog np k n) =
    (List.range' (k + 1) n).filter (showsProgress np) := by
  induction n with
  | zero => intro k; rfl
  | succ n ih =>
    intro k
    have : iterLog np k (n + 1) = [.update (k + 1), .report (k + 1) (showsProgress np (k + 1))] ++
        iterLog np (k + 1) n := by simp [iterLog, List.range'_succ]
    rw [this, shownAt_append, ih (k + 1), List.range'_succ, List.filter_cons]
    cases h : showsProgress np (k + 1) <;> simp [shownAt]

theorem reported_cons_cons {t : Nat} {b : Bool} {l : List Ev} (h : Reported l) :
    Reported (.update t :: .report t b :: l) := by
  intro pre post t' he
  match pre with
  | [] => simp at he; obtain ⟨rfl, rfl⟩ := he; exact ⟨b, l, rfl⟩
  | [e] => simp at he
  | e :: e' :: pre => simp at he; exact h pre post t' he.2.2

theorem reported_cons {e : Ev} (he : ∀ t, e ≠ .update t) {l : List Ev} (h : Reported l) :
    Reported (e :: l) := by
  intro pre post t' heq
  match pre with
  | [] => simp at heq; exact absurd heq.1 (he t')
  | e' :: pre => simp at heq; exact h pre post t' heq.2

theorem reported_iterLog (np : Int) (n : Nat) {l : List Ev} (h : Reported l) : ∀ k,
    Reported (iterLog np k n ++ l) := by
  induction n with
  | zero => intro k; exact h
  | succ n ih =>
    intro k
    have : iterLog np k (n + 1) ++ l = .update (k + 1) :: .report (k + 1) (showsProgress np (k + 1)) ::
        (iterLog np (k + 1) n ++ l) := by simp [iterLog, List.range'_succ]
    rw [this]
    exact reported_cons_cons (ih (k + 1))

/-! ### C43 -/

/-- C43: without exceptions `run` performs the updates `1, ..., n_iter` in this
order, each directly followed by its progress report, and leaves `t = n_iter`. -/
theorem C43_run_updates (c : RunConfig) (hv : c.initList = none) :
    ∃ s, run c noFail runStart = .ok s ∧ s.t = some c.nIter ∧
      updatesOf s.log = (List.range c.nIter).map (· + 1) ∧ Reported s.log := by
  obtain ⟨m, h⟩ := run_ok c hv runStart
  refine ⟨_, h, rfl, ?_, ?_⟩
  · have hp : updatesOf (prologue c) = [] := by
      unfold prologue; split <;> rfl
    have he : updatesOf (epilogue c) = [] := by
      unfold epilogue; split <;> split <;> rfl
    dsimp only [runStart]
    rw [updatesOf_append, updatesOf_append, List.nil_append, hp, he, updatesOf_iterLog,
      List.nil_append, List.append_nil, List.range_eq_range', List.range'_eq_map_range]
    simp [List.range'_eq_map_range, Nat.add_comm]
  · dsimp only [runStart]
    rw [List.nil_append, List.append_assoc]
    have hnil : Reported [] := by intro pre post t h; simp at h
    have he : Reported (epilogue c) := by
      unfold epilogue
      split <;> split <;> simp only [List.nil_append, List.append_nil, List.cons_append] <;>
        first
          | exact hnil
          | exact reported_cons (by simp) hnil
          | exact reported_cons (by simp) (reported_cons (by simp) hnil)
          | exact reported_cons (by simp) (reported_cons (by simp) (reported_cons (by simp) hnil))
    have hi := reported_iterLog c.nPrint c.nIter he 0
    unfold prologue
    split
    · exact reported_cons (by simp) (reported_cons (by simp) (reported_cons (by simp) hi))
    · exact reported_cons (by simp) (reported_cons (by simp) hi)

/-- C43: progress is shown at `t` iff `1 ≤ t ≤ n_iter`, `n_print ≠ 0` and `t` is 1
or a multiple of `n_print`. -/
theorem C43_progress (c : RunConfig) (hv : c.initList = none) :
    ∃ s, run c noFail runStart = .ok s ∧ (shownAt s.log).Pairwise (· < ·) ∧
      ∀ t, t ∈ shownAt s.log ↔
        (1 ≤ t ∧ t ≤ c.nIter) ∧ c.nPrint ≠ 0 ∧ (t = 1 ∨ ∃ j : Int, (t : Int) = c.nPrint * j) := by
  obtain ⟨m, h⟩ := run_ok c hv runStart
  have hp : shownAt (prologue c) = [] := by
    unfold prologue; split <;> rfl
  have he : shownAt (epilogue c) = [] := by
    unfold epilogue; split <;> split <;> rfl
  have hs : shownAt ([] ++ prologue c ++ iterLog c.nPrint 0 c.nIter ++ epilogue c) =
      (List.range' 1 c.nIter).filter (showsProgress c.nPrint) := by
    rw [shownAt_append, shownAt_append, List.nil_append, hp, he, shownAt_iterLog, List.nil_append,
      List.append_nil]
  refine ⟨_, h, ?_, ?_⟩
  · dsimp only [runStart]
    rw [hs]
    exact List.Pairwise.filter _ List.pairwise_lt_range'
  · intro t
    dsimp only [runStart]
    rw [hs, List.mem_filter, List.mem_range'_1]
    simp only [showsProgress, Bool.and_eq_true, bne_iff_ne, ne_eq, Bool.or_eq_true, beq_iff_eq]
    have hdvd : (t : Int) % c.nPrint = 0 ↔ ∃ j : Int, (t : Int) = c.nPrint * j :=
      ⟨fun h => Int.dvd_of_emod_eq_zero h, fun h => Int.emod_eq_zero_of_dvd h⟩
    rw [hdvd]
    constructor
    · rintro ⟨h1, h2⟩; exact ⟨⟨h1.1, by omega⟩, h2⟩
    · rintro ⟨h1, h2⟩; exact ⟨⟨h1.1, by omega⟩, h2⟩

/-- C43: with the default `n_print`, runs of fewer than 100 iterations show nothing. -/
theorem C43_default_silent (c : RunConfig) (hv : c.initList = none)
    (hp : c.nPrint = defaultNPrint c.nIter) (hn : c.nIter < 100) :
    ∃ s, run c noFail runStart = .ok s ∧ shownAt s.log = [] := by
  obtain ⟨s, h, _, h2⟩ := C43_progress c hv
  refine ⟨s, h, List.eq_nil_iff_forall_not_mem.mpr fun t ht => ?_⟩
  have := ((h2 t).mp ht).2.1
  rw [hp, defaultNPrint, Nat.div_eq_of_lt hn] at this
  simp at this

example : ∃ s, run ⟨4, 2, true, true, none⟩ noFail runStart = .ok s ∧ shownAt s.log = [1, 2, 4] :=
  ⟨_, rfl, rfl⟩

/-! ### C75 -/

/-- C75 does not hold: with an explicit list of variables `run` raises before the
first update completes, whatever the other arguments, because the counter it just
created cannot be in the list. -/
theorem C75_explicit_variables_fails (c : RunConfig) (hv : c.initList = some false)
    (hn : 0 < c.nIter) (fail : Nat → Bool) :
    ∃ s, run c fail runStart = .error s ∧ updatesOf s.log = [] := by
  obtain ⟨n, hn⟩ : ∃ n, c.nIter = n + 1 := ⟨c.nIter - 1, by omega⟩
  have it : ∀ l m, iterate c fail c.nIter ⟨none, l, m⟩ = .error ⟨none, l, m + 1⟩ := by
    intro l m; rw [hn]; simp [iterate, andThen, iteration]
  unfold run
  simp only [andThen, call, runStart, hv]
  by_cases h0 : fail 0 = true
  · simp [h0, updatesOf]
  by_cases h1 : fail 1 = true
  · simp [h0, h1, updatesOf]
  by_cases hc : c.useCoordinator = true
  · by_cases h2 : fail 2 = true
    · simp [h0, h1, hc, h2, call, updatesOf]
    · simp [h0, h1, hc, h2, call, it, updatesOf]
  · simp [h0, h1, hc, skip, it, updatesOf]

/-- C75, the part that holds: with `n_iter = 0` or the default all is well. -/
theorem C75_default_partial (c : RunConfig) (hv : c.initList = none) :
    ∃ s, run c noFail runStart = .ok s ∧ (updatesOf s.log).length = c.nIter := by
  obtain ⟨s, h, _, h2, _⟩ := C43_run_updates c hv
  exact ⟨s, h, by rw [h2]; simp⟩

/-! ### C44 -/

/-- Resources are released: threads stopped if started, writer closed if opened. -/
def Released (c : RunConfig) (l : List Ev) : Prop :=
  (.startThreads ∈ l → .requestStop ∈ l ∧ .joinThreads ∈ l) ∧ (c.logging = true → .closeWriter ∈ l)

theorem call_ok {fail : Nat → Bool} {e : Ev} {f : Option Nat → Option Nat} {s s' : RunState}
    (h : call fail e f s = .ok s') : s'.log = s.log ++ [e] := by
  unfold call at h
  split at h
  · cases h
  · cases h; rfl

theorem andThen_ok {f g : RunM} {s s' : RunState} (h : andThen f g s = .ok s') :
    ∃ s1, f s = .ok s1 ∧ g s1 = .ok s' := by
  unfold andThen at h
  split at h
  · exact ⟨_, ‹_›, h⟩
  · cases h

theorem iterate_ok_log {c : RunConfig} {fail : Nat → Bool} (n : Nat) : ∀ {s s' : RunState},
    iterate c fail n s = .ok s' → ∃ l, s'.log = s.log ++ l := by
  induction n with
  | zero => intro s s' h; cases h; exact ⟨[], by simp⟩
  | succ n ih =>
    intro s s' h
    obtain ⟨s1, h1, h2⟩ := andThen_ok h
    obtain ⟨l, hl⟩ := ih h2
    unfold iteration at h1
    split at h1
    · cases h1
    · obtain ⟨s2, h3, h4⟩ := andThen_ok h1
      rw [hl, call_ok h4, call_ok h3]
      exact ⟨_, by simp only [List.append_assoc]; rfl⟩

/-- C44, the part that holds: if `run` returns normally, whatever happened inside,
the threads were stopped and joined and the writer closed. Missing: the case of an
exception, for which see `C44_exception_fails`. -/
theorem C44_normal_partial (c : RunConfig) (fail : Nat → Bool) (s : RunState)
    (h : run c fail runStart = .ok s) : Released c s.log := by
  unfold run at h
  obtain ⟨s1, h1, h⟩ := andThen_ok h
  obtain ⟨s2, h2, h⟩ := andThen_ok h
  obtain ⟨s3, h3, h⟩ := andThen_ok h
  obtain ⟨s4, h4, h⟩ := andThen_ok h
  obtain ⟨s5, h5, h⟩ := andThen_ok h
  obtain ⟨l4, hl4⟩ := iterate_ok_log _ h4
  constructor
  · intro hst
    by_cases hc : c.useCoordinator = true
    · rw [if_pos hc] at h
      obtain ⟨s6, h6, h7⟩ := andThen_ok h
      rw [call_ok h7, call_ok h6]
      simp
    · exfalso
      rw [if_neg hc] at h h3
      obtain rfl : s5 = s := by cases h; rfl
      obtain rfl : s2 = s3 := by cases h3; rfl
      have e5 : s5.log = s4.log ∨ s5.log = s4.log ++ [.closeWriter] := by
        split at h5
        · exact Or.inr (call_ok h5)
        · cases h5; exact Or.inl rfl
      have hsu : Ev.startThreads ∉ s4.log := by
        have hl : ∀ (n : Nat) (s s' : RunState), iterate c fail n s = .ok s' →
            Ev.startThreads ∉ s.log → Ev.startThreads ∉ s'.log := by
          intro n
          induction n with
          | zero => intro s s' h hh; cases h; exact hh
          | succ n ih =>
            intro s s' h hh
            obtain ⟨sa, ha, hb⟩ := andThen_ok h
            refine ih _ _ hb ?_
            unfold iteration at ha
            split at ha
            · cases ha
            · obtain ⟨sb, hc1, hc2⟩ := andThen_ok ha
              rw [call_ok hc2, call_ok hc1]; simp [hh]
        refine hl _ _ _ h4 ?_
        rw [call_ok h2, call_ok h1]; simp [runStart]
      rcases e5 with e | e <;> rw [e] at hst <;> simp [hsu] at hst
  · intro hl
    rw [if_pos hl] at h5
    have h5' := call_ok h5
    have : Ev.closeWriter ∈ s5.log := by rw [h5']; simp
    split at h
    · obtain ⟨s6, h6, h7⟩ := andThen_ok h
      rw [call_ok h7, call_ok h6]; simp [this]
    · cases h; exact this

/-- C44 does not hold: whichever iteration `j < n_iter` raises in its update, the
threads started before stay running and the writer stays open. -/
theorem C44_exception_fails (n j : Nat) (hj : j < n) (np : Int) (logging : Bool) :
    ∃ (fail : Nat → Bool) (s : RunState),
      run ⟨n, np, true, logging, none⟩ fail runStart = .error s ∧
      .startThreads ∈ s.log ∧ .requestStop ∉ s.log ∧ .closeWriter ∉ s.log ∧
      (updatesOf s.log).length = j := by
  let fail : Nat → Bool := fun k => k == 3 + 2 * j
  let c : RunConfig := ⟨n, np, true, logging, none⟩
  have hit : ∀ (i k m : Nat) (l : List Ev), k + i = n → k ≤ j → m = 3 + 2 * k →
      iterate c fail i ⟨some k, l, m⟩ =
        .error ⟨some j, l ++ iterLog np k (j - k), 3 + 2 * j + 1⟩ := by
    intro i
    induction i with
    | zero => intro k m l h1 h2 _; omega
    | succ i ih =>
      intro k m l h1 h2 hm
      rcases Nat.eq_or_lt_of_le h2 with rfl | hlt
      · have hf : fail m = true := by simp [fail, hm]
        simp only [iterate, andThen, iteration, call, hf, if_true]
        simp [iterLog, hm]
      · have hf : fail m = false := by simp [fail, hm]; omega
        have hf' : fail (m + 1) = false := by simp [fail, hm]; omega
        simp only [iterate, andThen, iteration, call, hf, hf', Bool.false_eq_true, if_false, id]
        rw [ih (k + 1) (m + 1 + 1) _ (by omega) (by omega) (by omega)]
        congr 2
        have : j - k = (j - (k + 1)) + 1 := by omega
        rw [this]
        simp [iterLog, List.range'_succ, c]
  refine ⟨fail, ⟨some j, prologue c ++ iterLog np 0 j, 3 + 2 * j + 1⟩, ?_, ?_, ?_, ?_, ?_⟩
  · have h0 : fail 0 = false := by simp [fail]; omega
    have h1 : fail (0 + 1) = false := by simp [fail]; omega
    have h2 : fail (0 + 1 + 1) = false := by simp [fail]; omega
    have := hit n 0 (0 + 1 + 1 + 1) (prologue c) (by omega) (by omega) (by omega)
    simp only [Nat.sub_zero] at this
    unfold run
    simp only [andThen, call, runStart, h0, h1, h2, if_true, Bool.false_eq_true, if_false, id]
    simp only [List.nil_append, List.cons_append]
    have hp : prologue c = [.initialize, .initVars, .startThreads] := rfl
    rw [hp] at this ⊢
    rw [this]
  · simp [prologue, c]
  · simp [prologue, c, iterLog]
  · simp [prologue, c, iterLog]
  · dsimp only
    rw [updatesOf_append, updatesOf_iterLog]
    have : updatesOf (prologue c) = [] := rfl
    simp [this]

/-! ### C45 -/

section Reset
variable {Val : Type}

/-- C45: reset leaves every variable outside its list alone and initialises the rest. -/
theorem reset_spec (k : AlgKind) (globals : List String) (init s : String → Val) (n : String) :
    (n ∈ k.resets globals → reset k globals init s n = init n) ∧
      (n ∉ k.resets globals → reset k globals init s n = s n) := by
  unfold reset; constructor <;> intro h <;> simp [h]

/-- C45, Monte Carlo algorithms without hidden variables: after any history the
whole own state is back at its initial value, and nothing else changes. -/
theorem C45_reset_mc (globals : List String) (init s : String → Val) :
    (∀ n ∈ AlgKind.own .mc, reset .mc globals init s n = init n) ∧
      (∀ n, n ∉ AlgKind.own .mc → reset .mc globals init s n = s n) :=
  ⟨fun n h => (reset_spec .mc globals init s n).1 h, fun n h => (reset_spec .mc globals init s n).2 h⟩

/-- C45, variational algorithms whose global step belongs to the user: the own
state is restored. -/
theorem C45_reset_vi_partial (globals : List String) (scope : String) (slots : List String)
    (hslots : ∀ v ∈ slots, v ∈ globals ∧ inScope scope v = true) (init s : String → Val) :
    ∀ n ∈ AlgKind.own (.vi scope slots none), reset (.vi scope slots none) globals init s n = init n := by
  intro n hn
  apply (reset_spec _ globals init s n).1
  simp only [AlgKind.own, AlgKind.resets, List.mem_cons, List.mem_filter,
    Option.toList_none, List.append_nil] at hn ⊢
  rcases hn with h | h
  · exact Or.inl h
  · exact Or.inr (hslots n h)

/-- C45 does not hold for SGHMC: velocities survive a reset. -/
theorem C45_reset_sghmc_fails (globals : List String) (vs : List String) (init s : String → Val)
    (v : String) (hv : v ∈ vs) (h1 : v ≠ "iteration") (h2 : v ≠ "n_accept") (hne : s v ≠ init v) :
    v ∈ AlgKind.own (.sghmc vs) ∧ reset (.sghmc vs) globals init s v ≠ init v := by
  refine ⟨by simp [AlgKind.own, hv], ?_⟩
  rw [(reset_spec (.sghmc vs) globals init s v).2 (by simp [AlgKind.resets, h1, h2])]
  exact hne

/-- C45 does not hold for the default optimiser: its global step, hence the
learning rate schedule, survives a reset. -/
theorem C45_reset_globalStep_fails (globals slots : List String) (init s : String → Val)
    (hne : s "global_step" ≠ init "global_step") :
    "global_step" ∈ AlgKind.own (.vi "optimizer" slots (some "global_step")) ∧
      reset (.vi "optimizer" slots (some "global_step")) globals init s "global_step" ≠
        init "global_step" := by
  refine ⟨by simp [AlgKind.own], ?_⟩
  rw [(reset_spec _ globals init s "global_step").2 ?_]
  · exact hne
  · have : inScope "optimizer" "global_step" = false := by decide
    simp [AlgKind.resets, this]

/-- C45 does not hold for GANs: no optimiser variable is reset. -/
theorem C45_reset_gan_fails (globals slots gs : List String) (init s : String → Val) (v : String)
    (hv : v ∈ slots ++ gs) (h1 : v ≠ "iteration") (hne : s v ≠ init v) :
    v ∈ AlgKind.own (.gan slots gs) ∧ reset (.gan slots gs) globals init s v ≠ init v := by
  refine ⟨by simp only [AlgKind.own, List.cons_append, List.mem_cons]; exact Or.inr hv, ?_⟩
  rw [(reset_spec (.gan slots gs) globals init s v).2 (by simp [AlgKind.resets, h1])]
  exact hne

/-- C45: resetting one variational algorithm also resets the optimiser of another
one built later in the same graph (scope `optimizer` is a prefix of `optimizer_1`). -/
theorem C45_reset_other_fails (globals slots : List String) (gs : Option String)
    (init s : String → Val) (v : String) (hg : v ∈ globals)
    (hv : inScope "optimizer_1" v = true) :
    reset (.vi "optimizer" slots gs) globals init s v = init v := by
  apply (reset_spec _ globals init s v).1
  have : inScope "optimizer" v = true := by
    unfold inScope at hv ⊢
    rw [List.isPrefixOf_iff_prefix] at hv ⊢
    exact List.IsPrefix.trans (by decide) hv
  simp [AlgKind.resets, hg, this]

example : inScope "optimizer_1" "optimizer_1/posterior/loc/Adam" = true := by decide
example : ∃ s : String → Nat, s "global_step" ≠ (fun _ => 0) "global_step" := ⟨fun _ => 7, by simp⟩

end Reset
end Edward
