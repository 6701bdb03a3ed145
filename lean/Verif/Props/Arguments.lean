/-
C127: arguments of `run` and `initialize` take effect.
-/
import Verif.Spec.Arguments

namespace Edward.Arguments
variable {V : Type}

/-- The names of the parameters. -/
def names : List (Item V) → List String
  | [] => []
  | .param p _ :: rest => p :: names rest
  | .set _ _ :: rest => names rest

/-- The entries set on the way. -/
def overs : List (Item V) → Kw V
  | [] => []
  | .param _ _ :: rest => overs rest
  | .set k v :: rest => (k, v) :: overs rest

/-- No name twice; entries are set before the parameter is bound. -/
def Wf : List (Item V) → Prop
  | [] => True
  | .param p _ :: rest => p ∉ names rest ∧ p ∉ (overs rest).map Prod.fst ∧ Wf rest
  | .set k _ :: rest => k ∈ names rest ∧ k ∉ (overs rest).map Prod.fst ∧ Wf rest

theorem lookup_none {kw : Kw V} {p : String} : kw.lookup p = none ↔ p ∉ kw.map Prod.fst := by
  induction kw with
  | nil => simp
  | cons e kw ih =>
    obtain ⟨k, v⟩ := e
    by_cases h : p = k
    · subst h; simp
    · have : (p == k) = false := by simpa using h
      simp [List.lookup_cons, this, ih, h]

theorem lookup_filter {kw : Kw V} {p q : String} (h : q ≠ p) : (kw.filter fun e => e.1 ≠ p).lookup q = kw.lookup q := by
  induction kw with
  | nil => rfl
  | cons e kw ih =>
    obtain ⟨k, v⟩ := e
    by_cases hk : k = p
    · subst hk
      have : (q == k) = false := by simpa using h
      simp only [List.filter_cons, List.lookup_cons, this]
      simpa using ih
    · simp only [List.filter_cons, List.lookup_cons, hk, ne_eq, not_false_eq_true, decide_true, if_true, ih]

theorem keys_filter {kw : Kw V} {p k : String} : k ∈ (kw.filter fun e => e.1 ≠ p).map Prod.fst ↔ k ∈ kw.map Prod.fst ∧ k ≠ p := by
  simp only [List.mem_map, List.mem_filter, decide_eq_true_eq]
  constructor
  · rintro ⟨e, ⟨h1, h2⟩, rfl⟩
    exact ⟨⟨e, h1, rfl⟩, h2⟩
  · rintro ⟨⟨e, h1, rfl⟩, h2⟩
    exact ⟨e, ⟨h1, h2⟩, rfl⟩

theorem keys_set {kw : Kw V} {p k : String} {v : Val V} : k ∈ (kw.set p v).map Prod.fst ↔ k = p ∨ k ∈ kw.map Prod.fst := by
  rw [Kw.set, List.map_cons, List.mem_cons, keys_filter]
  by_cases h : k = p <;> simp [h]

theorem map_ok {α β : Type} {f : α → β} {e : Except PyErr α} : (∃ b, e.map f = .ok b) ↔ ∃ a, e = .ok a := by
  cases e <;> simp [Except.map]

/-- When a call is accepted. -/
theorem bind_ok_iff {its : List (Item V)} (h : Wf its) (args : List (Val V)) (kw : Kw V) :
    (∃ b, bind its args kw = .ok b) ↔ Spec.Fits (names its) args.length (kw.map Prod.fst) ∧
      ∀ k ∈ (names its).take args.length, k ∉ (overs its).map Prod.fst := by
  induction its generalizing args kw with
  | nil =>
    cases args with
    | cons a args => simp [bind, Spec.Fits, names]
    | nil =>
      cases kw with
      | nil => simp [bind, Spec.Fits, names]
      | cons e kw =>
        simp only [bind, Spec.Fits, names, reduceCtorEq, exists_false, false_iff]
        rintro ⟨⟨-, h, -⟩, -⟩
        simpa using h e.1 (by simp)
  | cons it rest ih =>
    cases it with
    | set k v =>
      obtain ⟨h1, h2, h3⟩ := h
      rw [bind, ih h3]
      simp only [Spec.Fits, names, overs, keys_set, List.map_cons, List.mem_cons, not_or]
      constructor
      · rintro ⟨⟨a, b, c⟩, d⟩
        exact ⟨⟨a, fun x hx => b x (Or.inr hx), fun x hx => (c x hx).2⟩, fun x hx => ⟨(c x hx).1, d x hx⟩⟩
      · rintro ⟨⟨a, b, c⟩, d⟩
        exact ⟨⟨a, fun x hx => hx.elim (fun e => e ▸ h1) (b x), fun x hx => ⟨(d x hx).1, c x hx⟩⟩, fun x hx => (d x hx).2⟩
    | param p d =>
      obtain ⟨h1, h2, h3⟩ := h
      cases args with
      | cons a args =>
        rw [bind]
        cases hl : kw.lookup p with
        | some v =>
          have : p ∈ kw.map Prod.fst := by
            by_contra hc
            rw [lookup_none.mpr hc] at hl
            cases hl
          simp only [reduceCtorEq, exists_false, false_iff, Spec.Fits, names]
          rintro ⟨⟨-, -, c⟩, -⟩
          exact c p (by simp) this
        | none =>
          have hp := lookup_none.mp hl
          simp only [map_ok, ih h3]
          simp only [Spec.Fits, names, overs, List.length_cons, List.take_succ_cons, List.mem_cons, Nat.succ_le_succ_iff]
          constructor
          · rintro ⟨⟨a, b, c⟩, d⟩
            exact ⟨⟨a, fun x hx => Or.inr (b x hx), fun x hx => hx.elim (fun e => e ▸ hp) (c x)⟩, fun x hx => hx.elim (fun e => e ▸ h2) (d x)⟩
          · rintro ⟨⟨a, b, c⟩, d⟩
            exact ⟨⟨a, fun x hx => (b x hx).resolve_left fun e => hp (e ▸ hx), fun x hx => c x (Or.inr hx)⟩, fun x hx => d x (Or.inr hx)⟩
      | nil =>
        rw [bind]
        cases hl : kw.lookup p with
        | some v =>
          simp only [map_ok, ih h3]
          simp only [Spec.Fits, names, overs, List.length_nil, List.take_zero, List.not_mem_nil, keys_filter, false_implies, implies_true, and_true,
            Nat.zero_le, true_and, List.mem_cons]
          constructor
          · intro hb x hx
            by_cases e : x = p
            · exact Or.inl e
            · exact Or.inr (hb x ⟨hx, e⟩)
          · intro hb x hx
            exact (hb x hx.1).resolve_left hx.2
        | none =>
          have hp := lookup_none.mp hl
          simp only [map_ok, ih h3]
          simp only [Spec.Fits, names, overs, List.length_nil, List.take_zero, List.not_mem_nil, false_implies, implies_true, and_true,
            Nat.zero_le, true_and, List.mem_cons]
          constructor
          · exact fun hb x hx => Or.inr (hb x hx)
          · exact fun hb x hx => (hb x hx).resolve_left fun e => hp (e ▸ hx)

/-- A call that is not accepted raises TypeError. -/
theorem bind_error {its : List (Item V)} {args : List (Val V)} {kw : Kw V} {e : PyErr} (h : bind its args kw = .error e) : e = .typeError := by
  induction its generalizing args kw with
  | nil =>
    cases args <;> cases kw <;> simp [bind] at h <;> exact h.symm
  | cons it rest ih =>
    cases it with
    | set k v => exact ih h
    | param p d =>
      cases args with
      | cons a args =>
        rw [bind] at h
        cases hl : kw.lookup p with
        | some v => rw [hl] at h; exact (Except.error.inj h).symm
        | none =>
          rw [hl] at h
          cases hb : bind rest args kw with
          | error e' =>
            simp only [hb, Except.map] at h
            exact ih ((Except.error.inj h) ▸ hb)
          | ok b => simp [hb, Except.map] at h
      | nil =>
        rw [bind] at h
        cases hl : kw.lookup p with
        | some v =>
          rw [hl] at h
          cases hb : bind rest [] (kw.filter fun e => e.1 ≠ p) with
          | error e' =>
            simp only [hb, Except.map] at h
            exact ih ((Except.error.inj h) ▸ hb)
          | ok b => simp only [hb, Except.map] at h; cases h
        | none =>
          rw [hl] at h
          cases hb : bind rest [] kw with
          | error e' =>
            simp only [hb, Except.map] at h
            exact ih ((Except.error.inj h) ▸ hb)
          | ok b => simp only [hb, Except.map] at h; cases h

/-- Every parameter gets a value, in the order of the signatures. -/
theorem bind_keys {its : List (Item V)} {args : List (Val V)} {kw b : Kw V} (h : bind its args kw = .ok b) : b.map Prod.fst = names its := by
  induction its generalizing args kw b with
  | nil => cases args <;> cases kw <;> simp [bind] at h; subst h; rfl
  | cons it rest ih =>
    cases it with
    | set k v => exact ih h
    | param p d =>
      cases args with
      | cons a args =>
        rw [bind] at h
        cases hl : kw.lookup p with
        | some v => simp [hl] at h
        | none =>
          cases hb : bind rest args kw with
          | error e' => simp [hl, hb, Except.map] at h
          | ok b' => simp only [hl, hb, Except.map, Except.ok.injEq] at h; subst h; simp [names, ih hb]
      | nil =>
        rw [bind] at h
        cases hl : kw.lookup p with
        | some v =>
          cases hb : bind rest [] (kw.filter fun e => e.1 ≠ p) with
          | error e' => simp only [hl, hb, Except.map] at h; cases h
          | ok b' => simp only [hl, hb, Except.map, Except.ok.injEq] at h; subst h; simp [names, ih hb]
        | none =>
          cases hb : bind rest [] kw with
          | error e' => simp only [hl, hb, Except.map] at h; cases h
          | ok b' => simp only [hl, hb, Except.map, Except.ok.injEq] at h; subst h; simp [names, ih hb]

/-- Keywords that are not set on the way keep their value. -/
theorem bind_keyword {its : List (Item V)} (hw : Wf its) {args : List (Val V)} {kw b : Kw V} (h : bind its args kw = .ok b) {k : String} {v : Val V}
    (hk : kw.lookup k = some v) (ho : k ∉ (overs its).map Prod.fst) : b.lookup k = some v := by
  induction its generalizing args kw b with
  | nil => cases args <;> cases kw <;> simp [bind] at h; simp at hk
  | cons it rest ih =>
    cases it with
    | set k' v' =>
      simp only [overs, List.map_cons, List.mem_cons, not_or] at ho
      refine ih hw.2.2 h ?_ ho.2
      have : (k == k') = false := by simpa using ho.1
      rw [Kw.set, List.lookup_cons, this]
      exact (lookup_filter ho.1).trans hk
    | param p d =>
      cases args with
      | cons a args =>
        rw [bind] at h
        cases hl : kw.lookup p with
        | some v => simp [hl] at h
        | none =>
          have hne : k ≠ p := fun e => by rw [e, hl] at hk; cases hk
          have hbe : (k == p) = false := by simpa using hne
          cases hb : bind rest args kw with
          | error e' => simp [hl, hb, Except.map] at h
          | ok b' =>
            simp only [hl, hb, Except.map, Except.ok.injEq] at h
            subst h
            rw [List.lookup_cons, hbe]
            exact ih hw.2.2 hb hk ho
      | nil =>
        rw [bind] at h
        cases hl : kw.lookup p with
        | some v' =>
          cases hb : bind rest [] (kw.filter fun e => e.1 ≠ p) with
          | error e' => simp only [hl, hb, Except.map] at h; cases h
          | ok b' =>
            simp only [hl, hb, Except.map, Except.ok.injEq] at h
            subst h
            by_cases hne : k = p
            · subst hne
              rw [hl] at hk
              simpa using hk
            · have hbe : (k == p) = false := by simpa using hne
              rw [List.lookup_cons, hbe]
              exact ih hw.2.2 hb ((lookup_filter hne).trans hk) ho
        | none =>
          have hne : k ≠ p := fun e => by rw [e, hl] at hk; cases hk
          have hbe : (k == p) = false := by simpa using hne
          cases hb : bind rest [] kw with
          | error e' => simp only [hl, hb, Except.map] at h; cases h
          | ok b' =>
            simp only [hl, hb, Except.map, Except.ok.injEq] at h
            subst h
            rw [List.lookup_cons, hbe]
            exact ih hw.2.2 hb hk ho

/-- What is set on the way wins over the caller's keyword. -/
theorem bind_over {its : List (Item V)} (hw : Wf its) {args : List (Val V)} {kw b : Kw V} (h : bind its args kw = .ok b) {k : String} {v : Val V}
    (ho : (overs its).lookup k = some v) : b.lookup k = some v := by
  induction its generalizing args kw b with
  | nil => simp [overs] at ho
  | cons it rest ih =>
    cases it with
    | set k' v' =>
      by_cases hne : k = k'
      · subst hne
        have hv : v' = v := by simpa [overs] using ho
        subst hv
        exact bind_keyword hw.2.2 (its := rest) h (by simp [Kw.set]) hw.2.1
      · have hbe : (k == k') = false := by simpa using hne
        rw [overs, List.lookup_cons, hbe] at ho
        exact ih hw.2.2 h ho
    | param p d =>
      have hne : k ≠ p := fun e => by
        have := lookup_none.mpr hw.2.1
        rw [← e] at this
        rw [overs, this] at ho
        cases ho
      have hbe : (k == p) = false := by simpa using hne
      cases args with
      | cons a args =>
        rw [bind] at h
        cases hl : kw.lookup p with
        | some v => simp [hl] at h
        | none =>
          cases hb : bind rest args kw with
          | error e' => simp [hl, hb, Except.map] at h
          | ok b' =>
            simp only [hl, hb, Except.map, Except.ok.injEq] at h
            subst h
            rw [List.lookup_cons, hbe]
            exact ih hw.2.2 hb ho
      | nil =>
        rw [bind] at h
        cases hl : kw.lookup p with
        | some v' =>
          cases hb : bind rest [] (kw.filter fun e => e.1 ≠ p) with
          | error e' => simp only [hl, hb, Except.map] at h; cases h
          | ok b' =>
            simp only [hl, hb, Except.map, Except.ok.injEq] at h
            subst h
            rw [List.lookup_cons, hbe]
            exact ih hw.2.2 hb ho
        | none =>
          cases hb : bind rest [] kw with
          | error e' => simp only [hl, hb, Except.map] at h; cases h
          | ok b' =>
            simp only [hl, hb, Except.map, Except.ok.injEq] at h
            subst h
            rw [List.lookup_cons, hbe]
            exact ih hw.2.2 hb ho

/-- Positional arguments go to the parameters in order. -/
theorem bind_positional {its : List (Item V)} (hw : Wf its) {args : List (Val V)} {kw b : Kw V} (h : bind its args kw = .ok b) {i : ℕ} {k : String}
    {v : Val V} (hk : (names its)[i]? = some k) (hv : args[i]? = some v) : b.lookup k = some v := by
  induction its generalizing args kw b i with
  | nil => simp [names] at hk
  | cons it rest ih =>
    cases it with
    | set k' v' => exact ih hw.2.2 h hk hv
    | param p d =>
      cases args with
      | nil => simp at hv
      | cons a args =>
        rw [bind] at h
        cases hl : kw.lookup p with
        | some v => simp [hl] at h
        | none =>
          cases hb : bind rest args kw with
          | error e' => simp [hl, hb, Except.map] at h
          | ok b' =>
            simp only [hl, hb, Except.map, Except.ok.injEq] at h
            subst h
            cases i with
            | zero =>
              simp only [names, List.getElem?_cons_zero, Option.some.injEq] at hk hv
              subst hk hv
              simp
            | succ i =>
              simp only [names, List.getElem?_cons_succ] at hk hv
              have hne : k ≠ p := fun e => hw.1 (e ▸ List.mem_of_getElem? hk)
              have hbe : (k == p) = false := by simpa using hne
              rw [List.lookup_cons, hbe]
              exact ih hw.2.2 hb hk hv

/-- The parameters with their defaults. -/
def defaults : List (Item V) → Kw V
  | [] => []
  | .param p d :: rest => (p, .default d) :: defaults rest
  | .set _ _ :: rest => defaults rest

/-- Parameters that are not given have their default. -/
theorem bind_default {its : List (Item V)} (hw : Wf its) {args : List (Val V)} {kw b : Kw V} (h : bind its args kw = .ok b) {i : ℕ} {k : String}
    (hk : (names its)[i]? = some k) (hv : args.length ≤ i) (hn : k ∉ kw.map Prod.fst) (ho : k ∉ (overs its).map Prod.fst) :
    b.lookup k = (defaults its).lookup k := by
  induction its generalizing args kw b i with
  | nil => simp [names] at hk
  | cons it rest ih =>
    cases it with
    | set k' v' =>
      simp only [overs, List.map_cons, List.mem_cons, not_or] at ho
      exact ih hw.2.2 h hk hv (fun hc => (keys_set.mp hc).elim ho.1 hn) ho.2
    | param p d =>
      cases args with
      | cons a args =>
        rw [bind] at h
        cases hl : kw.lookup p with
        | some v => simp [hl] at h
        | none =>
          cases hb : bind rest args kw with
          | error e' => simp [hl, hb, Except.map] at h
          | ok b' =>
            simp only [hl, hb, Except.map, Except.ok.injEq] at h
            subst h
            cases i with
            | zero => simp at hv
            | succ i =>
              simp only [names, List.getElem?_cons_succ] at hk
              have hne : k ≠ p := fun e => hw.1 (e ▸ List.mem_of_getElem? hk)
              have hbe : (k == p) = false := by simpa using hne
              rw [List.lookup_cons, hbe, defaults, List.lookup_cons, hbe]
              exact ih hw.2.2 hb hk (by simpa using hv) hn ho
      | nil =>
        rw [bind] at h
        by_cases hne : k = p
        · subst hne
          have hl := lookup_none.mpr hn
          cases hb : bind rest [] kw with
          | error e' => simp only [hl, hb, Except.map] at h; cases h
          | ok b' =>
            simp only [hl, hb, Except.map, Except.ok.injEq] at h
            subst h
            simp [defaults]
        have hbe : (k == p) = false := by simpa using hne
        have hi : ∃ j : ℕ, (names rest)[j]? = some k := by
          cases i with
          | zero => simp only [names, List.getElem?_cons_zero, Option.some.injEq] at hk; exact absurd hk.symm hne
          | succ j => exact ⟨j, by simpa [names] using hk⟩
        obtain ⟨j, hj⟩ := hi
        cases hl : kw.lookup p with
        | some v' =>
          cases hb : bind rest [] (kw.filter fun e => e.1 ≠ p) with
          | error e' => simp only [hl, hb, Except.map] at h; cases h
          | ok b' =>
            simp only [hl, hb, Except.map, Except.ok.injEq] at h
            subst h
            rw [List.lookup_cons, hbe, defaults, List.lookup_cons, hbe]
            exact ih hw.2.2 hb hj (Nat.zero_le _) (fun hc => hn (keys_filter.mp hc).1) ho
        | none =>
          cases hb : bind rest [] kw with
          | error e' => simp only [hl, hb, Except.map] at h; cases h
          | ok b' =>
            simp only [hl, hb, Except.map, Except.ok.injEq] at h
            subst h
            rw [List.lookup_cons, hbe, defaults, List.lookup_cons, hbe]
            exact ih hw.2.2 hb hj (Nat.zero_le _) hn ho

/-! ### The classes -/

/-- What `run` and `initialize` bind. -/
def runItems (c : Cls) : List (Item V) := [.param "variables" "None", .param "use_coordinator" "True"] ++ items c

theorem names_items (c : Cls) : names (items c : List (Item V)) = Spec.parameters c := by cases c <;> rfl

theorem names_run (c : Cls) : names (runItems c : List (Item V)) = ["variables", "use_coordinator"] ++ Spec.parameters c := by cases c <;> rfl

theorem overs_variational {c : Cls} (h : ¬ Spec.Samples c) : overs (items c : List (Item V)) = [] := by
  cases c <;> first | rfl | exact absurd trivial h

theorem wf_items (c : Cls) : Wf (items c : List (Item V)) := by
  cases c <;> simp [items, monteCarloItems, inferenceItems, variationalItems, ganItems, overs, names, Wf]

theorem wf_run (c : Cls) : Wf (runItems c : List (Item V)) := by
  cases c <;> simp [runItems, items, monteCarloItems, inferenceItems, variationalItems, ganItems, overs, names, Wf]

theorem defaults_run (c : Cls) : (defaults (runItems c : List (Item V))) =
    (["variables", "use_coordinator"] ++ Spec.parameters c).map fun p => (p, .default (Spec.defaultOf p)) := by
  cases c <;> rfl

theorem defaults_items (c : Cls) : (defaults (items c : List (Item V))) = (Spec.parameters c).map fun p => (p, .default (Spec.defaultOf p)) := by
  cases c <;> rfl

theorem lookup_map {β : Type} {f : String → β} {l : List String} {k : String} (h : k ∈ l) : (l.map fun p => (p, f p)).lookup k = some (f k) := by
  induction l with
  | nil => cases h
  | cons p l ih =>
    by_cases e : k = p
    · subst e; simp
    · have hbe : (k == p) = false := by simpa using e
      rw [List.map_cons, List.lookup_cons, hbe]
      exact ih ((List.mem_cons.mp h).resolve_left e)

theorem keys_given (kwargs : List (String × V)) : (kwargs.map fun e => (e.1, Val.given e.2)).map Prod.fst = kwargs.map Prod.fst := by
  simp [Function.comp_def]

theorem lookup_given {kwargs : List (String × V)} {k : String} {v : V} (h : kwargs.lookup k = some v) :
    (kwargs.map fun e => (e.1, Val.given e.2)).lookup k = some (.given v) := by
  induction kwargs with
  | nil => simp at h
  | cons e kwargs ih =>
    obtain ⟨p, w⟩ := e
    by_cases e : k = p
    · subst e
      simpa using h
    · have hbe : (k == p) = false := by simpa using e
      rw [List.lookup_cons, hbe] at h
      rw [List.map_cons, List.lookup_cons, hbe]
      exact ih h

theorem bind_obeys {its : List (Item V)} {params : List String} {fixed : Kw V} (hw : Wf its) (hn : names its = params) (hf : overs its = fixed)
    (hd : defaults its = params.map fun p => (p, .default (Spec.defaultOf p))) (args : List V) (kwargs : List (String × V)) :
    Spec.Obeys params fixed args kwargs (bind its (args.map .given) (kwargs.map fun e => (e.1, .given e.2))) := by
  subst hn hf
  have hok := bind_ok_iff hw (args.map .given) (kwargs.map fun e => (e.1, Val.given e.2))
  rw [keys_given, List.length_map] at hok
  cases h : bind its (args.map .given) (kwargs.map fun e => (e.1, .given e.2)) with
  | error e =>
    refine ⟨bind_error h, fun hc => ?_⟩
    obtain ⟨b, hb⟩ := hok.mpr hc
    rw [h] at hb
    cases hb
  | ok b =>
    refine ⟨hok.mp ⟨b, h⟩, bind_keys h, fun k v hk => bind_over hw h hk, fun i k v hk hv => bind_positional hw h hk (by simp [hv]),
      fun k v hk ho => bind_keyword hw h (lookup_given hk) ho, fun i k hk hi hn ho => ?_⟩
    rw [bind_default hw h hk (by simpa using hi) (by rwa [keys_given]) ho, hd]
    exact lookup_map (List.mem_of_getElem? hk)

/-- **C127** (optimization). In the classes that optimize, `run` and `initialize` accept exactly the documented arguments, raise TypeError
otherwise, and every argument reaches its parameter. -/
theorem C127_optimization {c : Cls} (hc : ¬ Spec.Samples c) (args : List V) (kwargs : List (String × V)) :
    Spec.Obeys (Spec.parameters c) [] args kwargs (initCall c args kwargs) ∧
    Spec.Obeys (["variables", "use_coordinator"] ++ Spec.parameters c) [] args kwargs (runCall c args kwargs) :=
  ⟨bind_obeys (wf_items c) (names_items c) (overs_variational hc) (defaults_items c) args kwargs,
    bind_obeys (wf_run c) (names_run c) (overs_variational hc) (defaults_run c) args kwargs⟩

/-- `inference.run(n_iter=500, n_samples=10)` with KLqp. -/
example : ∃ b, runCall .klqp [] [("n_iter", 500), ("n_samples", 10)] = .ok b ∧ b.lookup "n_iter" = some (.given 500) ∧
    b.lookup "n_samples" = some (.given 10) ∧ b.lookup "optimizer" = some (.default "None") := by
  have h := (C127_optimization (c := .klqp) id ([] : List ℕ) [("n_iter", 500), ("n_samples", 10)]).2
  cases hb : runCall .klqp ([] : List ℕ) [("n_iter", 500), ("n_samples", 10)] with
  | error e =>
    rw [hb] at h
    exact absurd ⟨⟨by simp, by simp [Spec.parameters, Spec.general], by simp⟩, by simp⟩ h.2
  | ok b =>
    rw [hb] at h
    refine ⟨b, rfl, h.2.2.2.2.1 _ _ rfl (by simp), h.2.2.2.2.1 _ _ rfl (by simp), h.2.2.2.2.2 4 "optimizer" rfl (by simp) (by simp) (by simp)⟩

theorem overs_fixed {c : Cls} (h : Spec.Samples c) : overs (items c : List (Item V)) = Spec.fixedOf c := by
  cases c <;> first | rfl | exact absurd h id

/-- **C127** (sampling, partial). In the classes that sample, the same holds but for `n_iter`, which is always the number of rows of the
smallest Empirical approximation, and, in Gibbs, MetropolisHastings and ReplicaExchangeMC, `auto_transform`, which is always False: those
cannot be given by position, and as keywords they are ignored. -/
theorem C127_sampling_partial {c : Cls} (hc : Spec.Samples c) (args : List V) (kwargs : List (String × V)) :
    Spec.Obeys (Spec.parameters c) (Spec.fixedOf c) args kwargs (initCall c args kwargs) ∧
    Spec.Obeys (["variables", "use_coordinator"] ++ Spec.parameters c) (Spec.fixedOf c) args kwargs (runCall c args kwargs) :=
  ⟨bind_obeys (wf_items c) (names_items c) (overs_fixed hc) (defaults_items c) args kwargs,
    bind_obeys (wf_run c) (names_run c) (overs_fixed hc) (defaults_run c) args kwargs⟩

/-- `inference.run(step_size=v)` with HMC. -/
example (v : V) : ∃ b, runCall .hmc [] [("step_size", v)] = .ok b ∧ b.lookup "step_size" = some (.given v) ∧
    b.lookup "n_iter" = some .rows := by
  have h := (C127_sampling_partial (c := .hmc) trivial ([] : List V) [("step_size", v)]).2
  cases hb : runCall .hmc ([] : List V) [("step_size", v)] with
  | error e =>
    rw [hb] at h
    exact absurd ⟨⟨by simp, by simp [Spec.parameters, Spec.general], by simp⟩, by simp⟩ h.2
  | ok b =>
    rw [hb] at h
    exact ⟨b, rfl, h.2.2.2.2.1 _ _ (by simp) (by simp [Spec.fixedOf]), h.2.2.1 _ _ rfl⟩

/-- **C127 fails** for the classes that sample: `n_iter` is documented and accepted, and whatever the caller gives is ignored. -/
theorem C127_n_iter_fails {c : Cls} (hc : Spec.Samples c) (v : V) :
    ∃ b, runCall c [] [("n_iter", v)] = .ok b ∧ b.lookup "n_iter" = some .rows := by
  have h := (C127_sampling_partial hc [] [("n_iter", v)]).2
  cases hb : runCall c [] [("n_iter", v)] with
  | error e =>
    rw [hb] at h
    refine absurd ⟨⟨by simp, ?_, by simp⟩, by simp⟩ h.2
    cases c <;> simp [Spec.parameters, Spec.general]
  | ok b =>
    rw [hb] at h
    refine ⟨b, rfl, h.2.2.1 _ _ ?_⟩
    cases c <;> rfl

/-- **C127 fails** for Gibbs, MetropolisHastings and ReplicaExchangeMC: `auto_transform=True` is accepted and ignored. -/
theorem C127_auto_transform_fails {c : Cls} (hc : Spec.Untransformed c) (v : V) :
    ∃ b, runCall c [] [("auto_transform", v)] = .ok b ∧ b.lookup "auto_transform" = some .off := by
  have hs : Spec.Samples c := by cases c <;> first | trivial
  have h := (C127_sampling_partial hs [] [("auto_transform", v)]).2
  cases hb : runCall c [] [("auto_transform", v)] with
  | error e =>
    rw [hb] at h
    refine absurd ⟨⟨by simp, ?_, by simp⟩, by simp⟩ h.2
    cases c <;> simp [Spec.parameters, Spec.general]
  | ok b =>
    rw [hb] at h
    refine ⟨b, rfl, h.2.2.1 _ _ ?_⟩
    cases c <;> first | rfl | exact absurd hc id

/-- **C127 fails** for `run` with one positional argument: in every class it is taken for `variables`, and the number of updates is the default
or the number of rows. -/
theorem C127_run_positional_fails (c : Cls) (v : V) :
    ∃ b, runCall c [v] [] = .ok b ∧ b.lookup "variables" = some (.given v) ∧
      b.lookup "n_iter" = some (if c ∈ [Cls.gibbs, .hmc, .metropolisHastings, .replicaExchange, .sgld, .sghmc] then .rows else .default "1000") := by
  cases c <;> exact ⟨_, rfl, rfl, rfl⟩

/-- **C127 fails** for optimizing with GANs: `use_prettytensor`, documented for variational inference, raises TypeError. -/
theorem C127_prettytensor_fails {c : Cls} (hc : c ∈ [Cls.biGAN, .gan, .wgan, .implicitKLqp]) (v : V) :
    runCall c [] [("use_prettytensor", v)] = .error .typeError := by
  have hs : ¬ Spec.Samples c := by
    intro h
    cases c <;> first | exact h | simp at hc
  have h := (C127_optimization hs [] [("use_prettytensor", v)]).2
  cases hb : runCall c [] [("use_prettytensor", v)] with
  | error e => rw [hb] at h; rw [h.1]
  | ok b =>
    rw [hb] at h
    have := h.1.1.2.1 "use_prettytensor" (by simp)
    cases c <;> simp [Spec.parameters, Spec.general] at this hc

example : (Cls.wgan : Cls) ∈ [Cls.biGAN, .gan, .wgan, .implicitKLqp] := by simp

end Edward.Arguments
