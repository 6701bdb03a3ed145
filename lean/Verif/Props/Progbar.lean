/-
Property C72: the progress bar on a terminal.
-/
import Verif.Model.Progbar

namespace Edward

/-- The line shows exactly this text. -/
def Shows (line : Nat → Char) (text : List Char) : Prop :=
  ∀ i, line i = (text[i]?).getD ' '

def Printable (l : List Char) : Prop := ∀ c ∈ l, c ≠ '\x08' ∧ c ≠ '\r' ∧ c ≠ '\n'

/-- The texts contain no control characters. -/
def Render.Ok {V : Type} (r : Render V) : Prop :=
  (∀ c, Printable (r.bar c)) ∧ ∀ c n s, Printable (r.info c n s)

/-- When is an update to be displayed (documentation of `update`)? -/
def Visible {V : Type} (p : Progbar V) (u : PUpdate V) : Prop :=
  u.force = true ∨ p.interval ≤ u.now - p.lastUpdate ∨ p.target ≤ u.current

/-- The most recent value given for a name in a sequence of assignments. -/
def latest {V : Type} : List (String × V) → String → Option V
  | [], _ => none
  | (k', v) :: rest, k => (latest rest k).or (if k' = k then some v else none)

def dictGet {V : Type} : List (String × V) → String → Option V
  | [], _ => none
  | (k', v) :: rest, k => if k' = k then some v else dictGet rest k

section
variable {V : Type}

theorem write_append (t : Term) (a b : List Char) : t.write (a ++ b) = (t.write a).write b := by
  simp [Term.write]

theorem write_printable (l : List Char) : ∀ (t : Term), Printable l →
    (t.write l).lines = t.lines ∧ (t.write l).col = t.col + l.length ∧
    ∀ i, (t.write l).cur i = if i < t.col then t.cur i else (l[i - t.col]?).getD (t.cur i) := by
  induction l with
  | nil => intro t _; simp [Term.write]
  | cons c l ih =>
    intro t h
    have hc := h c (by simp)
    have hl : Printable l := fun d hd => h d (by simp [hd])
    have hput : t.put c = { t with cur := fun i => if i = t.col then c else t.cur i, col := t.col + 1 } := by
      simp [Term.put, hc.1, hc.2.1, hc.2.2]
    have hw : t.write (c :: l) = (t.put c).write l := rfl
    rw [hw, hput]
    obtain ⟨h1, h2, h3⟩ := ih { t with cur := fun i => if i = t.col then c else t.cur i, col := t.col + 1 } hl
    refine ⟨h1, by rw [h2]; simp only [List.length_cons]; omega, fun i => ?_⟩
    rw [h3]
    dsimp only
    rcases Nat.lt_trichotomy i t.col with hi | hi | hi
    · rw [if_pos (by omega), if_pos hi, if_neg (by omega)]
    · subst hi; simp
    · rw [if_neg (by omega), if_neg (by omega), if_neg (by omega)]
      have : i - t.col = (i - (t.col + 1)) + 1 := by omega
      rw [this, List.getElem?_cons_succ]

theorem write_backspaces (n : Nat) : ∀ t : Term,
    (t.write (List.replicate n '\x08')).lines = t.lines ∧
    (t.write (List.replicate n '\x08')).cur = t.cur := by
  induction n with
  | zero => intro t; exact ⟨rfl, rfl⟩
  | succ n ih =>
    intro t
    have : t.write (List.replicate (n + 1) '\x08') = (t.put '\x08').write (List.replicate n '\x08') := rfl
    rw [this]
    obtain ⟨h1, h2⟩ := ih (t.put '\x08')
    rw [h1, h2]
    exact ⟨rfl, rfl⟩

theorem dictGet_dictSet (d : List (String × V)) (k : String) (v : V) (k' : String) :
    dictGet (dictSet d k v) k' = if k = k' then some v else dictGet d k' := by
  induction d with
  | nil => simp [dictSet, dictGet]
  | cons a d ih =>
    obtain ⟨ka, va⟩ := a
    simp only [dictSet]
    by_cases h : ka = k
    · subst h
      by_cases h2 : ka = k' <;> simp [dictGet, h2]
    · rw [if_neg h]
      simp only [dictGet, ih]
      by_cases h2 : ka = k'
      · subst h2
        rw [if_pos rfl, if_pos rfl, if_neg (fun e => h e.symm)]
      · rw [if_neg h2, if_neg h2]

theorem dictGet_foldl (vals : List (String × V)) : ∀ (d : List (String × V)) (k : String),
    dictGet (vals.foldl (fun d kv => dictSet d kv.1 kv.2) d) k = (latest vals k).or (dictGet d k) := by
  induction vals with
  | nil => intro d k; simp [latest]
  | cons a vals ih =>
    intro d k
    rw [List.foldl_cons, ih, dictGet_dictSet, latest]
    by_cases h : a.1 = k
    · simp [h]
    · simp [h]

/-- Invariant: nothing but blanks to the right of the recorded width. -/
def PInv (p : Progbar V) (t : Term) : Prop := ∀ i, p.totalWidth ≤ i → t.cur i = ' '

/-- What one update does. -/
theorem progbar_update (r : Render V) (hr : r.Ok) (p : Progbar V) (u : PUpdate V) (t : Term)
    (hp : PInv p t) (p' : Progbar V) (t' : Term) (h : p.update r u t = some (p', t')) :
    PInv p' t' ∧ p'.verbose = p.verbose ∧ p'.target = p.target ∧ p'.interval = p.interval ∧
    p'.stored = u.values.foldl (fun d kv => dictSet d kv.1 kv.2) p.stored ∧
    ((¬ Visible p u ∨ p.verbose = 0) → t' = t) ∧
    (Visible p u → p.verbose ≠ 0 →
      let text := r.bar u.current ++ r.info u.current u.now p'.stored
      (u.current < p.target → Shows t'.cur text ∧ t'.lines = t.lines) ∧
      (p.target ≤ u.current → ∃ line, Shows line text ∧ t'.lines = t.lines ++ [line] ∧
        t'.cur = Term.blank ∧ t'.col = 0)) := by
  unfold Progbar.update at h
  dsimp only at h
  by_cases hvis : Visible p u
  · have hcond : (!u.force && (decide (u.now - p.lastUpdate < p.interval) &&
        decide (u.current < p.target))) = false := by
      rcases hvis with hv | hv | hv
      · simp [hv]
      · have : ¬ (u.now - p.lastUpdate < p.interval) := not_lt.mpr hv
        simp [this]
      · have : ¬ (u.current < p.target) := not_lt.mpr hv
        simp [this]
    rw [hcond] at h
    rw [if_neg (by simp)] at h
    by_cases hverb : p.verbose = 0
    · rw [if_pos hverb] at h
      obtain ⟨rfl, rfl⟩ := Prod.mk.inj (Option.some.inj h)
      exact ⟨hp, rfl, rfl, rfl, rfl, fun _ => rfl, fun _ hv => absurd hverb hv⟩
    · rw [if_neg hverb] at h
      by_cases htar : p.target = 0
      · rw [if_pos htar] at h; cases h
      · rw [if_neg htar] at h
        obtain ⟨rfl, ht'⟩ := Prod.mk.inj (Option.some.inj h)
        -- the terminal after writing the padded text
        set stored := u.values.foldl (fun d kv => dictSet d kv.1 kv.2) p.stored with hst
        set bar := r.bar u.current with hbar
        set info := r.info u.current u.now stored with hinfo
        set pad := (if p.totalWidth > bar.length + info.length then
          List.replicate (p.totalWidth - (bar.length + info.length)) ' ' else []) with hpad
        set t0 := (t.write (List.replicate p.totalWidth '\x08')).write ['\r'] with ht0
        have h0 : t0.lines = t.lines ∧ t0.cur = t.cur ∧ t0.col = 0 := by
          obtain ⟨h1, h2⟩ := write_backspaces p.totalWidth t
          refine ⟨h1, h2, rfl⟩
        have hprint : Printable (bar ++ (info ++ pad)) := by
          intro c hc
          rcases List.mem_append.mp hc with hc | hc
          · exact hr.1 _ c hc
          · rcases List.mem_append.mp hc with hc | hc
            · exact hr.2 _ _ _ c hc
            · rw [hpad] at hc
              split at hc
              · rw [List.eq_of_mem_replicate hc]; decide
              · simp at hc
        obtain ⟨w1, w2, w3⟩ := write_printable _ t0 hprint
        rw [write_append] at w1 w2 w3
        set t1 := (t0.write bar).write (info ++ pad) with ht1
        have hshow : Shows t1.cur (bar ++ info) := by
          intro i
          rw [w3 i, h0.2.2, if_neg (by omega), Nat.sub_zero, h0.2.1]
          rw [← List.append_assoc]
          by_cases hi : i < (bar ++ info).length
          · rw [List.getElem?_append_left hi, List.getElem?_eq_getElem hi]; rfl
          · have hi' : (bar ++ info).length ≤ i := not_lt.mp hi
            rw [List.getElem?_append_right hi', List.getElem?_eq_none (l := bar ++ info) hi',
              Option.getD_none]
            rw [List.length_append] at hi' ⊢
            by_cases hip : p.totalWidth ≤ i
            · rw [hp i hip]
              rw [hpad]
              split
              · cases hget : (List.replicate (p.totalWidth - (bar.length + info.length)) ' ')[i - (bar.length + info.length)]? with
                | none => rfl
                | some c =>
                  exact List.eq_of_mem_replicate (List.mem_of_getElem? hget)
              · simp
            · have hlt : i < p.totalWidth := not_le.mp hip
              rw [hpad, if_pos (by omega), List.getElem?_replicate_of_lt (by omega)]
              rfl
        have hlines : t1.lines = t.lines := w1.trans h0.1
        have hblankright : ∀ i, bar.length + info.length ≤ i → t1.cur i = ' ' := by
          intro i hi
          rw [hshow i, List.getElem?_eq_none (by rw [List.length_append]; exact hi)]
          rfl
        by_cases hend : p.target ≤ u.current
        · rw [if_pos hend] at ht'
          have hnl : t1.write ['\n'] = { lines := t1.lines ++ [t1.cur], cur := Term.blank, col := 0 } := rfl
          rw [hnl] at ht'
          subst ht'
          refine ⟨fun i _ => rfl, rfl, rfl, rfl, rfl, ?_, fun _ _ => ⟨fun hlt => ?_, fun _ => ?_⟩⟩
          · rintro (hn | hn)
            · exact absurd hvis hn
            · exact absurd hn hverb
          · omega
          · exact ⟨t1.cur, hshow, by rw [hlines], rfl, rfl⟩
        · rw [if_neg hend] at ht'
          subst ht'
          refine ⟨hblankright, rfl, rfl, rfl, rfl, ?_, fun _ _ => ⟨fun _ => ⟨hshow, hlines⟩, fun hle => ?_⟩⟩
          · rintro (hn | hn)
            · exact absurd hvis hn
            · exact absurd hn hverb
          · exact absurd hle hend
  · have hcond : (!u.force && (decide (u.now - p.lastUpdate < p.interval) &&
        decide (u.current < p.target))) = true := by
      unfold Visible at hvis
      simp only [not_or, not_le, Bool.not_eq_true] at hvis
      simp [hvis.1, hvis.2.1, hvis.2.2]
    rw [if_pos hcond] at h
    obtain ⟨rfl, rfl⟩ := Prod.mk.inj (Option.some.inj h)
    exact ⟨hp, rfl, rfl, rfl, rfl, fun _ => rfl, fun hv => absurd hv hvis⟩

/-- State of the object and terminal after a history. -/
theorem progbar_history (r : Render V) (hr : r.Ok) (us : List (PUpdate V)) :
    ∀ (p : Progbar V) (t : Term), PInv p t → ∀ p' t', Progbar.updates r us (p, t) = some (p', t') →
    PInv p' t' ∧ p'.verbose = p.verbose ∧ p'.target = p.target ∧ p'.interval = p.interval ∧
    (∀ k, dictGet p'.stored k = (latest (us.flatMap (·.values)) k).or (dictGet p.stored k)) ∧
    (p.verbose = 0 → t' = t) := by
  induction us with
  | nil =>
    intro p t hp p' t' h
    obtain ⟨rfl, rfl⟩ := Prod.mk.inj (Option.some.inj h)
    exact ⟨hp, rfl, rfl, rfl, by simp [latest], fun _ => rfl⟩
  | cons u us ih =>
    intro p t hp p' t' h
    rw [Progbar.updates] at h
    cases hu : p.update r u t with
    | none => simp [hu] at h
    | some s =>
      obtain ⟨p1, t1⟩ := s
      simp only [hu] at h
      obtain ⟨a1, a2, a3, a4, a5, a6, -⟩ := progbar_update r hr p u t hp p1 t1 hu
      obtain ⟨b1, b2, b3, b4, b5, b6⟩ := ih p1 t1 a1 p' t' h
      refine ⟨b1, b2.trans a2, b3.trans a3, b4.trans a4, fun k => ?_, fun hv => ?_⟩
      · rw [b5 k, a5, dictGet_foldl]
        have happ : ∀ (a b : List (String × V)), latest (a ++ b) k = (latest b k).or (latest a k) := by
          intro a b
          induction a with
          | nil => simp [latest]
          | cons x a iha => simp only [List.cons_append, latest, iha, Option.or_assoc]
        rw [List.flatMap_cons, happ, Option.or_assoc]
      · rw [b6 (a2.trans hv), a6 (Or.inr hv)]

/-- C72: after any history of updates on a fresh line, a visible update shows exactly
the latest bar and info, the info being computed from the most recent value of
every name given so far (also by updates that were not displayed); a line is
terminated exactly when `current >= target`; invisible updates write nothing. -/
theorem C72_progbar (r : Render V) (hr : r.Ok) (target : Int) (interval : ℚ) (verbose : Int)
    (t : Term) (ht : t.cur = Term.blank) (us : List (PUpdate V)) (p₁ : Progbar V) (t₁ : Term)
    (h₁ : Progbar.updates r us (Progbar.new target interval verbose, t) = some (p₁, t₁))
    (u : PUpdate V) (p₂ : Progbar V) (t₂ : Term) (h₂ : p₁.update r u t₁ = some (p₂, t₂)) :
    (∀ k, dictGet p₂.stored k = latest ((us ++ [u]).flatMap (·.values)) k) ∧
    (Visible p₁ u → verbose ≠ 0 →
      let text := r.bar u.current ++ r.info u.current u.now p₂.stored
      (u.current < target → Shows t₂.cur text ∧ t₂.lines = t₁.lines) ∧
      (target ≤ u.current → ∃ line, Shows line text ∧ t₂.lines = t₁.lines ++ [line] ∧
        t₂.cur = Term.blank ∧ t₂.col = 0)) ∧
    (¬ Visible p₁ u → t₂ = t₁) ∧
    (verbose = 0 → t₂ = t) := by
  have hinit : PInv (Progbar.new (V := V) target interval verbose) t := fun i _ => by rw [ht]; rfl
  obtain ⟨a1, a2, a3, a4, a5, a6⟩ := progbar_history r hr us _ t hinit p₁ t₁ h₁
  obtain ⟨b1, b2, b3, b4, b5, b6, b7⟩ := progbar_update r hr p₁ u t₁ a1 p₂ t₂ h₂
  refine ⟨fun k => ?_, fun hv hverb => ?_, fun hv => b6 (Or.inl hv), fun hverb => ?_⟩
  · rw [b5, dictGet_foldl, a5]
    have happ : ∀ (a b : List (String × V)), latest (a ++ b) k = (latest b k).or (latest a k) := by
      intro a b
      induction a with
      | nil => simp [latest]
      | cons x a iha => simp only [List.cons_append, latest, iha, Option.or_assoc]
    rw [List.flatMap_append, happ]
    simp [Progbar.new, dictGet]
  · have := b7 hv (by rw [a2]; exact hverb)
    rw [a3] at this
    exact this
  · rw [b6 (Or.inr (a2.trans hverb)), a6 hverb]

/-- An update never raises when `target` is not zero. -/
theorem C72_no_error (r : Render V) (p : Progbar V) (u : PUpdate V) (t : Term) (h : p.target ≠ 0) :
    (p.update r u t).isSome = true := by
  unfold Progbar.update
  dsimp only
  split
  · rfl
  · split
    · rfl
    · rfl

/-- C72: the first update of a fresh bar is shown exactly when it is forced, the clock reads
at least `interval`, or the target is reached. -/
theorem C72_first (target : Int) (interval : ℚ) (verbose : Int) (r : Render V) (u : PUpdate V) (t : Term)
    (ht : target ≠ 0) (hv : verbose ≠ 0) (p : Progbar V) (t' : Term)
    (h : (Progbar.new target interval verbose).update r u t = some (p, t')) :
    p.lastUpdate = (if u.force = true ∨ interval ≤ u.now ∨ target ≤ u.current then u.now else 0) ∧
    p.totalWidth = (if u.force = true ∨ interval ≤ u.now ∨ target ≤ u.current then
      (r.bar u.current).length + (r.info u.current u.now p.stored).length else 0) := by
  unfold Progbar.update Progbar.new at h
  by_cases hvis : u.force = true ∨ interval ≤ u.now ∨ target ≤ u.current
  · have hc : (!u.force && (decide (u.now - 0 < interval) && decide (u.current < target))) = false := by
      rcases hvis with h | h | h
      · simp [h]
      · simp [not_lt.mpr h]
      · simp [not_lt.mpr h]
    simp only [hc, hv, ht, if_false, Bool.false_eq_true, Option.some.injEq, Prod.mk.injEq] at h
    obtain ⟨rfl, -⟩ := h
    simp [hvis]
  · have hvis' := hvis
    push Not at hvis
    have hc : (!u.force && (decide (u.now - 0 < interval) && decide (u.current < target))) = true := by
      simp [hvis.1, hvis.2.1, hvis.2.2]
    simp only [hc, if_true, Option.some.injEq, Prod.mk.injEq] at h
    obtain ⟨rfl, -⟩ := h
    simp [hvis']

/-- A zero target raises at the first visible update (`current / self.target`). -/
theorem C72_zero_target_fails (r : Render V) : ∃ (p : Progbar V) (u : PUpdate V), p.target = 0 ∧
    Visible p u ∧ ∀ t, p.update r u t = none := by
  refine ⟨Progbar.new 0 0 1, ⟨0, [], true, 0⟩, rfl, Or.inl rfl, fun t => ?_⟩
  simp [Progbar.update, Progbar.new]

end

/-! A concrete history: a long line followed by a shorter one. -/
def exRender : Render Nat where
  bar c := if c = 1 then "1/2 ######".toList else "2/2".toList
  info _ _ _ := " x".toList

example : (Progbar.updates exRender [⟨1, [("loss", 3)], true, 5⟩, ⟨2, [("loss", 4)], false, 5⟩]
    (Progbar.new 2 1 1, ⟨[], Term.blank, 0⟩)).map
      (fun s => s.2.lines.map (fun l => (List.range 14).map l)) =
    some ["2/2 x         ".toList] := by
  decide +kernel

end Edward
