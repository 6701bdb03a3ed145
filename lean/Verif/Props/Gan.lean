/-
Properties C58 and C59: GAN players and WGAN clipping.
-/
import Mathlib.Tactic.Linarith
import Verif.Model.Gan

namespace Edward

/-- Discriminator parameters: those created inside the variable scope "Disc". -/
def IsDisc (n : String) : Prop := "Disc/".toList <+: n.toList

/-- Changes between two stores are confined to names satisfying `P`. -/
def OnlyChanges (P : String → Prop) (s s' : Weights) : Prop := ∀ n, ¬ P n → s' n = s n

/-- No generator name collides with the collection scope "Disc". -/
def NamesOk (tr : List String) : Prop := ∀ n ∈ tr, "Disc".toList <+: n.toList → IsDisc n

theorem mem_varListD {tr : List String} (h : NamesOk tr) {n : String} :
    n ∈ varListD tr ↔ n ∈ tr ∧ IsDisc n := by
  unfold varListD
  rw [List.mem_filter, List.isPrefixOf_iff_prefix]
  constructor
  · rintro ⟨h1, h2⟩; exact ⟨h1, h n h1 h2⟩
  · rintro ⟨h1, h2⟩; exact ⟨h1, List.IsPrefix.trans (by decide) h2⟩

/-- `isDisc` variables are found whatever the other names. -/
theorem disc_mem_varListD {tr : List String} {n : String} (h1 : n ∈ tr) (h2 : IsDisc n) :
    n ∈ varListD tr := by
  unfold varListD
  rw [List.mem_filter, List.isPrefixOf_iff_prefix]
  exact ⟨h1, List.IsPrefix.trans (by decide) h2⟩

/-- The documented meaning of `var_list`: variables of the generative model. -/
def GenList (g : Gan) : Prop := ∀ l, g.varList = some l → ∀ n ∈ l, n ∈ g.trainables ∧ ¬ IsDisc n

/-- The generator's parameters: the given list, by default every trainable variable
outside the discriminator. -/
def IsGen (g : Gan) (n : String) : Prop :=
  match g.varList with
  | none => n ∈ g.trainables ∧ ¬ IsDisc n
  | some l => n ∈ l

theorem mem_varListG {g : Gan} (h : NamesOk g.trainables) {n : String} :
    n ∈ varListG g.trainables g.varList ↔ IsGen g n := by
  unfold varListG IsGen
  cases g.varList with
  | some l => exact Iff.rfl
  | none =>
    simp only [List.mem_filter, decide_not, Bool.not_eq_true', decide_eq_false_iff_not, mem_varListD h]
    tauto

theorem isGen_not_disc {g : Gan} (hv : GenList g) {n : String} (h : IsGen g n) :
    n ∈ g.trainables ∧ ¬ IsDisc n := by
  unfold IsGen at h
  cases hl : g.varList with
  | none => rw [hl] at h; exact h
  | some l => rw [hl] at h; exact hv l hl n h

theorem disc_not_mem_varListG {g : Gan} (hv : GenList g) {n : String} (h1 : n ∈ g.trainables)
    (h2 : IsDisc n) : n ∉ varListG g.trainables g.varList := by
  intro h
  cases hl : g.varList with
  | none =>
    rw [hl] at h
    simp only [varListG, List.mem_filter, decide_not, Bool.not_eq_true', decide_eq_false_iff_not] at h
    exact h.2 (disc_mem_varListD h1 h2)
  | some l => rw [hl] at h; exact (hv l hl n h).2 h2

/-- C58: when no other variable's name starts with "Disc" (see `C58_prefix_fails`),
a "Gen" update changes only generator parameters and gives each its new value; a
"Disc" update only discriminator parameters; the default both, each player with its
own step; each adds one to `t`; any other argument raises. -/
theorem C58_players_partial (g : Gan) (hv : GenList g) (hn : NamesOk g.trainables) (s : GanState) :
    (∃ s', ganUpdate g (some "Gen") s = some s' ∧ s'.t = s.t + 1 ∧
      OnlyChanges (IsGen g) s.w s'.w ∧
      ∀ n, IsGen g n → s'.w n = g.gen s.w n) ∧
    (∃ s', ganUpdate g (some "Disc") s = some s' ∧ s'.t = s.t + 1 ∧
      OnlyChanges (fun n => n ∈ g.trainables ∧ IsDisc n) s.w s'.w ∧
      ∀ n ∈ g.trainables, IsDisc n → s'.w n = g.disc s.w n) ∧
    (∃ s', ganUpdate g none s = some s' ∧ s'.t = s.t + 1 ∧
      OnlyChanges (fun n => IsGen g n ∨ (n ∈ g.trainables ∧ IsDisc n)) s.w s'.w ∧
      (∀ n ∈ g.trainables, IsDisc n → s'.w n = g.disc s.w n) ∧
      ∀ n, IsGen g n → s'.w n = g.gen s.w n) ∧
    ∀ v, v ≠ "Gen" → v ≠ "Disc" → ganUpdate g (some v) s = none := by
  refine ⟨⟨_, rfl, rfl, ?_, ?_⟩, ⟨_, rfl, rfl, ?_, ?_⟩, ⟨_, rfl, rfl, ?_, ?_, ?_⟩, ?_⟩
  · intro n h
    exact if_neg (by rw [mem_varListG hn]; exact h)
  · intro n h
    exact if_pos (by rw [mem_varListG hn]; exact h)
  · intro n h
    exact if_neg (by rw [mem_varListD hn]; exact h)
  · intro n h1 h2
    exact if_pos (by rw [mem_varListD hn]; exact ⟨h1, h2⟩)
  · intro n h
    exact (if_neg (by rw [mem_varListD hn]; exact fun hh => h (Or.inr hh))).trans
      (if_neg (by rw [mem_varListG hn]; exact fun hh => h (Or.inl hh)))
  · intro n h1 h2
    exact if_pos (by rw [mem_varListD hn]; exact ⟨h1, h2⟩)
  · intro n h
    exact (if_neg (by rw [mem_varListD hn]; exact fun hh => (isGen_not_disc hv h).2 hh.2)).trans
      (if_pos (by rw [mem_varListG hn]; exact h))
  · intro v h1 h2; simp [ganUpdate, h1, h2]

/-- C58 does not hold for models with a variable whose name merely starts with
"Disc": a "Disc" update trains this generator parameter, a "Gen" update does not. -/
theorem C58_prefix_fails : ∃ (g : Gan) (s : GanState), g.varList = none ∧
    "Discount" ∈ g.trainables ∧ ¬ IsDisc "Discount" ∧
    (∃ s', ganUpdate g (some "Disc") s = some s' ∧ s'.w "Discount" ≠ s.w "Discount") ∧
    (∀ s', ganUpdate g (some "Gen") s = some s' → s'.w "Discount" = s.w "Discount") := by
  refine ⟨⟨["Disc/w", "Discount"], none, fun w n => w n + 1, fun w n => w n + 1⟩, ⟨fun _ => 0, 0⟩, rfl,
    by simp, by unfold IsDisc; decide, ⟨_, rfl, ?_⟩, ?_⟩
  · have : "Discount" ∈ varListD ["Disc/w", "Discount"] := by decide
    simp [assignVars, this]
  · intro s' h
    have : "Discount" ∉ varListG ["Disc/w", "Discount"] none := by decide
    obtain rfl := Option.some.inj h
    simp [assignVars, this]

/-- Did this argument train the discriminator? -/
def trainsDisc : Option String → Bool
  | none => true
  | some v => v = "Disc"

/-- A history of WGAN updates (those that raise leave the state unchanged). -/
noncomputable def wganRun (g : Gan) (clip : Option ℝ) : List (Option String) → GanState → GanState
  | [], s => s
  | v :: vs, s => wganRun g clip vs ((wganUpdate g clip v s).getD s)

def Clipped (g : Gan) (c : ℝ) (s : GanState) : Prop :=
  ∀ n ∈ g.trainables, IsDisc n → -c ≤ s.w n ∧ s.w n ≤ c

theorem clip_bounds {c : ℝ} (hc : 0 ≤ c) (w : ℝ) : -c ≤ clipByValue w (-c) c ∧ clipByValue w (-c) c ≤ c := by
  unfold clipByValue
  exact ⟨le_max_right _ _, max_le (min_le_right _ _) (by linarith)⟩

theorem wgan_clipped_after (g : Gan) {c : ℝ} (hc : 0 ≤ c)
    (v : Option String) (hv : trainsDisc v = true) (s s' : GanState)
    (h : wganUpdate g (some c) v s = some s') : Clipped g c s' := by
  have hv' : v = none ∨ v = some "Disc" := by
    cases v with
    | none => exact Or.inl rfl
    | some v => right; simpa [trainsDisc] using hv
  unfold wganUpdate at h
  split at h
  · cases h
  · rename_i s1 _
    dsimp only at h
    rw [if_pos hv'] at h
    obtain rfl := Option.some.inj h
    intro n h1 h2
    dsimp only
    rw [if_pos (disc_mem_varListD h1 h2)]
    exact clip_bounds hc _

theorem wgan_clipped_keep (g : Gan) (hg : GenList g) {c : ℝ}
    (hc : 0 ≤ c) (v : Option String) (s : GanState) (hs : Clipped g c s) :
    Clipped g c ((wganUpdate g (some c) v s).getD s) := by
  cases h : wganUpdate g (some c) v s with
  | none => exact hs
  | some s' =>
    cases hv : trainsDisc v with
    | true => exact wgan_clipped_after g hc v hv s s' h
    | false =>
      intro n h1 h2
      obtain ⟨w, rfl⟩ : ∃ w, v = some w := by
        cases v with
        | none => simp [trainsDisc] at hv
        | some w => exact ⟨w, rfl⟩
      have hw : w ≠ "Disc" := by simpa [trainsDisc] using hv
      unfold wganUpdate at h
      by_cases hgen : w = "Gen"
      · subst hgen
        simp only [ganUpdate, if_true] at h
        rw [if_neg (by simp)] at h
        obtain rfl := Option.some.inj h
        have hw' : assignVars (varListG g.trainables g.varList) g.gen s.w n = s.w n :=
          if_neg (disc_not_mem_varListG hg h1 h2)
        simp only [Option.getD_some, hw']
        exact hs n h1 h2
      · simp [ganUpdate, hgen, hw] at h

/-- C59: once the discriminator has been trained in a history, all its weights lie
in `[-clip, clip]` at every later point of the history, whatever the gradients. -/
theorem C59_clipped (g : Gan) (hg : GenList g) {c : ℝ}
    (hc : 0 ≤ c) (pre post : List (Option String)) (v : Option String) (hv : trainsDisc v = true)
    (s : GanState) : Clipped g c (wganRun g (some c) (pre ++ v :: post) s) := by
  have keep : ∀ (l : List (Option String)) (s : GanState), Clipped g c s →
      Clipped g c (wganRun g (some c) l s) := by
    intro l
    induction l with
    | nil => intro s hs; exact hs
    | cons v l ih => intro s hs; exact ih _ (wgan_clipped_keep g hg hc v s hs)
  induction pre generalizing s with
  | nil =>
    refine keep post _ ?_
    cases h : wganUpdate g (some c) v s with
    | none =>
      exfalso
      unfold wganUpdate at h
      cases v with
      | none => simp [ganUpdate] at h
      | some w =>
        obtain rfl : w = "Disc" := by simpa [trainsDisc] using hv
        simp [ganUpdate] at h
    | some s' => exact wgan_clipped_after g hc v hv s s' h
  | cons u pre ih => exact ih _

/-- C59: clipping changes nothing outside the discriminator and keeps weights that
are already inside. -/
theorem C59_clip_frame (g : Gan) (c : ℝ) (v : Option String) (s s1 s2 : GanState)
    (h1 : ganUpdate g v s = some s1) (h2 : wganUpdate g (some c) v s = some s2) :
    s2.t = s1.t ∧ ∀ n, (n ∉ varListD g.trainables ∨ (-c ≤ s1.w n ∧ s1.w n ≤ c)) → s2.w n = s1.w n := by
  unfold wganUpdate at h2
  rw [h1] at h2
  dsimp only at h2
  split at h2
  · obtain rfl := Option.some.inj h2
    refine ⟨rfl, fun n hn => ?_⟩
    dsimp only
    split
    · rcases hn with hn | hn
      · exact absurd ‹_› hn
      · unfold clipByValue; rw [min_eq_left hn.2, max_eq_left hn.1]
    · rfl
  · obtain rfl := Option.some.inj h2; exact ⟨rfl, fun _ _ => rfl⟩

/-! Concrete case. -/
def exGan : Gan := ⟨["Disc/w", "Gen/w"], none, fun w n => w n - 3, fun w n => w n + 5⟩

theorem exGan_names : NamesOk exGan.trainables := by
  intro n hn h
  simp [exGan] at hn
  rcases hn with rfl | rfl
  · unfold IsDisc; decide
  · exact absurd h (by decide)

example : Clipped exGan 1 (wganRun exGan (some 1) [some "Gen", none, some "Gen"] ⟨fun _ => 0, 0⟩) :=
  C59_clipped exGan (by intro l h; simp [exGan] at h) (by norm_num) [some "Gen"] [some "Gen"] none rfl _

example := C58_players_partial exGan (by intro l h; simp [exGan] at h) exGan_names ⟨fun _ => 0, 0⟩

end Edward
