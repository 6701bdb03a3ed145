/-
C138: `debug` and `logdir` observe inference and do not change it.
-/
import Mathlib.Probability.Independence.InfinitePi
import Verif.Model.Observe
import Verif.Spec.Observe

namespace Edward
open MeasureTheory ProbabilityTheory
variable {S A Θ : Type}

/-- How many elements of a source are taken before update `k`. -/
def ObserveArgs.taken (c : ObserveArgs) (checked summarized : Bool) (k : ℕ) : ℕ :=
  k + (if c.debug && checked then k else 0) + (if c.logging && summarized && c.nPrint != 0 then Spec.shown c.nPrint.natAbs k else 0)

theorem shown_succ (n k : ℕ) : Spec.shown n (k + 1) = Spec.shown n k + if k + 1 = 1 ∨ n ∣ k + 1 then 1 else 0 := by
  unfold Spec.shown
  rw [← Finset.insert_Icc_right_eq_Icc_add_one (by omega), Finset.filter_insert]
  split_ifs with h
  · rw [Finset.card_insert_of_notMem (by simp)]
  · simp

/-- The number of summaries among the first `k` updates. -/
theorem shown_eq {n : ℕ} (hn : 2 ≤ n) (k : ℕ) : Spec.shown n k = min 1 k + k / n := by
  induction k with
  | zero => simp [Spec.shown]
  | succ k ih =>
    rw [shown_succ, ih, Nat.succ_div]
    by_cases hd : n ∣ k + 1
    · have : k ≠ 0 := by
        rintro rfl
        have := Nat.le_of_dvd (by norm_num) hd
        omega
      simp [hd]
      omega
    · by_cases hk : k = 0
      · subst hk; simp [hd]
      · simp [hd, hk]; omega

theorem logs_iff (c : ObserveArgs) (t : ℕ) :
    c.logs t = true ↔ c.logging = true ∧ c.nPrint ≠ 0 ∧ (t = 1 ∨ c.nPrint.natAbs ∣ t) := by
  simp only [ObserveArgs.logs, showsProgress, Bool.and_eq_true, bne_iff_ne, Bool.or_eq_true, beq_iff_eq]
  rw [← Int.dvd_iff_emod_eq_zero, Int.natAbs_dvd_natAbs.symm, Int.natAbs_natCast]

/-- What update number `k` finds: the counter, the positions of the sources, and the variables reached from the elements taken. -/
theorem updates_eq (o : Observed S A Θ) (c : ObserveArgs) (src : S → ℕ → A) (θ : Θ) (k : ℕ) :
    (o.updates c src θ k).t = k ∧
    (∀ s, (o.updates c src θ k).pos s = c.taken (o.checked s) (o.summarized s) k) ∧
    (o.updates c src θ k).θ =
      Spec.trajectory o.train (fun i s => src s (c.taken (o.checked s) (o.summarized s) i)) θ k ∧
    (o.updates c src θ k).trained = (List.range k).map fun i s => src s (c.taken (o.checked s) (o.summarized s) i) := by
  induction k with
  | zero => simp [Observed.updates, ObserveArgs.taken, Spec.trajectory, Spec.shown]
  | succ k ih =>
    obtain ⟨h1, h2, h3, h4⟩ := ih
    have hl := logs_iff c (k + 1)
    have hpos : ∀ s, c.taken (o.checked s) (o.summarized s) (k + 1) =
        c.taken (o.checked s) (o.summarized s) k + 1 + (if c.debug && o.checked s then 1 else 0) +
          (if c.logs (k + 1) && o.summarized s then 1 else 0) := by
      intro s
      simp only [ObserveArgs.taken, shown_succ]
      by_cases hd : c.debug && o.checked s <;> by_cases hs : o.summarized s <;> by_cases hc : c.logging <;>
        by_cases hn : c.nPrint = 0 <;> by_cases ht : (k + 1 = 1 ∨ c.nPrint.natAbs ∣ k + 1) <;>
        simp [hd, hs, hc, hn, hl] at * <;> omega
    have hstep : (o.updates c src θ (k + 1)) = o.update c src (o.updates c src θ k) := rfl
    rw [hstep]
    unfold Observed.update
    by_cases hg : c.logs (k + 1)
    · simp only [h1, hg, if_true]
      refine ⟨trivial, fun s => ?_, ?_, ?_⟩
      · rw [hpos s]
        by_cases hd : c.debug <;> by_cases hk : o.checked s <;> by_cases hs : o.summarized s <;>
          simp [takeFrom, hd, hk, hs, hg, h2]
      · simp only [Spec.trajectory, h3, h2]
      · rw [h4, List.range_succ, List.map_append]
        simp only [h2, List.map_cons, List.map_nil]
    · simp only [h1, hg]
      refine ⟨rfl, fun s => ?_, ?_, ?_⟩
      · rw [hpos s]
        by_cases hd : c.debug <;> by_cases hk : o.checked s <;>
          simp [takeFrom, hd, hk, hg, h2]
      · simp only [Spec.trajectory, h2]; simp [h3]
      · simp only [h4, List.range_succ, List.map_append]
        simp [h2]

/-- The arguments that ask for no observation. -/
def Spec.unobserved : ObserveArgs := ⟨false, false, 0⟩

theorem taken_unobserved (a b : Bool) (k : ℕ) : Spec.unobserved.taken a b k = k := by
  simp [ObserveArgs.taken, Spec.unobserved]

/-- C138: observing runs that take nothing from the sources of the training op change nothing: the variables are those of
the run that nobody observes. So it is for data in memory and no random operations, for samplers with `logdir`
(the summary holds variables only), and when no sources were built before `initialize`. -/
theorem C138_unread_partial (o : Observed S A Θ) (c : ObserveArgs) (src : S → ℕ → A) (θ : Θ) (k : ℕ)
    (hd : c.debug = true → ∀ s, o.checked s = false) (hl : c.logging = true → c.nPrint ≠ 0 → ∀ s, o.summarized s = false) :
    (o.updates c src θ k).θ = (o.updates Spec.unobserved src θ k).θ := by
  rw [(updates_eq o c src θ k).2.2.1, (updates_eq o Spec.unobserved src θ k).2.2.1]
  congr 1
  funext i s
  rw [taken_unobserved]
  congr 1
  have h1 : (c.debug && o.checked s) = false := by
    by_cases h : c.debug = true
    · simp [hd h s]
    · simp [h]
  have h2 : (c.logging && o.summarized s && c.nPrint != 0) = false := by
    by_cases h : c.logging = true
    · by_cases h' : c.nPrint = 0
      · simp [h']
      · simp [hl h h' s]
    · simp [h]
  simp [ObserveArgs.taken, h1, h2]

theorem taken_strictMono (c : ObserveArgs) (a b : Bool) : StrictMono (c.taken a b) := by
  refine strictMono_nat_of_lt_succ fun k => ?_
  simp only [ObserveArgs.taken, shown_succ]
  split_ifs <;> omega

section law
variable [MeasurableSpace A] [MeasurableSpace Θ]

theorem measurable_trajectory {train : Θ → (S → A) → Θ} (ht : Measurable fun p : Θ × (S → A) => train p.1 p.2) (θ : Θ) (k : ℕ) :
    Measurable fun ω : S × ℕ → A => Spec.trajectory train (fun i s => ω (s, i)) θ k := by
  induction k with
  | zero => exact measurable_const
  | succ k ih =>
    exact ht.comp (ih.prodMk (measurable_pi_lambda _ fun s => measurable_pi_apply (s, k)))

/-- C138: if the elements of the sources are independent and those of each source have one law (draws of random operations), the
variables after any number of updates have the same law whether observed or not. -/
theorem C138_law (o : Observed S A Θ) (c : ObserveArgs) (ρ : S → Measure A) [∀ s, IsProbabilityMeasure (ρ s)]
    (ht : Measurable fun p : Θ × (S → A) => o.train p.1 p.2) (θ : Θ) (k : ℕ) :
    (Measure.infinitePi fun p : S × ℕ => ρ p.1).map (fun ω => (o.updates c (fun s i => ω (s, i)) θ k).θ) =
      (Measure.infinitePi fun p : S × ℕ => ρ p.1).map (fun ω => (o.updates Spec.unobserved (fun s i => ω (s, i)) θ k).θ) := by
  set P := Measure.infinitePi fun p : S × ℕ => ρ p.1
  let f : S × ℕ → S × ℕ := fun p => (p.1, c.taken (o.checked p.1) (o.summarized p.1) p.2)
  have hf : Function.Injective f := by
    rintro ⟨s, i⟩ ⟨s', i'⟩ h
    obtain ⟨h1, h2⟩ := Prod.mk.inj h
    simp only at h1
    subst h1
    exact Prod.ext rfl ((taken_strictMono c _ _).injective h2)
  have hP : P.map (fun ω i => ω (f i)) = P := Measure.map_infinitePi_infinitePi_of_inj hf
  have e1 : (fun ω : S × ℕ → A => (o.updates c (fun s i => ω (s, i)) θ k).θ) =
      (fun ω => Spec.trajectory o.train (fun i s => ω (s, i)) θ k) ∘ fun ω i => ω (f i) := by
    funext ω
    exact (updates_eq o c (fun s i => ω (s, i)) θ k).2.2.1
  have e2 : (fun ω : S × ℕ → A => (o.updates Spec.unobserved (fun s i => ω (s, i)) θ k).θ) =
      fun ω => Spec.trajectory o.train (fun i s => ω (s, i)) θ k := by
    funext ω
    rw [(updates_eq o Spec.unobserved (fun s i => ω (s, i)) θ k).2.2.1]
    simp only [taken_unobserved]
  rw [e1, e2, ← Measure.map_map (measurable_trajectory ht θ k) (by fun_prop), hP]

end law

/-- C138, what is logged: after update `t` the summary is evaluated with the variables of after the update, at elements which the
update did not see. -/
theorem C138_logged_fails (o : Observed S A Θ) (c : ObserveArgs) (src : S → ℕ → A) (θ : Θ) (k : ℕ) :
    (o.updates c src θ k).logged = ((List.range k).filter fun i => c.logs (i + 1)).map fun i =>
      ((o.updates c src θ (i + 1)).θ,
        fun s => src s (c.taken (o.checked s) (o.summarized s) i + 1 + if c.debug && o.checked s then 1 else 0)) := by
  induction k with
  | zero => rfl
  | succ k ih =>
    obtain ⟨h1, h2, -, -⟩ := updates_eq o c src θ k
    have hθ : (o.updates c src θ (k + 1)).θ = o.train (o.updates c src θ k).θ fun s => src s ((o.updates c src θ k).pos s) := by
      show (o.update c src (o.updates c src θ k)).θ = _
      unfold Observed.update
      simp only
      split_ifs <;> rfl
    rw [List.range_succ, List.filter_append, List.map_append, ← ih]
    show (o.update c src (o.updates c src θ k)).logged = _
    unfold Observed.update
    simp only [h1]
    by_cases hg : c.logs (k + 1)
    · simp only [hg, if_true, List.filter_cons, List.filter_nil, List.map_cons, List.map_nil, hθ]
      congr 3
      funext s
      by_cases hd : c.debug <;> by_cases hk : o.checked s <;> simp [takeFrom, hd, hk, h2]
    · simp [hg]

/-- C138: with `logdir` and any `n_print` but 0, the second update takes other elements of the sources of the loss than without:
after the same `ed.set_seed` the results differ. -/
theorem C138_seed_fails (n : Int) (hn : n ≠ 0) :
    ∃ (o : Observed Unit ℕ ℕ) (src : Unit → ℕ → ℕ), (o.updates ⟨false, true, n⟩ src 0 2).θ ≠ (o.updates Spec.unobserved src 0 2).θ := by
  refine ⟨⟨fun _ => false, fun _ => true, fun _ a => a ()⟩, fun _ i => i, ?_⟩
  rw [(updates_eq _ _ _ _ 2).2.2.1, (updates_eq _ _ _ _ 2).2.2.1]
  simp only [Spec.trajectory, taken_unobserved]
  have : Spec.shown n.natAbs 1 = 1 := by
    rw [show (1 : ℕ) = 0 + 1 from rfl, shown_succ]; simp [Spec.shown]
  simp [ObserveArgs.taken, hn, this]

/-- C138: a queue of `B` batches read in order, `B` even, with `debug=True`: the checks take every second batch, and the batches
with odd numbers are never trained on. Without `debug` each batch is trained on, once in `B` updates. -/
theorem C138_queue_fails (B : ℕ) (hB : 2 ∣ B) (train : Θ → (Unit → ℕ) → Θ) (θ : Θ) (n : Int) :
    (∀ k, ∀ a ∈ ((⟨fun _ => true, fun _ => true, train⟩ : Observed Unit ℕ Θ).updates ⟨true, false, n⟩ (fun _ i => i % B) θ k).trained,
      2 ∣ a ()) ∧
    ∀ j < B, ∃! i, i < B ∧ (((⟨fun _ => true, fun _ => true, train⟩ : Observed Unit ℕ Θ).updates Spec.unobserved
      (fun _ i => i % B) θ B).trained[i]?).map (· ()) = some j := by
  constructor
  · intro k a ha
    rw [(updates_eq _ _ _ _ k).2.2.2] at ha
    obtain ⟨i, -, rfl⟩ := List.mem_map.mp ha
    simp only [ObserveArgs.taken, Bool.and_self, if_true, Bool.false_and]
    rw [Nat.dvd_mod_iff hB]
    simp only [Bool.false_eq_true, if_false]
    omega
  · intro j hj
    rw [(updates_eq _ _ _ _ B).2.2.2]
    refine ⟨j, ⟨hj, ?_⟩, ?_⟩
    · simp [hj, taken_unobserved, Nat.mod_eq_of_lt hj]
    · rintro i ⟨hi, h⟩
      simpa [hi, taken_unobserved, Nat.mod_eq_of_lt hi] using h

/-- The hypotheses of `C138_unread_partial`: a sampler with `logdir`, whose summary takes nothing. -/
example : ∃ (o : Observed Unit ℕ ℕ) (c : ObserveArgs), c.logging = true ∧ c.nPrint ≠ 0 ∧
    (c.debug = true → ∀ s, o.checked s = false) ∧ (c.logging = true → c.nPrint ≠ 0 → ∀ s, o.summarized s = false) ∧
    ∃ src, (o.updates c src 0 1).θ ≠ 0 :=
  ⟨⟨fun _ => true, fun _ => false, fun θ a => θ + a ()⟩, ⟨false, true, 1⟩, rfl, by decide, by simp, by simp, fun _ _ => 1, by decide⟩

/-- The training op of `C138_law` may depend on its draws. -/
example : Measurable fun p : ℝ × (Unit → ℝ) => p.1 + p.2 () := by fun_prop

end Edward
