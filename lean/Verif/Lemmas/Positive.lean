/-
Markov chains driven by independent draws whose transition preserves a distribution and can
reach everything the distribution charges: laws converge, and averages converge in mean
square, without any rate.
-/
import Verif.Lemmas.Ergodic
import Mathlib.Probability.Kernel.Composition.MeasureCompProd
import Mathlib.Probability.Kernel.Composition.AbsolutelyContinuous
import Mathlib.MeasureTheory.Function.ConvergenceInMeasure

namespace Edward

set_option linter.unusedSectionVars false

open MeasureTheory ProbabilityTheory Filter Topology

variable {S W Ω : Type} [MeasurableSpace S] [MeasurableSpace W] [MeasurableSpace Ω]

/-- The transition `κ` preserves `π` and can reach everything `π` charges. -/
structure Reaching (κ : ProbabilityTheory.Kernel S S) (π : Measure S) : Prop where
  invariant : ∀ A, MeasurableSet A → ∫⁻ s, κ s A ∂π = π A
  reach : ∀ᵐ s ∂π, π ≪ κ s

/-- From `s` the transition either stays, with probability less than one, or moves to a
random place with a density. -/
def Leaves (κ : ProbabilityTheory.Kernel S S) (π : Measure S) (s : S) : Prop :=
  ∃ (r : ℝ) (ν : Measure S), 0 ≤ r ∧ r < 1 ∧ ν ≪ π ∧ κ s = ENNReal.ofReal r • Measure.dirac s + ν

section
variable {κ : ProbabilityTheory.Kernel S S} [IsMarkovKernel κ] {π : Measure S} [IsProbabilityMeasure π]

theorem Reaching.bind (h : Reaching κ π) : π.bind κ = π := by
  refine Measure.ext fun A hA => ?_
  rw [Measure.bind_apply hA κ.aemeasurable]
  exact h.invariant A hA

theorem Reaching.integral_push (h : Reaching κ π) {f : S → ℝ} (hf : Measurable f) {a b : ℝ} (hab : ∀ x, a ≤ f x ∧ f x ≤ b) :
    ∫ s, push κ f s ∂π = ∫ s, f s ∂π := by
  have e2 : (κ ∘ₖ ProbabilityTheory.Kernel.const Unit π) () = π := by
    rw [ProbabilityTheory.Kernel.comp_apply, ProbabilityTheory.Kernel.const_apply, h.bind]
  have h2 := ProbabilityTheory.Kernel.integral_comp (κ := ProbabilityTheory.Kernel.const Unit π) (η := κ) (a := ()) (f := f)
    (by rw [e2]; exact integrable_of_bounds π hf hab)
  rw [e2, ProbabilityTheory.Kernel.const_apply] at h2
  exact h2.symm

theorem push_iterate_basic (n : ℕ) {f : S → ℝ} (hf : Measurable f) {a b : ℝ} (hab : ∀ x, a ≤ f x ∧ f x ≤ b) :
    Measurable ((push κ)^[n] f) ∧ ∀ x, a ≤ (push κ)^[n] f x ∧ (push κ)^[n] f x ≤ b := by
  induction n with
  | zero => exact ⟨hf, hab⟩
  | succ n ih =>
    simp only [Function.iterate_succ_apply']
    exact ⟨measurable_push ih.1, push_bounds ih.1 ih.2⟩

theorem Reaching.integral_iterate (h : Reaching κ π) (n : ℕ) {f : S → ℝ} (hf : Measurable f) {a b : ℝ} (hab : ∀ x, a ≤ f x ∧ f x ≤ b) :
    ∫ s, (push κ)^[n] f s ∂π = ∫ s, f s ∂π := by
  induction n with
  | zero => rfl
  | succ n ih =>
    simp only [Function.iterate_succ_apply']
    obtain ⟨h1, h2⟩ := push_iterate_basic (κ := κ) n hf hab
    rw [h.integral_push h1 h2, ih]

theorem push_sub {f g : S → ℝ} (hf : Measurable f) (hg : Measurable g) {a b c d : ℝ} (hab : ∀ x, a ≤ f x ∧ f x ≤ b) (hcd : ∀ x, c ≤ g x ∧ g x ≤ d) (s : S) :
    push κ (fun x => f x - g x) s = push κ f s - push κ g s := by
  unfold push
  rw [integral_sub (integrable_of_bounds _ hf hab) (integrable_of_bounds _ hg hcd)]

theorem sq_bound {x D : ℝ} (h : -D ≤ x ∧ x ≤ D) : 0 ≤ x ^ 2 ∧ x ^ 2 ≤ D ^ 2 := ⟨sq_nonneg _, sq_le_sq' h.1 h.2⟩

/-- What a transition takes away from the second moment is the spread of the next value. -/
theorem Reaching.spread (h : Reaching κ π) {g : S → ℝ} (hg : Measurable g) {D : ℝ} (hD : ∀ x, -D ≤ g x ∧ g x ≤ D) :
    ∫ q, (g q.2 - push κ g q.1) ^ 2 ∂(π ⊗ₘ κ) = ∫ s, g s ^ 2 ∂π - ∫ s, push κ g s ^ 2 ∂π := by
  have hp := measurable_push (κ := κ) hg
  have hpD := push_bounds (κ := κ) hg hD
  have hmeas : Measurable (fun q : S × S => (g q.2 - push κ g q.1) ^ 2) := ((hg.comp measurable_snd).sub (hp.comp measurable_fst)).pow_const 2
  have hb : ∀ q : S × S, 0 ≤ (g q.2 - push κ g q.1) ^ 2 ∧ (g q.2 - push κ g q.1) ^ 2 ≤ (2 * D) ^ 2 := fun q =>
    sq_bound ⟨by linarith [(hD q.2).1, (hpD q.1).2], by linarith [(hD q.2).2, (hpD q.1).1]⟩
  rw [Measure.integral_compProd (integrable_of_bounds _ hmeas hb)]
  have hg2 : Measurable (fun s => g s ^ 2) := hg.pow_const 2
  have e : ∀ s, ∫ y, (g y - push κ g s) ^ 2 ∂κ s = push κ (fun y => g y ^ 2) s - push κ g s ^ 2 := by
    intro s
    have hi2 : Integrable (fun y => g y ^ 2) (κ s) := integrable_of_bounds _ hg2 fun x => sq_bound (hD x)
    have hi1 : Integrable g (κ s) := integrable_of_bounds _ hg hD
    have e1 : (fun y => (g y - push κ g s) ^ 2) = fun y => g y ^ 2 - (2 * push κ g s * g y - push κ g s ^ 2) := by funext y; ring
    have hi3 : Integrable (fun y => 2 * push κ g s * g y - push κ g s ^ 2) (κ s) := (hi1.const_mul _).sub (integrable_const _)
    rw [e1, integral_sub hi2 hi3, integral_sub (hi1.const_mul _) (integrable_const _), integral_const_mul]
    simp only [integral_const, probReal_univ, smul_eq_mul, one_mul]
    have : ∫ y, g y ∂κ s = push κ g s := rfl
    rw [this]
    unfold push
    ring
  simp only [e]
  rw [integral_sub (integrable_of_bounds _ (measurable_push hg2) (push_bounds hg2 fun x => sq_bound (hD x)))
    (integrable_of_bounds _ (hp.pow_const 2) fun x => sq_bound (hpD x)), h.integral_push hg2 fun x => sq_bound (hD x)]

/-- Iterated transitions of a function of mean zero vanish in mean square. -/
theorem Reaching.second_moment (h : Reaching κ π) {f : S → ℝ} (hf : Measurable f) {D : ℝ} (hD : ∀ x, -D ≤ f x ∧ f x ≤ D) (h0 : ∫ x, f x ∂π = 0) :
    Tendsto (fun n => ∫ s, ((push κ)^[n] f s) ^ 2 ∂π) atTop (𝓝 0) := by
  set g : ℕ → S → ℝ := fun n => (push κ)^[n] f with hgdef
  have hgs : ∀ n, g (n + 1) = push κ (g n) := fun n => Function.iterate_succ_apply' _ _ _
  have hg : ∀ n, Measurable (g n) := fun n => (push_iterate_basic n hf hD).1
  have hgD : ∀ n x, -D ≤ g n x ∧ g n x ≤ D := fun n => (push_iterate_basic n hf hD).2
  have hg0 : ∀ n, ∫ x, g n x ∂π = 0 := fun n => (h.integral_iterate n hf hD).trans h0
  set a : ℕ → ℝ := fun n => ∫ s, g n s ^ 2 ∂π with ha
  have ha0 : ∀ n, 0 ≤ a n := fun n => integral_nonneg fun s => sq_nonneg _
  set V : ℕ → S × S → ℝ := fun n q => (g n q.2 - g (n + 1) q.1) ^ 2 with hV
  have hspread : ∀ n, ∫ q, V n q ∂(π ⊗ₘ κ) = a n - a (n + 1) := fun n => by
    simp only [hV, ha, hgs]
    exact h.spread (hg n) (hgD n)
  have hVm : ∀ n, Measurable (V n) := fun n => (((hg n).comp measurable_snd).sub ((hg (n + 1)).comp measurable_fst)).pow_const 2
  have hVb : ∀ n q, 0 ≤ V n q ∧ V n q ≤ (2 * D) ^ 2 := fun n q =>
    sq_bound ⟨by linarith [(hgD n q.2).1, (hgD (n + 1) q.1).2], by linarith [(hgD n q.2).2, (hgD (n + 1) q.1).1]⟩
  have hanti : Antitone a := antitone_nat_of_succ_le fun n => by
    have := hspread n
    have h1 : 0 ≤ ∫ q, V n q ∂(π ⊗ₘ κ) := integral_nonneg fun q => (hVb n q).1
    linarith
  obtain ⟨L, hL⟩ : ∃ L, Tendsto a atTop (𝓝 L) := ⟨_, tendsto_atTop_ciInf hanti ⟨0, by rintro _ ⟨n, rfl⟩; exact ha0 n⟩⟩
  have hVto : Tendsto (fun n => ∫ q, V n q ∂(π ⊗ₘ κ)) atTop (𝓝 0) := by
    simp only [hspread]
    have := hL.sub (hL.comp (tendsto_add_atTop_nat 1))
    simpa using this
  -- along a subsequence the spread vanishes almost everywhere
  have hmeasure : TendstoInMeasure (π ⊗ₘ κ) V atTop (fun _ => 0) := by
    refine tendstoInMeasure_of_tendsto_eLpNorm (p := 1) one_ne_zero (fun n => (hVm n).aestronglyMeasurable) aestronglyMeasurable_const ?_
    have e : ∀ n, eLpNorm (V n - fun _ => 0) 1 (π ⊗ₘ κ) = ENNReal.ofReal (∫ q, V n q ∂(π ⊗ₘ κ)) := by
      intro n
      rw [eLpNorm_one_eq_lintegral_enorm, ofReal_integral_eq_lintegral_ofReal (integrable_of_bounds _ (hVm n) (hVb n)) (ae_of_all _ fun q => (hVb n q).1)]
      refine lintegral_congr fun q => ?_
      simp only [Pi.sub_apply, sub_zero]
      rw [Real.enorm_eq_ofReal (hVb n q).1]
    simp only [e]
    simpa using ENNReal.tendsto_ofReal hVto
  obtain ⟨ns, hns, hae⟩ := hmeasure.exists_seq_tendsto_ae
  have habs : π.prod π ≪ π ⊗ₘ κ := by
    have h1 : π ⊗ₘ (ProbabilityTheory.Kernel.const S π) ≪ π ⊗ₘ κ := by
      refine Measure.AbsolutelyContinuous.compProd_right ?_
      filter_upwards [h.reach] with s hs
      rwa [ProbabilityTheory.Kernel.const_apply]
    rwa [Measure.compProd_const] at h1
  have hae' := habs.ae_le hae
  have hdom : Tendsto (fun i => ∫ q, V (ns i) q ∂(π.prod π)) atTop (𝓝 (∫ _, (0 : ℝ) ∂(π.prod π))) := by
    refine tendsto_integral_of_dominated_convergence (fun _ => (2 * D) ^ 2) (fun i => (hVm _).aestronglyMeasurable) (integrable_const _) (fun i => ae_of_all _ fun q => ?_) hae'
    rw [Real.norm_eq_abs, abs_of_nonneg (hVb _ q).1]
    exact (hVb _ q).2
  have hsplit : ∀ n, ∫ q, V n q ∂(π.prod π) = a n + a (n + 1) := by
    intro n
    have hi : Integrable (V n) (π.prod π) := integrable_of_bounds _ (hVm n) (hVb n)
    rw [integral_prod _ hi]
    have e1 : ∀ s, ∫ y, V n (s, y) ∂π = a n + g (n + 1) s ^ 2 := by
      intro s
      have hi2 : Integrable (fun y => g n y ^ 2) π := integrable_of_bounds _ ((hg n).pow_const 2) fun x => sq_bound (hgD n x)
      have hi1 : Integrable (g n) π := integrable_of_bounds _ (hg n) (hgD n)
      have e1 : (fun y => V n (s, y)) = fun y => g n y ^ 2 - (2 * g (n + 1) s * g n y - g (n + 1) s ^ 2) := by funext y; simp only [hV]; ring
      have hi3 : Integrable (fun y => 2 * g (n + 1) s * g n y - g (n + 1) s ^ 2) π := (hi1.const_mul _).sub (integrable_const _)
      rw [e1, integral_sub hi2 hi3, integral_sub (hi1.const_mul _) (integrable_const _), integral_const_mul, hg0]
      simp [ha]
    simp only [e1]
    rw [integral_add (integrable_const _) (integrable_of_bounds _ ((hg (n + 1)).pow_const 2) fun x => sq_bound (hgD (n + 1) x))]
    simp [ha]
  simp only [hsplit, integral_zero] at hdom
  have hL0 : L = 0 := by
    have h1 := (hL.comp hns.tendsto_atTop).add ((hL.comp (tendsto_add_atTop_nat 1)).comp hns.tendsto_atTop)
    have h2 := tendsto_nhds_unique h1 hdom
    linarith
  rwa [hL0] at hL

/-- And on average over any distribution with a density. -/
theorem Reaching.integral_tendsto (h : Reaching κ π) {f : S → ℝ} (hf : Measurable f) {D : ℝ} (hD : ∀ x, -D ≤ f x ∧ f x ≤ D) (h0 : ∫ x, f x ∂π = 0)
    {ν : Measure S} [IsFiniteMeasure ν] (hν : ν ≪ π) : Tendsto (fun n => ∫ s, (push κ)^[n] f s ∂ν) atTop (𝓝 0) := by
  have hg : ∀ n, Measurable ((push κ)^[n] f) := fun n => (push_iterate_basic n hf hD).1
  have hgD : ∀ n x, -D ≤ (push κ)^[n] f x ∧ (push κ)^[n] f x ≤ D := fun n => (push_iterate_basic n hf hD).2
  have hsm := h.second_moment hf hD h0
  refine tendsto_of_subseq_tendsto fun ns hns => ?_
  have hmeasure : TendstoInMeasure π (fun i s => ((push κ)^[ns i] f s) ^ 2) atTop (fun _ => 0) := by
    refine tendstoInMeasure_of_tendsto_eLpNorm (p := 1) one_ne_zero (fun n => ((hg _).pow_const 2).aestronglyMeasurable) aestronglyMeasurable_const ?_
    have e : ∀ n, eLpNorm ((fun s => ((push κ)^[n] f s) ^ 2) - fun _ => 0) 1 π = ENNReal.ofReal (∫ s, ((push κ)^[n] f s) ^ 2 ∂π) := by
      intro n
      rw [eLpNorm_one_eq_lintegral_enorm, ofReal_integral_eq_lintegral_ofReal (integrable_of_bounds _ ((hg n).pow_const 2) fun x => sq_bound (hgD n x)) (ae_of_all _ fun q => sq_nonneg _)]
      refine lintegral_congr fun q => ?_
      simp only [Pi.sub_apply, sub_zero]
      rw [Real.enorm_eq_ofReal (sq_nonneg _)]
    simp only [e]
    simpa using ENNReal.tendsto_ofReal (hsm.comp hns)
  obtain ⟨ms, hms, hae⟩ := hmeasure.exists_seq_tendsto_ae
  refine ⟨ms, ?_⟩
  have hae' := hν.ae_le hae
  have : Tendsto (fun i => ∫ s, (push κ)^[ns (ms i)] f s ∂ν) atTop (𝓝 (∫ _, (0 : ℝ) ∂ν)) := by
    refine tendsto_integral_of_dominated_convergence (fun _ => D) (fun i => (hg _).aestronglyMeasurable) (integrable_const _)
      (fun i => ae_of_all _ fun q => abs_le.mpr (hgD _ q)) ?_
    filter_upwards [hae'] with s hs
    have h3 := (Real.continuous_sqrt.tendsto 0).comp hs
    rw [Real.sqrt_zero] at h3
    refine (tendsto_zero_iff_abs_tendsto_zero _).mpr ?_
    simpa [Function.comp_def, Real.sqrt_sq_eq_abs] using h3
  simpa using this

theorem recursion_tendsto {u v : ℕ → ℝ} {r : ℝ} (hr0 : 0 ≤ r) (hr : r < 1) (h : ∀ n, u (n + 1) = r * u n + v n) (hv : Tendsto v atTop (𝓝 0)) :
    Tendsto u atTop (𝓝 0) := by
  rw [Metric.tendsto_atTop] at hv ⊢
  intro e he
  obtain ⟨N, hN⟩ := hv (e / 2 * (1 - r)) (mul_pos (half_pos he) (by linarith))
  have hb : ∀ k, |u (N + k)| ≤ r ^ k * |u N| + e / 2 := by
    intro k
    induction k with
    | zero => simp; linarith
    | succ k ih =>
      have h1 := hN (N + k) (by omega)
      rw [Real.dist_eq, sub_zero] at h1
      rw [← add_assoc, h]
      calc |r * u (N + k) + v (N + k)| ≤ |r * u (N + k)| + |v (N + k)| := abs_add_le _ _
        _ ≤ r * (r ^ k * |u N| + e / 2) + e / 2 * (1 - r) := by
          rw [abs_mul, abs_of_nonneg hr0]
          exact add_le_add (mul_le_mul_of_nonneg_left ih hr0) h1.le
        _ = _ := by ring
  have hp : Tendsto (fun k : ℕ => r ^ k * |u N|) atTop (𝓝 0) := by
    simpa using (tendsto_pow_atTop_nhds_zero_of_lt_one hr0 hr).mul_const |u N|
  rw [Metric.tendsto_atTop] at hp
  obtain ⟨k0, hk0⟩ := hp (e / 2) (half_pos he)
  refine ⟨N + k0, fun n hn => ?_⟩
  obtain ⟨k, rfl⟩ : ∃ k, n = N + k := ⟨n - N, by omega⟩
  have h2 := hk0 k (by omega)
  rw [Real.dist_eq, sub_zero] at h2 ⊢
  have := hb k
  have := le_abs_self (r ^ k * |u N|)
  linarith

theorem Reaching.pointwise_zero (h : Reaching κ π) {s : S} (hs : Leaves κ π s) {f : S → ℝ} (hf : Measurable f) {D : ℝ} (hD : ∀ x, -D ≤ f x ∧ f x ≤ D) (h0 : ∫ x, f x ∂π = 0) :
    Tendsto (fun n => (push κ)^[n] f s) atTop (𝓝 0) := by
  obtain ⟨r, ν, hr0, hr, hν, e⟩ := hs
  have hle : ν ≤ κ s := by rw [e]; exact Measure.le_add_left le_rfl
  have : IsFiniteMeasure ν := isFiniteMeasure_of_le _ hle
  refine recursion_tendsto hr0 hr (v := fun n => ∫ x, (push κ)^[n] f x ∂ν) (fun n => ?_) (h.integral_tendsto hf hD h0 hν)
  obtain ⟨h1, h2⟩ := push_iterate_basic (κ := κ) n hf hD
  rw [Function.iterate_succ_apply']
  show ∫ x, _ ∂κ s = _
  have hle2 : ENNReal.ofReal r • Measure.dirac s ≤ κ s := by rw [e]; exact Measure.le_add_right le_rfl
  have hi := integrable_of_bounds (κ s) h1 h2
  rw [e, integral_add_measure (hi.mono_measure hle2) (hi.mono_measure hle), integral_smul_measure, integral_dirac' _ _ h1.stronglyMeasurable,
    ENNReal.toReal_ofReal hr0, smul_eq_mul]

theorem push_iterate_sub_const (n : ℕ) {f : S → ℝ} (hf : Measurable f) {a b : ℝ} (hab : ∀ x, a ≤ f x ∧ f x ≤ b) (c : ℝ) :
    (push κ)^[n] (fun x => f x - c) = fun x => (push κ)^[n] f x - c := by
  induction n with
  | zero => rfl
  | succ n ih =>
    obtain ⟨h1, h2⟩ := push_iterate_basic (κ := κ) n hf hab
    rw [Function.iterate_succ_apply', Function.iterate_succ_apply', ih]
    funext s
    show ∫ x, ((push κ)^[n] f x - c) ∂κ s = (∫ x, (push κ)^[n] f x ∂κ s) - c
    rw [integral_sub (integrable_of_bounds _ h1 h2) (integrable_const c)]
    simp

/-- From every state the transition leaves, expectations converge. -/
theorem Reaching.pointwise (h : Reaching κ π) {s : S} (hs : Leaves κ π s) {f : S → ℝ} (hf : Measurable f) {a b : ℝ} (hab : ∀ x, a ≤ f x ∧ f x ≤ b) :
    Tendsto (fun n => (push κ)^[n] f s) atTop (𝓝 (∫ x, f x ∂π)) := by
  set c := ∫ x, f x ∂π with hc
  have h1 := h.pointwise_zero hs (f := fun x => f x - c) (hf.sub_const c) (D := |a| + |b| + |c|)
    (fun x => ⟨by linarith [(hab x).1, neg_abs_le a, le_abs_self c, abs_nonneg b], by linarith [(hab x).2, le_abs_self b, neg_abs_le c, abs_nonneg a]⟩)
    (by rw [integral_sub (integrable_of_bounds _ hf hab) (integrable_const c)]; simp [hc])
  simp only [push_iterate_sub_const _ hf hab] at h1
  simpa using h1.add_const c

theorem abs_push_le {f : S → ℝ} (s : S) : |push κ f s| ≤ push κ (fun x => |f x|) s := by
  unfold push
  exact abs_integral_le_integral_abs

theorem abs_iterate_le (k : ℕ) {f : S → ℝ} (hf : Measurable f) {D : ℝ} (hD : ∀ x, -D ≤ f x ∧ f x ≤ D) (s : S) :
    |(push κ)^[k] f s| ≤ (push κ)^[k] (fun x => |f x|) s := by
  induction k generalizing s with
  | zero => exact le_rfl
  | succ k ih =>
    rw [Function.iterate_succ_apply', Function.iterate_succ_apply']
    refine (abs_push_le s).trans ?_
    obtain ⟨h1, h2⟩ := push_iterate_basic (κ := κ) k hf hD
    obtain ⟨h3, h4⟩ := push_iterate_basic (κ := κ) k (f := fun x => |f x|) (measurable_norm.comp hf) (a := 0) (b := D) (fun x => ⟨abs_nonneg _, abs_le.mpr (hD x)⟩)
    exact integral_mono (integrable_of_bounds _ (f := fun x => |(push κ)^[k] f x|) (measurable_norm.comp h1) (a := 0) (b := D) (fun x => ⟨abs_nonneg _, abs_le.mpr (h2 x)⟩)) (integrable_of_bounds _ h3 h4) (fun x => ih x)

/-- The first moment is below the square root of the second. -/
theorem Reaching.first_moment (h : Reaching κ π) {f : S → ℝ} (hf : Measurable f) {D : ℝ} (hD : ∀ x, -D ≤ f x ∧ f x ≤ D) (h0 : ∫ x, f x ∂π = 0) :
    Tendsto (fun n => ∫ s, |(push κ)^[n] f s| ∂π) atTop (𝓝 0) := by
  have hsm := h.second_moment hf hD h0
  rw [Metric.tendsto_atTop] at hsm ⊢
  intro e he
  obtain ⟨N, hN⟩ := hsm (e * e / 2) (by positivity)
  refine ⟨N, fun n hn => ?_⟩
  have h1 := hN n hn
  obtain ⟨g1, g2⟩ := push_iterate_basic (κ := κ) n hf hD
  have i1 : Integrable (fun s => |(push κ)^[n] f s|) π := integrable_of_bounds _ (measurable_norm.comp g1) (a := 0) (b := D) (fun x => ⟨abs_nonneg _, abs_le.mpr (g2 x)⟩)
  have i2 : Integrable (fun s => ((push κ)^[n] f s) ^ 2) π := integrable_of_bounds _ (g1.pow_const 2) fun x => sq_bound (g2 x)
  rw [Real.dist_eq, sub_zero, abs_of_nonneg (integral_nonneg fun s => sq_nonneg _)] at h1
  rw [Real.dist_eq, sub_zero, abs_of_nonneg (integral_nonneg fun s => abs_nonneg _)]
  have h2 : ∫ s, |(push κ)^[n] f s| ∂π ≤ ∫ s, (((push κ)^[n] f s) ^ 2 * (1 / (2 * (e / 2))) + (e / 2) / 2) ∂π := by
    refine integral_mono i1 ((i2.mul_const _).add (integrable_const _)) fun s => ?_
    have := sq_nonneg (|(push κ)^[n] f s| - e / 2)
    have h3 : |(push κ)^[n] f s| ^ 2 = ((push κ)^[n] f s) ^ 2 := sq_abs _
    show |(push κ)^[n] f s| ≤ ((push κ)^[n] f s) ^ 2 * (1 / (2 * (e / 2))) + (e / 2) / 2
    rw [← h3]
    have e4 : |(push κ)^[n] f s| ^ 2 * (1 / (2 * (e / 2))) + (e / 2) / 2 - |(push κ)^[n] f s| = (|(push κ)^[n] f s| - e / 2) ^ 2 / e := by
      field_simp; ring
    have := div_nonneg this he.le
    linarith
  rw [integral_add (i2.mul_const _) (integrable_const _), integral_mul_const] at h2
  simp only [integral_const, probReal_univ, smul_eq_mul, one_mul] at h2
  have h5 : (∫ s, ((push κ)^[n] f s) ^ 2 ∂π) * (1 / (2 * (e / 2))) < e * e / 2 * (1 / (2 * (e / 2))) := mul_lt_mul_of_pos_right h1 (by positivity)
  have h6 : e * e / 2 * (1 / (2 * (e / 2))) = e / 2 := by field_simp
  linarith

end

section
variable {K : S → W → S} {ν : Measure W} [IsProbabilityMeasure ν] {π : Measure S} [IsProbabilityMeasure π]
  {Pr : Measure Ω} [IsProbabilityMeasure Pr] {w : ℕ → Ω → W}

theorem expect_walk (hK : Measurable (fun a : S × W => K a.1 a.2)) (hw : ∀ i, Measurable (w i)) (hlaw : ∀ i, Pr.map (w i) = ν) (hind : iIndepFun w Pr)
    (z0 : S) {f : S → ℝ} (hf : Measurable f) {a b : ℝ} (hab : ∀ x, a ≤ f x ∧ f x ≤ b) (n : ℕ) :
    ∫ ω, f (walk K z0 (fun i => w i ω) n) ∂Pr = (push (stepKernel K ν))^[n] f z0 := by
  have h := expect_later hK hw hlaw hind z0 0 (A := fun _ => 1) measurable_const (M := 1) (by norm_num) n hf hab
  simpa only [one_mul, zero_add, walk, integral_const, probReal_univ, smul_eq_mul] using h

/-- The law of the `n`-th sample approaches `π`. -/
theorem law_reaches (hK : Measurable (fun a : S × W => K a.1 a.2)) (hm : Reaching (stepKernel K ν) π) (hw : ∀ i, Measurable (w i)) (hlaw : ∀ i, Pr.map (w i) = ν) (hind : iIndepFun w Pr)
    {z0 : S} (hz : Leaves (stepKernel K ν) π z0) {f : S → ℝ} (hf : Measurable f) {a b : ℝ} (hab : ∀ x, a ≤ f x ∧ f x ≤ b) :
    Tendsto (fun n => ∫ ω, f (walk K z0 (fun i => w i ω) n) ∂Pr) atTop (𝓝 (∫ x, f x ∂π)) := by
  have := stepKernel_markov (ν := ν) hK
  simp only [expect_walk hK hw hlaw hind z0 hf hab]
  exact hm.pointwise hz hf hab

theorem second_moment_sum {Y : ℕ → Ω → ℝ} (hY : ∀ n, Measurable (Y n)) {D : ℝ} {C : ℕ → ℝ} (hD : ∀ n ω, |Y n ω| ≤ D)
    (hc : ∀ n, ∑ i ∈ Finset.range n, ∫ ω, Y i ω * Y n ω ∂Pr ≤ C n) (n : ℕ) :
    ∫ ω, (∑ i ∈ Finset.range n, Y i ω) ^ 2 ∂Pr ≤ ∑ j ∈ Finset.range n, (2 * C j + D ^ 2) := by
  have hb : ∀ n ω, -D ≤ Y n ω ∧ Y n ω ≤ D := fun n ω => abs_le.mp (hD n ω)
  have hprod : ∀ i j, Integrable (fun ω => Y i ω * Y j ω) Pr := fun i j =>
    (integrable_of_bounds Pr (hY j) (hb j)).bdd_mul (hY i).aestronglyMeasurable (ae_of_all _ fun ω => hD i ω)
  induction n with
  | zero => simp
  | succ n ih =>
    have hS : Integrable (fun ω => (∑ i ∈ Finset.range n, Y i ω) ^ 2) Pr := by
      have : (fun ω => (∑ i ∈ Finset.range n, Y i ω) ^ 2) = fun ω => ∑ i ∈ Finset.range n, ∑ j ∈ Finset.range n, Y i ω * Y j ω := by
        funext ω; rw [sq, Finset.sum_mul_sum]
      rw [this]
      exact integrable_finsetSum _ fun i _ => integrable_finsetSum _ fun j _ => hprod i j
    have hX : Integrable (fun ω => ∑ i ∈ Finset.range n, Y i ω * Y n ω) Pr := integrable_finsetSum _ fun i _ => hprod i n
    have e : (fun ω => (∑ i ∈ Finset.range (n + 1), Y i ω) ^ 2) = fun ω =>
        (∑ i ∈ Finset.range n, Y i ω) ^ 2 + (2 * (∑ i ∈ Finset.range n, Y i ω * Y n ω) + Y n ω * Y n ω) := by
      funext ω
      rw [Finset.sum_range_succ, ← Finset.sum_mul]
      ring
    have h2 : Integrable (fun ω => 2 * (∑ i ∈ Finset.range n, Y i ω * Y n ω)) Pr := hX.const_mul 2
    have h3 : Integrable (fun ω => 2 * (∑ i ∈ Finset.range n, Y i ω * Y n ω) + Y n ω * Y n ω) Pr := h2.add (hprod n n)
    rw [e, integral_add hS h3, integral_add h2 (hprod n n), integral_const_mul, integral_finsetSum _ fun i _ => hprod i n]
    have hYn : ∫ ω, Y n ω * Y n ω ∂Pr ≤ D ^ 2 := by
      have := integral_mono (hprod n n) (integrable_const (D ^ 2)) (fun ω => by
        have := sq_le_sq' (hb n ω).1 (hb n ω).2
        simpa [sq] using this)
      simpa using this
    have := hc n
    rw [Finset.sum_range_succ]
    linarith

/-- Deviations of two samples `M + k` steps apart. -/
theorem covariance_reaches (hK : Measurable (fun a : S × W => K a.1 a.2)) (hw : ∀ i, Measurable (w i)) (hlaw : ∀ i, Pr.map (w i) = ν) (hind : iIndepFun w Pr)
    (z0 : S) {f : S → ℝ} (hf : Measurable f) {D : ℝ} (hD : ∀ x, -D ≤ f x ∧ f x ≤ D) (n M k : ℕ) :
    ∫ ω, f (walk K z0 (fun i => w i ω) n) * f (walk K z0 (fun i => w i ω) (n + (k + M))) ∂Pr ≤
      D * (push (stepKernel K ν))^[n + k] (fun x => |(push (stepKernel K ν))^[M] f x|) z0 := by
  have := stepKernel_markov (ν := ν) hK
  rw [expect_later hK hw hlaw hind z0 n (A := fun ω => f (walk K z0 (fun i => w i ω) n))
    (hf.comp (walk_past hK z0 n)) (fun ω => hD _) (k + M) hf hD]
  obtain ⟨g1, g2⟩ := push_iterate_basic (κ := stepKernel K ν) M hf hD
  have habsm : Measurable (fun x => |(push (stepKernel K ν))^[M] f x|) := measurable_norm.comp g1
  have habsb : ∀ x, 0 ≤ |(push (stepKernel K ν))^[M] f x| ∧ |(push (stepKernel K ν))^[M] f x| ≤ D := fun x => ⟨abs_nonneg _, abs_le.mpr (g2 x)⟩
  obtain ⟨k1, k2⟩ := push_iterate_basic (κ := stepKernel K ν) k habsm habsb
  obtain ⟨l1, l2⟩ := push_iterate_basic (κ := stepKernel K ν) (k + M) hf hD
  have e : (push (stepKernel K ν))^[n + k] (fun x => |(push (stepKernel K ν))^[M] f x|) z0 =
      ∫ ω, (push (stepKernel K ν))^[k] (fun x => |(push (stepKernel K ν))^[M] f x|) (walk K z0 (fun i => w i ω) n) ∂Pr := by
    rw [expect_walk hK hw hlaw hind z0 k1 k2, ← Function.iterate_add_apply]
  rw [e, ← integral_const_mul]
  have hwm := walk_measurable hK hw z0 n
  have hD0 : 0 ≤ D := by linarith [(hD z0).1, (hD z0).2]
  refine integral_mono ?_ ?_ fun ω => ?_
  · exact (integrable_of_bounds Pr (f := fun ω => (push (stepKernel K ν))^[k + M] f (walk K z0 (fun i => w i ω) n)) (l1.comp hwm) fun ω => l2 _).bdd_mul (c := D)
      (hf.comp hwm).aestronglyMeasurable (ae_of_all _ fun ω => abs_le.mpr (hD _))
  · exact (integrable_of_bounds Pr (f := fun ω => (push (stepKernel K ν))^[k] (fun x => |(push (stepKernel K ν))^[M] f x|) (walk K z0 (fun i => w i ω) n)) (k1.comp hwm) fun ω => k2 _).const_mul D
  · refine (le_abs_self _).trans ?_
    show |_ * _| ≤ D * _
    rw [abs_mul]
    refine mul_le_mul (abs_le.mpr (hD _)) ?_ (abs_nonneg _) hD0
    rw [Function.iterate_add_apply]
    exact abs_iterate_le k g1 g2 _

theorem average_zero_reaches (hK : Measurable (fun a : S × W => K a.1 a.2)) (hm : Reaching (stepKernel K ν) π) (hw : ∀ i, Measurable (w i)) (hlaw : ∀ i, Pr.map (w i) = ν) (hind : iIndepFun w Pr)
    {z0 : S} (hz : Leaves (stepKernel K ν) π z0) {f : S → ℝ} (hf : Measurable f) {D : ℝ} (hD : ∀ x, -D ≤ f x ∧ f x ≤ D) (h0 : ∫ x, f x ∂π = 0) :
    Tendsto (fun n : ℕ => ∫ ω, ((∑ i ∈ Finset.range n, f (walk K z0 (fun i => w i ω) (i + 1))) / n) ^ 2 ∂Pr) atTop (𝓝 0) := by
  have := stepKernel_markov (ν := ν) hK
  have hD0 : 0 ≤ D := by linarith [(hD z0).1, (hD z0).2]
  set κ := stepKernel K ν with hκ
  set Y : ℕ → Ω → ℝ := fun i ω => f (walk K z0 (fun i => w i ω) (i + 1)) with hY
  have hYm : ∀ n, Measurable (Y n) := fun n => hf.comp (walk_measurable hK hw z0 (n + 1))
  have hYD : ∀ n ω, |Y n ω| ≤ D := fun n ω => abs_le.mpr (hD _)
  set b : ℕ → ℕ → ℝ := fun M t => (push κ)^[t] (fun x => |(push κ)^[M] f x|) z0 with hb
  have hbnn : ∀ M t, 0 ≤ b M t := fun M t => by
    obtain ⟨g1, g2⟩ := push_iterate_basic (κ := κ) M hf hD
    exact ((push_iterate_basic (κ := κ) t (f := fun x => |(push κ)^[M] f x|) (measurable_norm.comp g1) (a := 0) (b := D)
      (fun x => ⟨abs_nonneg _, abs_le.mpr (g2 x)⟩)).2 z0).1
  have hbto : ∀ M, Tendsto (b M) atTop (𝓝 (∫ x, |(push κ)^[M] f x| ∂π)) := fun M => by
    obtain ⟨g1, g2⟩ := push_iterate_basic (κ := κ) M hf hD
    exact hm.pointwise hz (f := fun x => |(push κ)^[M] f x|) (measurable_norm.comp g1) (a := 0) (b := D)
      (fun x => ⟨abs_nonneg _, abs_le.mpr (g2 x)⟩)
  have hcov : ∀ M n, ∑ i ∈ Finset.range n, ∫ ω, Y i ω * Y n ω ∂Pr ≤ M * D ^ 2 + n * (D * b M (n + 1 - M)) := by
    intro M n
    have hterm : ∀ i ∈ Finset.range n, ∫ ω, Y i ω * Y n ω ∂Pr ≤ (if n < i + M then D ^ 2 else 0) + D * b M (n + 1 - M) := by
      intro i hi
      have hin := Finset.mem_range.mp hi
      by_cases hc : n < i + M
      · rw [if_pos hc]
        have h1 : ∫ ω, Y i ω * Y n ω ∂Pr ≤ D ^ 2 := by
          have hint : Integrable (fun ω => Y i ω * Y n ω) Pr := (integrable_of_bounds Pr (hYm n) (fun ω => abs_le.mp (hYD n ω))).bdd_mul (hYm i).aestronglyMeasurable (ae_of_all _ fun ω => hYD i ω)
          have := integral_mono hint (integrable_const (D ^ 2)) (fun ω => by
            refine (le_abs_self _).trans ?_
            show |_ * _| ≤ _
            rw [abs_mul, sq]
            exact mul_le_mul (hYD _ _) (hYD _ _) (abs_nonneg _) hD0)
          simpa using this
        have := mul_nonneg hD0 (hbnn M (n + 1 - M))
        linarith
      · rw [if_neg hc, zero_add]
        have h1 := covariance_reaches hK hw hlaw hind z0 hf hD (i + 1) M (n - i - M)
        have e1 : i + 1 + (n - i - M + M) = n + 1 := by omega
        have e2 : i + 1 + (n - i - M) = n + 1 - M := by omega
        rw [e1, e2] at h1
        exact h1
    refine (Finset.sum_le_sum hterm).trans ?_
    rw [Finset.sum_add_distrib, Finset.sum_const, Finset.card_range, nsmul_eq_mul, ← Finset.sum_filter, Finset.sum_const, nsmul_eq_mul]
    have hcard : ((Finset.range n).filter fun i => n < i + M).card ≤ M := by
      have hsub : (Finset.range n).filter (fun i => n < i + M) ⊆ Finset.Ico (n - M) n := by
        intro i hi
        rw [Finset.mem_filter, Finset.mem_range] at hi
        rw [Finset.mem_Ico]
        omega
      refine (Finset.card_le_card hsub).trans ?_
      rw [Nat.card_Ico]; omega
    have : (((Finset.range n).filter fun i => n < i + M).card : ℝ) * D ^ 2 ≤ M * D ^ 2 :=
      mul_le_mul_of_nonneg_right (by exact_mod_cast hcard) (sq_nonneg D)
    linarith
  have hbound : ∀ M n : ℕ, 0 < n → ∫ ω, ((∑ i ∈ Finset.range n, Y i ω) / n) ^ 2 ∂Pr ≤
      (2 * M * D ^ 2 + D ^ 2) * ((n : ℝ))⁻¹ + 2 * D * ((n : ℝ)⁻¹ * ∑ j ∈ Finset.range n, b M (j + 1 - M)) := by
    intro M n hn
    have hnr : (0 : ℝ) < n := by exact_mod_cast hn
    have h1 := second_moment_sum hYm hYD (hcov M) n
    have e : (fun ω => ((∑ i ∈ Finset.range n, Y i ω) / n) ^ 2) = fun ω => (1 / (n : ℝ) ^ 2) * (∑ i ∈ Finset.range n, Y i ω) ^ 2 := by
      funext ω; rw [div_pow]; ring
    rw [e, integral_const_mul]
    have h2 : ∑ j ∈ Finset.range n, (2 * (M * D ^ 2 + j * (D * b M (j + 1 - M))) + D ^ 2) ≤
        n * (2 * M * D ^ 2 + D ^ 2) + 2 * D * (n * ∑ j ∈ Finset.range n, b M (j + 1 - M)) := by
      have h3 : ∀ j ∈ Finset.range n, (2 * (M * D ^ 2 + j * (D * b M (j + 1 - M))) + D ^ 2) ≤ (2 * M * D ^ 2 + D ^ 2) + 2 * D * n * b M (j + 1 - M) := by
        intro j hj
        have hjn : (j : ℝ) ≤ n := by exact_mod_cast (Finset.mem_range.mp hj).le
        have := mul_le_mul_of_nonneg_right hjn (mul_nonneg hD0 (hbnn M (j + 1 - M)))
        linarith
      refine (Finset.sum_le_sum h3).trans (le_of_eq ?_)
      rw [Finset.sum_add_distrib, Finset.sum_const, Finset.card_range, nsmul_eq_mul, ← Finset.mul_sum]
      ring
    calc _ ≤ (1 / (n : ℝ) ^ 2) * (n * (2 * M * D ^ 2 + D ^ 2) + 2 * D * (n * ∑ j ∈ Finset.range n, b M (j + 1 - M))) :=
          mul_le_mul_of_nonneg_left (h1.trans h2) (by positivity)
      _ = _ := by field_simp
  have hfm := hm.first_moment hf hD h0
  rw [Metric.tendsto_atTop] at hfm ⊢
  intro e he
  obtain ⟨M, hM⟩ := hfm (e / (2 * (2 * D + 1))) (by positivity)
  have hβ := hM M le_rfl
  rw [Real.dist_eq, sub_zero, abs_of_nonneg (integral_nonneg fun s => abs_nonneg _)] at hβ
  have hces : Tendsto (fun n : ℕ => (2 * M * D ^ 2 + D ^ 2) * ((n : ℝ))⁻¹ + 2 * D * ((n : ℝ)⁻¹ * ∑ j ∈ Finset.range n, b M (j + 1 - M))) atTop
      (𝓝 ((2 * M * D ^ 2 + D ^ 2) * 0 + 2 * D * ∫ x, |(push κ)^[M] f x| ∂π)) := by
    refine (tendsto_inv_atTop_nhds_zero_nat.const_mul _).add (Tendsto.const_mul _ ?_)
    refine Filter.Tendsto.cesaro (u := fun j => b M (j + 1 - M)) ((hbto M).comp ?_)
    refine tendsto_atTop_atTop.mpr fun t => ⟨t + M, fun j hj => by omega⟩
  have hlt : (2 * M * D ^ 2 + D ^ 2) * 0 + 2 * D * ∫ x, |(push κ)^[M] f x| ∂π < e := by
    rw [mul_zero, zero_add]
    have h1 : 2 * D * ∫ x, |(push κ)^[M] f x| ∂π ≤ 2 * D * (e / (2 * (2 * D + 1))) := mul_le_mul_of_nonneg_left hβ.le (by positivity)
    have h2 : 2 * D * (e / (2 * (2 * D + 1))) < e := by
      rw [mul_div_assoc', div_lt_iff₀ (by positivity)]
      nlinarith
    linarith
  have hev := hces.eventually (gt_mem_nhds hlt)
  obtain ⟨N, hN⟩ := eventually_atTop.mp hev
  refine ⟨N + 1, fun n hn => ?_⟩
  rw [Real.dist_eq, sub_zero, abs_of_nonneg (integral_nonneg fun s => sq_nonneg _)]
  exact lt_of_le_of_lt (hbound M n (by omega)) (hN n (by omega))

/-- Averages over the samples converge in mean square. -/
theorem average_reaches (hK : Measurable (fun a : S × W => K a.1 a.2)) (hm : Reaching (stepKernel K ν) π) (hw : ∀ i, Measurable (w i)) (hlaw : ∀ i, Pr.map (w i) = ν) (hind : iIndepFun w Pr)
    {z0 : S} (hz : Leaves (stepKernel K ν) π z0) {f : S → ℝ} (hf : Measurable f) {a b : ℝ} (hab : ∀ x, a ≤ f x ∧ f x ≤ b) :
    Tendsto (fun n : ℕ => ∫ ω, ((∑ i ∈ Finset.range n, f (walk K z0 (fun i => w i ω) (i + 1))) / n - ∫ x, f x ∂π) ^ 2 ∂Pr) atTop (𝓝 0) := by
  set c := ∫ x, f x ∂π with hc
  have h1 := average_zero_reaches hK hm hw hlaw hind hz (f := fun x => f x - c) (hf.sub_const c) (D := |a| + |b| + |c|)
    (fun x => ⟨by linarith [(hab x).1, neg_abs_le a, le_abs_self c, abs_nonneg b], by linarith [(hab x).2, le_abs_self b, neg_abs_le c, abs_nonneg a]⟩)
    (by rw [integral_sub (integrable_of_bounds _ hf hab) (integrable_const c)]; simp [hc])
  refine h1.congr' ?_
  filter_upwards [eventually_gt_atTop 0] with n hn
  have hnr : (n : ℝ) ≠ 0 := by exact_mod_cast hn.ne'
  congr 1
  funext ω
  rw [Finset.sum_sub_distrib, Finset.sum_const, Finset.card_range, nsmul_eq_mul, sub_div, mul_div_cancel_left₀ _ hnr]

end

end Edward
