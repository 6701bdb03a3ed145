/-
Chains started where the transition may for a while stay outside of what `π` charges:
laws and averages converge as soon as that becomes improbable. Applied to chains made of
several independently moving copies whose values are then permuted.
-/
import Verif.Lemmas.ErgodicAverage
import Verif.Lemmas.PiMeasure

namespace Edward

set_option linter.unusedSectionVars false

open MeasureTheory ProbabilityTheory Filter Topology

variable {S W Ω : Type} [MeasurableSpace S] [MeasurableSpace W] [MeasurableSpace Ω]

/-- Law of the chain after some steps. -/
noncomputable def stepLaw (κ : ProbabilityTheory.Kernel S S) (s : S) : ℕ → Measure S
  | 0 => Measure.dirac s
  | n + 1 => (stepLaw κ s n).bind κ

/-- Outside of a set that becomes improbable, the chain is distributed with a density. -/
def Fades (κ : ProbabilityTheory.Kernel S S) (π : Measure S) (s : S) : Prop :=
  ∃ N, MeasurableSet N ∧ (∀ n, (stepLaw κ s n).restrict Nᶜ ≪ π) ∧ Tendsto (fun n => stepLaw κ s n N) atTop (𝓝 0)

section
variable {κ : ProbabilityTheory.Kernel S S} [IsMarkovKernel κ] {π : Measure S} [IsProbabilityMeasure π]

instance stepLaw_prob (s : S) (n : ℕ) : IsProbabilityMeasure (stepLaw κ s n) := by
  induction n with
  | zero => unfold stepLaw; infer_instance
  | succ n ih => unfold stepLaw; infer_instance

theorem lintegral_stepLaw_succ (s : S) (n : ℕ) {f : S → ENNReal} (hf : Measurable f) :
    ∫⁻ x, f x ∂stepLaw κ s (n + 1) = ∫⁻ x, ∫⁻ y, f y ∂κ x ∂stepLaw κ s n :=
  Measure.lintegral_bind κ.aemeasurable hf.aemeasurable

theorem integral_stepLaw (s : S) (n : ℕ) : ∀ (k : ℕ) {f : S → ℝ} {a b : ℝ}, Measurable f → (∀ x, a ≤ f x ∧ f x ≤ b) →
    (push κ)^[n + k] f s = ∫ x, (push κ)^[k] f x ∂stepLaw κ s n := by
  induction n with
  | zero =>
    intro k f a b hf hab
    obtain ⟨h1, -⟩ := push_iterate_basic (κ := κ) k hf hab
    rw [zero_add]
    unfold stepLaw
    rw [integral_dirac' _ _ h1.stronglyMeasurable]
  | succ n ih =>
    intro k f a b hf hab
    rw [show n + 1 + k = n + (k + 1) by omega, ih (k + 1) hf hab]
    obtain ⟨h1, h2⟩ := push_iterate_basic (κ := κ) k hf hab
    have e2 : (κ ∘ₖ ProbabilityTheory.Kernel.const Unit (stepLaw κ s n)) () = stepLaw κ s (n + 1) := by
      rw [ProbabilityTheory.Kernel.comp_apply, ProbabilityTheory.Kernel.const_apply, stepLaw]
    have h3 := ProbabilityTheory.Kernel.integral_comp (κ := ProbabilityTheory.Kernel.const Unit (stepLaw κ s n)) (η := κ) (a := ())
      (f := (push κ)^[k] f) (by rw [e2]; exact integrable_of_bounds _ h1 h2)
    rw [e2, ProbabilityTheory.Kernel.const_apply] at h3
    rw [h3]
    simp only [Function.iterate_succ_apply', push]

theorem Fades.pointwise_zero {s : S} (hs : Fades κ π s) (h : Reaching κ π) {f : S → ℝ} (hf : Measurable f) {D : ℝ} (hD : ∀ x, -D ≤ f x ∧ f x ≤ D) (h0 : ∫ x, f x ∂π = 0) :
    Tendsto (fun n => (push κ)^[n] f s) atTop (𝓝 0) := by
  obtain ⟨N, hN, hac, hfade⟩ := hs
  have hD0 : 0 ≤ D := by have := hD s; linarith
  rw [Metric.tendsto_atTop]
  intro e he
  have hr : Tendsto (fun n => (stepLaw κ s n).real N) atTop (𝓝 0) := by
    have := (ENNReal.tendsto_toReal ENNReal.zero_ne_top).comp hfade
    simpa [Function.comp_def, Measure.real] using this
  rw [Metric.tendsto_atTop] at hr
  obtain ⟨n, hn⟩ := hr (e / (2 * (D + 1))) (by positivity)
  have hn := hn n le_rfl
  rw [Real.dist_eq, sub_zero, abs_of_nonneg measureReal_nonneg] at hn
  have hk := h.integral_tendsto hf hD h0 (hac n)
  rw [Metric.tendsto_atTop] at hk
  obtain ⟨k0, hk0⟩ := hk (e / 2) (half_pos he)
  refine ⟨n + k0, fun m hm => ?_⟩
  obtain ⟨k, rfl⟩ : ∃ k, m = n + k := ⟨m - n, by omega⟩
  have h1 := hk0 k (by omega)
  rw [Real.dist_eq, sub_zero] at h1 ⊢
  obtain ⟨g1, g2⟩ := push_iterate_basic (κ := κ) k hf hD
  rw [integral_stepLaw s n k hf hD, ← integral_add_compl hN (integrable_of_bounds _ g1 g2)]
  have h2 : |∫ x in N, (push κ)^[k] f x ∂stepLaw κ s n| ≤ D * (stepLaw κ s n).real N := by
    have := norm_setIntegral_le_of_norm_le_const (μ := stepLaw κ s n) (s := N) (f := (push κ)^[k] f) (C := D) (measure_lt_top _ _)
      (fun x _ => by rw [Real.norm_eq_abs]; exact abs_le.mpr (g2 x))
    rwa [Real.norm_eq_abs] at this
  have h3 : D * (stepLaw κ s n).real N ≤ e / 2 := by
    calc D * (stepLaw κ s n).real N ≤ (D + 1) * (e / (2 * (D + 1))) := by
          apply mul_le_mul (by linarith) hn.le measureReal_nonneg (by linarith)
      _ = e / 2 := by field_simp
  calc _ ≤ |∫ x in N, (push κ)^[k] f x ∂stepLaw κ s n| + |∫ x in Nᶜ, (push κ)^[k] f x ∂stepLaw κ s n| := abs_add_le _ _
    _ < e := by linarith

theorem Fades.pointwise {s : S} (hs : Fades κ π s) (h : Reaching κ π) {f : S → ℝ} (hf : Measurable f) {a b : ℝ} (hab : ∀ x, a ≤ f x ∧ f x ≤ b) :
    Tendsto (fun n => (push κ)^[n] f s) atTop (𝓝 (∫ x, f x ∂π)) := by
  set c := ∫ x, f x ∂π with hc
  have h1 := hs.pointwise_zero h (f := fun x => f x - c) (hf.sub_const c) (D := |a| + |b| + |c|)
    (fun x => ⟨by linarith [(hab x).1, neg_abs_le a, le_abs_self c, abs_nonneg b], by linarith [(hab x).2, le_abs_self b, neg_abs_le c, abs_nonneg a]⟩)
    (by rw [integral_sub (integrable_of_bounds _ hf hab) (integrable_const c)]; simp [hc])
  simp only [push_iterate_sub_const _ hf hab] at h1
  simpa using h1.add_const c

theorem Fades.regular {s : S} (hs : Fades κ π s) : Regular κ π s := by
  obtain ⟨N, hN, hac, hfade⟩ := hs
  intro b hbm hble hstep hb0
  have hlaw : ∀ n, b s = ∫⁻ x, b x ∂stepLaw κ s n := by
    intro n
    induction n with
    | zero => unfold stepLaw; rw [lintegral_dirac' _ hbm]
    | succ n ih =>
      rw [lintegral_stepLaw_succ s n hbm, ih]
      exact lintegral_congr fun x => hstep x
  have hle : ∀ n, b s ≤ stepLaw κ s n N := by
    intro n
    rw [hlaw n, ← lintegral_add_compl b hN, lintegral_congr_ae ((hac n).ae_le hb0), lintegral_zero, add_zero]
    calc ∫⁻ x in N, b x ∂stepLaw κ s n ≤ ∫⁻ x in N, 1 ∂stepLaw κ s n := lintegral_mono fun x => hble x
      _ = _ := by simp
  exact le_antisymm (ge_of_tendsto' hfade hle) zero_le

end

section
variable {K : S → W → S} {ν : Measure W} [IsProbabilityMeasure ν] {π : Measure S} [IsProbabilityMeasure π]
  {Pr : Measure Ω} [IsProbabilityMeasure Pr] {w : ℕ → Ω → W}

theorem law_fades (hK : Measurable (fun a : S × W => K a.1 a.2)) (hm : Reaching (stepKernel K ν) π) (hw : ∀ i, Measurable (w i)) (hlaw : ∀ i, Pr.map (w i) = ν) (hind : iIndepFun w Pr)
    {z0 : S} (hz : Fades (stepKernel K ν) π z0) {f : S → ℝ} (hf : Measurable f) {a b : ℝ} (hab : ∀ x, a ≤ f x ∧ f x ≤ b) :
    Tendsto (fun n => ∫ ω, f (walk K z0 (fun i => w i ω) n) ∂Pr) atTop (𝓝 (∫ x, f x ∂π)) := by
  have := stepKernel_markov (ν := ν) hK
  simp only [expect_walk hK hw hlaw hind z0 hf hab]
  exact hz.pointwise hm hf hab

end

/-! ### Several copies, permuted -/

section
variable {n : ℕ}

/-- Copies that move independently (`κ`), then are permuted (`X`). -/
structure Permuted (κ : Fin n → ProbabilityTheory.Kernel S S) (π : Fin n → Measure S) (X : ProbabilityTheory.Kernel (Fin n → S) (Fin n → S)) : Prop where
  reaching : ∀ i, Reaching (κ i) (π i)
  equiv : ∀ i j, π i ≪ π j
  permutes : ∀ z A, MeasurableSet A → X z A ≤ ∑ σ : Equiv.Perm (Fin n), A.indicator 1 (fun i => z (σ i))
  invariant : (Measure.pi π).bind X = Measure.pi π

variable {κ : Fin n → ProbabilityTheory.Kernel S S} [∀ i, IsMarkovKernel (κ i)] {π : Fin n → Measure S} [∀ i, IsProbabilityMeasure (π i)]
  {X : ProbabilityTheory.Kernel (Fin n → S) (Fin n → S)} [IsMarkovKernel X]

theorem Permuted.reach (h : Permuted κ π X) : Reaching (X ∘ₖ piKernel κ) (Measure.pi π) := by
  have hb : (Measure.pi π).bind (piKernel κ) = Measure.pi π := by
    rw [pi_bind]
    congr 1
    funext i
    exact (h.reaching i).bind
  refine ⟨fun A hA => ?_, ?_⟩
  · rw [← Measure.bind_apply hA (ProbabilityTheory.Kernel.aemeasurable _), ← Measure.comp_assoc, hb, h.invariant]
  · have hae : ∀ᵐ z ∂Measure.pi π, ∀ i, π i ≪ κ i (z i) := by
      rw [ae_all_iff]
      exact fun i => Measure.tendsto_eval_ae_ae (h.reaching i).reach
    filter_upwards [hae] with z hz
    have hac : Measure.pi π ≪ piKernel κ z := by
      rw [piKernel_apply]; exact pi_absolutelyContinuous hz
    refine Measure.AbsolutelyContinuous.mk fun A hA h0 => ?_
    rw [ProbabilityTheory.Kernel.comp_apply' _ _ _ hA, lintegral_eq_zero_iff (X.measurable_coe hA)] at h0
    have h1 := hac.ae_le h0
    rw [← h.invariant, Measure.bind_apply hA X.aemeasurable, lintegral_congr_ae h1]
    simp

theorem permute_measurePreserving (ρ : Measure S) [SigmaFinite ρ] (σ : Equiv.Perm (Fin n)) :
    MeasurePreserving (fun (z : Fin n → S) i => z (σ i)) (Measure.pi fun _ => ρ) (Measure.pi fun _ => ρ) := by
  have := measurePreserving_piCongrLeft (fun _ : Fin n => ρ) σ.symm
  convert this using 1
  funext z i
  rw [MeasurableEquiv.coe_piCongrLeft]
  conv_rhs => rw [← Equiv.apply_symm_apply σ.symm i]
  rw [Equiv.piCongrLeft_apply_apply]
  simp

variable [MeasurableSingletonClass S]

/-- If from every starting value every copy leaves, the values of the start fade. -/
theorem Permuted.fades (h : Permuted κ π X) (y : Fin n → S) (hy : ∀ i k, Leaves (κ i) (π i) (y k)) :
    Fades (X ∘ₖ piKernel κ) (Measure.pi π) y := by
  classical
  rcases Nat.eq_zero_or_pos n with hn | hn
  · subst hn
    refine ⟨∅, MeasurableSet.empty, fun k => ?_, by simp⟩
    refine Measure.AbsolutelyContinuous.mk fun A hA h0 => ?_
    have : A = ∅ := by
      by_contra hne
      rw [← ne_eq, ← Set.nonempty_iff_ne_empty] at hne
      have : A = Set.univ := Subsingleton.eq_univ_of_nonempty hne
      rw [this, measure_univ] at h0
      exact one_ne_zero h0
    rw [this]; simp
  set i0 : Fin n := ⟨0, hn⟩ with hi0
  set base : Measure S := π i0 + ∑ k, Measure.dirac (y k) with hbase
  have hfin : IsFiniteMeasure base := by rw [hbase]; infer_instance
  have base_zero : ∀ {A : Set S}, MeasurableSet A → (base A = 0 ↔ π i0 A = 0 ∧ ∀ k, y k ∉ A) := by
    intro A hA
    rw [hbase, Measure.add_apply, Measure.finsetSum_apply, add_eq_zero, Finset.sum_eq_zero_iff]
    simp [Measure.dirac_apply' _ hA]
  set Y0 : Set S := {s | (∃ k, s = y k) ∧ π i0 {s} = 0} with hY0
  have hY0f : Y0.Finite := (Set.finite_range y).subset fun s ⟨⟨k, e⟩, _⟩ => ⟨k, e.symm⟩
  have hY0m : MeasurableSet Y0 := hY0f.measurableSet
  have hY0n : ∀ i, π i Y0 = 0 := fun i => (h.equiv i i0) (by
    rw [← hY0f.coe_toFinset, ← sum_measure_singleton, Finset.sum_eq_zero_iff]
    intro s hs
    exact ((hY0f.mem_toFinset).mp hs).2)
  -- what the copies do from the base measure
  have hkeep : ∀ i, base.bind (κ i) ≪ base := by
    intro i
    refine Measure.AbsolutelyContinuous.mk fun A hA h0 => ?_
    obtain ⟨h1, h2⟩ := (base_zero hA).mp h0
    rw [Measure.bind_apply hA (κ i).aemeasurable, hbase, lintegral_add_measure, lintegral_finsetSum_measure, add_eq_zero, Finset.sum_eq_zero_iff]
    refine ⟨?_, fun k _ => ?_⟩
    · have h3 : ∫⁻ s, κ i s A ∂π i = 0 := by rw [(h.reaching i).invariant A hA]; exact h.equiv i i0 h1
      rw [lintegral_eq_zero_iff ((κ i).measurable_coe hA)] at h3 ⊢
      exact (h.equiv i0 i).ae_le h3
    · rw [lintegral_dirac' _ ((κ i).measurable_coe hA)]
      obtain ⟨r, ν, hr0, hr, hν, e⟩ := hy i k
      rw [e, Measure.add_apply, Measure.smul_apply, Measure.dirac_apply' _ hA, Set.indicator_of_notMem (h2 k), hν (h.equiv i i0 h1)]
      simp
  set lam : Measure (Fin n → S) := Measure.pi fun _ => base with hlam
  have hX : lam.bind X ≪ lam := by
    refine Measure.AbsolutelyContinuous.mk fun A hA h0 => ?_
    rw [Measure.bind_apply hA X.aemeasurable]
    refine le_antisymm ?_ zero_le
    calc ∫⁻ z, X z A ∂lam ≤ ∫⁻ z, ∑ σ : Equiv.Perm (Fin n), A.indicator 1 (fun i => z (σ i)) ∂lam := lintegral_mono fun z => h.permutes z A hA
      _ = ∑ σ : Equiv.Perm (Fin n), ∫⁻ z, A.indicator 1 (fun i => z (σ i)) ∂lam := by
        refine lintegral_finsetSum _ fun σ _ => ?_
        exact (measurable_one.indicator hA).comp (measurable_pi_lambda _ fun i => measurable_pi_apply _)
      _ = 0 := by
        refine Finset.sum_eq_zero fun σ _ => ?_
        rw [(permute_measurePreserving base σ).lintegral_comp (measurable_one.indicator hA), lintegral_indicator_one hA]
        exact h0
  have hM : lam.bind (piKernel κ) ≪ lam := by
    rw [hlam, pi_bind]
    exact pi_absolutelyContinuous hkeep
  have hlawac : ∀ t, stepLaw (X ∘ₖ piKernel κ) y t ≪ lam := by
    intro t
    induction t with
    | zero =>
      refine Measure.AbsolutelyContinuous.mk fun A hA h0 => ?_
      unfold stepLaw
      rw [Measure.dirac_apply' _ hA]
      refine Set.indicator_of_notMem (fun hyA => ?_) _
      have h1 : lam {y} ≤ 0 := by rw [← h0]; exact measure_mono (Set.singleton_subset_iff.mpr hyA)
      rw [hlam, Measure.pi_singleton, nonpos_iff_eq_zero, Finset.prod_eq_zero_iff] at h1
      obtain ⟨i, -, hi⟩ := h1
      exact ((base_zero (measurableSet_singleton _)).mp hi).2 i rfl
    | succ t ih =>
      unfold stepLaw
      rw [← Measure.comp_assoc]
      exact (((ih.comp_right (piKernel κ)).trans hM).comp_right X).trans hX
  -- the values of the start that the target neglects
  set N : Set (Fin n → S) := (Set.univ.pi fun _ => Y0ᶜ)ᶜ with hN
  have hNm : MeasurableSet N := (MeasurableSet.univ_pi fun _ => hY0m.compl).compl
  have hout : lam.restrict Nᶜ ≪ Measure.pi π := by
    rw [hN, compl_compl, hlam, Measure.restrict_pi_pi]
    refine pi_absolutelyContinuous fun i => Measure.AbsolutelyContinuous.mk fun A hA h0 => ?_
    have h1 := h.equiv i0 i h0
    rw [Measure.restrict_apply hA]
    refine (base_zero (hA.inter hY0m.compl)).mpr ⟨measure_mono_null Set.inter_subset_left h1, fun k hk => ?_⟩
    refine hk.2 ⟨⟨k, rfl⟩, measure_mono_null (Set.singleton_subset_iff.mpr hk.1) h1⟩
  -- how many copies hold one of them
  set c : (Fin n → S) → ENNReal := fun z => ∑ i, Y0.indicator 1 (z i) with hc
  have hcm : Measurable c := Finset.measurable_sum _ fun i _ => (measurable_one.indicator hY0m).comp (measurable_pi_apply i)
  choose r ν hr0 hr hν hκ using hy
  obtain ⟨R, hR0, hR1, hRle⟩ : ∃ R : ℝ, 0 ≤ R ∧ R < 1 ∧ ∀ i k, r i k ≤ R := by
    have hne : (Finset.univ : Finset (Fin n × Fin n)).Nonempty := ⟨(i0, i0), Finset.mem_univ _⟩
    refine ⟨Finset.univ.sup' hne fun p : Fin n × Fin n => r p.1 p.2, ?_, ?_, fun i k => ?_⟩
    · exact (hr0 i0 i0).trans (Finset.le_sup' (fun p : Fin n × Fin n => r p.1 p.2) (Finset.mem_univ (i0, i0)))
    · rw [Finset.sup'_lt_iff]; exact fun p _ => hr p.1 p.2
    · exact Finset.le_sup' (fun p : Fin n × Fin n => r p.1 p.2) (Finset.mem_univ (i, k))
  have hstay : ∀ i, ∀ᵐ s ∂base, κ i s Y0 ≤ ENNReal.ofReal R * Y0.indicator 1 s := by
    intro i
    have hms : MeasurableSet {s | κ i s Y0 ≤ ENNReal.ofReal R * Y0.indicator 1 s} :=
      measurableSet_le ((κ i).measurable_coe hY0m) (measurable_const.mul (measurable_one.indicator hY0m))
    rw [ae_iff]
    refine (base_zero hms.compl).mpr ⟨?_, fun k hk => hk ?_⟩
    · have h3 : ∫⁻ s, κ i s Y0 ∂π i = 0 := by rw [(h.reaching i).invariant Y0 hY0m, hY0n]
      rw [lintegral_eq_zero_iff ((κ i).measurable_coe hY0m)] at h3
      show ∀ᵐ s ∂π i0, κ i s Y0 ≤ ENNReal.ofReal R * Y0.indicator 1 s
      filter_upwards [(h.equiv i0 i).ae_le h3] with s hs
      rw [hs]; exact zero_le
    · show κ i (y k) Y0 ≤ ENNReal.ofReal R * Y0.indicator 1 (y k)
      rw [hκ i k, Measure.add_apply, Measure.smul_apply, Measure.dirac_apply' _ hY0m, hν i k (hY0n i), add_zero, smul_eq_mul]
      exact mul_le_mul_left (ENNReal.ofReal_le_ofReal (hRle i k)) _
  have hcX : ∀ z, ∫⁻ z', c z' ∂X z = c z := by
    intro z
    have hfull : ∀ᵐ z' ∂X z, ∃ σ : Equiv.Perm (Fin n), z' = fun i => z (σ i) := by
      set B : Set (Fin n → S) := Set.range fun σ : Equiv.Perm (Fin n) => fun i => z (σ i) with hB
      have hBm : MeasurableSet B := (Set.finite_range _).measurableSet
      have h1 := h.permutes z Bᶜ hBm.compl
      rw [Finset.sum_eq_zero (fun σ _ => Set.indicator_of_notMem (s := Bᶜ) (fun hc => hc (Set.mem_range_self σ)) _)] at h1
      have h2 : ∀ᵐ z' ∂X z, z' ∈ B := by
        rw [ae_iff]; exact le_antisymm h1 zero_le
      filter_upwards [h2] with z' hz'
      obtain ⟨σ, e⟩ := hz'
      exact ⟨σ, e.symm⟩
    have : ∀ᵐ z' ∂X z, c z' = c z := by
      filter_upwards [hfull] with z' hz'
      obtain ⟨σ, rfl⟩ := hz'
      simp only [hc]
      exact Equiv.sum_comp σ fun i => Y0.indicator (1 : S → ENNReal) (z i)
    rw [lintegral_congr_ae this]
    simp
  have hcM : ∀ᵐ z ∂lam, ∫⁻ z', c z' ∂piKernel κ z ≤ ENNReal.ofReal R * c z := by
    have hall : ∀ᵐ z ∂lam, ∀ i, κ i (z i) Y0 ≤ ENNReal.ofReal R * Y0.indicator 1 (z i) := by
      rw [ae_all_iff]
      intro i
      have := (Measure.tendsto_eval_ae_ae (μ := fun _ : Fin n => base) (i := i)) (hstay i)
      exact this
    filter_upwards [hall] with z hz
    have e : ∫⁻ z', c z' ∂piKernel κ z = ∑ i, κ i (z i) Y0 := by
      simp only [hc]
      have hmi : ∀ i ∈ (Finset.univ : Finset (Fin n)), Measurable (fun z : Fin n → S => Y0.indicator (1 : S → ENNReal) (z i)) :=
        fun i _ => (measurable_one.indicator hY0m).comp (measurable_pi_apply i)
      rw [lintegral_finsetSum _ hmi]
      refine Finset.sum_congr rfl fun i _ => ?_
      rw [piKernel_apply, (measurePreserving_eval (fun i => κ i (z i)) i).lintegral_comp (measurable_one.indicator hY0m), lintegral_indicator_one hY0m]
    rw [e, Finset.mul_sum]
    exact Finset.sum_le_sum fun i _ => hz i
  have hdecay : ∀ t, ∫⁻ z, c z ∂stepLaw (X ∘ₖ piKernel κ) y t ≤ ENNReal.ofReal R ^ t * n := by
    intro t
    induction t with
    | zero =>
      unfold stepLaw
      rw [lintegral_dirac' _ hcm, pow_zero, one_mul]
      calc c y ≤ ∑ i : Fin n, 1 := Finset.sum_le_sum fun i _ => Set.indicator_le_self' (fun _ _ => zero_le) _
        _ = n := by simp
    | succ t ih =>
      rw [lintegral_stepLaw_succ y t hcm]
      calc ∫⁻ x, ∫⁻ z, c z ∂(X ∘ₖ piKernel κ) x ∂stepLaw (X ∘ₖ piKernel κ) y t
          = ∫⁻ x, ∫⁻ z, c z ∂piKernel κ x ∂stepLaw (X ∘ₖ piKernel κ) y t := by
            refine lintegral_congr fun x => ?_
            rw [ProbabilityTheory.Kernel.lintegral_comp _ _ _ hcm]
            exact lintegral_congr fun z => hcX z
        _ ≤ ∫⁻ x, ENNReal.ofReal R * c x ∂stepLaw (X ∘ₖ piKernel κ) y t := lintegral_mono_ae ((hlawac t).ae_le hcM)
        _ = ENNReal.ofReal R * ∫⁻ x, c x ∂stepLaw (X ∘ₖ piKernel κ) y t := lintegral_const_mul _ hcm
        _ ≤ ENNReal.ofReal R * (ENNReal.ofReal R ^ t * n) := mul_le_mul_right ih _
        _ = _ := by rw [pow_succ]; ring
  refine ⟨N, hNm, fun t => ((hlawac t).restrict Nᶜ).trans hout, ?_⟩
  refine tendsto_of_tendsto_of_tendsto_of_le_of_le tendsto_const_nhds (h := fun t => ENNReal.ofReal R ^ t * n) ?_ (fun _ => zero_le) fun t => ?_
  · have h1 : Tendsto (fun t : ℕ => ENNReal.ofReal R ^ t) atTop (𝓝 0) :=
      ENNReal.tendsto_pow_atTop_nhds_zero_of_lt_one (by rw [← ENNReal.ofReal_one]; exact (ENNReal.ofReal_lt_ofReal_iff one_pos).mpr hR1)
    have := ENNReal.Tendsto.mul_const h1 (b := (n : ENNReal)) (Or.inr (ENNReal.natCast_ne_top n))
    simpa using this
  · refine le_trans ?_ (hdecay t)
    rw [← lintegral_indicator_one hNm]
    refine lintegral_mono fun z => ?_
    by_cases hz : z ∈ N
    · rw [Set.indicator_of_mem hz]
      simp only [hN, Set.mem_compl_iff, Set.mem_univ_pi, not_forall, not_not] at hz
      obtain ⟨i, hi⟩ := hz
      calc (1 : ENNReal) = Y0.indicator 1 (z i) := by rw [Set.indicator_of_mem hi, Pi.one_apply]
        _ ≤ c z := Finset.single_le_sum (f := fun i => Y0.indicator (1 : S → ENNReal) (z i)) (fun _ _ => zero_le) (Finset.mem_univ i)
    · rw [Set.indicator_of_notMem hz]; exact zero_le

end

end Edward
