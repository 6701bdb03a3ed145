/-
Accept/reject transitions that can propose every state of positive density from every
other: they preserve the normalised density, reach all it charges, and leave every state
of positive density.
-/
import Verif.Lemmas.MHKernel
import Verif.Lemmas.Positive

namespace Edward

set_option linter.unusedSectionVars false

open MeasureTheory ProbabilityTheory ENNReal

variable {Y : Type} [MeasurableSpace Y]

/-- The reference measure on states in which every latent variable has a proposal. -/
noncomputable abbrev refMeasure (μ : Measure Y) : Measure (Y × Unit) := μ.prod (Measure.dirac ())

theorem lintegral_ref (μ : Measure Y) [SFinite μ] (f : Y × Unit → ℝ≥0∞) (hf : Measurable f) :
    ∫⁻ s, f s ∂(refMeasure μ) = ∫⁻ y, f (y, ()) ∂μ := by
  rw [lintegral_prod _ hf.aemeasurable]
  simp

/-- A density, normalised. -/
noncomputable def normalised {S : Type} [MeasurableSpace S] (p : S → ℝ≥0∞) (ρ : Measure S) : Measure S :=
  (∫⁻ s, p s ∂ρ)⁻¹ • ρ.withDensity p

/-- The transition `κ` proposes from `g`, accepts by `ratio`, for the target `p`. -/
structure ReachMH (p : Y × Unit → ℝ≥0∞) (g : Y × Unit → Y × Unit → ℝ≥0∞) (ratio : Y × Unit → Y × Unit → EReal)
    (μ : Measure Y) (κ : ProbabilityTheory.Kernel (Y × Unit) (Y × Unit)) : Prop where
  mh : IsMH p g ratio
  evidence_pos : ∫⁻ y, p (y, ()) ∂μ ≠ 0
  evidence_fin : ∫⁻ y, p (y, ()) ∂μ ≠ ∞
  norm : ∀ s : Y × Unit, ∫⁻ y', g s (y', s.2) ∂μ = 1
  reach : ∀ y y', p (y, ()) ≠ 0 → p (y', ()) ≠ 0 → g (y, ()) (y', ()) ≠ 0
  law : ∀ s A, MeasurableSet A → κ s A = acceptReject μ g ratio (A.indicator 1) s

variable {p : Y × Unit → ℝ≥0∞} {g : Y × Unit → Y × Unit → ℝ≥0∞} {ratio : Y × Unit → Y × Unit → EReal}
  {μ : Measure Y} [SFinite μ] {κ : ProbabilityTheory.Kernel (Y × Unit) (Y × Unit)}

theorem normalised_apply (hp : Measurable p) {A : Set (Y × Unit)} (hA : MeasurableSet A) :
    normalised p (refMeasure μ) A = (∫⁻ y, p (y, ()) ∂μ)⁻¹ * ∫⁻ y, p (y, ()) * A.indicator 1 (y, ()) ∂μ := by
  unfold normalised
  rw [Measure.smul_apply, withDensity_apply _ hA, smul_eq_mul, ← lintegral_indicator hA, lintegral_ref μ _ hp,
    lintegral_ref μ _ (hp.indicator hA)]
  congr 1
  refine lintegral_congr fun y => ?_
  by_cases h : (y, ()) ∈ A <;> simp [h]

theorem ReachMH.prob (h : ReachMH p g ratio μ κ) : IsProbabilityMeasure (normalised p (refMeasure μ)) := by
  refine ⟨?_⟩
  rw [normalised_apply h.mh.joint_meas MeasurableSet.univ]
  simp only [Set.indicator_univ, Pi.one_apply, mul_one]
  exact ENNReal.inv_mul_cancel h.evidence_pos h.evidence_fin

/-- A set has probability zero when the density vanishes almost everywhere on it. -/
theorem normalised_zero_iff (hp : Measurable p) (hfin : ∫⁻ y, p (y, ()) ∂μ ≠ ∞) {A : Set (Y × Unit)} (hA : MeasurableSet A) :
    normalised p (refMeasure μ) A = 0 ↔ ∀ᵐ y ∂μ, p (y, ()) * A.indicator 1 (y, ()) = 0 := by
  rw [normalised_apply hp hA]
  have hmeas : Measurable (fun y' => p (y', ()) * A.indicator (1 : Y × Unit → ℝ≥0∞) (y', ())) :=
    (hp.comp (measurable_id.prodMk measurable_const)).mul
      ((measurable_one.indicator hA).comp (measurable_id.prodMk measurable_const))
  rw [mul_eq_zero, lintegral_eq_zero_iff hmeas]
  have : (∫⁻ y, p (y, ()) ∂μ)⁻¹ ≠ 0 := ENNReal.inv_ne_zero.mpr hfin
  simp only [this, false_or]
  rfl

theorem ReachMH.invariant (h : ReachMH p g ratio μ κ) {A : Set (Y × Unit)} (hA : MeasurableSet A) :
    ∫⁻ s, κ s A ∂normalised p (refMeasure μ) = normalised p (refMeasure μ) A := by
  have hj := h.mh.joint_meas
  simp only [h.law _ A hA]
  have hinv := h.mh.invariant μ (Measure.dirac ()) h.norm (A.indicator 1) (measurable_one.indicator hA)
  have hem : Measurable (fun s => acceptReject μ g ratio (A.indicator 1) s) := by
    have := κ.measurable_coe hA
    simpa only [h.law _ A hA] using this
  have e : ∫⁻ s, (p * fun s => acceptReject μ g ratio (A.indicator 1) s) s ∂refMeasure μ =
      ∫⁻ y, p (y, ()) * acceptReject μ g ratio (A.indicator 1) (y, ()) ∂μ := lintegral_ref μ _ (hj.mul hem)
  simp only [lintegral_dirac] at hinv
  rw [normalised_apply hj hA, ← hinv]
  unfold normalised
  rw [lintegral_smul_measure, lintegral_withDensity_eq_lintegral_mul _ hj hem, e, lintegral_ref μ _ hj, smul_eq_mul]

/-- Probability of moving into a set: the flow into it, and what is rejected. -/
theorem ReachMH.split (h : ReachMH p g ratio μ κ) (y : Y) {A : Set (Y × Unit)} (hA : MeasurableSet A) :
    p (y, ()) * κ (y, ()) A =
      (∫⁻ y', flow p g (y, ()) y' * A.indicator 1 (y', ()) ∂μ) +
      A.indicator 1 (y, ()) * ∫⁻ y', p (y, ()) * g (y, ()) (y', ()) * (1 - acceptProb (ratio (y, ()) (y', ()))) ∂μ := by
  rw [h.law _ A hA, h.mh.joint_expect μ _ (measurable_one.indicator hA)]

theorem ReachMH.measurable_flow (h : ReachMH p g ratio μ κ) (y : Y) : Measurable (fun y' => flow p g (y, ()) y') := by
  have hj := h.mh.joint_meas
  have hp := h.mh.prop_meas
  unfold flow
  exact (measurable_const.mul (hp.comp (measurable_const.prodMk (measurable_id.prodMk measurable_const)))).min
    ((hj.comp (measurable_id.prodMk measurable_const)).mul (hp.comp ((measurable_id.prodMk measurable_const).prodMk measurable_const)))

theorem ReachMH.flow_ne_zero (h : ReachMH p g ratio μ κ) {y y' : Y} (hy : p (y, ()) ≠ 0) (hy' : p (y', ()) ≠ 0) :
    flow p g (y, ()) y' ≠ 0 := by
  unfold flow
  rw [← pos_iff_ne_zero]
  exact lt_min (pos_iff_ne_zero.mpr (mul_ne_zero hy (h.reach y y' hy hy'))) (pos_iff_ne_zero.mpr (mul_ne_zero hy' (h.reach y' y hy' hy)))

theorem ReachMH.reaching (h : ReachMH p g ratio μ κ) :
    Reaching κ (normalised p (refMeasure μ)) := by
  refine ⟨fun A hA => h.invariant hA, ?_⟩
  have hj := h.mh.joint_meas
  have hpos : ∀ᵐ s ∂normalised p (refMeasure μ), p s ≠ 0 := by
    have hb : MeasurableSet {s : Y × Unit | p s = 0} := (measurableSet_singleton (0 : ℝ≥0∞)).preimage hj
    rw [ae_iff]
    simp only [not_not]
    refine (normalised_zero_iff h.mh.joint_meas h.evidence_fin hb).mpr (ae_of_all _ fun y => ?_)
    by_cases hy : p (y, ()) = 0
    · rw [hy, zero_mul]
    · rw [Set.indicator_of_notMem (show (y, ()) ∉ {s : Y × Unit | p s = 0} from hy), mul_zero]
  filter_upwards [hpos] with s hs
  obtain ⟨y, ⟨⟩⟩ := s
  refine Measure.AbsolutelyContinuous.mk fun A hA h0 => ?_
  have h1 := h.split y hA
  rw [h0, mul_zero] at h1
  have h2 := (add_eq_zero.mp h1.symm).1
  have hfm : Measurable (fun y' => flow p g (y, ()) y' * A.indicator (1 : Y × Unit → ℝ≥0∞) (y', ())) :=
    (h.measurable_flow y).mul ((measurable_one.indicator hA).comp (measurable_id.prodMk measurable_const))
  rw [lintegral_eq_zero_iff hfm] at h2
  refine (normalised_zero_iff h.mh.joint_meas h.evidence_fin hA).mpr ?_
  filter_upwards [h2] with y' hy'
  by_cases hj' : p (y', ()) = 0
  · rw [hj', zero_mul]
  · rcases mul_eq_zero.mp hy' with hz | hz
    · exact absurd hz (h.flow_ne_zero hs hj')
    · rw [hz, mul_zero]

/-- A starting point is left for good if every state of positive density can be proposed from
it and such proposals, and no others, may be accepted. -/
theorem ReachMH.leaves (h : ReachMH p g ratio μ κ) [IsMarkovKernel κ] {y : Y}
    (hα : Measurable (fun y' => acceptProb (ratio (y, ()) (y', ())))) (hg : ∀ y', p (y', ()) ≠ 0 → g (y, ()) (y', ()) ≠ 0)
    (hacc : ∀ y', g (y, ()) (y', ()) ≠ 0 → (acceptProb (ratio (y, ()) (y', ())) = 0 ↔ p (y', ()) = 0)) :
    Leaves κ (normalised p (refMeasure μ)) (y, ()) := by
  have hj := h.mh.joint_meas
  have hpair : Measurable (fun y' : Y => ((y', ()) : Y × Unit)) := measurable_id.prodMk measurable_const
  have hgm : Measurable (fun y' => g (y, ()) (y', ())) := h.mh.prop_meas.comp (measurable_const.prodMk hpair)
  have hdm : Measurable (fun y' => g (y, ()) (y', ()) * acceptProb (ratio (y, ()) (y', ()))) := hgm.mul hα
  set R := ∫⁻ y', g (y, ()) (y', ()) * (1 - acceptProb (ratio (y, ()) (y', ()))) ∂μ with hR
  set ν : Measure (Y × Unit) := (μ.withDensity (fun y' => g (y, ()) (y', ()) * acceptProb (ratio (y, ()) (y', ())))).map (fun y' => (y', ())) with hν
  have hνA : ∀ A, MeasurableSet A → ν A = ∫⁻ y', g (y, ()) (y', ()) * acceptProb (ratio (y, ()) (y', ())) * A.indicator 1 (y', ()) ∂μ := by
    intro A hA
    rw [hν, Measure.map_apply hpair hA, withDensity_apply _ (hpair hA), ← lintegral_indicator (hpair hA)]
    refine lintegral_congr fun y' => ?_
    by_cases hc : (y', ()) ∈ A
    · rw [Set.indicator_of_mem (show y' ∈ (fun y' : Y => ((y', ()) : Y × Unit)) ⁻¹' A from hc), Set.indicator_of_mem hc]; simp
    · rw [Set.indicator_of_notMem (show y' ∉ (fun y' : Y => ((y', ()) : Y × Unit)) ⁻¹' A from hc), Set.indicator_of_notMem hc]; simp
  have hsplit : ∀ A, MeasurableSet A → κ (y, ()) A = ν A + R * A.indicator 1 (y, ()) := by
    intro A hA
    have hI : Measurable (fun y' : Y => A.indicator (1 : Y × Unit → ℝ≥0∞) (y', ())) := (measurable_one.indicator hA).comp hpair
    have h1 : Measurable (fun y' => g (y, ()) (y', ()) * (1 - acceptProb (ratio (y, ()) (y', ())))) := hgm.mul (measurable_const.sub hα)
    have h2 : Measurable (fun y' => g (y, ()) (y', ()) * acceptProb (ratio (y, ()) (y', ())) * A.indicator (1 : Y × Unit → ℝ≥0∞) (y', ())) := hdm.mul hI
    rw [h.law _ A hA, acceptReject_eq, hνA A hA, hR, ← lintegral_mul_const _ h1, ← lintegral_add_left h2]
    refine lintegral_congr fun y' => ?_
    ring
  have htot := hsplit Set.univ MeasurableSet.univ
  rw [measure_univ] at htot
  simp only [Set.indicator_univ, Pi.one_apply, mul_one] at htot
  have hνpos : ν Set.univ ≠ 0 := by
    rw [hνA _ MeasurableSet.univ]
    simp only [Set.indicator_univ, Pi.one_apply, mul_one]
    intro hz
    rw [lintegral_eq_zero_iff hdm] at hz
    refine h.evidence_pos ?_
    rw [lintegral_eq_zero_iff (show Measurable (fun y' => p (y', ())) from hj.comp hpair)]
    filter_upwards [hz] with y' hy'
    by_contra hc
    rcases mul_eq_zero.mp hy' with h1 | h1
    · exact hg y' hc h1
    · exact hc ((hacc y' (hg y' hc)).mp h1)
  have hRfin : R ≠ ∞ := by
    intro hc
    rw [hc, add_top] at htot
    exact absurd htot (by simp)
  have hRlt : R < 1 := by
    rw [htot]
    conv_lhs => rw [← zero_add R]
    exact ENNReal.add_lt_add_right hRfin (pos_iff_ne_zero.mpr hνpos)
  refine ⟨R.toReal, ν, ENNReal.toReal_nonneg, ?_, ?_, ?_⟩
  · have := (ENNReal.toReal_lt_toReal hRfin one_ne_top).mpr hRlt
    simpa using this
  · refine Measure.AbsolutelyContinuous.mk fun A hA h0 => ?_
    rw [normalised_zero_iff h.mh.joint_meas h.evidence_fin hA] at h0
    rw [hνA A hA]
    refine lintegral_eq_zero_of_ae_eq_zero ?_
    filter_upwards [h0] with y' hy'
    show g (y, ()) (y', ()) * acceptProb (ratio (y, ()) (y', ())) * A.indicator 1 (y', ()) = 0
    rcases mul_eq_zero.mp hy' with hz | hz
    · by_cases hg0 : g (y, ()) (y', ()) = 0
      · rw [hg0, zero_mul, zero_mul]
      · rw [(hacc y' hg0).mpr hz, mul_zero, zero_mul]
    · rw [hz, mul_zero]
  · refine Measure.ext fun A hA => ?_
    have e : (ENNReal.ofReal R.toReal • Measure.dirac (y, ())) A = R * A.indicator 1 (y, ()) := by
      rw [Measure.smul_apply, Measure.dirac_apply' _ hA, ENNReal.ofReal_toReal hRfin, smul_eq_mul]
    rw [hsplit A hA, Measure.add_apply, e, add_comm]

end Edward
