/-
Property C120: Gibbs sampling converges whenever the joint density is positive.
-/
import Verif.Lemmas.ErgodicAverage
import Verif.Props.GibbsChain
import Mathlib.Probability.Distributions.Gaussian.Real
import Mathlib.MeasureTheory.Integral.Pi

namespace Edward

set_option linter.unusedSectionVars false

open MeasureTheory ProbabilityTheory ENNReal Filter Topology

section
variable {ι E O Ω : Type} [DecidableEq ι] {X : ι → Type} [∀ i, MeasurableSpace (X i)]
  [MeasurableSpace E] [MeasurableSpace O] [MeasurableSpace Ω]
  {μ : ∀ i, Measure (X i)} {q : ∀ i, (∀ i, X i) → X i → ℝ≥0∞} {ν : Measure E} [IsProbabilityMeasure ν]
  {samp : (i : ι) → (∀ i, X i) → E → X i}

/-- What is assumed: `q` are the complete conditionals of a positive joint density with a proper
posterior; the scan visits every variable; every latent variable is stored; fresh draws in
every update. -/
structure GibbsPositive [Fintype ι] (μ : ∀ i, Measure (X i)) (p : (∀ i, X i) → ℝ≥0∞) (q : ∀ i, (∀ i, X i) → X i → ℝ≥0∞) (ν : Measure E)
    [IsProbabilityMeasure ν] (samp : (i : ι) → (∀ i, X i) → E → X i) (ω : Measure O) (order : O → List ι) (keys : List ι)
    (Pr : Measure Ω) (d : ℕ → Ω → O × (ℕ → E)) : Prop where
  meas : Measurable p
  cond : ∀ i, IsConditional μ p q i
  samples : GibbsSamples μ q ν samp
  evidence_pos : ∫⁻ z, p z ∂Measure.pi μ ≠ 0
  evidence_fin : ∫⁻ z, p z ∂Measure.pi μ ≠ ∞
  pos : ∀ z, p z ≠ 0
  covers : ∀ o i, i ∈ order o
  stored : ∀ i, i ∈ keys
  nodup : keys.Nodup
  draws_meas : ∀ i, Measurable (d i)
  draws_law : ∀ i, Pr.map (d i) = ω.prod (streamLaw ν)
  draws_indep : iIndepFun d Pr

/-- Complete conditionals of a positive density are positive. -/
theorem conditional_pos {p : (∀ i, X i) → ℝ≥0∞} {i : ι} (hc : IsConditional μ p q i) (hpos : ∀ z, p z ≠ 0) (z : ∀ i, X i) :
    ∀ᵐ x ∂μ i, q i z x ≠ 0 := by
  filter_upwards [hc.prop z] with x hx h0
  rw [h0, zero_mul] at hx
  exact hpos _ hx.symm

/-- A scan reaches every set that has positive measure in the scanned variables, and no other. -/
theorem scan_zero_iff [∀ i, SigmaFinite (μ i)] {p : (∀ i, X i) → ℝ≥0∞} (hc : ∀ i, IsConditional μ p q i) (hpos : ∀ z, p z ≠ 0)
    {F : (∀ i, X i) → ℝ≥0∞} (hF : Measurable F) (l : List ι) (z : ∀ i, X i) :
    gibbsScan (drawExpect μ q) (l.map .single) z F = 0 ↔ lmarginal μ l.toFinset F z = 0 := by
  induction l generalizing z with
  | nil => simp [gibbsScan]
  | cons i l ih =>
    simp only [List.map_cons, gibbsScan, drawExpect, List.toFinset_cons]
    have hqm : Measurable (q i z) := (hc i).meas.comp (measurable_const.prodMk measurable_id)
    have hu : Measurable (fun x => Function.update z i x) := (measurable_update_pi i).comp (measurable_const.prodMk measurable_id)
    have hsm : Measurable (fun x => gibbsScan (drawExpect μ q) (l.map .single) (Function.update z i x) F) :=
      (measurable_gibbsScan (fun i => (hc i).meas) l F hF).comp hu
    have hqs : Measurable (fun x => q i z x * gibbsScan (drawExpect μ q) (l.map .single) (Function.update z i x) F) := hqm.mul hsm
    have h1 : (∫⁻ x, q i z x * gibbsScan (drawExpect μ q) (l.map .single) (Function.update z i x) F ∂μ i = 0) ↔
        ∀ᵐ x ∂μ i, lmarginal μ l.toFinset F (Function.update z i x) = 0 := by
      rw [lintegral_eq_zero_iff hqs]
      constructor
      · intro h
        filter_upwards [h, conditional_pos (hc i) hpos z] with x hx hx'
        exact (ih _).mp ((mul_eq_zero.mp hx).resolve_left hx')
      · intro h
        filter_upwards [h] with x hx
        show _ * _ = (0 : ℝ≥0∞)
        rw [(ih _).mpr hx, mul_zero]
    rw [h1]
    by_cases hi : i ∈ l.toFinset
    · rw [Finset.insert_eq_of_mem hi]
      simp only [lmarginal_update_of_mem μ hi]
      constructor
      · intro h
        have hne : μ i ≠ 0 := by
          intro h0
          have := (hc i).norm z
          rw [h0, lintegral_zero_measure] at this
          exact zero_ne_one this
        have : (ae (μ i)).NeBot := ae_neBot.mpr hne
        exact h.exists.choose_spec
      · exact fun h => ae_of_all _ fun _ => h
    · have hmm : Measurable (fun x => lmarginal μ l.toFinset F (Function.update z i x)) := (hF.lmarginal μ).comp hu
      rw [lmarginal_insert F hF hi, lintegral_eq_zero_iff hmm]
      rfl

variable [Fintype ι] [∀ i, SigmaFinite (μ i)] [Fintype O] [MeasurableSingletonClass O] {p : (∀ i, X i) → ℝ≥0∞} {ω : Measure O}
  [IsProbabilityMeasure ω] {order : O → List ι} {keys : List ι} {Pr : Measure Ω} {d : ℕ → Ω → O × (ℕ → E)}

/-- The update reaches a set from anywhere exactly when the set has positive probability. -/
theorem gibbs_zero_iff (h : GibbsPositive μ p q ν samp ω order keys Pr d) (s : (∀ i, X i) × (∀ i, X i))
    {A : Set ((∀ i, X i) × (∀ i, X i))} (hA : MeasurableSet A) :
    stepKernel (gibbsStep samp order keys) (ω.prod (streamLaw ν)) s A = 0 ↔ storedLaw μ p ν samp keys A = 0 := by
  have hpp := posterior_prob (μ := μ) h.evidence_pos h.evidence_fin
  have hI : Measurable (A.indicator (1 : (∀ i, X i) × (∀ i, X i) → ℝ≥0∞)) := measurable_one.indicator hA
  have hgm : Measurable (storeExpect μ q keys (A.indicator 1)) := measurable_storeExpect (fun i => (h.cond i).meas) keys hI
  have hpg : Measurable (fun z => p z * storeExpect μ q keys (A.indicator 1) z) := h.meas.mul hgm
  have huniv : ∀ o, (order o).toFinset = Finset.univ := fun o => Finset.eq_univ_iff_forall.mpr fun i => List.mem_toFinset.mpr (h.covers o i)
  have h1 : ∀ o, gibbsScan (drawExpect μ q) ((order o).map .single) s.1 (storeExpect μ q keys (A.indicator 1)) = 0 ↔
      ∫⁻ z, storeExpect μ q keys (A.indicator 1) z ∂Measure.pi μ = 0 := by
    intro o
    rw [scan_zero_iff h.cond h.pos hgm, huniv o, lmarginal_univ]
  have h2 : (∫⁻ z, p z * storeExpect μ q keys (A.indicator 1) z ∂Measure.pi μ = 0) ↔
      ∫⁻ z, storeExpect μ q keys (A.indicator 1) z ∂Measure.pi μ = 0 := by
    rw [lintegral_eq_zero_iff hpg, lintegral_eq_zero_iff hgm]
    constructor
    · intro h0
      filter_upwards [h0] with z hz
      exact (mul_eq_zero.mp hz).resolve_left (h.pos z)
    · intro h0
      filter_upwards [h0] with z hz
      show _ * _ = (0 : ℝ≥0∞)
      rw [hz]
      exact mul_zero _
  rw [stepKernel_gibbs h.cond h.samples h.stored s hA, stored_apply h.meas h.cond h.samples hA, mul_eq_zero, h2]
  have hz : (∫⁻ z, p z ∂Measure.pi μ)⁻¹ ≠ 0 := ENNReal.inv_ne_zero.mpr h.evidence_fin
  simp only [hz, false_or]
  rw [Finset.sum_eq_zero_iff]
  constructor
  · intro h0
    have hex : ∃ o, ω {o} ≠ 0 := by
      by_contra hc
      simp only [not_exists, not_not] at hc
      have := sum_orders (ω := ω)
      simp [hc] at this
    obtain ⟨o, ho⟩ := hex
    exact (h1 o).mp ((mul_eq_zero.mp (h0 o (Finset.mem_univ o))).resolve_right ho)
  · intro h0 o _
    rw [(h1 o).mpr h0, zero_mul]

theorem gibbs_reaching (h : GibbsPositive μ p q ν samp ω order keys Pr d) :
    Reaching (stepKernel (gibbsStep samp order keys) (ω.prod (streamLaw ν))) (storedLaw μ p ν samp keys) := by
  have hpp := posterior_prob (μ := μ) h.evidence_pos h.evidence_fin
  exact ⟨fun A hA => gibbs_invariant h.meas h.cond h.samples h.stored hA,
    ae_of_all _ fun s => Measure.AbsolutelyContinuous.mk fun A hA h0 => (gibbs_zero_iff h s hA).mp h0⟩

theorem gibbs_leaves (h : GibbsPositive μ p q ν samp ω order keys Pr d) (s : (∀ i, X i) × (∀ i, X i)) :
    Leaves (stepKernel (gibbsStep samp order keys) (ω.prod (streamLaw ν))) (storedLaw μ p ν samp keys) s :=
  ⟨0, _, le_rfl, zero_lt_one, Measure.AbsolutelyContinuous.mk fun A hA h0 => (gibbs_zero_iff h s hA).mpr h0, by simp⟩

variable [IsProbabilityMeasure Pr]

/-- C120: whatever was fed first, the distribution of the fed values converges to the
posterior. -/
theorem C120_chain (h : GibbsPositive μ p q ν samp ω order keys Pr d) (s0 : (∀ i, X i) × (∀ i, X i)) {f : (∀ i, X i) → ℝ} (hf : Measurable f)
    {a b : ℝ} (hab : ∀ z, a ≤ f z ∧ f z ≤ b) :
    Tendsto (fun n => ∫ x, f (walk (gibbsStep samp order keys) s0 (fun i => d i x) n).1 ∂Pr) atTop (𝓝 (∫ z, f z ∂gibbsPosterior μ p)) := by
  have hpp := posterior_prob (μ := μ) h.evidence_pos h.evidence_fin
  have hsp : IsProbabilityMeasure (storedLaw μ p ν samp keys) := stored_prob h.samples.meas keys
  have := law_reaches (measurable_gibbsStep h.samples.meas order keys) (gibbs_reaching h) h.draws_meas h.draws_law h.draws_indep (gibbs_leaves h s0)
    (f := fun s => f s.1) (hf.comp measurable_fst) (fun s => hab s.1)
  rwa [← stored_fst (ν := ν) h.samples.meas keys, integral_map measurable_fst.aemeasurable hf.aestronglyMeasurable]

/-- C120: the distribution of a stored sample of one latent variable converges to its posterior. -/
theorem C120_law (h : GibbsPositive μ p q ν samp ω order keys Pr d) (s0 : (∀ i, X i) × (∀ i, X i)) (i : ι) {f : X i → ℝ} (hf : Measurable f)
    {a b : ℝ} (hab : ∀ x, a ≤ f x ∧ f x ≤ b) :
    Tendsto (fun n => ∫ x, f ((walk (gibbsStep samp order keys) s0 (fun i => d i x) n).2 i) ∂Pr) atTop (𝓝 (∫ z, f (z i) ∂gibbsPosterior μ p)) := by
  have hpp := posterior_prob (μ := μ) h.evidence_pos h.evidence_fin
  have hsp : IsProbabilityMeasure (storedLaw μ p ν samp keys) := stored_prob h.samples.meas keys
  have hm : Measurable (fun s : (∀ i, X i) × (∀ i, X i) => s.2 i) := (measurable_pi_apply i).comp measurable_snd
  have e : ∫ s, f (s.2 i) ∂storedLaw μ p ν samp keys = ∫ z, f (z i) ∂gibbsPosterior μ p := by
    rw [← integral_map (φ := fun s : (∀ i, X i) × (∀ i, X i) => s.2 i) hm.aemeasurable hf.aestronglyMeasurable,
      stored_entry h.meas h.cond h.samples h.nodup (h.stored i),
      integral_map (φ := fun z : ∀ i, X i => z i) (measurable_pi_apply i).aemeasurable hf.aestronglyMeasurable]
  rw [← e]
  exact law_reaches (measurable_gibbsStep h.samples.meas order keys) (gibbs_reaching h) h.draws_meas h.draws_law h.draws_indep (gibbs_leaves h s0)
    (f := fun s => f (s.2 i)) (hf.comp hm) (fun s => hab _)

/-- C120: averages over the stored samples of one latent variable converge almost surely to its
posterior expectations, for every function that has one. -/
theorem C120_average (h : GibbsPositive μ p q ν samp ω order keys Pr d) (s0 : (∀ i, X i) × (∀ i, X i)) (i : ι) {f : X i → ℝ} (hf : Measurable f)
    (hfi : Integrable (fun z => f (z i)) (gibbsPosterior μ p)) :
    ∀ᵐ x ∂Pr, Tendsto (fun n : ℕ => (∑ j ∈ Finset.range n, f ((walk (gibbsStep samp order keys) s0 (fun i => d i x) (j + 1)).2 i)) / n) atTop
      (𝓝 (∫ z, f (z i) ∂gibbsPosterior μ p)) := by
  have hpp := posterior_prob (μ := μ) h.evidence_pos h.evidence_fin
  have hsp : IsProbabilityMeasure (storedLaw μ p ν samp keys) := stored_prob h.samples.meas keys
  have hm : Measurable (fun s : (∀ i, X i) × (∀ i, X i) => s.2 i) := (measurable_pi_apply i).comp measurable_snd
  have hmi : Measurable (fun z : ∀ i, X i => z i) := measurable_pi_apply i
  have hent := stored_entry h.meas h.cond h.samples h.nodup (h.stored i)
  have e : ∫ s, f (s.2 i) ∂storedLaw μ p ν samp keys = ∫ z, f (z i) ∂gibbsPosterior μ p := by
    rw [← integral_map (φ := fun s : (∀ i, X i) × (∀ i, X i) => s.2 i) hm.aemeasurable hf.aestronglyMeasurable, hent,
      integral_map (φ := fun z : ∀ i, X i => z i) hmi.aemeasurable hf.aestronglyMeasurable]
  have hi : Integrable (fun s : (∀ i, X i) × (∀ i, X i) => f (s.2 i)) (storedLaw μ p ν samp keys) := by
    have h1 : Integrable f ((gibbsPosterior μ p).map (fun z => z i)) :=
      (integrable_map_measure hf.aestronglyMeasurable hmi.aemeasurable).mpr hfi
    rw [← hent] at h1
    exact (integrable_map_measure hf.aestronglyMeasurable hm.aemeasurable).mp h1
  rw [← e]
  exact walk_average (measurable_gibbsStep h.samples.meas order keys) (gibbs_reaching h) h.draws_meas h.draws_law h.draws_indep (gibbs_leaves h s0)
    (f := fun s => f (s.2 i)) (hf.comp hm) hi

end

section
variable {Z V E O Ω : Type} [Fintype Z] [DecidableEq Z] [Nonempty Z] [MeasurableSpace V] [MeasurableSpace E] [MeasurableSpace O]
  [MeasurableSpace Ω]

/-- C120, end to end: `T` updates filling an `Empirical` with `T` rows succeed, whatever it held
and whatever was fed first, and as `T` grows the average over the rows converges almost surely
to the posterior expectation, for every function of a latent variable that has one. With `f` the
identity this is `qz.mean()`. -/
theorem C120_run {μ : Z → Measure V} [∀ i, SigmaFinite (μ i)] [Fintype O] [MeasurableSingletonClass O] {p : (Z → V) → ℝ≥0∞}
    {q : Z → (Z → V) → V → ℝ≥0∞} {ν : Measure E} [IsProbabilityMeasure ν] {samp : Z → (Z → V) → E → V} {ω : Measure O} [IsProbabilityMeasure ω]
    {order : O → List Z} {keys : List Z} {Pr : Measure Ω} [IsProbabilityMeasure Pr] {d : ℕ → Ω → O × (ℕ → E)}
    (h : GibbsPositive (X := fun _ => V) μ p q ν samp ω order keys Pr d) (x0 feed : Z → V) (late : ℕ → Bool)
    (p0 : ℕ → Z → List V) (hlen : ∀ T z, (p0 T z).length = T) (hrow : ∀ T, 0 < T → ∀ z, (p0 T z)[0]? = some (x0 z))
    {f : V → ℝ} (hf : Measurable f) (z : Z) (hfi : Integrable (fun y => f (y z)) (gibbsPosterior μ p)) :
    ∃ st : ℕ → Ω → MCState Z V (Z → V),
      (∀ T, 0 < T → ∀ x, ∃ infos, mcRun (gibbsKernel samp (fun o => (order o).map .single) keys) ((List.range T).map (fun i => (d i x, late i)))
        (mcInit (p0 T) feed) = some (st T x, infos) ∧ (st T x).nAccept = T) ∧
      ∀ᵐ x ∂Pr, Tendsto (fun T => storedMean f (st T x) z) atTop (𝓝 (∫ y, f (y z) ∂gibbsPosterior μ p)) := by
  obtain ⟨st, hst⟩ := gibbs_rows samp order keys d x0 feed late p0 hlen hrow
  refine ⟨st, fun T hT x => (hst T hT x).1, ?_⟩
  filter_upwards [C120_average h (feed, x0) z hf hfi] with x hx
  refine hx.congr' ?_
  filter_upwards [eventually_gt_atTop 0] with T hT
  unfold storedMean
  rw [(hst T hT x).2 z, List.length_map, List.length_range, List.map_map]
  congr 1

end

/-! ### Two correlated normal variables -/

/-- An unnormalised normal density of two correlated variables, neither bounded below nor on a
bounded support. -/
noncomputable def twoJoint (z : Fin 2 → ℝ) : ℝ≥0∞ := ENNReal.ofReal (Real.exp (-(z 0 ^ 2 - z 0 * z 1 + z 1 ^ 2)))

/-- Its complete conditionals: normal around half of the other variable. -/
noncomputable def twoCond (i : Fin 2) (z : Fin 2 → ℝ) (x : ℝ) : ℝ≥0∞ := gaussianPDF (z (1 - i) / 2) (1 / 2) x

/-- Their sampling ops. -/
noncomputable def twoSamp (i : Fin 2) (z : Fin 2 → ℝ) (e : ℝ) : ℝ := z (1 - i) / 2 + e

theorem two_other (i : Fin 2) : (1 - i : Fin 2) ≠ i := by fin_cases i <;> decide

theorem two_factor (i : Fin 2) (z : Fin 2 → ℝ) (x : ℝ) :
    twoJoint (Function.update z i x) = twoCond i z x * ENNReal.ofReal (√Real.pi * Real.exp (-(3 / 4 * z (1 - i) ^ 2))) := by
  unfold twoJoint twoCond gaussianPDF gaussianPDFReal
  rw [← ENNReal.ofReal_mul (by positivity)]
  congr 1
  have hpi : √Real.pi ≠ 0 := (Real.sqrt_pos.mpr Real.pi_pos).ne'
  have hv : (2 * Real.pi * ((1 / 2 : NNReal) : ℝ)) = Real.pi := by push_cast; ring
  have hw : 2 * ((1 / 2 : NNReal) : ℝ) = 1 := by push_cast; norm_num
  rw [hv, hw, div_one, show ∀ a b c d : ℝ, a * b * (c * d) = (a * c) * (b * d) by intros; ring, inv_mul_cancel₀ hpi, one_mul, ← Real.exp_add]
  congr 1
  fin_cases i
  · simp [Function.update_of_ne]; ring
  · simp [Function.update_of_ne]; ring

theorem measurable_two_cond (i : Fin 2) : Measurable (fun a : (Fin 2 → ℝ) × ℝ => twoCond i a.1 a.2) := by
  unfold twoCond gaussianPDF gaussianPDFReal
  fun_prop

theorem two_norm (i : Fin 2) (z : Fin 2 → ℝ) : ∫⁻ x, twoCond i z x = 1 := by
  unfold twoCond
  exact lintegral_gaussianPDF_eq_one _ (by norm_num)

theorem two_isConditional (i : Fin 2) : IsConditional (X := fun _ : Fin 2 => ℝ) (fun _ => volume) twoJoint twoCond i where
  meas := measurable_two_cond i
  norm := two_norm i
  indep := fun z x => by
    funext y
    unfold twoCond
    rw [Function.update_of_ne (two_other i)]
  prop := fun z => ae_of_all _ fun x => by
    have hm : Measurable (fun x' => twoCond i z x') := by unfold twoCond; exact measurable_gaussianPDF _ _
    simp only [two_factor]
    rw [lintegral_mul_const _ hm, two_norm, one_mul]

theorem two_samples : GibbsSamples (X := fun _ : Fin 2 => ℝ) (fun _ => volume) twoCond (gaussianReal 0 (1 / 2)) twoSamp where
  meas := fun i => by unfold twoSamp; fun_prop
  law := fun i z => by
    unfold twoSamp twoCond
    have := gaussianReal_map_const_add (μ := 0) (v := 1 / 2) (z (1 - i) / 2)
    rw [zero_add, gaussianReal_of_var_ne_zero (z (1 - i) / 2) (by norm_num)] at this
    exact this

theorem two_integrable {g : ℝ → ℝ} (hg : Integrable (fun x => g x * Real.exp (-(1 / 2) * x ^ 2))) (hgm : Measurable g) :
    Integrable (fun z : Fin 2 → ℝ => g (z 0) * Real.exp (-(z 0 ^ 2 - z 0 * z 1 + z 1 ^ 2))) := by
  have h1 : Integrable (fun z : Fin 2 → ℝ => ∏ i, (if i = 0 then g (z i) else 1) * Real.exp (-(1 / 2) * z i ^ 2)) := by
    refine Integrable.fintype_prod (μ := fun _ => volume) (f := fun (i : Fin 2) (x : ℝ) => (if i = 0 then g x else 1) * Real.exp (-(1 / 2) * x ^ 2)) fun i => ?_
    fin_cases i
    · simpa using hg
    · simpa using integrable_exp_neg_mul_sq (b := 1 / 2) (by norm_num)
  refine h1.mono (Measurable.aestronglyMeasurable (by fun_prop)) (ae_of_all _ fun z => ?_)
  simp only [Fin.prod_univ_two, if_true, one_ne_zero, if_false, one_mul, norm_mul, mul_assoc, Real.norm_eq_abs, Real.abs_exp, ← Real.exp_add]
  refine mul_le_mul_of_nonneg_left (Real.exp_le_exp.mpr ?_) (abs_nonneg _)
  nlinarith [sq_nonneg (z 0 - z 1)]

theorem measurable_twoJoint : Measurable twoJoint := by unfold twoJoint; fun_prop

theorem two_pos (z : Fin 2 → ℝ) : twoJoint z ≠ 0 := by
  unfold twoJoint
  simp only [ne_eq, ENNReal.ofReal_eq_zero, not_le]
  exact Real.exp_pos _

theorem two_evidence_pos : ∫⁻ z, twoJoint z ∂Measure.pi (fun _ : Fin 2 => (volume : Measure ℝ)) ≠ 0 := by
  intro h0
  rw [lintegral_eq_zero_iff measurable_twoJoint] at h0
  have : ∀ᵐ z : Fin 2 → ℝ, False := by
    filter_upwards [h0] with z hz
    exact two_pos z hz
  exact absurd this (by simp [NeZero.ne])

theorem two_evidence_fin : ∫⁻ z, twoJoint z ∂Measure.pi (fun _ : Fin 2 => (volume : Measure ℝ)) ≠ ∞ := by
  have := two_integrable (g := fun _ => 1) (by simpa using integrable_exp_neg_mul_sq (b := 1 / 2) (by norm_num)) measurable_const
  simp only [one_mul] at this
  exact this.lintegral_lt_top.ne

/-- All draws of the example. -/
noncomputable abbrev twoDraws : Measure (ℕ → Unit × (ℕ → ℝ)) :=
  Measure.infinitePi (fun _ : ℕ => (Measure.dirac ()).prod (streamLaw (gaussianReal 0 (1 / 2))))

theorem two_setup : GibbsPositive (X := fun _ : Fin 2 => ℝ) (fun _ => volume) twoJoint twoCond (gaussianReal 0 (1 / 2)) twoSamp (Measure.dirac ())
    (fun _ => [0, 1]) [0, 1] twoDraws (fun i x => x i) where
  meas := measurable_twoJoint
  cond := two_isConditional
  samples := two_samples
  evidence_pos := two_evidence_pos
  evidence_fin := two_evidence_fin
  pos := two_pos
  covers := fun _ i => by fin_cases i <;> simp
  stored := fun i => by fin_cases i <;> simp
  nodup := by decide
  draws_meas := fun i => measurable_pi_apply i
  draws_law := fun i => Measure.infinitePi_map_eval _ i
  draws_indep := iIndepFun_infinitePi (X := fun _ x => x) (fun _ => measurable_id)

theorem two_mean_integrable : Integrable (fun z : Fin 2 → ℝ => z 0) (gibbsPosterior (X := fun _ : Fin 2 => ℝ) (fun _ => volume) twoJoint) := by
  have h := two_integrable (g := fun x => x) (by simpa using integrable_mul_exp_neg_mul_sq (b := 1 / 2) (by norm_num)) measurable_id
  unfold gibbsPosterior
  refine Integrable.smul_measure ?_ (ENNReal.inv_ne_top.mpr two_evidence_pos)
  rw [integrable_withDensity_iff measurable_twoJoint (ae_of_all _ fun z => by unfold twoJoint; exact ENNReal.ofReal_lt_top)]
  refine h.congr (ae_of_all _ fun z => ?_)
  simp only [twoJoint]
  rw [ENNReal.toReal_ofReal (Real.exp_pos _).le]

/-- The hypotheses hold for unbounded variables whose conditionals are not bounded below: the
mean of the `Empirical` converges to the posterior mean. -/
example (x0 feed : Fin 2 → ℝ) (late : ℕ → Bool) :
    ∃ st : ℕ → (ℕ → Unit × (ℕ → ℝ)) → MCState (Fin 2) ℝ (Fin 2 → ℝ),
      (∀ T, 0 < T → ∀ x, ∃ infos, mcRun (gibbsKernel twoSamp (fun _ => [ScanEntry.single 0, .single 1]) [0, 1])
        ((List.range T).map (fun i => (x i, late i))) (mcInit (fun z => List.replicate T (x0 z)) feed) = some (st T x, infos) ∧ (st T x).nAccept = T) ∧
      ∀ᵐ x ∂twoDraws, Tendsto (fun T => storedMean id (st T x) 0) atTop
        (𝓝 (∫ y, y 0 ∂gibbsPosterior (X := fun _ : Fin 2 => ℝ) (fun _ => volume) twoJoint)) :=
  C120_run two_setup x0 feed late (fun T z => List.replicate T (x0 z)) (by simp) (by intro T hT _; simp [hT]) (f := id) measurable_id 0 two_mean_integrable

/-- The same for the distribution of single samples. -/
example (s0 : (Fin 2 → ℝ) × (Fin 2 → ℝ)) (A : Set ℝ) (hA : MeasurableSet A) :
    Tendsto (fun n => ∫ x, A.indicator (1 : ℝ → ℝ) ((walk (gibbsStep (X := fun _ : Fin 2 => ℝ) twoSamp (fun _ => [0, 1]) [0, 1]) s0 x n).2 1) ∂twoDraws)
      atTop (𝓝 (∫ z, A.indicator (1 : ℝ → ℝ) (z 1) ∂gibbsPosterior (X := fun _ : Fin 2 => ℝ) (fun _ => volume) twoJoint)) :=
  C120_law two_setup s0 1 (measurable_one.indicator hA) (a := 0) (b := 1) (fun x => by by_cases h : x ∈ A <;> simp [h])

/-- The chain theorem, for any bounded function of both variables. -/
example (s0 : (Fin 2 → ℝ) × (Fin 2 → ℝ)) (A : Set (Fin 2 → ℝ)) (hA : MeasurableSet A) :
    Tendsto (fun n => ∫ x, A.indicator (1 : (Fin 2 → ℝ) → ℝ) (walk (gibbsStep (X := fun _ : Fin 2 => ℝ) twoSamp (fun _ => [0, 1]) [0, 1]) s0 x n).1 ∂twoDraws)
      atTop (𝓝 (∫ z, A.indicator (1 : (Fin 2 → ℝ) → ℝ) z ∂gibbsPosterior (X := fun _ : Fin 2 => ℝ) (fun _ => volume) twoJoint)) :=
  C120_chain two_setup s0 (measurable_one.indicator hA) (a := 0) (b := 1) (fun x => by by_cases h : x ∈ A <;> simp [h])

end Edward
