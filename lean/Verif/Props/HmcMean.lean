/-
Property C121, the default settings of HMC on the mean of normal observations: samples converge
to the posterior unless there are exactly 31 observations, and then they alternate forever.
-/
import Verif.Props.HmcChain
import Verif.Props.ConvergenceGeneral

namespace Edward

open MeasureTheory ProbabilityTheory ENNReal Filter Topology

variable {N : ℕ}

/-- Samples of one real latent variable. -/
abbrev Line := Pos (fun _ : Unit => Unit)

/-- `mu = Normal(0., 1.)`, `x = Normal(tf.ones(N) * mu, 1.)` with data `xs`: the joint density. -/
noncomputable def meanJoint (xs : Fin N → ℝ) (z : Line) : ℝ≥0∞ := gaussianPDF 0 1 (z () ()) * ∏ i, gaussianPDF (z () ()) 1 (xs i)

/-- The gradient of its log. -/
noncomputable def meanGrad (xs : Fin N → ℝ) (z : Line) : Line := fun _ _ => -z () () + ∑ i, (xs i - z () ())

theorem meanGrad_eq (xs : Fin N → ℝ) (z : Line) : meanGrad xs z = fun _ _ => (∑ i, xs i) - (N + 1) * z () () := by
  funext _ _
  simp only [meanGrad, Finset.sum_sub_distrib, Finset.sum_const, Finset.card_univ, Fintype.card_fin, nsmul_eq_mul]
  ring

/-- The joint density in closed form. -/
theorem meanJoint_eq (xs : Fin N → ℝ) (z : Line) : meanJoint xs z =
    ENNReal.ofReal ((√(2 * Real.pi))⁻¹ ^ (N + 1) * Real.exp (-(z () () ^ 2 / 2 + ∑ i, (xs i - z () ()) ^ 2 / 2))) := by
  unfold meanJoint gaussianPDF
  rw [← ENNReal.ofReal_prod_of_nonneg (fun i _ => gaussianPDFReal_nonneg _ _ _), ← ENNReal.ofReal_mul (gaussianPDFReal_nonneg _ _ _)]
  congr 1
  unfold gaussianPDFReal
  rw [Finset.prod_mul_distrib, Finset.prod_const, Finset.card_univ, Fintype.card_fin, ← Real.exp_sum, neg_add, Real.exp_add]
  simp only [NNReal.coe_one, mul_one, sub_zero, neg_div, Finset.sum_neg_distrib]
  ring

/-- `meanGrad` is what `tf.gradients` computes. -/
theorem meanGrad_deriv (xs : Fin N → ℝ) (z : Line) :
    HasDerivAt (fun t : ℝ => Real.log (meanJoint xs (fun _ _ => t)).toReal) (meanGrad xs z () ()) (z () ()) := by
  have hC : 0 < (√(2 * Real.pi))⁻¹ ^ (N + 1) := by positivity
  have e : (fun t : ℝ => Real.log (meanJoint xs (fun _ _ => t)).toReal) =
      fun t => Real.log ((√(2 * Real.pi))⁻¹ ^ (N + 1)) + -(t ^ 2 / 2 + ∑ i, (xs i - t) ^ 2 / 2) := by
    funext t
    rw [meanJoint_eq, ENNReal.toReal_ofReal (by positivity), Real.log_mul hC.ne' (Real.exp_ne_zero _), Real.log_exp]
  rw [e]
  have h1 : HasDerivAt (fun t : ℝ => t ^ 2 / 2) (z () ()) (z () ()) := by
    simpa using (hasDerivAt_pow 2 (z () ())).div_const 2
  have h2 : ∀ i, HasDerivAt (fun t : ℝ => (xs i - t) ^ 2 / 2) (-(xs i - z () ())) (z () ()) := by
    intro i
    have := (((hasDerivAt_id (z () ())).const_sub (xs i)).pow 2).div_const 2
    refine this.congr_deriv ?_
    simp
    ring
  have h3 := ((h1.add (HasDerivAt.fun_sum (u := Finset.univ) fun i _ => h2 i)).neg).const_add (Real.log ((√(2 * Real.pi))⁻¹ ^ (N + 1)))
  refine h3.congr_deriv ?_
  simp only [meanGrad, Finset.sum_neg_distrib]
  ring

theorem measurable_line : Measurable (fun z : Line => z () ()) := (measurable_pi_apply ()).comp (measurable_pi_apply ())

theorem measurable_meanJoint (xs : Fin N → ℝ) : Measurable (meanJoint xs) := by
  have e : meanJoint xs = _ := funext (meanJoint_eq xs)
  rw [e]
  have hz := measurable_line
  fun_prop

theorem measurable_meanGrad (xs : Fin N → ℝ) : Measurable (meanGrad xs) := by
  have e : meanGrad xs = _ := funext (meanGrad_eq xs)
  rw [e]
  have hz := measurable_line
  exact measurable_pi_lambda _ fun _ => measurable_pi_lambda _ fun _ => measurable_const.sub (hz.const_mul _)

theorem meanJoint_ne_zero (xs : Fin N → ℝ) (z : Line) : meanJoint xs z ≠ 0 := by
  rw [meanJoint_eq, ne_eq, ENNReal.ofReal_eq_zero, not_le]
  positivity

theorem meanJoint_ne_top (xs : Fin N → ℝ) (z : Line) : meanJoint xs z ≠ ∞ := by
  rw [meanJoint_eq]
  exact ENNReal.ofReal_ne_top

theorem mean_evidence_pos (xs : Fin N → ℝ) : ∫⁻ z, meanJoint xs z ≠ 0 := by
  intro h0
  rw [lintegral_eq_zero_iff (measurable_meanJoint xs)] at h0
  have : ∀ᵐ z ∂(volume : Measure Line), False := by
    filter_upwards [h0] with z hz
    exact meanJoint_ne_zero xs z hz
  exact absurd this (by simp [NeZero.ne])

theorem mean_evidence_fin (xs : Fin N → ℝ) : ∫⁻ z, meanJoint xs z ≠ ∞ := by
  have hle : ∀ z : Line, meanJoint xs z ≤ momentum z := by
    intro z
    have : momentum z = gaussianPDF 0 1 (z () ()) := by simp [momentum]
    rw [this]
    unfold meanJoint
    exact (mul_le_mul_right (Finset.prod_le_one' fun i _ => gaussianPDF_le_one _ _) _).trans (mul_one _).le
  exact ((lintegral_mono hle).trans_lt (by rw [lintegral_momentum]; exact one_lt_top)).ne

/-- Two steps from the same position: the end points differ by a multiple of the momenta. -/
theorem mean_two_steps (xs : Fin N → ℝ) (h : ℝ) (z r r' : Line) :
    (leapfrog h (meanGrad xs) [()] 2 (z, r)).1 - (leapfrog h (meanGrad xs) [()] 2 (z, r')).1 = (2 * h - h ^ 3 * (N + 1)) • (r - r') := by
  rw [leapfrog_eq h _ [()] (by simp) (by simp), leapfrog_eq h _ [()] (by simp) (by simp)]
  funext i j
  simp only [Function.iterate_succ, Function.iterate_zero, Function.comp, id, lfStep, meanGrad_eq, Pi.sub_apply, Pi.add_apply, Pi.smul_apply, smul_eq_mul]
  ring

theorem mean_spreads (xs : Fin N → ℝ) (hN : N ≠ 31) : Spreads 0.25 (meanGrad xs) 2 [()] := by
  refine spreads_of_perturbation (ContinuousLinearEquiv.refl ℝ Line) (a := 2 * 0.25 - 0.25 ^ 3 * (N + 1)) (c := 0) le_rfl (abs_pos.mpr ?_) ?_
  · intro h0
    apply hN
    have : (N : ℝ) = 31 := by linarith
    exact_mod_cast this
  · intro z r r'
    rw [mean_two_steps]
    simp

section
variable {Ω : Type} [MeasurableSpace Ω] {Pr : Measure Ω} {d : ℕ → Ω → Line × ℝ}

theorem mean_setup (xs : Fin N → ℝ) (hN : N ≠ 31) (hm : ∀ i, Measurable (d i)) (hlaw : ∀ i, Pr.map (d i) = hmcDraws) (hind : iIndepFun d Pr) :
    HmcSetup (meanJoint xs) (meanGrad xs) 0.25 2 [()] Pr d where
  meas := measurable_meanJoint xs
  fin := meanJoint_ne_top xs
  grad := measurable_meanGrad xs
  evidence_pos := mean_evidence_pos xs
  evidence_fin := mean_evidence_fin xs
  nodup := by simp
  keys_all := by simp
  spreads := mean_spreads xs hN
  draws_meas := hm
  draws_law := hlaw
  draws_indep := hind

/-- The mirror image of a sample in the posterior mean of 31 observations. -/
noncomputable def mirror (xs : Fin 31 → ℝ) (z : Line) : Line := fun _ _ => (∑ i, xs i) / 16 - z () ()

theorem mirror_mirror (xs : Fin 31 → ℝ) (z : Line) : mirror xs (mirror xs z) = z := by
  funext i j
  simp [mirror]

theorem mean_leapfrog (xs : Fin 31 → ℝ) (z r : Line) : leapfrog 0.25 (meanGrad xs) [()] 2 (z, r) = (mirror xs z, -r) := by
  rw [leapfrog_eq _ _ [()] (by simp) (by simp)]
  refine Prod.ext ?_ ?_ <;> funext i j <;>
  · simp only [Function.iterate_succ, Function.iterate_zero, Function.comp, id, lfStep, meanGrad_eq, Pi.neg_apply, Pi.add_apply, Pi.smul_apply, smul_eq_mul, mirror]
    push_cast
    ring

theorem meanJoint_mirror (xs : Fin 31 → ℝ) (z : Line) : meanJoint xs (mirror xs z) = meanJoint xs z := by
  rw [meanJoint_eq, meanJoint_eq]
  congr 4
  have e : ∀ t : ℝ, t ^ 2 / 2 + ∑ i, (xs i - t) ^ 2 / 2 = 16 * t ^ 2 - (∑ i, xs i) * t + ∑ i, xs i ^ 2 / 2 := by
    intro t
    have : ∀ i, (xs i - t) ^ 2 / 2 = xs i ^ 2 / 2 - xs i * t + t ^ 2 / 2 := fun i => by ring
    simp only [this, Finset.sum_add_distrib, Finset.sum_sub_distrib, Finset.sum_const, Finset.card_univ, Fintype.card_fin, nsmul_eq_mul, ← Finset.sum_mul]
    push_cast
    ring
  rw [e, e]
  simp only [mirror]
  ring

/-- Whatever is drawn, the update accepts the mirror image. -/
theorem mean_move (xs : Fin 31 → ℝ) (z : Line) (w : Line × ℝ) (hu : w.2 < 1) : hmcMove (meanJoint xs) (meanGrad xs) 0.25 2 [()] z w = mirror xs z := by
  classical
  rw [hmcMove_eq, mean_leapfrog, if_pos]
  have hk : kinetic (-w.1) = kinetic w.1 := by simp [kinetic]
  have hr : hmcRatio (meanJoint xs) (z, w.1) (mirror xs z, -w.1) = 0 := by
    unfold hmcRatio
    simp only
    rw [hk, meanJoint_mirror, sub_self, EReal.coe_zero, zero_add]
    refine EReal.sub_self ?_ ?_
    · simp [meanJoint_ne_top]
    · simp [meanJoint_ne_zero]
  rw [hr, ← ENNReal.log_one]
  exact ENNReal.log_lt_log (by simpa using hu)

/-- C121, a boundary: with 31 observations and the default settings, for all draws, samples
alternate between the starting point and its mirror image. -/
theorem C121_alternates_fails (xs : Fin 31 → ℝ) (z0 : Line) (w : ℕ → Line × ℝ) (hw : ∀ i, (w i).2 < 1) (T : ℕ) :
    walk (hmcMove (meanJoint xs) (meanGrad xs) 0.25 2 [()]) z0 w T = if Even T then z0 else mirror xs z0 := by
  induction T with
  | zero => rfl
  | succ T ih =>
    show hmcMove _ _ _ _ _ (walk _ z0 w T) (w T) = _
    rw [mean_move _ _ _ (hw T), ih]
    by_cases hT : Even T
    · simp [hT, Nat.even_add_one]
    · simp [hT, Nat.even_add_one, mirror_mirror]

theorem uniform_lt_one (hm : ∀ i, Measurable (d i)) (hlaw : ∀ i, Pr.map (d i) = hmcDraws) : ∀ᵐ ω ∂Pr, ∀ i, (d i ω).2 < 1 := by
  rw [ae_all_iff]
  intro i
  have hs : MeasurableSet {w : Line × ℝ | w.2 < 1} := measurableSet_lt measurable_snd measurable_const
  have h1 : ∀ᵐ w ∂(hmcDraws (κ := fun _ : Unit => Unit)), w.2 < 1 := by
    unfold hmcDraws
    have h2 : ∀ᵐ u ∂(volume.restrict (Set.Ico (0 : ℝ) 1)), u < 1 := by
      filter_upwards [ae_restrict_mem measurableSet_Ico] with u hu
      exact hu.2
    exact Measure.quasiMeasurePreserving_snd.ae h2
  rw [← hlaw i] at h1
  exact ae_of_ae_map (hm i).aemeasurable h1

/-- C121 for the default settings of HMC and the mean of `N` normal observations: from every
starting point, averages of bounded functions of the samples converge to their posterior
expectations, if and only if `N` is not 31. -/
theorem C121_mean_iff [IsProbabilityMeasure Pr] (hm : ∀ i, Measurable (d i)) (hlaw : ∀ i, Pr.map (d i) = hmcDraws) (hind : iIndepFun d Pr)
    (xs : Fin N → ℝ) (z0 : Line) :
    (∀ f : Line → ℝ, Measurable f → (∀ z, 0 ≤ f z ∧ f z ≤ 1) →
      ∀ᵐ ω ∂Pr, Tendsto (fun T : ℕ => (∑ i ∈ Finset.range T, f (walk (hmcMove (meanJoint xs) (meanGrad xs) 0.25 2 [()]) z0 (fun i => d i ω) (i + 1))) / T) atTop
        (𝓝 (∫ z, f z ∂hmcPosterior (meanJoint xs)))) ↔ N ≠ 31 := by
  constructor
  · rintro h rfl
    set A : Set Line := {z0, mirror xs z0} with hA
    have hAm : MeasurableSet A := (Set.toFinite _).measurableSet
    have hcon := h (A.indicator 1) (measurable_one.indicator hAm) (fun z => by by_cases hz : z ∈ A <;> simp [hz])
    have hint : ∫ z, A.indicator (1 : Line → ℝ) z ∂hmcPosterior (meanJoint xs) = 0 := by
      rw [integral_indicator_one hAm, Measure.real]
      have h0 : (volume : Measure Line) A = 0 := (Set.toFinite _).measure_zero _
      have h1 : hmcPosterior (meanJoint xs) A = 0 := by
        unfold hmcPosterior
        rw [Measure.smul_apply, withDensity_absolutelyContinuous _ _ h0, smul_zero]
      rw [h1, toReal_zero]
    have hfalse : ∀ᵐ ω ∂Pr, False := by
      filter_upwards [hcon, uniform_lt_one hm hlaw] with ω h1 h2
      rw [hint] at h1
      have h3 : Tendsto (fun _ : ℕ => (1 : ℝ)) atTop (𝓝 0) := by
        refine h1.congr' ?_
        filter_upwards [eventually_gt_atTop 0] with T hT
        have h4 : ∀ i, A.indicator (1 : Line → ℝ) (walk (hmcMove (meanJoint xs) (meanGrad xs) 0.25 2 [()]) z0 (fun i => d i ω) (i + 1)) = 1 := by
          intro i
          rw [C121_alternates_fails xs z0 _ h2]
          refine Set.indicator_of_mem ?_ _
          split_ifs <;> simp [hA]
        simp only [h4, Finset.sum_const, Finset.card_range, nsmul_eq_mul, mul_one]
        exact div_self (by exact_mod_cast hT.ne')
      exact absurd (tendsto_nhds_unique h3 tendsto_const_nhds) zero_ne_one
    exact absurd hfalse (by simp [NeZero.ne])
  · intro hN f hf hb
    have H := mean_setup xs hN hm hlaw hind
    have := H.prob
    refine C121_average H (meanJoint_ne_zero xs z0) hf ?_
    exact Integrable.of_bound hf.aestronglyMeasurable 1 (ae_of_all _ fun z => by
      rw [Real.norm_eq_abs, abs_of_nonneg (hb z).1]; exact (hb z).2)

end

/-! ### Examples -/

/-- Independent draws. -/
noncomputable abbrev hmcIid : Measure (ℕ → Line × ℝ) := Measure.infinitePi (fun _ : ℕ => hmcDraws)

theorem iid_setup (xs : Fin N → ℝ) (hN : N ≠ 31) : HmcSetup (meanJoint xs) (meanGrad xs) 0.25 2 [()] hmcIid (fun i ω => ω i) :=
  mean_setup xs hN (fun i => measurable_pi_apply i) (fun i => Measure.infinitePi_map_eval _ i)
    (iIndepFun_infinitePi (X := fun _ x => x) (fun _ => measurable_id))

/-- 50 observations, starting at 3: the distribution of the samples converges. -/
example (xs : Fin 50 → ℝ) (A : Set Line) (hA : MeasurableSet A) :
    Tendsto (fun T => ∫ ω, A.indicator (1 : Line → ℝ) (walk (hmcMove (meanJoint xs) (meanGrad xs) 0.25 2 [()]) (fun _ _ => 3) (fun i => ω i) T) ∂hmcIid) atTop
      (𝓝 (∫ z, A.indicator (1 : Line → ℝ) z ∂hmcPosterior (meanJoint xs))) :=
  C121_law (iid_setup xs (by norm_num)) (meanJoint_ne_zero xs _) (measurable_one.indicator hA) (a := 0) (b := 1)
    (fun s => by by_cases h : s ∈ A <;> simp [h])

/-- The draws exist, and 31 observations do not give the posterior. -/
example (xs : Fin 31 → ℝ) (z0 : Line) : ¬∀ f : Line → ℝ, Measurable f → (∀ z, 0 ≤ f z ∧ f z ≤ 1) →
      ∀ᵐ ω ∂hmcIid, Tendsto (fun T : ℕ => (∑ i ∈ Finset.range T, f (walk (hmcMove (meanJoint xs) (meanGrad xs) 0.25 2 [()]) z0 (fun i => ω i) (i + 1))) / T) atTop
        (𝓝 (∫ z, f z ∂hmcPosterior (meanJoint xs))) := fun h =>
  absurd rfl ((C121_mean_iff (d := fun i (ω : ℕ → Line × ℝ) => ω i) (fun i => measurable_pi_apply i) (fun i => Measure.infinitePi_map_eval _ i)
    (iIndepFun_infinitePi (X := fun _ x => x) (fun _ => measurable_id)) xs z0).mp h)

/-- With fewer observations the Lipschitz condition for two steps holds too. -/
example (xs : Fin 30 → ℝ) : Spreads 0.25 (meanGrad xs) 2 [()] := by
  refine C121_two_steps (ContinuousLinearEquiv.refl ℝ Line) (L := 31) (by norm_num) (by norm_num) (fun z z' => ?_) (by norm_num) (by simp) (by simp)
  have e : meanGrad xs z - meanGrad xs z' = (-31 : ℝ) • (z - z') := by
    rw [meanGrad_eq, meanGrad_eq]
    funext i j
    simp only [Pi.sub_apply, Pi.smul_apply, smul_eq_mul]
    push_cast
    ring
  simp only [ContinuousLinearEquiv.coe_refl', id]
  rw [e, norm_smul]
  simp

/-- Five steps of size 0.3 on a standard normal posterior. -/
example : Spreads 0.3 (meanGrad (Fin.elim0 : Fin 0 → ℝ)) 5 [()] := by
  refine C121_short (ContinuousLinearEquiv.refl ℝ Line) (L := 1) (by norm_num) (by norm_num) (fun z z' => ?_) (by norm_num) (by norm_num) (by simp) (by simp)
  have e : meanGrad (Fin.elim0 : Fin 0 → ℝ) z - meanGrad Fin.elim0 z' = (-1 : ℝ) • (z - z') := by
    rw [meanGrad_eq, meanGrad_eq]
    funext i j
    simp
    ring
  simp only [ContinuousLinearEquiv.coe_refl', id]
  rw [e, norm_smul]
  simp

/-- What `inference.run()` stores. -/
example (xs : Fin 50 → ℝ) (late : ℕ → Bool) (b : ℝ) :
    ∃ st : ℕ → (ℕ → Line × ℝ) → MCState Unit (Unit → ℝ) Unit,
      (∀ T, 0 < T → ∀ ω, ∃ infos, mcRun (hmcKernel (meanJoint xs) (meanGrad xs) 0.25 2 [()]) ((List.range T).map (fun i => (ω i, late i)))
        (mcInit (fun _ => List.replicate T (fun _ => 3)) ()) = some (st T ω, infos)) ∧
      ∀ᵐ ω ∂hmcIid, Tendsto (fun T => storedMean (fun v => (Set.Iic b).indicator 1 (v ())) (st T ω) ()) atTop
        (𝓝 (∫ s : Line, (Set.Iic b).indicator 1 (s () ()) ∂hmcPosterior (meanJoint xs))) := by
  have H := iid_setup xs (show 50 ≠ 31 by norm_num)
  have := H.prob
  have hf : Measurable (fun v : Unit → ℝ => (Set.Iic b).indicator (1 : ℝ → ℝ) (v ())) :=
    (measurable_one.indicator measurableSet_Iic).comp (measurable_pi_apply ())
  refine C121_run H (fun _ _ => 3) (meanJoint_ne_zero xs _) late (fun T _ => List.replicate T (fun _ => 3)) (by simp) (by intro T hT _; simp [hT]) hf () ?_
  exact Integrable.of_bound (hf.comp (measurable_pi_apply ())).aestronglyMeasurable 1 (ae_of_all _ fun z => by
    by_cases h : z () () ∈ Set.Iic b <;> simp [h])

end Edward
