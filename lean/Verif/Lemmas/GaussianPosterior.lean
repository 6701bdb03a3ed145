/-
Distributions whose log density is a quadratic form: their linear functionals are normal.
Weak convergence from the convergence of linear functionals.
-/
import Verif.Lemmas.GaussianChain
import Mathlib.Analysis.Matrix.PosDef
import Mathlib.MeasureTheory.Integral.Pi
import Mathlib.MeasureTheory.Measure.Lebesgue.Basic
import Mathlib.MeasureTheory.Measure.LevyConvergence

namespace Edward

open MeasureTheory ProbabilityTheory Filter Topology NNReal ENNReal Matrix

/-- The distribution with the given log density, up to its constant. -/
noncomputable def fromLogDensity {ι : Type} [Fintype ι] (lp : (ι → ℝ) → ℝ) : Measure (ι → ℝ) :=
  (∫⁻ x, ENNReal.ofReal (Real.exp (lp x)))⁻¹ • volume.withDensity (fun x => ENNReal.ofReal (Real.exp (lp x)))

variable {ι : Type} [Fintype ι] [DecidableEq ι]

theorem posDef_eigen {H : Matrix ι ι ℝ} (hH : H.PosDef) :
    ∃ (U : Matrix ι ι ℝ) (l : ι → ℝ), (∀ i, 0 < l i) ∧ Uᵀ * U = 1 ∧ U * Uᵀ = 1 ∧ H = U * diagonal l * Uᵀ := by
  refine ⟨hH.1.eigenvectorUnitary, hH.1.eigenvalues, hH.eigenvalues_pos, ?_, ?_, ?_⟩
  · have := Unitary.coe_star_mul_self hH.1.eigenvectorUnitary
    rwa [star_eq_conjTranspose, conjTranspose_eq_transpose_of_trivial] at this
  · have := Unitary.coe_mul_star_self hH.1.eigenvectorUnitary
    rwa [Unitary.coe_star, star_eq_conjTranspose, conjTranspose_eq_transpose_of_trivial] at this
  · have := hH.1.spectral_theorem
    rw [Unitary.conjStarAlgAut_apply, star_eq_conjTranspose, conjTranspose_eq_transpose_of_trivial] at this
    exact this

omit [DecidableEq ι] in
/-- A product of normal laws has the product density. -/
theorem pi_gaussian_density (v : ι → ℝ≥0) (hv : ∀ i, v i ≠ 0) :
    (Measure.pi (fun i => gaussianReal 0 (v i))) =
      (volume : Measure (ι → ℝ)).withDensity (fun x => ENNReal.ofReal (∏ i, gaussianPDFReal 0 (v i) (x i))) := by
  refine Measure.pi_eq fun s hs => ?_
  rw [withDensity_apply _ (MeasurableSet.univ_pi hs), ← lintegral_indicator (MeasurableSet.univ_pi hs)]
  have h1 : ∀ x : ι → ℝ, (Set.univ.pi s).indicator (fun x => ENNReal.ofReal (∏ i, gaussianPDFReal 0 (v i) (x i))) x =
      ENNReal.ofReal (∏ i, (s i).indicator (gaussianPDFReal 0 (v i)) (x i)) := by
    intro x
    by_cases hx : x ∈ Set.univ.pi s
    · rw [Set.indicator_of_mem hx]
      congr 1
      exact Finset.prod_congr rfl fun i _ => (Set.indicator_of_mem (hx i (Set.mem_univ i)) _).symm
    · rw [Set.indicator_of_notMem hx]
      simp only [Set.mem_pi, Set.mem_univ, true_implies, not_forall] at hx
      obtain ⟨i, hi⟩ := hx
      rw [Finset.prod_eq_zero (Finset.mem_univ i) (Set.indicator_of_notMem hi _), ENNReal.ofReal_zero]
  have hI : ∀ i, Integrable ((s i).indicator (gaussianPDFReal 0 (v i))) := fun i =>
    (integrable_gaussianPDFReal 0 (v i)).indicator (hs i)
  have h0 : ∀ i x, 0 ≤ (s i).indicator (gaussianPDFReal 0 (v i)) x := fun i x =>
    Set.indicator_nonneg (fun _ _ => gaussianPDFReal_nonneg _ _ _) x
  simp only [h1]
  have hI2 : Integrable (fun x : ι → ℝ => ∏ i, (s i).indicator (gaussianPDFReal 0 (v i)) (x i)) volume := Integrable.fintype_prod hI
  rw [← ofReal_integral_eq_lintegral_ofReal hI2 (ae_of_all _ fun x => Finset.prod_nonneg fun i _ => h0 i _),
    integral_fintype_prod_volume_eq_prod (fun i => (s i).indicator (gaussianPDFReal 0 (v i))),
    ENNReal.ofReal_prod_of_nonneg fun i _ => integral_nonneg (h0 i)]
  refine Finset.prod_congr rfl fun i _ => ?_
  rw [integral_indicator (hs i), gaussianReal_apply_eq_integral _ (hv i)]

/-- The law with quadratic log density, in eigenvector coordinates. -/
theorem quadratic_law {H U : Matrix ι ι ℝ} {l : ι → ℝ} (hl : ∀ i, 0 < l i) (hU : Uᵀ * U = 1) (hH : H = U * diagonal l * Uᵀ)
    (c : ℝ) (m : ι → ℝ) :
    fromLogDensity (fun x => c - (1 / 2) * ((x - m) ⬝ᵥ (H *ᵥ (x - m)))) =
      (Measure.pi (fun i => gaussianReal 0 (Real.toNNReal (1 / l i)))).map (fun y => m + U *ᵥ y) := by
  have hv : ∀ i, Real.toNNReal (1 / l i) ≠ 0 := fun i => by
    have := one_div_pos.mpr (hl i)
    rw [Ne, Real.toNNReal_eq_zero]; linarith
  set lp : (ι → ℝ) → ℝ := fun x => c - (1 / 2) * ((x - m) ⬝ᵥ (H *ᵥ (x - m))) with hlp
  set φ : (ι → ℝ) → (ι → ℝ) := fun y => m + U *ᵥ y with hφ
  have hφc : Continuous φ := by
    rw [hφ]; exact continuous_const.add (Continuous.matrix_mulVec continuous_const continuous_id)
  have hlpc : Continuous lp := by
    rw [hlp]
    have : Continuous fun x : ι → ℝ => x - m := continuous_id.sub continuous_const
    exact continuous_const.sub (continuous_const.mul (Continuous.dotProduct this (Continuous.matrix_mulVec continuous_const this)))
  have hdet : |U.det| = 1 := by
    have h1 := congrArg Matrix.det hU
    rw [det_mul, det_transpose, det_one] at h1
    rcases mul_self_eq_one_iff.mp h1 with h | h <;> rw [h] <;> simp
  have hmp : (volume : Measure (ι → ℝ)).map φ = volume := by
    have h1 := Real.map_matrix_volume_pi_eq_smul_volume_pi (M := U) (by intro h; rw [h] at hdet; simp at hdet)
    rw [abs_inv, hdet] at h1
    simp only [inv_one, ENNReal.ofReal_one, one_smul] at h1
    have h2 : φ = (fun x => m + x) ∘ (toLin' U) := by funext y; simp [hφ]
    rw [h2, ← Measure.map_map (by fun_prop) (LinearMap.continuous_on_pi _).measurable, h1, map_add_left_eq_self]
  have hq : ∀ y, lp (φ y) = c + ∑ i, -(y i) ^ 2 * l i / 2 := by
    intro y
    have e : (U *ᵥ y) ⬝ᵥ (H *ᵥ (U *ᵥ y)) = ∑ i, l i * y i ^ 2 := by
      rw [hH, mulVec_mulVec, Matrix.mul_assoc, hU, Matrix.mul_one, ← mulVec_mulVec, dotProduct_mulVec, ← mulVec_transpose,
        mulVec_mulVec, hU, one_mulVec, dotProduct]
      refine Finset.sum_congr rfl fun i _ => ?_
      rw [mulVec_diagonal]; ring
    simp only [hlp, hφ, add_sub_cancel_left]
    rw [e, sub_eq_add_neg, Finset.mul_sum, ← Finset.sum_neg_distrib]
    congr 1
    exact Finset.sum_congr rfl fun i _ => by ring
  set K : ℝ := Real.exp c * ∏ i, Real.sqrt (2 * Real.pi * (1 / l i)) with hK
  have hKpos : 0 < K := by
    refine mul_pos (Real.exp_pos _) (Finset.prod_pos fun i _ => Real.sqrt_pos.mpr ?_)
    have := hl i
    positivity
  have hdens : ∀ y, Real.exp (lp (φ y)) = K * ∏ i, gaussianPDFReal 0 (Real.toNNReal (1 / l i)) (y i) := by
    intro y
    rw [hq, Real.exp_add, Real.exp_sum, hK, mul_assoc, ← Finset.prod_mul_distrib]
    congr 1
    refine Finset.prod_congr rfl fun i _ => ?_
    have hli := hl i
    rw [gaussianPDFReal, Real.coe_toNNReal _ (one_div_pos.mpr hli).le, ← mul_assoc, mul_inv_cancel₀ (Real.sqrt_ne_zero'.mpr (by positivity)), one_mul]
    congr 1
    field_simp
    ring
  have hmeas : Measurable fun x => ENNReal.ofReal (Real.exp (lp x)) := by fun_prop
  have hmain : volume.withDensity (fun x => ENNReal.ofReal (Real.exp (lp x))) =
      ENNReal.ofReal K • (Measure.pi (fun i => gaussianReal 0 (Real.toNNReal (1 / l i)))).map φ := by
    rw [pi_gaussian_density _ hv]
    ext s hs
    rw [Measure.smul_apply, Measure.map_apply hφc.measurable hs, withDensity_apply _ hs, withDensity_apply _ (hφc.measurable hs)]
    conv_lhs => rw [← hmp, setLIntegral_map hs hmeas hφc.measurable]
    rw [smul_eq_mul, ← lintegral_const_mul' _ _ ENNReal.ofReal_ne_top]
    refine lintegral_congr fun y => ?_
    rw [hdens, ENNReal.ofReal_mul hKpos.le]
  have : IsProbabilityMeasure ((Measure.pi (fun i => gaussianReal 0 (Real.toNNReal (1 / l i)))).map φ) :=
    Measure.isProbabilityMeasure_map hφc.aemeasurable
  have hmass : ∫⁻ x, ENNReal.ofReal (Real.exp (lp x)) = ENNReal.ofReal K := by
    have h := congrArg (fun μ : Measure (ι → ℝ) => μ Set.univ) hmain
    simp only [withDensity_apply _ MeasurableSet.univ, Measure.restrict_univ, Measure.smul_apply, measure_univ, smul_eq_mul, mul_one] at h
    exact h
  unfold fromLogDensity
  rw [hmass, hmain, smul_smul, ENNReal.inv_mul_cancel (by simpa using hKpos) ENNReal.ofReal_ne_top, one_smul]

theorem quadratic_isProbability {H : Matrix ι ι ℝ} (hH : H.PosDef) (c : ℝ) (m : ι → ℝ) :
    IsProbabilityMeasure (fromLogDensity (fun x => c - (1 / 2) * ((x - m) ⬝ᵥ (H *ᵥ (x - m))))) := by
  obtain ⟨U, l, hl, hU, -, he⟩ := posDef_eigen hH
  rw [quadratic_law hl hU he]
  refine Measure.isProbabilityMeasure_map (Continuous.aemeasurable ?_)
  exact continuous_const.add (Continuous.matrix_mulVec continuous_const continuous_id)

/-- The law with quadratic log density as the image of independent standard normal draws. -/
theorem quadratic_law_std {H U : Matrix ι ι ℝ} {l : ι → ℝ} (hl : ∀ i, 0 < l i) (hU : Uᵀ * U = 1) (hH : H = U * diagonal l * Uᵀ)
    (c : ℝ) (m : ι → ℝ) :
    fromLogDensity (fun x => c - (1 / 2) * ((x - m) ⬝ᵥ (H *ᵥ (x - m)))) =
      (Measure.pi (fun _ : ι => gaussianReal 0 1)).map (fun y => m + U *ᵥ (fun i => Real.sqrt (1 / l i) * y i)) := by
  have hc1 : Measurable (fun y : ι → ℝ => m + U *ᵥ y) :=
    (continuous_const.add (Continuous.matrix_mulVec continuous_const continuous_id)).measurable
  have h1 : (Measure.pi (fun _ : ι => gaussianReal 0 1)).map (fun x i => Real.sqrt (1 / l i) * x i) =
      Measure.pi (fun i => gaussianReal 0 (Real.toNNReal (1 / l i))) := by
    have h2 := Measure.pi_map_pi (μ := fun _ : ι => gaussianReal 0 1) (f := fun i x => Real.sqrt (1 / l i) * x)
      (fun i => (measurable_const_mul _).aemeasurable)
    rw [h2]
    congr 1
    funext i
    rw [gaussianReal_map_const_mul]
    congr 1
    · simp
    · rw [mul_one]; ext
      have := one_div_pos.mpr (hl i)
      simp only [NNReal.coe_mk]
      rw [Real.sq_sqrt this.le, Real.coe_toNNReal _ this.le]
  rw [quadratic_law hl hU hH, ← h1, Measure.map_map hc1 (by fun_prop)]
  rfl

omit [DecidableEq ι] in
/-- Linear functionals of affine images of independent standard normal draws. -/
theorem affine_functional (a : ι → ℝ) (U : Matrix ι ι ℝ) (σ w : ι → ℝ) :
    (Measure.pi (fun _ : ι => gaussianReal 0 1)).map (fun y => w ⬝ᵥ (a + U *ᵥ (fun i => σ i * y i))) =
      gaussianReal (w ⬝ᵥ a) (Real.toNNReal (∑ i, ((Uᵀ *ᵥ w) i * σ i) ^ 2)) := by
  have h3 := normal_sum (fun i => (Uᵀ *ᵥ w) i * σ i)
  have h4 := gaussianReal_map_const_add (μ := 0) (v := Real.toNNReal (∑ i, ((Uᵀ *ᵥ w) i * σ i) ^ 2)) (w ⬝ᵥ a)
  rw [← h3, Measure.map_map (by fun_prop) (by fun_prop), zero_add] at h4
  rw [← h4]
  congr 1
  funext x
  simp only [Function.comp_apply, dotProduct_add]
  rw [dotProduct_mulVec, ← mulVec_transpose]
  simp only [dotProduct]
  congr 1
  exact Finset.sum_congr rfl fun i _ => by ring

omit [DecidableEq ι] in
/-- Convergence of all linear functionals gives convergence in distribution. -/
theorem cramer_wold {μ : ℕ → Measure (ι → ℝ)} [∀ n, IsProbabilityMeasure (μ n)] {μ₀ : Measure (ι → ℝ)} [IsProbabilityMeasure μ₀]
    (h : ∀ w : ι → ℝ, ∀ g : ℝ → ℝ, Continuous g → (∀ x, |g x| ≤ 1) →
      Tendsto (fun n => ∫ x, g (w ⬝ᵥ x) ∂μ n) atTop (𝓝 (∫ x, g (w ⬝ᵥ x) ∂μ₀)))
    {f : (ι → ℝ) → ℝ} (hf : Continuous f) {M : ℝ} (hM : ∀ x, |f x| ≤ M) :
    Tendsto (fun n => ∫ x, f x ∂μ n) atTop (𝓝 (∫ x, f x ∂μ₀)) := by
  let e := MeasurableEquiv.toLp 2 (ι → ℝ)
  have hec : Continuous (e : (ι → ℝ) → EuclideanSpace ℝ ι) := PiLp.continuous_toLp 2 _
  let ν : ℕ → ProbabilityMeasure (EuclideanSpace ℝ ι) := fun n => ⟨(μ n).map e, Measure.isProbabilityMeasure_map hec.aemeasurable⟩
  let ν₀ : ProbabilityMeasure (EuclideanSpace ℝ ι) := ⟨μ₀.map e, Measure.isProbabilityMeasure_map hec.aemeasurable⟩
  have hchar : ∀ (ρ : Measure (ι → ℝ)) [IsProbabilityMeasure ρ] (t : EuclideanSpace ℝ ι),
      charFun (ρ.map e) t = ((∫ x, Real.cos (t.ofLp ⬝ᵥ x) ∂ρ : ℝ) : ℂ) + ((∫ x, Real.sin (t.ofLp ⬝ᵥ x) ∂ρ : ℝ) : ℂ) * Complex.I := by
    intro ρ _ t
    have hd : Continuous (fun x : ι → ℝ => t.ofLp ⬝ᵥ x) := Continuous.dotProduct continuous_const continuous_id
    have hic : Integrable (fun x : ι → ℝ => Real.cos (t.ofLp ⬝ᵥ x)) ρ :=
      Integrable.of_bound (Real.continuous_cos.comp hd).aestronglyMeasurable 1 (ae_of_all _ fun x => by simpa using Real.abs_cos_le_one _)
    have his : Integrable (fun x : ι → ℝ => Real.sin (t.ofLp ⬝ᵥ x)) ρ :=
      Integrable.of_bound (Real.continuous_sin.comp hd).aestronglyMeasurable 1 (ae_of_all _ fun x => by simpa using Real.abs_sin_le_one _)
    rw [charFun_apply, integral_map hec.aemeasurable (by fun_prop)]
    rw [← integral_complex_ofReal, ← integral_complex_ofReal, ← integral_mul_const, ← integral_add hic.ofReal (his.ofReal.mul_const _)]
    refine integral_congr_ae (ae_of_all _ fun x => ?_)
    have : inner ℝ (e x) t = t.ofLp ⬝ᵥ x := by
      rw [EuclideanSpace.inner_eq_star_dotProduct]; simp [e]
    simp only [this]
    rw [Complex.exp_mul_I]; simp
  have hlim : Tendsto ν atTop (𝓝 ν₀) := by
    refine ProbabilityMeasure.tendsto_of_tendsto_charFun fun t => ?_
    change Tendsto (fun n => charFun ((μ n).map e) t) atTop (𝓝 (charFun (μ₀.map e) t))
    simp only [hchar]
    refine Tendsto.add ?_ (Tendsto.mul_const _ ?_)
    · exact (Complex.continuous_ofReal.tendsto _).comp (h t.ofLp Real.cos Real.continuous_cos Real.abs_cos_le_one)
    · exact (Complex.continuous_ofReal.tendsto _).comp (h t.ofLp Real.sin Real.continuous_sin Real.abs_sin_le_one)
  rw [ProbabilityMeasure.tendsto_iff_forall_integral_tendsto] at hlim
  have hfe : Continuous (fun y : EuclideanSpace ℝ ι => f y.ofLp) := hf.comp (PiLp.continuous_ofLp 2 _)
  let F : BoundedContinuousFunction (EuclideanSpace ℝ ι) ℝ :=
    BoundedContinuousFunction.ofNormedAddCommGroup (fun y => f y.ofLp) hfe M (fun y => by simpa using hM _)
  have h2 := hlim F
  have hF : ∀ ρ : Measure (ι → ℝ), ∫ y, F y ∂(ρ.map e) = ∫ x, f x ∂ρ := by
    intro ρ
    rw [integral_map hec.aemeasurable F.continuous.aestronglyMeasurable]
    rfl
  change Tendsto (fun n => ∫ y, F y ∂((μ n).map e)) atTop (𝓝 (∫ y, F y ∂(μ₀.map e))) at h2
  simpa only [hF] using h2

omit [DecidableEq ι] in
/-- Linear functionals determine the law. -/
theorem law_ext {μ ν : Measure (ι → ℝ)} [IsProbabilityMeasure μ] [IsProbabilityMeasure ν]
    (h : ∀ w : ι → ℝ, μ.map (fun x => w ⬝ᵥ x) = ν.map (fun x => w ⬝ᵥ x)) : μ = ν := by
  refine ext_of_forall_integral_eq_of_IsFiniteMeasure fun f => ?_
  have hT := cramer_wold (μ := fun _ => μ) (μ₀ := ν) (fun w g hg hb => ?_) f.continuous (M := ‖f‖) (fun x => f.norm_coe_le_norm x)
  · exact tendsto_nhds_unique tendsto_const_nhds hT
  have hd : Measurable (fun x : ι → ℝ => w ⬝ᵥ x) := (Continuous.dotProduct continuous_const continuous_id).measurable
  rw [← integral_map hd.aemeasurable hg.aestronglyMeasurable, ← integral_map hd.aemeasurable hg.aestronglyMeasurable, h w]
  exact tendsto_const_nhds

omit [DecidableEq ι] in
/-- Powers of the norm of independent standard normal draws are integrable. -/
theorem integrable_norm_draws (p : ℕ) : Integrable (fun y : ι → ℝ => (1 + ‖y‖) ^ p) (Measure.pi (fun _ : ι => gaussianReal 0 1)) := by
  have h1 : ∀ i, Integrable (fun y : ι → ℝ => (1 + ‖y i‖) ^ p) (Measure.pi (fun _ : ι => gaussianReal 0 1)) := by
    intro i
    have h2 : MemLp (fun x : ℝ => 1 + ‖x‖) p (gaussianReal 0 1) := by
      have h3 : MemLp (fun x : ℝ => ‖id x‖) p (gaussianReal 0 1) := (memLp_id_gaussianReal' (p : ℝ≥0∞) (ENNReal.natCast_ne_top p)).norm
      have h4 : MemLp (fun _ : ℝ => (1 : ℝ)) p (gaussianReal 0 1) := memLp_const 1
      exact h4.add h3
    have h3 := h2.integrable_norm_pow'
    have h4 : Integrable (fun x : ℝ => (1 + ‖x‖) ^ p) (gaussianReal 0 1) := h3.congr (ae_of_all _ fun x => by
      simp only; rw [Real.norm_of_nonneg (by positivity)])
    exact (measurePreserving_eval (fun _ : ι => gaussianReal 0 1) i).integrable_comp_of_integrable h4
  have h5 : Integrable (fun y : ι → ℝ => 1 + ∑ i, (1 + ‖y i‖) ^ p) (Measure.pi (fun _ : ι => gaussianReal 0 1)) :=
    (integrable_const 1).add (integrable_finsetSum _ fun i _ => h1 i)
  refine h5.mono' (by fun_prop) (ae_of_all _ fun y => ?_)
  rw [Real.norm_of_nonneg (by positivity)]
  have hs : 0 ≤ ∑ i, (1 + ‖y i‖) ^ p := Finset.sum_nonneg fun i _ => by positivity
  rcases isEmpty_or_nonempty ι with hE | hE
  · have : ‖y‖ = 0 := by rw [Subsingleton.elim y 0, norm_zero]
    rw [this]; simp
  · obtain ⟨i, hi⟩ := Finite.exists_max (fun i => ‖y i‖)
    have h6 : ‖y‖ ≤ ‖y i‖ := (pi_norm_le_iff_of_nonneg (norm_nonneg _)).mpr hi
    calc (1 + ‖y‖) ^ p ≤ (1 + ‖y i‖) ^ p := by gcongr
      _ ≤ ∑ i, (1 + ‖y i‖) ^ p := Finset.single_le_sum (f := fun i => (1 + ‖y i‖) ^ p) (fun i _ => by positivity) (Finset.mem_univ i)
      _ ≤ _ := by linarith

omit [DecidableEq ι] in
/-- Affine images of the draws: expectations of continuous functions of polynomial growth
depend continuously on the coefficients. -/
theorem affine_tendsto {f : (ι → ℝ) → ℝ} (hf : Continuous f) {A : ℝ} {p : ℕ} (hA : ∀ x, |f x| ≤ A * (1 + ‖x‖) ^ p) (U : Matrix ι ι ℝ)
    {a : ℕ → ι → ℝ} {a₀ : ι → ℝ} (ha : Tendsto a atTop (𝓝 a₀)) {σ : ℕ → ι → ℝ} {σ₀ : ι → ℝ} (hσ : Tendsto σ atTop (𝓝 σ₀)) :
    (∀ n, Integrable (fun y => f (a n + U *ᵥ (fun i => σ n i * y i))) (Measure.pi (fun _ : ι => gaussianReal 0 1))) ∧
    Tendsto (fun n => ∫ y, f (a n + U *ᵥ (fun i => σ n i * y i)) ∂(Measure.pi (fun _ : ι => gaussianReal 0 1))) atTop
      (𝓝 (∫ y, f (a₀ + U *ᵥ (fun i => σ₀ i * y i)) ∂(Measure.pi (fun _ : ι => gaussianReal 0 1)))) := by
  have hA0 : 0 ≤ A := by have := (abs_nonneg _).trans (hA 0); simpa using this
  obtain ⟨R, hR⟩ := (Metric.isBounded_range_of_tendsto a ha).exists_norm_le
  obtain ⟨S, hS⟩ := (Metric.isBounded_range_of_tendsto σ hσ).exists_norm_le
  have hR0 : 0 ≤ R := (norm_nonneg _).trans (hR (a 0) ⟨0, rfl⟩)
  have hS0 : 0 ≤ S := (norm_nonneg _).trans (hS (σ 0) ⟨0, rfl⟩)
  set L := LinearMap.toContinuousLinearMap (Matrix.mulVecLin U) with hL
  have hcont : ∀ n, Continuous (fun y : ι → ℝ => f (a n + U *ᵥ (fun i => σ n i * y i))) := fun n => by
    refine hf.comp (continuous_const.add (Continuous.matrix_mulVec continuous_const ?_))
    fun_prop
  have hb : ∀ (n : ℕ) (y : ι → ℝ), |f (a n + U *ᵥ (fun i => σ n i * y i))| ≤ A * ((1 + R + ‖L‖ * S) ^ p * (1 + ‖y‖) ^ p) := by
    intro n y
    refine (hA _).trans (mul_le_mul_of_nonneg_left ?_ hA0)
    rw [← mul_pow]
    refine pow_le_pow_left₀ (by positivity) ?_ p
    have h1 : ‖a n + U *ᵥ (fun i => σ n i * y i)‖ ≤ R + ‖L‖ * (S * ‖y‖) := by
      refine (norm_add_le _ _).trans (add_le_add (hR _ ⟨n, rfl⟩) ?_)
      refine (L.le_opNorm (fun i => σ n i * y i)).trans (mul_le_mul_of_nonneg_left ?_ (norm_nonneg _))
      refine (pi_norm_le_iff_of_nonneg (by positivity)).mpr fun i => ?_
      rw [norm_mul]
      exact mul_le_mul ((norm_le_pi_norm _ i).trans (hS _ ⟨n, rfl⟩)) (norm_le_pi_norm _ i) (norm_nonneg _) hS0
    nlinarith [norm_nonneg y, norm_nonneg L, mul_nonneg hR0 (norm_nonneg y), mul_nonneg (norm_nonneg L) hS0]
  have hI : Integrable (fun y : ι → ℝ => A * ((1 + R + ‖L‖ * S) ^ p * (1 + ‖y‖) ^ p)) (Measure.pi (fun _ : ι => gaussianReal 0 1)) :=
    ((integrable_norm_draws p).const_mul _).const_mul _
  refine ⟨fun n => hI.mono' (hcont n).aestronglyMeasurable (ae_of_all _ fun y => hb n y), ?_⟩
  refine tendsto_integral_of_dominated_convergence _ (fun n => (hcont n).aestronglyMeasurable) hI
    (fun n => ae_of_all _ fun y => hb n y) (ae_of_all _ fun y => ?_)
  refine (hf.tendsto _).comp (ha.add ?_)
  have h2 : Tendsto (fun n => fun i => σ n i * y i) atTop (𝓝 (fun i => σ₀ i * y i)) :=
    tendsto_pi_nhds.mpr fun i => (tendsto_pi_nhds.mp hσ i).mul_const _
  exact (L.continuous.tendsto _).comp h2

end Edward
