/-
C108: the gradient penalty of WGANInference keeps the critic's loss bounded below.
-/
import Mathlib.MeasureTheory.Integral.Pi
import Mathlib.MeasureTheory.Integral.IntervalIntegral.FundThmCalculus
import Mathlib.Analysis.SpecialFunctions.Integrals.Basic
import Mathlib.Analysis.SpecialFunctions.Pow.Deriv
import Mathlib.Analysis.Calculus.ContDiff.Basic
import Mathlib.Analysis.Calculus.FDeriv.Pow
import Verif.Model.GanLoss

open MeasureTheory Set

namespace Edward

variable {N d : ℕ}

/-- The law of one number drawn by `tf.random_uniform`. -/
noncomputable abbrev Spec.uniform01 : Measure ℝ := volume.restrict (Ico (0 : ℝ) 1)

/-- The law of `tf.random_uniform` of shape `[N, d]`. -/
noncomputable abbrev Spec.uniformBox (N d : ℕ) : Measure (Fin N → Fin d → ℝ) :=
  Measure.pi fun _ => Measure.pi fun _ => Spec.uniform01

/-- The Euclidean distance. -/
noncomputable def Spec.dist2 (x y : Fin d → ℝ) : ℝ := √(∑ i, (x i - y i) ^ 2)

instance : IsProbabilityMeasure Spec.uniform01 := ⟨by simp⟩

/-! ### Segments -/

theorem grad_sum (f : (Fin d → ℝ) → ℝ) (u v : Fin d → ℝ) : fderiv ℝ f u v = ∑ i, criticGrad f u i * v i := by
  conv_lhs => rw [show v = ∑ i, v i • (Pi.single i (1 : ℝ) : Fin d → ℝ) by
    ext j; simp [Finset.sum_apply, Pi.single_apply]]
  rw [map_sum]
  exact Finset.sum_congr rfl fun i _ => by rw [map_smul, smul_eq_mul, mul_comm]; rfl

theorem grad_le (f : (Fin d → ℝ) → ℝ) (u v : Fin d → ℝ) :
    fderiv ℝ f u v ≤ slope (criticGrad f u) * √(∑ i, v i ^ 2) := by
  rw [grad_sum]
  exact Real.sum_mul_le_sqrt_mul_sqrt _ _ _

theorem criticGrad_continuous {f : (Fin d → ℝ) → ℝ} (hf : ContDiff ℝ 1 f) (i : Fin d) :
    Continuous fun x => criticGrad f x i :=
  (hf.continuous_fderiv (by norm_num)).clm_apply continuous_const

theorem slope_continuous {f : (Fin d → ℝ) → ℝ} (hf : ContDiff ℝ 1 f) : Continuous fun x => slope (criticGrad f x) := by
  unfold slope
  exact Real.continuous_sqrt.comp (continuous_finsetSum _ fun i _ => (criticGrad_continuous hf i).pow 2)

theorem integral_uniform01 (h : ℝ → ℝ) : ∫ e, h e ∂Spec.uniform01 = ∫ e in (0 : ℝ)..1, h e := by
  rw [Spec.uniform01, intervalIntegral.integral_of_le zero_le_one, Measure.restrict_congr_set Ico_ae_eq_Ioc]

/-- On a segment the penalty pays for the difference of the critic's values. -/
theorem segment_bound {f : (Fin d → ℝ) → ℝ} (hf : ContDiff ℝ 1 f) (x y : Fin d → ℝ) {c : ℝ} (hc : 0 < c) :
    -(Spec.dist2 x y + Spec.dist2 x y ^ 2 / (4 * c)) ≤
      f y - f x + c * ∫ e, (slope (criticGrad f fun i => e * x i + (1 - e) * y i) - 1) ^ 2 ∂Spec.uniform01 := by
  set D := Spec.dist2 x y
  set γ : ℝ → Fin d → ℝ := fun e i => e * x i + (1 - e) * y i
  have hγ : ∀ e, HasDerivAt γ (fun i => x i - y i) e := fun e => by
    rw [hasDerivAt_pi]
    intro i
    have := ((hasDerivAt_id e).mul_const (x i)).add (((hasDerivAt_id e).const_sub 1).mul_const (y i))
    exact this.congr_deriv (by ring)
  have hγc : Continuous γ := continuous_iff_continuousAt.2 fun e => (hγ e).continuousAt
  have hd : ∀ e, HasDerivAt (fun e => f (γ e)) (fderiv ℝ f (γ e) fun i => x i - y i) e := fun e =>
    ((hf.differentiable (by norm_num)).differentiableAt.hasFDerivAt).comp_hasDerivAt e (hγ e)
  have hdc : Continuous fun e => fderiv ℝ f (γ e) fun i => x i - y i :=
    ((hf.continuous_fderiv (by norm_num)).comp hγc).clm_apply continuous_const
  have hsc : Continuous fun e => (slope (criticGrad f (γ e)) - 1) ^ 2 :=
    (((slope_continuous hf).comp hγc).sub continuous_const).pow 2
  have hftc : ∫ e in (0 : ℝ)..1, fderiv ℝ f (γ e) (fun i => x i - y i) = f x - f y := by
    rw [intervalIntegral.integral_eq_sub_of_hasDerivAt (fun e _ => hd e) (hdc.intervalIntegrable _ _)]
    simp [γ]
  have hpt : ∀ e, fderiv ℝ f (γ e) (fun i => x i - y i) ≤
      c * (slope (criticGrad f (γ e)) - 1) ^ 2 + (D + D ^ 2 / (4 * c)) := fun e => by
    have h1 := grad_le f (γ e) fun i => x i - y i
    set s := slope (criticGrad f (γ e))
    have h2 : c * (s - 1) ^ 2 + (D + D ^ 2 / (4 * c)) - s * D = c * ((s - 1) - D / (2 * c)) ^ 2 := by
      field_simp
      ring
    have h3 : 0 ≤ c * ((s - 1) - D / (2 * c)) ^ 2 := by positivity
    have h4 : s * √(∑ i, (x i - y i) ^ 2) = s * D := rfl
    linarith
  have hcs : Continuous fun e => c * (slope (criticGrad f (γ e)) - 1) ^ 2 := continuous_const.mul hsc
  have hcs' : Continuous fun e => c * (slope (criticGrad f (γ e)) - 1) ^ 2 + (D + D ^ 2 / (4 * c)) :=
    hcs.add continuous_const
  have hm := intervalIntegral.integral_mono_on (μ := volume) zero_le_one (hdc.intervalIntegrable 0 1)
    (hcs'.intervalIntegrable 0 1) fun e _ => hpt e
  have hr : ∫ e in (0 : ℝ)..1, (c * (slope (criticGrad f (γ e)) - 1) ^ 2 + (D + D ^ 2 / (4 * c))) =
      c * (∫ e in (0 : ℝ)..1, (slope (criticGrad f (γ e)) - 1) ^ 2) + (D + D ^ 2 / (4 * c)) := by
    rw [intervalIntegral.integral_add (hcs.intervalIntegrable 0 1)
      (continuous_const.intervalIntegrable 0 1), intervalIntegral.integral_const_mul]
    simp
  rw [integral_uniform01]
  linarith [hftc, hm, hr]

/-! ### Expected losses -/

/-- The expected loss of the critic, when the penalty of each data point has an expectation. -/
theorem expected_lossD {c : ℝ} (hc : c ≠ 0) (f : (Fin d → ℝ) → ℝ) (xTrue xFake : Fin N → Fin d → ℝ)
    (regs : List (String × ℝ))
    (hi : ∀ n, Integrable (fun e : Fin d → ℝ =>
      (slope (criticGrad f fun i => e i * xTrue n i + (1 - e i) * xFake n i) - 1) ^ 2)
      (Measure.pi fun _ => Spec.uniform01)) :
    Integrable (fun eps => (wganLosses (some c) f xTrue xFake eps regs).2) (Spec.uniformBox N d) ∧
    ∫ eps, (wganLosses (some c) f xTrue xFake eps regs).2 ∂Spec.uniformBox N d =
      (∑ n, (f (xFake n) - f (xTrue n) + c * ∫ e : Fin d → ℝ,
        (slope (criticGrad f fun i => e i * xTrue n i + (1 - e i) * xFake n i) - 1) ^ 2
          ∂Measure.pi fun _ => Spec.uniform01)) / N + regSum (regsIn "Disc" regs) := by
  have hI : ∀ n, Integrable (fun eps : Fin N → Fin d → ℝ =>
      (slope (criticGrad f (interpolated xTrue xFake eps n)) - 1) ^ 2) (Spec.uniformBox N d) := fun n =>
    integrable_comp_eval (μ := fun _ : Fin N => Measure.pi fun _ : Fin d => Spec.uniform01) (i := n) (hi n)
  have hE : ∀ n, ∫ eps : Fin N → Fin d → ℝ, (slope (criticGrad f (interpolated xTrue xFake eps n)) - 1) ^ 2
      ∂Spec.uniformBox N d = ∫ e : Fin d → ℝ,
        (slope (criticGrad f fun i => e i * xTrue n i + (1 - e i) * xFake n i) - 1) ^ 2
          ∂Measure.pi fun _ => Spec.uniform01 := fun n =>
    integral_comp_eval (μ := fun _ : Fin N => Measure.pi fun _ : Fin d => Spec.uniform01) (i := n)
      (hi n).aestronglyMeasurable
  have hfun : (fun eps => (wganLosses (some c) f xTrue xFake eps regs).2) = fun eps =>
      ((∑ n, f (xFake n)) / N - (∑ n, f (xTrue n)) / N + regSum (regsIn "Disc" regs)) +
        c / N * ∑ n, (slope (criticGrad f (interpolated xTrue xFake eps n)) - 1) ^ 2 := by
    funext eps
    simp only [wganLosses, gradientPenalty, if_neg hc]
    ring
  rw [hfun]
  have hS := integrable_finsetSum Finset.univ fun n _ => hI n
  refine ⟨(integrable_const _).add (hS.const_mul _), ?_⟩
  rw [integral_add (integrable_const _) (hS.const_mul _), integral_const, integral_const_mul,
    integral_finsetSum _ fun n _ => hI n]
  simp only [hE, probReal_univ, one_smul, Finset.sum_add_distrib, Finset.sum_sub_distrib, ← Finset.mul_sum]
  ring

/-- C108: without a penalty (`None` or zero) the critic's loss is the difference of its means over generated and true data
points plus its penalties; the generator's loss is minus the mean over generated data points plus the other penalties,
whatever the gradient penalty. -/
theorem C108_losses (f : (Fin d → ℝ) → ℝ) (xTrue xFake eps : Fin N → Fin d → ℝ) (regs : List (String × ℝ)) :
    (∀ pen, (wganLosses pen f xTrue xFake eps regs).1 =
      -((∑ n, f (xFake n)) / N) + regSum (regsOut "Disc" regs)) ∧
    ∀ pen, pen = none ∨ pen = some 0 → (wganLosses pen f xTrue xFake eps regs).2 =
      (∑ n, f (xFake n)) / N - (∑ n, f (xTrue n)) / N + regSum (regsIn "Disc" regs) := by
  refine ⟨fun _ => rfl, ?_⟩
  rintro _ (rfl | rfl)
  · simp [wganLosses, gradientPenalty]
  · simp [wganLosses, gradientPenalty]

/-- C108, where it holds: data points with one entry. For every continuously differentiable critic and every batch, the
expected loss of the critic is at least a bound that does not depend on the critic. -/
theorem C108_scalar_partial {c : ℝ} (hc : 0 < c) (f : (Fin 1 → ℝ) → ℝ) (hf : ContDiff ℝ 1 f)
    (xTrue xFake : Fin N → Fin 1 → ℝ) (regs : List (String × ℝ)) :
    -(∑ n, (Spec.dist2 (xTrue n) (xFake n) + Spec.dist2 (xTrue n) (xFake n) ^ 2 / (4 * c))) / N +
        regSum (regsIn "Disc" regs) ≤
      ∫ eps, (wganLosses (some c) f xTrue xFake eps regs).2 ∂Spec.uniformBox N 1 := by
  have heq : ∀ n, (fun e : Fin 1 → ℝ => (slope (criticGrad f fun i => e i * xTrue n i + (1 - e i) * xFake n i) - 1) ^ 2) =
      fun e => (fun t : ℝ => (slope (criticGrad f fun i => t * xTrue n i + (1 - t) * xFake n i) - 1) ^ 2) (e 0) := by
    intro n
    funext e
    have : (fun i => e i * xTrue n i + (1 - e i) * xFake n i) =
        fun i => e 0 * xTrue n i + (1 - e 0) * xFake n i := by
      funext i
      rw [Subsingleton.elim i 0]
    rw [this]
  have hcont : ∀ n, Continuous fun t : ℝ =>
      (slope (criticGrad f fun i => t * xTrue n i + (1 - t) * xFake n i) - 1) ^ 2 := fun n => by
    refine (((slope_continuous hf).comp (g := fun x => slope (criticGrad f x)) ?_).sub continuous_const).pow 2
    exact continuous_pi fun i => by fun_prop
  have hint : ∀ n, Integrable (fun t : ℝ =>
      (slope (criticGrad f fun i => t * xTrue n i + (1 - t) * xFake n i) - 1) ^ 2) Spec.uniform01 := fun n =>
    ((hcont n).integrableOn_Icc (a := 0) (b := 1)).mono_set Ico_subset_Icc_self
  have hi : ∀ n, Integrable (fun e : Fin 1 → ℝ =>
      (slope (criticGrad f fun i => e i * xTrue n i + (1 - e i) * xFake n i) - 1) ^ 2)
      (Measure.pi fun _ => Spec.uniform01) := fun n => by
    rw [heq n]
    exact integrable_comp_eval (μ := fun _ : Fin 1 => Spec.uniform01) (i := 0) (hint n)
  rw [(expected_lossD hc.ne' f xTrue xFake regs hi).2, neg_div, ← neg_div, ← Finset.sum_neg_distrib]
  refine add_le_add (div_le_div_of_nonneg_right (Finset.sum_le_sum fun n _ => ?_) (Nat.cast_nonneg _)) le_rfl
  rw [heq n, integral_comp_eval (μ := fun _ : Fin 1 => Spec.uniform01) (i := 0) (hint n).aestronglyMeasurable]
  exact segment_bound hf _ _ hc

/-- The hypotheses of `C108_scalar_partial` are met. -/
example : (-(∑ n : Fin 1, (Spec.dist2 (fun _ : Fin 1 => (1 : ℝ)) (fun _ => 0) +
      Spec.dist2 (fun _ : Fin 1 => (1 : ℝ)) (fun _ => 0) ^ 2 / (4 * 10))) / (1 : ℕ) + regSum (regsIn "Disc" []) : ℝ) ≤
    ∫ eps, (wganLosses (some 10) (fun x : Fin 1 → ℝ => x 0 ^ 2) (fun _ : Fin 1 => fun _ => 1) (fun _ _ => 0) eps []).2
      ∂Spec.uniformBox 1 1 :=
  C108_scalar_partial (by norm_num) _ (by fun_prop) _ _ _

/-! ### Several entries -/

/-- A critic with a spike of depth `δ ^ (-1/8)` at the origin. -/
noncomputable def Spec.spike (δ : ℝ) (u : Fin 3 → ℝ) : ℝ := -((∑ i, u i ^ 2 + δ) ^ (-(1 / 8) : ℝ))

theorem spike_hasFDerivAt {δ : ℝ} (hδ : 0 < δ) (u : Fin 3 → ℝ) :
    HasFDerivAt (Spec.spike δ) (-((-(1 / 8) : ℝ) * (∑ i, u i ^ 2 + δ) ^ (-(1 / 8) - 1 : ℝ)) •
      ∑ i, (2 * u i) • (ContinuousLinearMap.proj i : (Fin 3 → ℝ) →L[ℝ] ℝ)) u := by
  have hs : HasFDerivAt (fun u : Fin 3 → ℝ => ∑ i, u i ^ 2 + δ)
      (∑ i, (2 * u i) • (ContinuousLinearMap.proj i : (Fin 3 → ℝ) →L[ℝ] ℝ)) u := by
    refine (HasFDerivAt.fun_sum fun i _ => ?_).add_const δ
    have := (hasFDerivAt_apply (𝕜 := ℝ) i u).pow 2
    simpa using this
  have hpos : (∑ i, u i ^ 2 + δ) ≠ 0 := by positivity
  have := (Real.hasDerivAt_rpow_const (p := -(1 / 8)) (Or.inl hpos)).comp_hasFDerivAt u hs
  have := this.neg
  rw [← neg_smul] at this
  exact this

theorem spike_grad {δ : ℝ} (hδ : 0 < δ) (u : Fin 3 → ℝ) (i : Fin 3) :
    criticGrad (Spec.spike δ) u i = 1 / 4 * (∑ i, u i ^ 2 + δ) ^ (-(9 / 8) : ℝ) * u i := by
  rw [criticGrad, (spike_hasFDerivAt hδ u).fderiv]
  simp only [_root_.smul_apply, _root_.sum_apply, ContinuousLinearMap.proj_apply,
    Pi.single_apply, smul_eq_mul, mul_ite, mul_one, mul_zero, Finset.sum_ite_eq', Finset.mem_univ,
    if_true]
  rw [show (-(1 / 8) - 1 : ℝ) = -(9 / 8) by norm_num]
  ring

theorem spike_contDiff {δ : ℝ} (hδ : 0 < δ) : ContDiff ℝ 1 (Spec.spike δ) := by
  refine ContDiff.neg (ContDiff.rpow_const_of_ne ?_ ?_)
  · exact (ContDiff.sum fun i _ => (contDiff_apply ℝ ℝ i).pow 2).add contDiff_const
  · intro u
    positivity

/-- The squared slope of the spike is at most an integrable function that does not depend on the depth. -/
theorem spike_slope {δ : ℝ} (hδ : 0 < δ) (u : Fin 3 → ℝ) (hu : ∀ i, 0 < u i) :
    slope (criticGrad (Spec.spike δ) u) ^ 2 ≤ 1 / 16 * ∏ i, u i ^ (-(5 / 6) : ℝ) := by
  have hs : 0 < ∑ i, u i ^ 2 := Finset.sum_pos (fun i _ => by have := hu i; positivity) Finset.univ_nonempty
  set s := ∑ i, u i ^ 2 with hsd
  have h1 : slope (criticGrad (Spec.spike δ) u) ^ 2 = 1 / 16 * ((s + δ) ^ (-(9 / 4) : ℝ) * s) := by
    rw [slope, Real.sq_sqrt (by positivity)]
    simp only [spike_grad hδ, mul_pow, ← hsd, ← Finset.mul_sum]
    rw [← Real.rpow_natCast ((s + δ) ^ _), ← Real.rpow_mul (by positivity)]
    norm_num
    ring
  have h2 : (s + δ) ^ (-(9 / 4) : ℝ) * s ≤ s ^ (-(5 / 4) : ℝ) := by
    calc (s + δ) ^ (-(9 / 4) : ℝ) * s ≤ s ^ (-(9 / 4) : ℝ) * s := by
          gcongr ?_ * s
          exact Real.rpow_le_rpow_of_nonpos hs (by linarith) (by norm_num)
      _ = s ^ (-(5 / 4) : ℝ) := by
          rw [← Real.rpow_add_one hs.ne']
          norm_num
  have h3 : ∏ i, u i ^ 2 ≤ s ^ 3 := by
    calc ∏ i, u i ^ 2 ≤ ∏ _i : Fin 3, s := Finset.prod_le_prod (fun i _ => sq_nonneg _) fun i _ =>
          Finset.single_le_sum (f := fun i => u i ^ 2) (fun j _ => sq_nonneg _) (Finset.mem_univ i)
      _ = s ^ 3 := by simp
  have hp : 0 < ∏ i, u i ^ 2 := Finset.prod_pos fun i _ => by have := hu i; positivity
  have h4 : s ^ (-(5 / 4) : ℝ) ≤ ∏ i, u i ^ (-(5 / 6) : ℝ) := by
    calc s ^ (-(5 / 4) : ℝ) = (s ^ 3) ^ (-(5 / 12) : ℝ) := by
          rw [← Real.rpow_natCast, ← Real.rpow_mul hs.le]
          norm_num
      _ ≤ (∏ i, u i ^ 2) ^ (-(5 / 12) : ℝ) := Real.rpow_le_rpow_of_nonpos hp h3 (by norm_num)
      _ = ∏ i, u i ^ (-(5 / 6) : ℝ) := by
          rw [← Real.finsetProd_rpow _ _ fun i _ => sq_nonneg _]
          refine Finset.prod_congr rfl fun i _ => ?_
          rw [← Real.rpow_natCast, ← Real.rpow_mul (hu i).le]
          norm_num
  rw [h1]
  exact mul_le_mul_of_nonneg_left (h2.trans h4) (by norm_num)

theorem rpow_integrable : Integrable (fun t : ℝ => t ^ (-(5 / 6) : ℝ)) Spec.uniform01 := by
  have := (intervalIntegral.intervalIntegrable_rpow' (a := 0) (b := 1) (r := -(5 / 6)) (by norm_num)).1
  rwa [IntegrableOn, ← Measure.restrict_congr_set Ico_ae_eq_Ioc] at this

theorem rpow_integral : ∫ t : ℝ, t ^ (-(5 / 6) : ℝ) ∂Spec.uniform01 = 6 := by
  rw [integral_uniform01, integral_rpow (Or.inl (by norm_num))]
  norm_num

/-- C108 fails for data points with several entries: the code draws one number per entry, so the interpolates fill the
box between a data point and a fake one and almost none is on the segment between them. For every penalty and every bound
there is a smooth critic whose expected loss is below the bound. -/
theorem C108_fails {c : ℝ} (hc : 0 < c) (N : ℕ) (hN : 0 < N) (K : ℝ) (regs : List (String × ℝ)) :
    ∃ f : (Fin 3 → ℝ) → ℝ, ContDiff ℝ 1 f ∧
      Integrable (fun eps => (wganLosses (some c) f (fun (_ : Fin N) _ => 1) (fun _ _ => 0) eps regs).2)
        (Spec.uniformBox N 3) ∧
      ∫ eps, (wganLosses (some c) f (fun (_ : Fin N) _ => 1) (fun _ _ => 0) eps regs).2 ∂Spec.uniformBox N 3 < K := by
  set M : ℝ := |K| + |regSum (regsIn "Disc" regs)| + 2 + c * (29 / 2) with hM
  have hMpos : 0 < M := by positivity
  set δ : ℝ := M ^ (-8 : ℝ)
  have hδ : 0 < δ := Real.rpow_pos_of_pos hMpos _
  have hprod : Integrable (fun e : Fin 3 → ℝ => ∏ i, e i ^ (-(5 / 6) : ℝ)) (Measure.pi fun _ => Spec.uniform01) :=
    Integrable.fintype_prod (f := fun _ t => t ^ (-(5 / 6) : ℝ)) fun _ => rpow_integrable
  have hprodE : ∫ e : Fin 3 → ℝ, ∏ i, e i ^ (-(5 / 6) : ℝ) ∂Measure.pi (fun _ => Spec.uniform01) = 216 := by
    rw [integral_fintype_prod_eq_pow (fun t : ℝ => t ^ (-(5 / 6) : ℝ)), rpow_integral]
    norm_num
  have hx : ∀ e : Fin 3 → ℝ, (fun i => e i * (1 : ℝ) + (1 - e i) * 0) = e := fun e => by funext i; ring
  have hpos : ∀ᵐ e ∂Measure.pi (fun _ : Fin 3 => Spec.uniform01), ∀ i, 0 < e i := by
    refine ae_all_iff.2 fun i => ?_
    refine (measurePreserving_eval (fun _ : Fin 3 => Spec.uniform01) i).quasiMeasurePreserving.ae
      (p := fun t : ℝ => 0 < t) ?_
    rw [Spec.uniform01, Measure.restrict_congr_set Ico_ae_eq_Ioc]
    filter_upwards [ae_restrict_mem measurableSet_Ioc] with t ht using ht.1
  have hle : ∀ᵐ e ∂Measure.pi (fun _ : Fin 3 => Spec.uniform01),
      (slope (criticGrad (Spec.spike δ) e) - 1) ^ 2 ≤ 1 / 16 * ∏ i, e i ^ (-(5 / 6) : ℝ) + 1 := by
    filter_upwards [hpos] with e he
    have h1 := spike_slope hδ e he
    have h2 : 0 ≤ slope (criticGrad (Spec.spike δ) e) := Real.sqrt_nonneg _
    nlinarith
  have hbi : Integrable (fun e : Fin 3 → ℝ => 1 / 16 * ∏ i, e i ^ (-(5 / 6) : ℝ) + 1)
      (Measure.pi fun _ => Spec.uniform01) := (hprod.const_mul _).add (integrable_const _)
  have hcont : Continuous fun e : Fin 3 → ℝ => (slope (criticGrad (Spec.spike δ) e) - 1) ^ 2 :=
    ((slope_continuous (spike_contDiff hδ)).sub continuous_const).pow 2
  have hint : Integrable (fun e : Fin 3 → ℝ => (slope (criticGrad (Spec.spike δ) e) - 1) ^ 2)
      (Measure.pi fun _ => Spec.uniform01) := by
    refine hbi.mono' hcont.aestronglyMeasurable ?_
    filter_upwards [hle] with e he
    rwa [Real.norm_eq_abs, abs_of_nonneg (sq_nonneg _)]
  have hE : ∫ e, (slope (criticGrad (Spec.spike δ) e) - 1) ^ 2 ∂Measure.pi (fun _ : Fin 3 => Spec.uniform01) ≤ 29 / 2 := by
    refine (integral_mono_ae hint hbi hle).trans (le_of_eq ?_)
    rw [integral_add (hprod.const_mul _) (integrable_const _), integral_const_mul, hprodE]
    simp
    norm_num
  have h0 : Spec.spike δ (fun _ => 0) = -M := by
    rw [Spec.spike]
    simp only [ne_eq, OfNat.ofNat_ne_zero, not_false_eq_true, zero_pow, Finset.sum_const_zero, zero_add]
    rw [← Real.rpow_mul hMpos.le]
    norm_num
  have h1 : -1 ≤ Spec.spike δ (fun _ => 1) := by
    rw [Spec.spike, neg_le_neg_iff]
    refine Real.rpow_le_one_of_one_le_of_nonpos ?_ (by norm_num)
    simp
    linarith
  obtain ⟨hI, hV⟩ := expected_lossD hc.ne' (Spec.spike δ) (fun (_ : Fin N) _ => 1) (fun _ _ => 0) regs
    fun n => by simpa only [hx] using hint
  refine ⟨Spec.spike δ, spike_contDiff hδ, hI, ?_⟩
  rw [hV]
  simp only [hx, h0]
  rw [Finset.sum_const, Finset.card_univ, Fintype.card_fin, nsmul_eq_mul, mul_div_cancel_left₀ _ (by positivity)]
  have h2 := mul_le_mul_of_nonneg_left hE hc.le
  have h3 := neg_abs_le K
  have h4 := le_abs_self (regSum (regsIn "Disc" regs))
  rw [hM]
  linarith

end Edward
