/-
C125: MAP by gradient descent. There are no draws, so a fixed learning rate can work: it does when the curvature of the log
density stays below 2 / 0.01, that is, for the mean of normal data, up to 198 observations.
-/
import Verif.Props.Descent

namespace Edward
set_option linter.unusedSectionVars false
open MeasureTheory Filter Topology ProbabilityTheory

section general
variable {E : Type} [NormedAddCommGroup E] [InnerProductSpace ℝ E] [CompleteSpace E] {Z X I Θ : Type} [Fintype I]

theorem mapRun_succ (lr : ℕ → ℝ) (v : ViProblem Z X I Θ) (T : E → Θ) (x : E) (n : ℕ) :
    mapRun lr v T x (n + 1) = mapRun lr v T x n - lr n • mapGradient v T (mapRun lr v T x n) := rfl

theorem map_value (v : ViProblem Z X I Θ) (ω : Θ) : mapLoss v ω 0 = -Spec.logJoint v ω :=
  (C56_own_scale_partial v 0 Fin.elim0).2.2.2 ω

theorem mapGradient_eq (v : ViProblem Z X I Θ) (T : E → Θ) (l : E) : mapGradient v T l = -gradient (fun l => Spec.logJoint v (T l)) l := by
  simp only [mapGradient, map_value, gradient, fderiv_fun_neg, map_neg]

variable {v : ViProblem Z X I Θ} {T : E → Θ} {K : ℝ}

theorem map_step (hd : ∀ l, DifferentiableAt ℝ (fun l => mapLoss v (T l) 0) l)
    (hK : ∀ l l', ‖mapGradient v T l - mapGradient v T l'‖ ≤ K * ‖l - l'‖) (l : E) (a : ℝ) :
    mapLoss v (T (l - a • mapGradient v T l)) 0 ≤ mapLoss v (T l) 0 - a * (1 - K * a / 2) * ‖mapGradient v T l‖ ^ 2 := by
  have h := smooth_le (F := fun l => mapLoss v (T l) 0) (g := mapGradient v T) (fun l => (hd l).hasGradientAt) hK l (l - a • mapGradient v T l)
  have e : l - a • mapGradient v T l - l = -(a • mapGradient v T l) := by abel
  rw [e, inner_neg_right, inner_smul_right, real_inner_self_eq_norm_sq, norm_neg, norm_smul, Real.norm_eq_abs, mul_pow, sq_abs] at h
  refine h.trans (le_of_eq ?_)
  ring

theorem map_stationary (hd : ∀ l, DifferentiableAt ℝ (fun l => mapLoss v (T l) 0) l)
    (hK : ∀ l l', ‖mapGradient v T l - mapGradient v T l'‖ ≤ K * ‖l - l'‖) (hK2 : K < 200) {c : ℝ} (hc : ∀ l, c ≤ mapLoss v (T l) 0) (x : E) :
    buildOptimizer (.name "gradientdescent") .none = .ok (.built .gradientDescent .fixed, .none) ∧
    Antitone (fun n => mapLoss v (T (mapRun LearningRate.fixed.at v T x n)) 0) ∧
    Tendsto (fun n => mapGradient v T (mapRun LearningRate.fixed.at v T x n)) atTop (𝓝 0) := by
  set θ := mapRun LearningRate.fixed.at v T x with hθ
  have hpos : 0 < 0.01 * (1 - K * 0.01 / 2) := by norm_num; linarith
  have hstep : ∀ n, mapLoss v (T (θ (n + 1))) 0 ≤ mapLoss v (T (θ n)) 0 - 0.01 * (1 - K * 0.01 / 2) * ‖mapGradient v T (θ n)‖ ^ 2 := fun n =>
    map_step hd hK (θ n) 0.01
  have hanti : Antitone (fun n => mapLoss v (T (θ n)) 0) := by
    refine antitone_nat_of_succ_le fun n => (hstep n).trans ?_
    have : 0 ≤ 0.01 * (1 - K * 0.01 / 2) * ‖mapGradient v T (θ n)‖ ^ 2 := by positivity
    linarith
  refine ⟨rfl, hanti, ?_⟩
  have hsum : ∀ n, ∑ i ∈ Finset.range n, 0.01 * (1 - K * 0.01 / 2) * ‖mapGradient v T (θ i)‖ ^ 2 ≤ mapLoss v (T x) 0 - mapLoss v (T (θ n)) 0 := by
    intro n
    induction n with
    | zero => simp [hθ, mapRun, descend]
    | succ n ih =>
      rw [Finset.sum_range_succ]
      linarith [hstep n]
  have hs : Summable fun i => 0.01 * (1 - K * 0.01 / 2) * ‖mapGradient v T (θ i)‖ ^ 2 :=
    summable_of_sum_range_le (fun i => by positivity) fun n => (hsum n).trans (sub_le_sub_left (hc _) _)
  have h0 := hs.tendsto_atTop_zero
  have h1 : Tendsto (fun n => ‖mapGradient v T (θ n)‖ ^ 2) atTop (𝓝 0) := by
    have := h0.const_mul (0.01 * (1 - K * 0.01 / 2))⁻¹
    rw [mul_zero] at this
    refine this.congr fun n => ?_
    rw [← mul_assoc, inv_mul_cancel₀ hpos.ne', one_mul]
  rw [tendsto_zero_iff_norm_tendsto_zero]
  have h2 := h1.sqrt
  simpa [Real.sqrt_sq (norm_nonneg _)] using h2

theorem map_mode (hd : ∀ l, DifferentiableAt ℝ (fun l => mapLoss v (T l) 0) l)
    (hK : ∀ l l', ‖mapGradient v T l - mapGradient v T l'‖ ≤ K * ‖l - l'‖) (hK2 : K < 200) {m : ℝ} (hm : 0 < m)
    (hsc : ∀ l l', mapLoss v (T l) 0 + inner ℝ (mapGradient v T l) (l' - l) + m / 2 * ‖l' - l‖ ^ 2 ≤ mapLoss v (T l') 0)
    {mode : E} (hmode : ∀ l, mapLoss v (T mode) 0 ≤ mapLoss v (T l) 0) (x : E) :
    Tendsto (mapRun LearningRate.fixed.at v T x) atTop (𝓝 mode) := by
  obtain ⟨-, -, hg⟩ := map_stationary hd hK hK2 hmode x
  rw [tendsto_iff_norm_sub_tendsto_zero]
  have h1 : Tendsto (fun n => 2 / m * ‖mapGradient v T (mapRun LearningRate.fixed.at v T x n)‖) atTop (𝓝 0) := by
    simpa using hg.norm.const_mul (2 / m)
  refine squeeze_zero (fun n => norm_nonneg _) (fun n => ?_) h1
  set l := mapRun LearningRate.fixed.at v T x n
  have h2 := hsc l mode
  have h3 := hmode l
  have h4 := neg_le_of_abs_le (abs_real_inner_le_norm (mapGradient v T l) (mode - l))
  rw [norm_sub_rev l mode, div_mul_eq_mul_div, le_div_iff₀ hm]
  rcases (norm_nonneg (mode - l)).eq_or_lt with h5 | h5
  · rw [← h5, zero_mul]; positivity
  · nlinarith

/-- C125: when the gradient of the log density has a Lipschitz constant below 2 / 0.01 = 200, no update of
`optimizer="gradientdescent"` lowers the density, and the gradient tends to zero. -/
theorem C125_stationary (hd : ∀ l, DifferentiableAt ℝ (fun l => Spec.logJoint v (T l)) l)
    (hK : ∀ l l', ‖gradient (fun l => Spec.logJoint v (T l)) l - gradient (fun l => Spec.logJoint v (T l)) l'‖ ≤ K * ‖l - l'‖) (hK2 : K < 200)
    {c : ℝ} (hc : ∀ l, Spec.logJoint v (T l) ≤ c) (x : E) :
    buildOptimizer (.name "gradientdescent") .none = .ok (.built .gradientDescent .fixed, .none) ∧
    Monotone (fun n => Spec.logJoint v (T (mapRun LearningRate.fixed.at v T x n))) ∧
    Tendsto (fun n => gradient (fun l => Spec.logJoint v (T l)) (mapRun LearningRate.fixed.at v T x n)) atTop (𝓝 0) := by
  obtain ⟨h1, h2, h3⟩ := map_stationary (v := v) (T := T) (K := K) (c := -c) (fun l => by simp only [map_value]; exact (hd l).fun_neg)
    (fun l l' => by rw [mapGradient_eq, mapGradient_eq, neg_sub_neg, norm_sub_rev]; exact hK l l') hK2
    (fun l => by rw [map_value]; exact neg_le_neg (hc l)) x
  refine ⟨h1, fun a b hab => ?_, ?_⟩
  · have := h2 hab
    simp only [map_value] at this
    exact neg_le_neg_iff.mp this
  · have := h3.neg
    simpa only [mapGradient_eq, neg_neg, neg_zero] using this

/-- C125: if moreover the log density is strongly concave, the parameters converge to the mode, from every starting point. -/
theorem C125_mode (hd : ∀ l, DifferentiableAt ℝ (fun l => Spec.logJoint v (T l)) l)
    (hK : ∀ l l', ‖gradient (fun l => Spec.logJoint v (T l)) l - gradient (fun l => Spec.logJoint v (T l)) l'‖ ≤ K * ‖l - l'‖) (hK2 : K < 200)
    {m : ℝ} (hm : 0 < m)
    (hsc : ∀ l l', Spec.logJoint v (T l') ≤
      Spec.logJoint v (T l) + inner ℝ (gradient (fun l => Spec.logJoint v (T l)) l) (l' - l) - m / 2 * ‖l' - l‖ ^ 2)
    {mode : E} (hmode : ∀ l, Spec.logJoint v (T l) ≤ Spec.logJoint v (T mode)) (x : E) :
    Tendsto (mapRun LearningRate.fixed.at v T x) atTop (𝓝 mode) :=
  map_mode (K := K) (fun l => by simp only [map_value]; exact (hd l).fun_neg)
    (fun l l' => by rw [mapGradient_eq, mapGradient_eq, neg_sub_neg, norm_sub_rev]; exact hK l l') hK2 hm
    (fun l l' => by rw [map_value, map_value, mapGradient_eq, inner_neg_left]; linarith [hsc l l'])
    (fun l => by rw [map_value, map_value]; exact neg_le_neg (hmode l)) x

end general

/-! ### The mean of normal data -/

/-- `mu = Normal(0, 1)` and observed `Normal(mu, 1)`, one for every element of `data`. -/
noncomputable def meanVi {n : ℕ} (data : Fin n → ℝ) : ViProblem Unit (Fin n) Unit ℝ where
  latents := [()]
  observed := List.finRange n
  scaleZ := fun _ _ => 1
  scaleX := fun _ _ => 1
  logQ := fun _ _ _ => 0
  logP := fun _ z _ => Real.log (gaussianPDFReal 0 1 z)
  logLik := fun i z _ => Real.log (gaussianPDFReal z 1 (data i))

section mean
variable {n : ℕ} (data : Fin n → ℝ)

theorem mean_loss : ∃ c, ∀ z, mapLoss (meanVi data) z 0 = z ^ 2 / 2 + ∑ i, (data i - z) ^ 2 / 2 + c := by
  refine ⟨-((n + 1) * Real.log (√(2 * Real.pi * (1 : NNReal)))⁻¹), fun z => ?_⟩
  rw [map_value]
  simp only [Spec.logJoint, meanVi, List.map_cons, List.map_nil, List.sum_cons, List.sum_nil, Finset.univ_unique, Finset.sum_const, Finset.card_singleton,
    one_smul, one_mul, add_zero, log_normal 0 one_ne_zero, log_normal z one_ne_zero, ← List.ofFn_eq_map, List.sum_ofFn, Finset.sum_sub_distrib]
  simp
  ring

theorem mean_deriv (z : ℝ) : HasDerivAt (fun z => mapLoss (meanVi data) z 0) ((n + 1) * z - ∑ i, data i) z := by
  obtain ⟨c, hc⟩ := mean_loss data
  simp_rw [hc]
  have h1 : HasDerivAt (fun z : ℝ => z ^ 2 / 2) z z := by
    have := (hasDerivAt_pow 2 z).div_const 2
    simpa using this
  have h2 : ∀ i ∈ Finset.univ, HasDerivAt (fun z : ℝ => (data i - z) ^ 2 / 2) (z - data i) z := fun i _ => by
    have := (((hasDerivAt_id z).const_sub (data i)).pow 2).div_const 2
    refine this.congr_deriv ?_
    simp
    ring
  have h3 := (h1.add (HasDerivAt.fun_sum h2)).add_const c
  refine h3.congr_deriv ?_
  rw [Finset.sum_sub_distrib]
  simp
  ring

theorem mean_gradient (z : ℝ) : mapGradient (meanVi data) id z = (n + 1) * z - ∑ i, data i :=
  (mean_deriv data z).hasGradientAt'.gradient

/-- The error shrinks, or grows, by the same factor in every update. -/
theorem mean_run (x : ℝ) (t : ℕ) :
    mapRun LearningRate.fixed.at (meanVi data) id x t - (∑ i, data i) / (n + 1) = (1 - 0.01 * (n + 1)) ^ t * (x - (∑ i, data i) / (n + 1)) := by
  have hn : (n : ℝ) + 1 ≠ 0 := by positivity
  induction t with
  | zero => simp [mapRun, descend]
  | succ t ih =>
    rw [pow_succ, mul_right_comm, ← ih, mapRun_succ, mean_gradient, smul_eq_mul, LearningRate.at]
    field_simp
    ring

/-- C125 for the mean of `n` observations: `optimizer="gradientdescent"` converges to the mode from every starting point exactly
when there are at most 198 observations. -/
theorem C125_mean_iff : (∀ x, Tendsto (mapRun LearningRate.fixed.at (meanVi data) id x) atTop (𝓝 ((∑ i, data i) / (n + 1)))) ↔ n ≤ 198 := by
  have e : ∀ x, Tendsto (mapRun LearningRate.fixed.at (meanVi data) id x) atTop (𝓝 ((∑ i, data i) / (n + 1))) ↔
      Tendsto (fun t => (1 - 0.01 * ((n : ℝ) + 1)) ^ t * (x - (∑ i, data i) / (n + 1))) atTop (𝓝 0) := by
    intro x
    rw [← tendsto_sub_nhds_zero_iff]
    simp_rw [mean_run data x]
  simp_rw [e]
  constructor
  · intro h
    by_contra hn
    have hn' : (199 : ℝ) ≤ n := by exact_mod_cast (by omega : 199 ≤ n)
    have h1 := h (1 + (∑ i, data i) / (n + 1))
    simp only [add_sub_cancel_right, mul_one] at h1
    have h2 := h1.norm
    simp only [norm_zero] at h2
    have h3 : ∀ t : ℕ, 1 ≤ ‖(1 - 0.01 * ((n : ℝ) + 1)) ^ t‖ := fun t => by
      rw [norm_pow]
      refine one_le_pow₀ ?_
      rw [Real.norm_eq_abs, le_abs]
      right
      linarith
    have := ge_of_tendsto' h2 h3
    linarith
  · intro hn x
    have hn' : (n : ℝ) ≤ 198 := by exact_mod_cast hn
    have hn0 : (0 : ℝ) ≤ n := Nat.cast_nonneg n
    have h1 := (tendsto_pow_atTop_nhds_zero_of_abs_lt_one (r := 1 - 0.01 * ((n : ℝ) + 1)) (by rw [abs_lt]; constructor <;> linarith)).mul_const
      (x - (∑ i, data i) / (n + 1))
    simpa using h1

/-- C125 fails: with 200 or more observations the parameter moves away from the mode without bound, from every other starting
point. -/
theorem C125_diverges_fails (hn : 200 ≤ n) (x : ℝ) (hx : x ≠ (∑ i, data i) / (n + 1)) :
    Tendsto (fun t => |mapRun LearningRate.fixed.at (meanVi data) id x t - (∑ i, data i) / (n + 1)|) atTop atTop := by
  have hn' : (200 : ℝ) ≤ n := by exact_mod_cast hn
  simp_rw [mean_run data x, abs_mul, abs_pow]
  refine (tendsto_pow_atTop_atTop_of_one_lt ?_).atTop_mul_const (abs_pos.mpr (sub_ne_zero.mpr hx))
  rw [lt_abs]
  right
  linarith

/-- The hypotheses of `C125_stationary` and `C125_mode` hold for 50 observations. -/
example (data : Fin 50 → ℝ) (x : ℝ) : Tendsto (mapRun LearningRate.fixed.at (meanVi data) id x) atTop (𝓝 ((∑ i, data i) / 51)) := by
  obtain ⟨c, hc⟩ := mean_loss data
  have hj : ∀ z, Spec.logJoint (meanVi data) z = -mapLoss (meanVi data) z 0 := fun z => by rw [map_value, neg_neg]
  have hq : ∀ l l' : ℝ, Spec.logJoint (meanVi data) l' = Spec.logJoint (meanVi data) l + (∑ i, data i - 51 * l) * (l' - l) - 51 / 2 * (l' - l) ^ 2 := by
    intro l l'
    have e : ∀ z : ℝ, ∑ i, (data i - z) ^ 2 / 2 = (∑ i, data i ^ 2 / 2) - z * ∑ i, data i + 25 * z ^ 2 := fun z => by
      have : ∀ i, (data i - z) ^ 2 / 2 = data i ^ 2 / 2 - z * data i + z ^ 2 / 2 := fun i => by ring
      simp_rw [this]
      rw [Finset.sum_add_distrib, Finset.sum_sub_distrib, ← Finset.mul_sum]
      simp
      ring
    rw [hj, hj, hc, hc, e, e]
    ring
  have hg : ∀ l : ℝ, gradient (fun l => Spec.logJoint (meanVi data) (id l)) l = ∑ i, data i - 51 * l := fun l => by
    have h1 := mapGradient_eq (meanVi data) id l
    rw [mean_gradient] at h1
    norm_num at h1
    simp only [id]
    linarith
  refine C125_mode (v := meanVi data) (T := id) (K := 51) (m := 51) (fun l => ?_) (fun l l' => ?_) (by norm_num) (by norm_num)
    (fun l l' => ?_) (fun l => ?_) x
  · simp only [id, hj]
    exact (mean_deriv data l).differentiableAt.fun_neg
  · rw [hg, hg, Real.norm_eq_abs, Real.norm_eq_abs]
    have : ∑ i, data i - 51 * l - (∑ i, data i - 51 * l') = 51 * -(l - l') := by ring
    rw [this, abs_mul, abs_neg]
    norm_num
  · rw [hg, Real.norm_eq_abs, sq_abs]
    simp only [id]
    rw [hq l l']
    apply le_of_eq
    simp only [RCLike.inner_apply, conj_trivial]
    ring
  · simp only [id]
    rw [hq ((∑ i, data i) / 51) l]
    have : ∑ i, data i - 51 * ((∑ i, data i) / 51) = 0 := by ring
    rw [this, zero_mul]
    nlinarith [sq_nonneg (l - (∑ i, data i) / 51)]

end mean

/-- C125 fails with a `global_step` too: the learning rates add up to 100. With the prior `Normal(0, √200)` alone, the parameter
never gets closer to the mode than half way. -/
theorem C125_decay_fails (x : ℝ) (t : ℕ) :
    buildOptimizer (.name "gradientdescent") (.variable 0) = .ok (.built .gradientDescent (.decay 0), .given) ∧
    (∀ z, Spec.logJoint (fitVi 0 200 0) z ≤ Spec.logJoint (fitVi 0 200 0) 0) ∧
    |x| / 2 ≤ |mapRun (LearningRate.decay 0).at (fitVi 0 200 0) id x t| := by
  have h200 : (200 : NNReal) ≠ 0 := by norm_num
  have hloss : ∀ z, mapLoss (fitVi 0 200 0) z 0 = z ^ 2 / 400 - Real.log (√(2 * Real.pi * (200 : NNReal)))⁻¹ := by
    intro z
    rw [map_value]
    simp only [Spec.logJoint, fitVi, List.map_cons, List.map_nil, List.sum_cons, List.sum_nil, Finset.univ_unique, Finset.sum_const, Finset.card_singleton,
      one_smul, one_mul, add_zero, log_normal 0 h200]
    push_cast
    ring
  have hg : ∀ z, mapGradient (fitVi 0 200 0) id z = z / 200 := by
    intro z
    refine HasGradientAt.gradient (HasDerivAt.hasGradientAt' ?_)
    simp only [id, hloss]
    have := ((hasDerivAt_pow 2 z).div_const 400).sub_const (Real.log (√(2 * Real.pi * (200 : NNReal)))⁻¹)
    refine this.congr_deriv ?_
    push_cast
    ring
  set a := (LearningRate.decay 0).at with ha
  have ha0 : ∀ t, 0 < a t := decay_pos 0
  have hasum : ∀ t, ∑ i ∈ Finset.range t, a i ≤ 100 := fun t => sum_le_hasSum _ (fun i _ => (ha0 i).le) C105_rates
  refine ⟨rfl, fun z => ?_, ?_⟩
  · have h1 := hloss z
    have h2 := hloss 0
    rw [map_value] at h1 h2
    nlinarith [sq_nonneg z]
  have hP : ∃ P, 1 - (∑ i ∈ Finset.range t, a i) / 200 ≤ P ∧ P ≤ 1 ∧ mapRun a (fitVi 0 200 0) id x t = P * x := by
    induction t with
    | zero => exact ⟨1, by simp, le_rfl, by simp [mapRun, descend]⟩
    | succ t ih =>
      obtain ⟨P, hP1, hP2, hP3⟩ := ih
      have hP0 : 0 ≤ P := by linarith [hasum t]
      refine ⟨(1 - a t / 200) * P, ?_, ?_, ?_⟩
      · rw [Finset.sum_range_succ]
        nlinarith [ha0 t]
      · nlinarith [ha0 t]
      · rw [mapRun_succ, hg, hP3, smul_eq_mul]
        ring
  obtain ⟨P, hP1, hP2, hP3⟩ := hP
  have h1 : 1 / 2 ≤ P := by linarith [hasum t]
  rw [hP3, abs_mul, abs_of_nonneg (by linarith : 0 ≤ P)]
  nlinarith [abs_nonneg x]

end Edward
