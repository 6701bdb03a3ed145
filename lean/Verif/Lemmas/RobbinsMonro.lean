/-
Stochastic approximation: nonnegative processes that decrease in expectation up to summable
terms converge, and their decreases are summable.
-/
import Mathlib.Probability.Martingale.Convergence
import Mathlib.Analysis.SpecialFunctions.Log.Summable
import Mathlib.Analysis.Calculus.Gradient.Basic
import Mathlib.Analysis.Calculus.MeanValue
import Mathlib.Analysis.Calculus.Deriv.Comp
import Verif.Lemmas.Ergodic
import Verif.Model.Descent
import Verif.Spec.Descent

namespace Edward
open MeasureTheory ProbabilityTheory Filter Topology

section
variable {Ω : Type} {m0 : MeasurableSpace Ω} {μ : Measure Ω} [IsProbabilityMeasure μ]

/-- The products of `1 + b i`. -/
noncomputable def growth (b : ℕ → ℝ) (n : ℕ) : ℝ := ∏ i ∈ Finset.range n, (1 + b i)

theorem growth_succ (b : ℕ → ℝ) (n : ℕ) : growth b (n + 1) = growth b n * (1 + b n) := Finset.prod_range_succ _ _

theorem one_le_growth {b : ℕ → ℝ} (hb : ∀ n, 0 ≤ b n) (n : ℕ) : 1 ≤ growth b n := by
  induction n with
  | zero => simp [growth]
  | succ n ih => rw [growth_succ]; nlinarith [hb n]

theorem growth_mono {b : ℕ → ℝ} (hb : ∀ n, 0 ≤ b n) : Monotone (growth b) :=
  monotone_nat_of_le_succ fun n => by rw [growth_succ]; nlinarith [hb n, one_le_growth hb n]

theorem growth_bounded {b : ℕ → ℝ} (hb : ∀ n, 0 ≤ b n) (hs : Summable b) (n : ℕ) : growth b n ≤ Real.exp (∑' i, b i) := by
  have h1 : growth b n ≤ Real.exp (∑ i ∈ Finset.range n, b i) := by
    rw [Real.exp_sum]
    exact Finset.prod_le_prod (fun i _ => by linarith [hb i]) fun i _ => by linarith [Real.add_one_le_exp (b i)]
  exact h1.trans (Real.exp_le_exp.mpr (hs.sum_le_tsum _ fun i _ => hb i))

theorem growth_tendsto {b : ℕ → ℝ} (hb : ∀ n, 0 ≤ b n) (hs : Summable b) : ∃ P, Tendsto (growth b) atTop (𝓝 P) :=
  ⟨_, tendsto_atTop_ciSup (growth_mono hb) ⟨Real.exp (∑' i, b i), by rintro _ ⟨n, rfl⟩; exact growth_bounded hb hs n⟩⟩

/-- Robbins and Siegmund. -/
theorem robbins_siegmund {ℱ : Filtration ℕ m0} {V U : ℕ → Ω → ℝ} {b c : ℕ → ℝ} (hV0 : ∀ n ω, 0 ≤ V n ω) (hU0 : ∀ n ω, 0 ≤ U n ω)
    (hb0 : ∀ n, 0 ≤ b n) (hc0 : ∀ n, 0 ≤ c n) (hb : Summable b) (hc : Summable c) (hVm : ∀ n, Measurable[ℱ n] (V n))
    (hUm : ∀ n, Measurable[ℱ n] (U n)) (hi : Integrable (V 0) μ)
    (h : ∀ n s, MeasurableSet[ℱ n] s → ∫⁻ ω in s, ENNReal.ofReal (V (n + 1) ω) ∂μ + ∫⁻ ω in s, ENNReal.ofReal (U n ω) ∂μ ≤
      ∫⁻ ω in s, ENNReal.ofReal ((1 + b n) * V n ω + c n) ∂μ) :
    ∀ᵐ ω ∂μ, (∃ l, Tendsto (fun n => V n ω) atTop (𝓝 l)) ∧ Summable fun n => U n ω := by
  have hVm' : ∀ n, Measurable (V n) := fun n => (hVm n).mono (ℱ.le n) le_rfl
  have hUm' : ∀ n, Measurable (U n) := fun n => (hUm n).mono (ℱ.le n) le_rfl
  have hR0 : ∀ n ω, 0 ≤ (1 + b n) * V n ω + c n := fun n ω => by
    have := mul_nonneg (by linarith [hb0 n] : 0 ≤ 1 + b n) (hV0 n ω)
    linarith [hc0 n]
  have hfin : ∀ {f : Ω → ℝ}, Measurable f → (∀ ω, 0 ≤ f ω) → ∫⁻ ω, ENNReal.ofReal (f ω) ∂μ ≠ ⊤ → Integrable f μ := by
    intro f hf h0 hf'
    refine ⟨hf.aestronglyMeasurable, ?_⟩
    rw [hasFiniteIntegral_iff_ofReal (ae_of_all _ h0)]
    exact hf'.lt_top
  have hVi : ∀ n, Integrable (V n) μ := by
    intro n
    induction n with
    | zero => exact hi
    | succ n ih =>
      refine hfin (hVm' _) (hV0 _) ?_
      have h1 := h n Set.univ MeasurableSet.univ
      rw [setLIntegral_univ, setLIntegral_univ, setLIntegral_univ] at h1
      have h2 : Integrable (fun ω => (1 + b n) * V n ω + c n) μ := (ih.const_mul _).add (integrable_const _)
      have h3 := (hasFiniteIntegral_iff_ofReal (ae_of_all _ (hR0 n))).mp h2.2
      exact ((le_self_add.trans h1).trans_lt h3).ne
  have hRi : ∀ n, Integrable (fun ω => (1 + b n) * V n ω + c n) μ := fun n => ((hVi n).const_mul _).add (integrable_const _)
  have hUi : ∀ n, Integrable (U n) μ := by
    intro n
    refine hfin (hUm' _) (hU0 _) ?_
    have h1 := h n Set.univ MeasurableSet.univ
    rw [setLIntegral_univ, setLIntegral_univ, setLIntegral_univ] at h1
    have h3 := (hasFiniteIntegral_iff_ofReal (ae_of_all _ (hR0 n))).mp (hRi n).2
    exact ((le_add_self.trans h1).trans_lt h3).ne
  have hreal : ∀ n s, MeasurableSet[ℱ n] s → ∫ ω in s, V (n + 1) ω ∂μ + ∫ ω in s, U n ω ∂μ ≤ ∫ ω in s, ((1 + b n) * V n ω + c n) ∂μ := by
    intro n s hs
    have h1 := h n s hs
    rw [← ofReal_integral_eq_lintegral_ofReal (hVi _).integrableOn (ae_of_all _ (hV0 _)),
      ← ofReal_integral_eq_lintegral_ofReal (hUi _).integrableOn (ae_of_all _ (hU0 _)),
      ← ofReal_integral_eq_lintegral_ofReal (hRi _).integrableOn (ae_of_all _ (hR0 _)),
      ← ENNReal.ofReal_add (integral_nonneg (hV0 _)) (integral_nonneg (hU0 _)),
      ENNReal.ofReal_le_ofReal_iff (integral_nonneg (hR0 _))] at h1
    exact h1
  set P := growth b with hP
  have hP1 : ∀ n, 1 ≤ P n := one_le_growth hb0
  have hPpos : ∀ n, 0 < P n := fun n => lt_of_lt_of_le one_pos (hP1 n)
  -- the supermartingale
  set M : ℕ → Ω → ℝ := fun n ω => V n ω / P n + ∑ i ∈ Finset.range n, (U i ω - c i) / P (i + 1) with hM
  have hMi : ∀ n, Integrable (M n) μ := fun n =>
    ((hVi n).div_const _).add (integrable_finsetSum _ fun i _ => ((hUi i).sub (integrable_const _)).div_const _)
  have hsub : Submartingale (fun n => -M n) ℱ μ := by
    have hsup : Supermartingale M ℱ μ := by
      refine supermartingale_of_setIntegral_succ_le (fun n => ?_) hMi fun n s hs => ?_
      · refine Measurable.stronglyMeasurable ?_
        refine ((hVm n).div_const _).add (Finset.measurable_sum _ fun i hi => ?_)
        exact (((hUm i).mono (ℱ.mono (Finset.mem_range.mp hi).le) le_rfl).sub measurable_const).div_const _
      · have hd : ∫ ω in s, (M (n + 1) ω - M n ω) ∂μ ≤ 0 := by
          have e : ∀ ω, M (n + 1) ω - M n ω = (V (n + 1) ω + U n ω - ((1 + b n) * V n ω + c n)) / P (n + 1) := by
            intro ω
            simp only [hM, Finset.sum_range_succ]
            have h2 : P (n + 1) = P n * (1 + b n) := growth_succ b n
            have h3 : (1 + b n) ≠ 0 := by linarith [hb0 n]
            have h4 := (hPpos n).ne'
            rw [h2]
            field_simp
            ring
          simp_rw [e]
          rw [integral_div]
          refine div_nonpos_of_nonpos_of_nonneg ?_ (hPpos _).le
          have h5 : Integrable (fun ω => V (n + 1) ω + U n ω) (μ.restrict s) := (hVi _).integrableOn.add (hUi _).integrableOn
          rw [integral_sub h5 (hRi n).integrableOn, integral_add (hVi _).integrableOn (hUi _).integrableOn]
          linarith [hreal n s hs]
        rw [integral_sub (hMi _).integrableOn (hMi _).integrableOn] at hd
        linarith
    exact hsup.neg
  set C := ∑' i, c i with hC
  have hCn : ∀ n, ∑ i ∈ Finset.range n, c i / P (i + 1) ≤ C := by
    intro n
    refine le_trans (Finset.sum_le_sum fun i _ => div_le_self (hc0 i) (hP1 _)) ?_
    exact hc.sum_le_tsum _ fun i _ => hc0 i
  have hCs : Summable fun i => c i / P (i + 1) :=
    Summable.of_nonneg_of_le (fun i => div_nonneg (hc0 i) (hPpos _).le) (fun i => div_le_self (hc0 i) (hP1 _)) hc
  have hMsplit : ∀ n ω, M n ω = V n ω / P n + ∑ i ∈ Finset.range n, U i ω / P (i + 1) - ∑ i ∈ Finset.range n, c i / P (i + 1) := by
    intro n ω
    simp only [hM, sub_div, Finset.sum_sub_distrib]
    ring
  have hMlow : ∀ n ω, -C ≤ M n ω := by
    intro n ω
    rw [hMsplit]
    have h1 := hCn n
    have h2 : 0 ≤ V n ω / P n := div_nonneg (hV0 _ _) (hPpos _).le
    have h3 : 0 ≤ ∑ i ∈ Finset.range n, U i ω / P (i + 1) := Finset.sum_nonneg fun i _ => div_nonneg (hU0 _ _) (hPpos _).le
    linarith
  have hC0 : 0 ≤ C := tsum_nonneg hc0
  have hmean : ∀ n, ∫ ω, M n ω ∂μ ≤ ∫ ω, M 0 ω ∂μ := by
    intro n
    have := hsub.setIntegral_le (Nat.zero_le n) (MeasurableSet.univ)
    simp only [Measure.restrict_univ, Pi.neg_apply, integral_neg] at this
    linarith
  have hbdd : ∀ n, eLpNorm ((fun n => -M n) n) 1 μ ≤ ((∫ ω, M 0 ω ∂μ + 2 * C).toNNReal : NNReal) := by
    intro n
    rw [eLpNorm_neg, eLpNorm_one_eq_lintegral_enorm]
    have h1 : ∫⁻ ω, ‖M n ω‖ₑ ∂μ ≤ ∫⁻ ω, ENNReal.ofReal (M n ω + 2 * C) ∂μ := by
      refine lintegral_mono fun ω => ?_
      rw [Real.enorm_eq_ofReal_abs]
      refine ENNReal.ofReal_le_ofReal (abs_le.mpr ⟨?_, ?_⟩) <;> linarith [hMlow n ω]
    refine h1.trans ?_
    have hi2 : Integrable (fun ω => M n ω + 2 * C) μ := (hMi n).add (integrable_const _)
    rw [← ofReal_integral_eq_lintegral_ofReal hi2 (ae_of_all _ fun ω => by
      show 0 ≤ M n ω + 2 * C
      linarith [hMlow n ω]), integral_add (hMi n) (integrable_const _)]
    simp only [integral_const, probReal_univ, smul_eq_mul, one_mul]
    exact ENNReal.ofReal_le_ofReal (by linarith [hmean n])
  obtain ⟨Pinf, hPinf⟩ := growth_tendsto hb0 hb
  filter_upwards [hsub.ae_tendsto_limitProcess hbdd] with ω hω
  have hMω : Tendsto (fun n => M n ω) atTop (𝓝 (-(ℱ.limitProcess (fun n => -M n) μ ω))) := by
    have := hω.neg
    simpa using this
  have hUs : Summable fun i => U i ω / P (i + 1) := by
    obtain ⟨B, hB⟩ := hMω.bddAbove_range
    refine summable_of_sum_range_le (c := B + C) (fun i => div_nonneg (hU0 _ _) (hPpos _).le) fun n => ?_
    have h1 := hB ⟨n, rfl⟩
    dsimp only at h1
    rw [hMsplit] at h1
    have h2 : 0 ≤ V n ω / P n := div_nonneg (hV0 _ _) (hPpos _).le
    linarith [hCn n]
  constructor
  · have h1 : Tendsto (fun n => V n ω / P n) atTop (𝓝 (-(ℱ.limitProcess (fun n => -M n) μ ω) - ∑' i, U i ω / P (i + 1) + ∑' i, c i / P (i + 1))) := by
      refine ((hMω.sub hUs.hasSum.tendsto_sum_nat).add hCs.hasSum.tendsto_sum_nat).congr fun n => ?_
      rw [hMsplit]
      ring
    refine ⟨_, (h1.mul hPinf).congr fun n => ?_⟩
    exact div_mul_cancel₀ _ (hPpos n).ne'
  · refine Summable.of_nonneg_of_le (fun n => hU0 n ω) (fun n => ?_) (hUs.mul_right (Real.exp (∑' i, b i)))
    rw [div_mul_eq_mul_div, le_div_iff₀ (hPpos _)]
    exact mul_le_mul_of_nonneg_left (growth_bounded hb0 hb _) (hU0 _ _)

end

/-! ### Gradient descent with random gradients -/

section
variable {E : Type} [NormedAddCommGroup E] [InnerProductSpace ℝ E] [CompleteSpace E]

/-- A function whose gradient is Lipschitz lies below its quadratic expansions. -/
theorem smooth_le {F : E → ℝ} {g : E → E} {K : ℝ} (hF : ∀ x, HasGradientAt F (g x) x) (hg : ∀ x y, ‖g x - g y‖ ≤ K * ‖x - y‖) (x y : E) :
    F y ≤ F x + inner ℝ (g x) (y - x) + K / 2 * ‖y - x‖ ^ 2 := by
  set d := y - x with hd
  have hline : ∀ t : ℝ, HasDerivAt (fun t : ℝ => F (x + t • d)) (inner ℝ (g (x + t • d)) d) t := by
    intro t
    have h1 : HasDerivAt (fun t : ℝ => x + t • d) d t := by
      simpa using ((hasDerivAt_id t).smul_const d).const_add x
    have h2 : HasDerivAt (fun t : ℝ => F (x + t • d)) ((InnerProductSpace.toDual ℝ E (g (x + t • d))) d) t :=
      (hF (x + t • d)).hasFDerivAt.comp_hasDerivAt t h1
    rwa [InnerProductSpace.toDual_apply_apply] at h2
  set φ : ℝ → ℝ := fun t => F (x + t • d) - t * inner ℝ (g x) d - K / 2 * ‖d‖ ^ 2 * t ^ 2 with hφ
  have hder : ∀ t, HasDerivAt φ (inner ℝ (g (x + t • d)) d - inner ℝ (g x) d - K / 2 * ‖d‖ ^ 2 * (2 * t)) t := by
    intro t
    have h1 : HasDerivAt (fun t : ℝ => t * inner ℝ (g x) d) (inner ℝ (g x) d) t := by
      simpa using (hasDerivAt_id t).mul_const (inner ℝ (g x) d)
    have h2 : HasDerivAt (fun t : ℝ => K / 2 * ‖d‖ ^ 2 * t ^ 2) (K / 2 * ‖d‖ ^ 2 * (2 * t)) t := by
      simpa using (hasDerivAt_pow 2 t).const_mul (K / 2 * ‖d‖ ^ 2)
    exact ((hline t).sub h1).sub h2
  have hanti : AntitoneOn φ (Set.Icc 0 1) := by
    refine antitoneOn_of_deriv_nonpos (convex_Icc 0 1) (fun t _ => (hder t).continuousAt.continuousWithinAt)
      (fun t _ => (hder t).differentiableAt.differentiableWithinAt) fun t ht => ?_
    rw [interior_Icc] at ht
    rw [(hder t).deriv, ← inner_sub_left]
    have h1 := real_inner_le_norm (g (x + t • d) - g x) d
    have h2 := hg (x + t • d) x
    rw [add_sub_cancel_left, norm_smul, Real.norm_eq_abs, abs_of_pos ht.1] at h2
    have h3 := mul_le_mul_of_nonneg_right h2 (norm_nonneg d)
    nlinarith
  have h01 := hanti (Set.left_mem_Icc.mpr zero_le_one) (Set.right_mem_Icc.mpr zero_le_one) zero_le_one
  simp only [hφ, one_smul, zero_smul, add_zero, one_mul, zero_mul, one_pow, mul_one, sub_zero, ne_eq, OfNat.ofNat_ne_zero,
    not_false_eq_true, zero_pow, mul_zero] at h01
  have e : x + d = y := by rw [hd]; abel
  rw [e] at h01
  linarith

/-- A function with a Lipschitz gradient that is bounded below by `c`: the gradient is small where the function is close to
`c`. -/
theorem grad_sq_le {F : E → ℝ} {g : E → E} {K c : ℝ} (hK : 0 < K) (hF : ∀ x, HasGradientAt F (g x) x) (hg : ∀ x y, ‖g x - g y‖ ≤ K * ‖x - y‖)
    (hc : ∀ x, c ≤ F x) (x : E) : ‖g x‖ ^ 2 ≤ 2 * K * (F x - c) := by
  have h := smooth_le hF hg x (x - K⁻¹ • g x)
  have e : x - K⁻¹ • g x - x = -(K⁻¹ • g x) := by abel
  rw [e, inner_neg_right, inner_smul_right, real_inner_self_eq_norm_sq, norm_neg, norm_smul, Real.norm_eq_abs, abs_of_pos (inv_pos.mpr hK)] at h
  have h1 := hc (x - K⁻¹ • g x)
  have h2 : c ≤ F x - ‖g x‖ ^ 2 / (2 * K) := by
    refine (h1.trans h).trans (le_of_eq ?_)
    field_simp
    ring
  rw [le_sub_comm, div_le_iff₀ (by positivity)] at h2
  linarith

variable [MeasurableSpace E] [BorelSpace E] [SecondCountableTopology E] {W : Type} [MeasurableSpace W] {ν : Measure W} [IsProbabilityMeasure ν]

/-- The mean decrease in one update. -/
theorem Spec.GradientNoise.step {F : E → ℝ} {G : E → W → E} {c : ℝ} (h : Spec.GradientNoise F G ν c) :
    ∃ A B : ℝ, 0 ≤ A ∧ 0 ≤ B ∧ ∀ (x : E) (a : ℝ), 0 ≤ a →
      ∫⁻ w, ENNReal.ofReal (F (x - a • G x w) - c) ∂ν + ENNReal.ofReal (a * ‖∫ w, G x w ∂ν‖ ^ 2) ≤
        ENNReal.ofReal ((1 + B * a ^ 2) * (F x - c) + A * a ^ 2) := by
  obtain ⟨K, hK⟩ := h.lip
  obtain ⟨A, B, hAB⟩ := h.bound
  set K' := |K| with hK'
  have hlip : ∀ x y, ‖∫ w, G x w ∂ν - ∫ w, G y w ∂ν‖ ≤ K' * ‖x - y‖ := fun x y =>
    (hK x y).trans (mul_le_mul_of_nonneg_right (le_abs_self K) (norm_nonneg _))
  refine ⟨K' / 2 * |A|, K' / 2 * |B|, by positivity, by positivity, fun x a ha => ?_⟩
  set g := ∫ w, G x w ∂ν with hg
  have hGi : Integrable (G x) ν := (h.sq x).integrable (by norm_num)
  have hG2 : Integrable (fun w => ‖G x w‖ ^ 2) ν := (h.sq x).integrable_norm_pow (by norm_num)
  have hin : Integrable (fun w => inner ℝ g (G x w)) ν := hGi.const_inner g
  have hFm : Measurable F := (continuous_iff_continuousAt.mpr fun x => (h.grad x).continuousAt).measurable
  have hGm : Measurable (G x) := h.meas.comp (measurable_const.prodMk measurable_id)
  have hup : ∀ w, F (x - a • G x w) - c ≤ F x - c - a * inner ℝ g (G x w) + K' / 2 * a ^ 2 * ‖G x w‖ ^ 2 := by
    intro w
    have h1 := smooth_le h.grad hlip x (x - a • G x w)
    have e : x - a • G x w - x = -(a • G x w) := by abel
    rw [e, inner_neg_right, inner_smul_right, norm_neg, norm_smul, Real.norm_eq_abs, abs_of_nonneg ha, mul_pow] at h1
    linarith
  have hi : Integrable (fun w => F x - c - a * inner ℝ g (G x w) + K' / 2 * a ^ 2 * ‖G x w‖ ^ 2) ν :=
    ((integrable_const _).sub (hin.const_mul a)).add (hG2.const_mul _)
  have hint : Integrable (fun w => F (x - a • G x w) - c) ν := by
    refine hi.mono' ((hFm.comp (measurable_const.sub (hGm.const_smul a))).sub measurable_const).aestronglyMeasurable (ae_of_all _ fun w => ?_)
    rw [Real.norm_eq_abs, abs_of_nonneg (by linarith [h.low (x - a • G x w)])]
    exact hup w
  have hmean : ∫ w, (F (x - a • G x w) - c) ∂ν ≤ F x - c - a * ‖g‖ ^ 2 + K' / 2 * a ^ 2 * ∫ w, ‖G x w‖ ^ 2 ∂ν := by
    refine (integral_mono hint hi hup).trans (le_of_eq ?_)
    have i1 : Integrable (fun w => F x - c - a * inner ℝ g (G x w)) ν := (integrable_const _).sub (hin.const_mul a)
    rw [integral_add i1 (hG2.const_mul _), integral_sub (integrable_const _) (hin.const_mul a), integral_const_mul, integral_const_mul,
      integral_inner hGi, ← hg, real_inner_self_eq_norm_sq]
    simp
  have h0 : 0 ≤ ∫ w, (F (x - a • G x w) - c) ∂ν := integral_nonneg fun w => by
    show 0 ≤ F (x - a • G x w) - c
    linarith [h.low (x - a • G x w)]
  rw [← ofReal_integral_eq_lintegral_ofReal hint (ae_of_all _ fun w => by
    show 0 ≤ F (x - a • G x w) - c
    linarith [h.low (x - a • G x w)]), ← ENNReal.ofReal_add h0 (by positivity)]
  refine ENNReal.ofReal_le_ofReal ?_
  have hx := sub_nonneg.mpr (h.low x)
  have h2 : ∫ w, ‖G x w‖ ^ 2 ∂ν ≤ |A| + |B| * (F x - c) := by
    refine (hAB x).trans (add_le_add (le_abs_self A) (mul_le_mul_of_nonneg_right (le_abs_self B) hx))
  have h3 := mul_le_mul_of_nonneg_left h2 (by positivity : 0 ≤ K' / 2 * a ^ 2)
  nlinarith

variable {Ω : Type} [m0 : MeasurableSpace Ω] {Pr : Measure Ω} [IsProbabilityMeasure Pr] {w : ℕ → Ω → W}

omit [CompleteSpace E] in
theorem descend_past {G : E → W → E} (hG : Measurable fun p : E × W => G p.1 p.2) (lr : ℕ → ℝ) (x : E) (n : ℕ) :
    Measurable[past w n] (fun ω => descend lr G x (fun i => w i ω) n) := by
  induction n with
  | zero => exact measurable_const
  | succ n ih =>
    have h1 : Measurable[past w (n + 1)] (fun ω => descend lr G x (fun i => w i ω) n) := Measurable.mono ih (past_mono (by omega)) le_rfl
    have h2 : Measurable[past w (n + 1)] (w n) := by
      refine Measurable.mono (comap_measurable (w n)) ?_ le_rfl
      exact le_iSup₂_of_le (f := fun i (_ : i ∈ {i | i < n + 1}) => MeasurableSpace.comap (w i) inferInstance) n
        (Nat.lt_succ_self n) le_rfl
    exact h1.sub ((hG.comp (h1.prodMk h2)).const_smul (lr n))

omit [IsProbabilityMeasure ν] [SecondCountableTopology E] [InnerProductSpace ℝ E] [CompleteSpace E] [BorelSpace E] [NormedAddCommGroup E] in
/-- A function of something known before draw `n` and of draw `n`, integrated. -/
theorem lintegral_past [SFinite ν] (hw : ∀ i, Measurable (w i)) (hlaw : ∀ i, Pr.map (w i) = ν) (hind : iIndepFun w Pr) {X : Ω → E} {n : ℕ} (hX : Measurable[past w n] X)
    {s : Set Ω} (hs : MeasurableSet[past w n] s) {h : E × W → ENNReal} (hh : Measurable h) :
    ∫⁻ ω in s, h (X ω, w n ω) ∂Pr = ∫⁻ ω in s, ∫⁻ u, h (X ω, u) ∂ν ∂Pr := by
  classical
  have hsm : MeasurableSet s := past_le hw n s hs
  have hXm : Measurable X := hX.mono (past_le hw n) le_rfl
  set Y : Ω → ENNReal × E := fun ω => (s.indicator (fun _ => 1) ω, X ω) with hY
  have hYp : Measurable[past w n] Y := (measurable_const.indicator hs).prodMk hX
  have hYm : Measurable Y := hYp.mono (past_le hw n) le_rfl
  have hlawp := (indepFun_iff_map_prod_eq_prod_map_map hYm.aemeasurable (hw n).aemeasurable).mp (indep_past hw hind hYp)
  rw [hlaw n] at hlawp
  have : IsProbabilityMeasure (Pr.map Y) := Measure.isProbabilityMeasure_map hYm.aemeasurable
  set H : (ENNReal × E) × W → ENNReal := fun q => q.1.1 * h (q.1.2, q.2) with hH
  have hHm : Measurable H := (measurable_fst.comp measurable_fst).mul (hh.comp ((measurable_snd.comp measurable_fst).prodMk measurable_snd))
  have key : ∀ f : Ω → ENNReal, ∫⁻ ω in s, f ω ∂Pr = ∫⁻ ω, s.indicator (fun _ => 1) ω * f ω ∂Pr := by
    intro f
    rw [← lintegral_indicator hsm]
    refine lintegral_congr fun ω => ?_
    by_cases hω : ω ∈ s <;> simp [hω]
  rw [key, key]
  have e1 : ∫⁻ ω, s.indicator (fun _ => 1) ω * h (X ω, w n ω) ∂Pr = ∫⁻ q, H q ∂(Pr.map fun ω => (Y ω, w n ω)) := by
    rw [lintegral_map hHm (hYm.prodMk (hw n))]
  rw [e1, hlawp, lintegral_prod _ hHm.aemeasurable, lintegral_map hHm.lintegral_prod_right' hYm]
  refine lintegral_congr fun ω => ?_
  simp only [hH, hY]
  have hm : Measurable fun u => h (X ω, u) := hh.comp (measurable_const.prodMk measurable_id)
  rw [lintegral_const_mul _ hm]

/-- The objective converges, and its squared gradients, weighted by the learning rates, are summable. -/
theorem descend_converges {F : E → ℝ} {G : E → W → E} {c : ℝ} (h : Spec.GradientNoise F G ν c) {lr : ℕ → ℝ} (hp : ∀ n, 0 ≤ lr n)
    (hs : Summable fun n => lr n ^ 2) (hw : ∀ i, Measurable (w i)) (hlaw : ∀ i, Pr.map (w i) = ν) (hind : iIndepFun w Pr) (x : E) :
    ∀ᵐ ω ∂Pr, (∃ l, Tendsto (fun n => F (descend lr G x (fun i => w i ω) n)) atTop (𝓝 l)) ∧
      Summable fun n => lr n * ‖∫ u, G (descend lr G x (fun i => w i ω) n) u ∂ν‖ ^ 2 := by
  obtain ⟨A, B, hA, hB, hstep⟩ := h.step
  have hFm : Measurable F := (continuous_iff_continuousAt.mpr fun x => (h.grad x).continuousAt).measurable
  have hgc : Measurable fun x => ∫ u, G x u ∂ν := (h.meas.stronglyMeasurable.integral_prod_right').measurable
  set ℱ : Filtration ℕ m0 := ⟨past w, fun i j hij => past_mono hij, past_le hw⟩ with hℱ
  set X : ℕ → Ω → E := fun n ω => descend lr G x (fun i => w i ω) n with hX
  have hXp : ∀ n, Measurable[past w n] (X n) := fun n => descend_past h.meas lr x n
  have hVp : ∀ n, Measurable[past w n] fun ω => F (X n ω) - c := fun n =>
    (hFm.sub measurable_const).comp (hXp n)
  have hUp : ∀ n, Measurable[past w n] fun ω => lr n * ‖∫ u, G (X n ω) u ∂ν‖ ^ 2 := fun n =>
    ((hgc.norm.pow_const 2).const_mul (lr n)).comp (hXp n)
  have hrs := robbins_siegmund (μ := Pr) (ℱ := ℱ) (V := fun n ω => F (X n ω) - c) (U := fun n ω => lr n * ‖∫ u, G (X n ω) u ∂ν‖ ^ 2)
    (b := fun n => B * lr n ^ 2) (c := fun n => A * lr n ^ 2)
    (fun n ω => by linarith [h.low (X n ω)]) (fun n ω => mul_nonneg (hp n) (sq_nonneg _)) (fun n => by positivity) (fun n => by positivity)
    (hs.mul_left B) (hs.mul_left A) hVp hUp (integrable_const (F x - c))
    (fun n s hsm => by
      have h1 := lintegral_past (ν := ν) (Pr := Pr) hw hlaw hind (hXp n) hsm (h := fun q : E × W => ENNReal.ofReal (F (q.1 - lr n • G q.1 q.2) - c))
        ((hFm.comp (measurable_fst.sub (h.meas.const_smul (lr n)))).sub measurable_const).ennreal_ofReal
      have h2 : ∫⁻ ω in s, ENNReal.ofReal (F (X (n + 1) ω) - c) ∂Pr = ∫⁻ ω in s, ENNReal.ofReal (F (X n ω - lr n • G (X n ω) (w n ω)) - c) ∂Pr := rfl
      have hum : Measurable fun ω => ENNReal.ofReal (lr n * ‖∫ u, G (X n ω) u ∂ν‖ ^ 2) :=
        ((hUp n).mono (past_le hw n) le_rfl).ennreal_ofReal
      rw [h2, h1, ← lintegral_add_right _ hum]
      exact lintegral_mono fun ω => hstep (X n ω) (lr n) (hp n))
  filter_upwards [hrs] with ω ⟨⟨l, hl⟩, hsum⟩
  refine ⟨⟨l + c, ?_⟩, hsum⟩
  simpa using hl.add_const c

/-- Weighted by rates with an infinite sum, summable terms come close to zero again and again. -/
theorem frequently_small {a u : ℕ → ℝ} (ha : ∀ n, 0 ≤ a n) (hs : ¬ Summable a) (h : Summable fun n => a n * u n) {ε : ℝ} (hε : 0 < ε) :
    ∃ᶠ n in atTop, u n < ε := by
  intro hcon
  rw [eventually_atTop] at hcon
  obtain ⟨N, hN⟩ := hcon
  apply hs
  rw [← summable_nat_add_iff N]
  refine Summable.of_nonneg_of_le (fun n => ha _) (fun n => ?_) (((summable_nat_add_iff N).mpr h).mul_left ε⁻¹)
  have h1 : ε ≤ u (n + N) := not_lt.mp (hN (n + N) (by omega))
  rw [le_inv_mul_iff₀ hε]
  nlinarith [ha (n + N)]

end

end Edward
