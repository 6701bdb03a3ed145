/-
C143: conditional inference.
-/
import Verif.Props.Nuisance
import Verif.Props.Langevin
import Verif.Model.Conditional
import Verif.Spec.Conditional
import Mathlib.Analysis.SpecialFunctions.Log.Deriv
import Mathlib.Analysis.SpecialFunctions.ExpDeriv
import Mathlib.Analysis.SpecialFunctions.Exponential
import Mathlib.Analysis.Complex.ExponentialBounds
import Mathlib.MeasureTheory.Group.Integral
import Mathlib.Analysis.SpecialFunctions.Gaussian.GaussianIntegral

namespace Edward
open MeasureTheory ENNReal
variable {Z X I S B : Type} [Fintype I] [Fintype B]

/-- C143, KLqp: the expected loss is that documented, with `beta` drawn from `qbeta`. -/
theorem C143_klqp [Fintype S] (v : ViProblem Z X I (S × B)) (q : S → ℝ) (r : B → ℝ) (logJ : S → B → ℝ)
    (hq : ∑ z, q z = 1) (hr : ∑ b, r b = 1)
    (hQ : ∀ ω, Spec.logApprox v ω = Real.log (q ω.1)) (hP : ∀ ω, Spec.logJoint v ω = logJ ω.1 ω.2) {n : ℕ} (hn : 0 < n) (reg : ℝ) :
    ∑ d : Fin n → S × B, Spec.drawsProb (pairMass q r) d * reparamLoss v n d reg =
      ∑ z, ∑ b, q z * r b * (Real.log (q z) - logJ z b) + reg := by
  rw [C142_klqp_partial v q r logJ hq hr hQ hP hn reg]
  congr 1
  refine Finset.sum_congr rfl fun z _ => ?_
  simp_rw [mul_assoc, ← Finset.mul_sum, mul_sub]
  rw [Finset.sum_sub_distrib, ← Finset.sum_mul, hr, one_mul, Spec.geometric, Real.log_exp, mul_sub]

/-- C143, MAP: the expected loss is minus the documented objective. -/
theorem C143_map (v : ViProblem Z X I (S × B)) (q : B → ℝ) (hq : ∑ b, q b = 1) (logJ : S → B → ℝ)
    (hP : ∀ ω, Spec.logJoint v ω = logJ ω.1 ω.2) (z : S) (reg : ℝ) :
    ∑ b, q b * mapLoss v (z, b) reg = -∑ b, q b * logJ z b + reg := by
  rw [C142_map_fails v q hq logJ hP z reg, Spec.geometric, Real.log_exp]

/-- C143, MAP: with finitely many values the objective is a lower bound of the log marginal density. -/
theorem C143_map_bound_partial (q : B → ℝ) (hq0 : ∀ b, 0 ≤ q b) (hq : ∑ b, q b = 1) (J : S → B → ℝ) (hJ : ∀ z b, 0 < J z b) (z : S) :
    ∑ b, q b * Real.log (J z b) ≤ Real.log (Spec.marginalOf J z) := by
  have h : ∀ b ∈ Finset.univ, q b * Real.log (J z b) ≤ q b * Real.log (Spec.marginalOf J z) := fun b _ =>
    mul_le_mul_of_nonneg_left (Real.log_le_log (hJ z b)
      (Finset.single_le_sum (f := fun b => J z b) (fun b _ => (hJ z b).le) (Finset.mem_univ b))) (hq0 b)
  have := Finset.sum_le_sum h
  rwa [← Finset.sum_mul, hq, one_mul] at this

/-- C143, MAP: it is never exact, whatever `qbeta`. -/
theorem C143_map_exact_fails [Nontrivial B] (q : B → ℝ) (hq0 : ∀ b, 0 ≤ q b) (hq : ∑ b, q b = 1) (J : S → B → ℝ)
    (hJ : ∀ z b, 0 < J z b) (z : S) : ∑ b, q b * Real.log (J z b) < Real.log (Spec.marginalOf J z) := by
  have hlt : ∀ b, Real.log (J z b) < Real.log (Spec.marginalOf J z) := by
    intro b
    obtain ⟨b', hb⟩ := exists_ne b
    exact Real.log_lt_log (hJ z b) (Finset.single_lt_sum (f := fun b => J z b) hb (Finset.mem_univ b) (Finset.mem_univ b') (hJ z b')
      fun k _ _ => (hJ z k).le)
  have hex : ∃ b ∈ Finset.univ, 0 < q b := by
    by_contra hcon
    push Not at hcon
    have : ∑ b, q b ≤ 0 := Finset.sum_nonpos fun b hb => hcon b hb
    linarith
  obtain ⟨b0, h0, hb0⟩ := hex
  have := Finset.sum_lt_sum (fun b _ => mul_le_mul_of_nonneg_left (hlt b).le (hq0 b)) ⟨b0, h0, mul_lt_mul_of_pos_left (hlt b0) hb0⟩
  rwa [← Finset.sum_mul, hq, one_mul] at this

/-- C143, MAP: for continuous `beta` it need not be a lower bound, even if `qbeta` is the posterior: here `p(x, z, ·)` has the constant
value 2 on an interval of length 1/2, which is also the law of `qbeta`. -/
theorem C143_map_bound_fails : ∃ p : ℝ → ℝ, (∀ b, 0 ≤ p b) ∧ ∫ b, p b = 1 ∧
    Real.log (∫ b, p b) < ∫ b, Real.log (p b) ∂(volume.withDensity fun b => ENNReal.ofReal (p b)) := by
  refine ⟨(Set.Icc (0 : ℝ) (1 / 2)).indicator fun _ => 2, fun b => Set.indicator_nonneg (fun _ _ => by norm_num) b, ?_, ?_⟩
  · rw [integral_indicator_const _ measurableSet_Icc]
    norm_num [Measure.real, Real.volume_Icc]
  · rw [integral_indicator_const _ measurableSet_Icc]
    have hw : (volume.withDensity fun b => ENNReal.ofReal ((Set.Icc (0 : ℝ) (1 / 2)).indicator (fun _ => 2) b)) =
        (2 : ℝ≥0∞) • volume.restrict (Set.Icc (0 : ℝ) (1 / 2)) := by
      have : (fun b => ENNReal.ofReal ((Set.Icc (0 : ℝ) (1 / 2)).indicator (fun _ => (2 : ℝ)) b)) =
          (Set.Icc (0 : ℝ) (1 / 2)).indicator fun _ => (2 : ℝ≥0∞) := by
        funext b
        by_cases hb : b ∈ Set.Icc (0 : ℝ) (1 / 2)
        · rw [Set.indicator_of_mem hb, Set.indicator_of_mem hb, ENNReal.ofReal_ofNat]
        · rw [Set.indicator_of_notMem hb, Set.indicator_of_notMem hb, ENNReal.ofReal_zero]
      rw [this, withDensity_indicator measurableSet_Icc, withDensity_const]
    rw [hw, integral_smul_measure, setIntegral_congr_fun measurableSet_Icc (g := fun _ => Real.log 2)
      fun b hb => by simp only [Set.indicator_of_mem hb], setIntegral_const]
    have := Real.log_pos (by norm_num : (1 : ℝ) < 2)
    norm_num [Measure.real, Real.volume_Icc]
    linarith

/-- Two values of `beta` with the same mass, centres of the density of `z`. -/
noncomputable def centre (b : Bool) : ℝ := if b then 2 else -2

/-- `p(x, z, beta)`. -/
noncomputable def bimodal (z : ℝ) (b : Bool) : ℝ := Real.exp (-(z - centre b) ^ 2 / 2)

theorem bimodal_pos (z : ℝ) (b : Bool) : 0 < bimodal z b := Real.exp_pos _

/-- The posterior of `beta` is uniform. -/
theorem bimodal_posterior (b : Bool) : Spec.posteriorOf volume bimodal b = 1 / 2 := by
  have e : ∀ b, ∫ z, bimodal z b = Real.sqrt (Real.pi / (1 / 2)) := by
    intro b
    have h : ∀ z, bimodal z b = (fun y => Real.exp (-(1 / 2) * y ^ 2)) (z - centre b) := by
      intro z; simp only [bimodal]; congr 1; ring
    simp_rw [h]
    rw [integral_sub_right_eq_self (fun y => Real.exp (-(1 / 2) * y ^ 2)) (centre b), integral_gaussian]
  simp only [Spec.posteriorOf, e, Fintype.sum_bool]
  have : 0 < Real.sqrt (Real.pi / (1 / 2)) := Real.sqrt_pos.mpr (by positivity)
  field_simp
  norm_num

/-- C143, MAP: with the posterior as `qbeta` the objective is largest halfway between the modes, where the density is smaller than at
the modes. -/
theorem C143_map_fails :
    (∀ z, ∑ b, Spec.posteriorOf volume bimodal b * Real.log (bimodal z b) ≤
      ∑ b, Spec.posteriorOf volume bimodal b * Real.log (bimodal 0 b)) ∧
    (∀ z, ∑ b, Spec.posteriorOf volume bimodal b * Real.log (bimodal z b) =
      ∑ b, Spec.posteriorOf volume bimodal b * Real.log (bimodal 0 b) → z = 0) ∧
    Spec.marginalOf bimodal 0 < Spec.marginalOf bimodal 2 := by
  have e : ∀ z, ∑ b, Spec.posteriorOf volume bimodal b * Real.log (bimodal z b) = -z ^ 2 / 2 - 2 := by
    intro z
    simp only [bimodal_posterior, Fintype.sum_bool, bimodal, Real.log_exp, centre]
    norm_num
    ring
  refine ⟨fun z => ?_, fun z h => ?_, ?_⟩
  · rw [e, e]; nlinarith [sq_nonneg z]
  · rw [e, e] at h
    have : z ^ 2 = 0 := by linarith
    exact pow_eq_zero_iff (two_ne_zero) |>.mp this
  · simp only [Spec.marginalOf, Fintype.sum_bool, bimodal, centre]
    norm_num
    have h1 : Real.exp (-2) < 1 / 2 := by
      rw [Real.exp_neg, one_div]
      apply inv_strictAnti₀ (by norm_num)
      have := Real.add_one_lt_exp (x := 2) (by norm_num)
      linarith
    have := Real.exp_pos (-8)
    linarith

example : ∃ (q : Bool → ℝ) (J : ℝ → Bool → ℝ), (∀ b, 0 ≤ q b) ∧ ∑ b, q b = 1 ∧ ∀ z b, 0 < J z b :=
  ⟨Spec.posteriorOf volume bimodal, bimodal, fun b => by rw [bimodal_posterior]; norm_num, by
    simp only [bimodal_posterior, Fintype.sum_bool]; norm_num, bimodal_pos⟩

/-- C143, SGLD: if `qbeta` is the law of `beta` given the data and the current sample, the sample moves on average along the gradient of
the log marginal density. -/
theorem C143_sgld_partial [Nonempty B] (J G : ℝ → B → ℝ) (hJ : ∀ z b, 0 < J z b) (old : ℝ)
    (hG : ∀ b, HasDerivAt (fun z => Real.log (J z b)) (G old b) old) (step : ℝ) (t : ℕ) (normal : ℝ) :
    ∃ g, HasDerivAt (fun z => Real.log (Spec.marginalOf J z)) g old ∧
      sgldConditional (Spec.conditionalOf J old) step t G old normal = sgldSample step t old g normal := by
  have hs : 0 < ∑ b, J old b := Finset.sum_pos (fun b _ => hJ old b) Finset.univ_nonempty
  have hd : ∀ b, HasDerivAt (fun z => J z b) (J old b * G old b) old := by
    intro b
    have := (hG b).exp
    simp only [Real.exp_log (hJ _ b)] at this
    exact this
  refine ⟨(∑ b, J old b * G old b) / ∑ b, J old b, ?_, ?_⟩
  · have := (HasDerivAt.fun_sum (u := Finset.univ) fun b _ => hd b).log hs.ne'
    exact this
  · have h1 : ∑ b, Spec.conditionalOf J old b = 1 := by
      simp only [Spec.conditionalOf, ← Finset.sum_div]; exact div_self hs.ne'
    have h2 : ∑ b, Spec.conditionalOf J old b * G old b = (∑ b, J old b * G old b) / ∑ b, J old b := by
      rw [Finset.sum_div]; refine Finset.sum_congr rfl fun b _ => ?_; simp only [Spec.conditionalOf]; ring
    simp only [sgldConditional, sgldSample]
    rw [← h2]
    have : ∀ b, Spec.conditionalOf J old b * (old + 0.5 * sgldRate step t * G old b + Real.sqrt (sgldRate step t) * normal) =
        Spec.conditionalOf J old b * (old + Real.sqrt (sgldRate step t) * normal) +
          0.5 * sgldRate step t * (Spec.conditionalOf J old b * G old b) := by intro b; ring
    simp_rw [this]
    rw [Finset.sum_add_distrib, ← Finset.sum_mul, h1, one_mul, ← Finset.mul_sum]
    ring

theorem bimodal_grad (z : ℝ) (b : Bool) : HasDerivAt (fun z => Real.log (bimodal z b)) (centre b - z) z := by
  have e : (fun z => Real.log (bimodal z b)) = fun z => -(z - centre b) ^ 2 / 2 := by
    funext z; rw [bimodal, Real.log_exp]
  rw [e]
  have h1 : HasDerivAt (fun z => z - centre b) 1 z := (hasDerivAt_id' z).sub_const _
  have := ((h1.pow 2).neg).div_const 2
  refine (this.congr_deriv ?_)
  push_cast
  ring

/-- C143, SGLD: with the posterior as `qbeta` the sample always moves as for a standard normal target; between 0 and the mode this
is against the gradient of the log marginal density. -/
theorem C143_sgld_fails (step : ℝ) (t : ℕ) (normal : ℝ) :
    (∀ old, sgldConditional (Spec.posteriorOf volume bimodal) step t (fun z b => centre b - z) old normal =
      sgldSample step t old (-old) normal) ∧
    ∃ g, 0 < g ∧ HasDerivAt (fun z => Real.log (Spec.marginalOf bimodal z)) g 1 := by
  constructor
  · intro old
    simp only [sgldConditional, bimodal_posterior, Fintype.sum_bool, sgldSample, centre]
    norm_num
    ring
  · have hd : ∀ b, HasDerivAt (fun z => bimodal z b) (bimodal 1 b * (centre b - 1)) 1 := by
      intro b
      have := (bimodal_grad 1 b).exp
      simp only [Real.exp_log (bimodal_pos _ b)] at this
      exact this
    have hs : 0 < ∑ b, bimodal 1 b := Finset.sum_pos (fun b _ => bimodal_pos 1 b) Finset.univ_nonempty
    refine ⟨(∑ b, bimodal 1 b * (centre b - 1)) / ∑ b, bimodal 1 b, div_pos ?_ hs,
      (HasDerivAt.fun_sum (u := Finset.univ) fun b _ => hd b).log hs.ne'⟩
    simp only [Fintype.sum_bool, bimodal, centre]
    norm_num
    have e : Real.exp (-(1 / 2)) = Real.exp (-(9 / 2)) * Real.exp 4 := by rw [← Real.exp_add]; norm_num
    have h4 := Real.add_one_lt_exp (x := 4) (by norm_num)
    have hp := Real.exp_pos (-(9 / 2))
    rw [e]
    nlinarith

/-- Expected velocity after a complete schedule. -/
theorem sghmcConditional_eq (q : B → ℝ) (hq : ∑ b, q b = 1) (step friction : ℝ) (G : ℝ → B → ℝ) (old v normal : ℝ)
    (l : List (HOp Unit)) (h : HSchedule l) (hall : ∀ o, o ∈ l) :
    sghmcConditional q step friction G old v normal l =
      (1 - 0.5 * friction) * v + step * 0.01 * (∑ b, q b * G old b) + Real.sqrt (step * 0.01 * friction) * normal := by
  have e : ∀ b, q b * (hrun true ⟨step, friction, fun x _ => G (x ()) b, fun _ => old, fun _ => normal⟩ (fun _ => v) l).v () =
      q b * ((1 - 0.5 * friction) * v + Real.sqrt (step * 0.01 * friction) * normal) + step * 0.01 * (q b * G old b) := by
    intro b
    rw [(C42_outcomes _ _ l h hall ()).1, sghmcVelocity]
    ring
  simp only [sghmcConditional]
  simp_rw [e]
  rw [Finset.sum_add_distrib, ← Finset.sum_mul, hq, one_mul, ← Finset.mul_sum]
  ring

/-- C143, SGHMC: if `qbeta` is the law of `beta` given the data and the current sample, the new velocity is on average the one of the
gradient of the log marginal density, in every order of the ops. -/
theorem C143_sghmc_partial [Nonempty B] (J G : ℝ → B → ℝ) (hJ : ∀ z b, 0 < J z b) (old : ℝ)
    (hG : ∀ b, HasDerivAt (fun z => Real.log (J z b)) (G old b) old) (step friction v normal : ℝ) :
    ∃ g, HasDerivAt (fun z => Real.log (Spec.marginalOf J z)) g old ∧
      ∀ l : List (HOp Unit), HSchedule l → (∀ o, o ∈ l) →
        sghmcConditional (Spec.conditionalOf J old) step friction G old v normal l =
          (1 - 0.5 * friction) * v + step * 0.01 * g + Real.sqrt (step * 0.01 * friction) * normal := by
  have hs : 0 < ∑ b, J old b := Finset.sum_pos (fun b _ => hJ old b) Finset.univ_nonempty
  have hd : ∀ b, HasDerivAt (fun z => J z b) (J old b * G old b) old := by
    intro b
    have := (hG b).exp
    simp only [Real.exp_log (hJ _ b)] at this
    exact this
  refine ⟨(∑ b, J old b * G old b) / ∑ b, J old b,
    (HasDerivAt.fun_sum (u := Finset.univ) fun b _ => hd b).log hs.ne', fun l h hall => ?_⟩
  have h1 : ∑ b, Spec.conditionalOf J old b = 1 := by
    simp only [Spec.conditionalOf, ← Finset.sum_div]; exact div_self hs.ne'
  have h2 : ∑ b, Spec.conditionalOf J old b * G old b = (∑ b, J old b * G old b) / ∑ b, J old b := by
    rw [Finset.sum_div]; refine Finset.sum_congr rfl fun b _ => ?_; simp only [Spec.conditionalOf]; ring
  rw [sghmcConditional_eq _ h1 _ _ _ _ _ _ l h hall, h2]

example : (∀ z b, 0 < bimodal z b) ∧
    (∀ b, HasDerivAt (fun z => Real.log (bimodal z b)) (centre b - 1) 1) ∧ HSchedule hsched₂ ∧ ∀ o, o ∈ hsched₂ :=
  ⟨bimodal_pos, bimodal_grad 1, hsched₂_valid, hsched₂_all⟩

/-- C143, SGHMC: with the posterior as `qbeta` the velocity is always the one of a standard normal target; between 0 and the mode the
gradient of the log marginal density has the other sign. -/
theorem C143_sghmc_fails (step friction v normal : ℝ) (l : List (HOp Unit)) (h : HSchedule l) (hall : ∀ o, o ∈ l) :
    (∀ old, sghmcConditional (Spec.posteriorOf volume bimodal) step friction (fun z b => centre b - z) old v normal l =
      (1 - 0.5 * friction) * v + step * 0.01 * -old + Real.sqrt (step * 0.01 * friction) * normal) ∧
    ∃ g, 0 < g ∧ HasDerivAt (fun z => Real.log (Spec.marginalOf bimodal z)) g 1 := by
  refine ⟨fun old => ?_, (C143_sgld_fails 0 0 0).2⟩
  rw [sghmcConditional_eq _ (by simp only [bimodal_posterior, Fintype.sum_bool]; norm_num) _ _ _ _ _ _ l h hall]
  have : ∑ b, Spec.posteriorOf volume bimodal b * (centre b - old) = -old := by
    simp only [bimodal_posterior, Fintype.sum_bool, centre]
    norm_num
    ring
  rw [this]

section
variable {Y W : Type} [MeasurableSpace Y] [MeasurableSpace W]

theorem IsMH.measurable_joint_expect {π : Y × W → ℝ≥0∞} {g : Y × W → Y × W → ℝ≥0∞} {ratio : Y × W → Y × W → EReal}
    (h : IsMH π g ratio) (μ : Measure Y) [SFinite μ] (f : Y × W → ℝ≥0∞) (hf : Measurable f) :
    Measurable fun s => π s * acceptReject μ g ratio f s := by
  have a : Measurable fun q : (Y × W) × Y => q.1 := measurable_fst
  have b : Measurable fun q : (Y × W) × Y => ((q.2, q.1.2) : Y × W) := measurable_snd.prodMk measurable_fst.snd
  have m1 : Measurable fun q : (Y × W) × Y => π q.1 * g q.1 (q.2, q.1.2) :=
    (h.joint_meas.comp a).mul (h.prop_meas.comp (a.prodMk b))
  have mf : Measurable fun q : (Y × W) × Y => flow π g q.1 q.2 := by
    unfold flow
    exact m1.min ((h.joint_meas.comp b).mul (h.prop_meas.comp (b.prodMk a)))
  have hacc : ∀ s y', π s * g s (y', s.2) * (1 - acceptProb (ratio s (y', s.2))) = π s * g s (y', s.2) - flow π g s y' := by
    intro s y'
    rw [ENNReal.mul_sub (fun _ _ => ENNReal.mul_ne_top (h.joint_fin s) (h.prop_fin _ _)), mul_one, h.accept]
  simp_rw [h.joint_expect μ f hf, hacc]
  exact ((mf.mul (hf.comp b)).lintegral_prod_right').add (hf.mul (m1.sub mf).lintegral_prod_right')

/-- C143, MetropolisHastings: if the posterior of the latent variables is the same for all `beta`, it is preserved whatever `qbeta`. -/
theorem C143_mh_partial (m : MHModel (Y × W)) (hf : m.Finite) (hm : m.Meas) (μ : Measure Y) [SFinite μ]
    (hnorm : ∀ s : Y × W, ∫⁻ y', m.propose s (y', s.2) ∂μ = 1) (target : Y → ℝ≥0∞) (c : W → ℝ≥0∞) (hc : Measurable c)
    (hc0 : ∀ b, c b ≠ 0) (hc1 : ∀ b, c b ≠ ∞) (hsep : ∀ y b, m.joint (y, b) = c b * target y)
    (Q : Measure W) [IsProbabilityMeasure Q] (f : Y → ℝ≥0∞) (hfm : Measurable f) :
    ∫⁻ y, target y * mhConditional m μ Q f y ∂μ = ∫⁻ y, target y * f y ∂μ := by
  have hmh := m.isMH hf hm
  have hf1 : Measurable fun s : Y × W => f s.1 := hfm.comp measurable_fst
  have ht : ∀ y b, target y = (c b)⁻¹ * m.joint (y, b) := by
    intro y b
    rw [hsep, ← mul_assoc, ENNReal.inv_mul_cancel (hc0 b) (hc1 b), one_mul]
  have htf : ∀ y (b : W), target y ≠ ∞ := fun y b => by
    rw [ht y b]; exact ENNReal.mul_ne_top (ENNReal.inv_ne_top.mpr (hc0 b)) (m.finite_joint hf _)
  have hne : Nonempty W := by
    by_contra hW
    rw [not_nonempty_iff] at hW
    have := measure_univ (μ := Q)
    rw [Set.univ_eq_empty_iff.mpr hW, measure_empty] at this
    exact zero_ne_one this
  have hmeas : Measurable fun q : Y × W => target q.1 * m.expect μ (fun s => f s.1) q := by
    have e : (fun q : Y × W => target q.1 * m.expect μ (fun s => f s.1) q) =
        fun q => (c q.2)⁻¹ * (m.joint q * acceptReject μ m.propose m.ratio (fun s => f s.1) q) := by
      funext q
      rw [ht q.1 q.2, mul_assoc, m.expect_eq_acceptReject]
    rw [e]
    exact (hc.comp measurable_snd).inv.mul (hmh.measurable_joint_expect μ _ hf1)
  have hb : ∀ b, ∫⁻ y, target y * m.expect μ (fun s => f s.1) (y, b) ∂μ = ∫⁻ y, target y * f y ∂μ := by
    intro b
    have := C32_invariant m hf hm μ (Measure.dirac b) hnorm (fun s => f s.1) hf1
    have hm1 : ∀ k : Y × W → ℝ≥0∞, Measurable k → Measurable fun b => ∫⁻ y, k (y, b) ∂μ := fun k hk => hk.lintegral_prod_left'
    rw [lintegral_dirac' _ (hm1 (fun s => m.joint s * m.expect μ (fun s => f s.1) s) (hmh.measurable_joint_expect μ _ hf1)),
      lintegral_dirac' _ (hm1 (fun s => m.joint s * f s.1) ((m.measurable_joint hm).mul hf1))] at this
    simp only [hsep, mul_assoc] at this
    rw [lintegral_const_mul' _ _ (hc1 b), lintegral_const_mul' _ _ (hc1 b)] at this
    exact (ENNReal.mul_right_inj (hc0 b) (hc1 b)).mp this
  have hy : ∀ y, target y * mhConditional m μ Q f y = ∫⁻ b, target y * m.expect μ (fun s => f s.1) (y, b) ∂Q := by
    intro y
    rw [mhConditional, lintegral_const_mul' _ _ (htf y hne.some)]
  simp_rw [hy]
  rw [lintegral_lintegral_swap hmeas.aemeasurable]
  simp_rw [hb]
  rw [lintegral_const, measure_univ, mul_one]

end

/-- `p(x, z, beta)` for two values each. -/
noncomputable def skewed (z b : Bool) : ℝ := if z && b then 3 else 1

/-- The model of `skewed` in MetropolisHastings, proposing the other value. -/
noncomputable def skewedMH : MHModel (Bool × Bool) :=
  ⟨[fun old new => if new.1 = old.1 then 0 else 1], [], [fun s => ENNReal.ofReal (skewed s.1 s.2)]⟩

theorem skewed_pos (z b : Bool) : 0 < skewed z b := by unfold skewed; split <;> norm_num

theorem skewed_posterior : Spec.posteriorOf Measure.count skewed true = 2 / 3 ∧ Spec.posteriorOf Measure.count skewed false = 1 / 3 ∧
    Spec.posteriorOf Measure.count (fun b z => skewed z b) true = 2 / 3 ∧
    Spec.posteriorOf Measure.count (fun b z => skewed z b) false = 1 / 3 := by
  refine ⟨?_, ?_, ?_, ?_⟩ <;> simp only [Spec.posteriorOf, integral_fintype (Integrable.of_finite), Fintype.sum_bool, skewed] <;>
    norm_num

/-- `qbeta`: the posterior of `beta`. -/
noncomputable def skewedQ : Measure Bool := ∑ b, ENNReal.ofReal (Spec.posteriorOf Measure.count skewed b) • Measure.dirac b

theorem skewed_expect (f : Bool → ℝ≥0∞) (z b : Bool) : skewedMH.expect Measure.count (fun s => f s.1) (z, b) =
    ENNReal.ofReal (min 1 (skewed (!z) b / skewed z b)) * f (!z) +
      (1 - ENNReal.ofReal (min 1 (skewed (!z) b / skewed z b))) * f z := by
  classical
  have hr : skewedMH.ratio (z, b) (!z, b) = log (ENNReal.ofReal (skewed (!z) b / skewed z b)) := by
    rw [mh_ratio]
    · simp only [MHModel.joint, MHModel.propose, skewedMH, List.map_cons, List.map_nil, List.prod_cons, List.prod_nil, mul_one, one_mul]
      rw [ENNReal.ofReal_div_of_pos (skewed_pos _ _)]
      cases z <;> simp
    · constructor
      · intro g hg s s'
        simp only [skewedMH, List.mem_singleton] at hg
        subst hg
        show (if _ then _ else _) ≠ _
        split <;> simp
      · intro p hp s
        simp [skewedMH] at hp
      · intro p hp s
        simp only [skewedMH, List.mem_singleton] at hp
        subst hp
        simp
    · simp [MHModel.joint, skewedMH, skewed_pos]
    · cases z <;> simp [MHModel.propose, skewedMH]
  have e : ∀ u, f (skewedMH.step (z, b) (!z, b) u).1 = if accepts u (skewedMH.ratio (z, b) (!z, b)) then f (!z) else f z := by
    intro u
    unfold MHModel.step
    split <;> rfl
  have hp0 : skewedMH.propose (z, b) (z, b) = 0 := by simp [MHModel.propose, skewedMH]
  have hp1 : skewedMH.propose (z, b) (!z, b) = 1 := by cases z <;> simp [MHModel.propose, skewedMH]
  unfold MHModel.expect
  rw [lintegral_count, tsum_fintype, Fintype.sum_eq_add z (!z) (by cases z <;> decide)
    (by intro x hx; cases x <;> cases z <;> simp_all)]
  simp only [hp0, hp1, zero_mul, zero_add, one_mul, e]
  rw [lintegral_accept, hr, acceptProb_log, ← ENNReal.ofReal_one, ← ENNReal.ofReal_min, ENNReal.ofReal_one]

/-- C143, MetropolisHastings: with the posterior as `qbeta`, an update started from the posterior of the latent variable ends with another
probability of the value `true`, 17/27 instead of 2/3. -/
theorem C143_mh_fails :
    Spec.posteriorOf Measure.count (fun b z => skewed z b) true = 2 / 3 ∧
    ∑ z, ENNReal.ofReal (Spec.posteriorOf Measure.count (fun b z => skewed z b) z) *
      mhConditional skewedMH Measure.count skewedQ (fun z => if z then 1 else 0) z = ENNReal.ofReal (17 / 27) := by
  obtain ⟨h1, h2, h3, h4⟩ := skewed_posterior
  refine ⟨h3, ?_⟩
  have key : ∀ z, mhConditional skewedMH Measure.count skewedQ (fun z => if z then 1 else 0) z =
      ENNReal.ofReal (if z then 4 / 9 else 1) := by
    intro z
    have hA : ∀ b, skewedMH.expect Measure.count (fun s => (fun z : Bool => if z then (1 : ℝ≥0∞) else 0) s.1) (z, b) =
        ENNReal.ofReal (if z then (if b then 2 / 3 else 0) else 1) := by
      intro b
      rw [skewed_expect (fun z : Bool => if z then (1 : ℝ≥0∞) else 0)]
      cases z
      · cases b <;> norm_num [skewed]
      · simp only [Bool.not_true, Bool.false_eq_true, if_false, mul_zero, zero_add, if_true, mul_one]
        rw [← ENNReal.ofReal_one, ← ENNReal.ofReal_sub _ (by
          have := skewed_pos false b; have := skewed_pos true b; positivity)]
        congr 1
        cases b <;> norm_num [skewed]
    unfold mhConditional skewedQ
    rw [Fintype.sum_bool, lintegral_add_measure, lintegral_smul_measure, lintegral_smul_measure, lintegral_dirac, lintegral_dirac,
      hA, hA, h1, h2, smul_eq_mul, smul_eq_mul, ← ENNReal.ofReal_mul (by norm_num), ← ENNReal.ofReal_mul (by norm_num),
      ← ENNReal.ofReal_add (by cases z <;> norm_num) (by cases z <;> norm_num)]
    congr 1
    cases z <;> norm_num
  simp only [key, Fintype.sum_bool, h3, h4, if_true, Bool.false_eq_true, if_false]
  rw [← ENNReal.ofReal_mul (by norm_num), ← ENNReal.ofReal_mul (by norm_num), ← ENNReal.ofReal_add (by norm_num) (by norm_num)]
  congr 1
  norm_num

/-- A model in which the posterior of the latent variable does not depend on `beta`. -/
noncomputable def separateMH : MHModel (Bool × Bool) :=
  ⟨[fun old new => if new.1 = old.1 then 0 else 1], [fun s => if s.1 then 2 else 1], [fun s => if s.2 then 3 else 1]⟩

example : separateMH.Finite ∧ separateMH.Meas ∧ (∀ s : Bool × Bool, ∫⁻ y', separateMH.propose s (y', s.2) ∂Measure.count = 1) ∧
    (∀ y b, separateMH.joint (y, b) = (if b then 3 else 1) * if y then 2 else 1) ∧ IsProbabilityMeasure skewedQ := by
  refine ⟨⟨?_, ?_, ?_⟩, ⟨?_, ?_, ?_⟩, ?_, ?_, ?_⟩
  · intro g hg s s'
    simp only [separateMH, List.mem_singleton] at hg
    subst hg
    show (if _ then _ else _) ≠ _
    split <;> simp
  · intro p hp s
    simp only [separateMH, List.mem_singleton] at hp
    subst hp
    show (if _ then _ else _) ≠ _
    split <;> simp
  · intro p hp s
    simp only [separateMH, List.mem_singleton] at hp
    subst hp
    show (if _ then _ else _) ≠ _
    split <;> simp
  · exact fun _ _ => measurable_of_countable _
  · exact fun _ _ => measurable_of_countable _
  · exact fun _ _ => measurable_of_countable _
  · rintro ⟨z, b⟩
    rw [lintegral_count, tsum_fintype, Fintype.sum_bool]
    cases z <;> simp [separateMH, MHModel.propose]
  · intro y b
    simp [separateMH, MHModel.joint, mul_comm]
  · obtain ⟨h1, h2, -, -⟩ := skewed_posterior
    refine ⟨?_⟩
    unfold skewedQ
    rw [Fintype.sum_bool, Measure.add_apply, Measure.smul_apply, Measure.smul_apply, measure_univ, measure_univ, h1, h2, smul_eq_mul,
      smul_eq_mul, mul_one, mul_one, ← ENNReal.ofReal_add (by norm_num) (by norm_num)]
    norm_num

end Edward
