/-
C60, C88: the ratio estimated by `ImplicitKLqp`.
-/
import Mathlib.Probability.Kernel.Composition.Prod
import Mathlib.Probability.Distributions.Gaussian.Real
import Verif.Model.Implicit
import Verif.Spec.Implicit
import Verif.Props.GanLoss

open MeasureTheory ProbabilityTheory

namespace Edward

/-- The cross entropies of the labels 1 and 0. -/
theorem ce_exp (r : ℝ) : sigmoidCrossEntropy 1 r = Real.log (1 + Real.exp (-r)) ∧ sigmoidCrossEntropy 0 r = Real.log (1 + Real.exp r) := by
  have h := ce_ratio (Real.exp_pos r) one_pos
  rw [div_one, Real.log_exp] at h
  refine ⟨h.1.trans ?_, h.2.trans ?_⟩
  · rw [Real.exp_neg]
    congr 1
    have := Real.exp_pos r
    field_simp
  · rw [div_one, add_comm]

/-! ### The hinge loss -/

/-- C60: with `ratio_loss='hinge'` the loss at a point, where the laws have densities `p` and `q`, is least at the sign of `p - q`, and only
there if the densities differ. -/
theorem C60_hinge_partial (p q : ℝ) (hp : 0 < p) (hq : 0 < q) (h : p ≠ q) (r : ℝ) :
    (∀ s, p * ratioHingeLoss r (-1) + q * ratioHingeLoss 1 r ≤ p * ratioHingeLoss s (-1) + q * ratioHingeLoss 1 s) ↔
      r = if q < p then 1 else -1 := by
  have e : ∀ s, p * ratioHingeLoss s (-1) + q * ratioHingeLoss 1 s = p * max (1 - s) 0 + q * max (1 + s) 0 := fun s => by
    simp [ratioHingeLoss]
  simp only [e]
  have key : ∀ s : ℝ, p * max (1 - s) 0 + q * max (1 + s) 0 =
      if s ≤ -1 then p * (1 - s) else if s ≤ 1 then p * (1 - s) + q * (1 + s) else q * (1 + s) := fun s => by
    split_ifs with h1 h2
    · rw [max_eq_left (by linarith), max_eq_right (by linarith)]; ring
    · rw [max_eq_left (by linarith), max_eq_left (by linarith)]
    · rw [max_eq_right (by linarith), max_eq_left (by linarith)]; ring
  rcases lt_or_gt_of_ne h with hlt | hlt
  · rw [if_neg (not_lt.2 hlt.le)]
    have hv : ∀ s, 2 * p ≤ p * max (1 - s) 0 + q * max (1 + s) 0 ∧ (p * max (1 - s) 0 + q * max (1 + s) 0 = 2 * p → s = -1) := fun s => by
      rw [key]
      split_ifs with h1 h2
      · exact ⟨by nlinarith, fun h => by nlinarith [mul_left_cancel₀ hp.ne' (show p * (1 - s) = p * 2 by linarith)]⟩
      · refine ⟨by nlinarith, fun h => ?_⟩
        have : (q - p) * (1 + s) = 0 := by linarith
        rcases mul_eq_zero.1 this with h | h <;> linarith
      · exact ⟨by nlinarith, fun h => by nlinarith⟩
    have hm : p * max (1 - (-1 : ℝ)) 0 + q * max (1 + (-1)) 0 = 2 * p := by norm_num; ring
    exact ⟨fun h => (hv r).2 (le_antisymm ((h (-1)).trans hm.le) (hv r).1), fun h s => by rw [h, hm]; exact (hv s).1⟩
  · rw [if_pos hlt]
    have hv : ∀ s, 2 * q ≤ p * max (1 - s) 0 + q * max (1 + s) 0 ∧ (p * max (1 - s) 0 + q * max (1 + s) 0 = 2 * q → s = 1) := fun s => by
      rw [key]
      split_ifs with h1 h2
      · exact ⟨by nlinarith, fun h => by nlinarith⟩
      · refine ⟨by nlinarith, fun h => ?_⟩
        have : (p - q) * (1 - s) = 0 := by linarith
        rcases mul_eq_zero.1 this with h | h <;> linarith
      · exact ⟨by nlinarith, fun h => by nlinarith [mul_left_cancel₀ hq.ne' (show q * (1 + s) = q * 2 by linarith)]⟩
    have hm : p * max (1 - (1 : ℝ)) 0 + q * max (1 + 1) 0 = 2 * q := by norm_num; ring
    exact ⟨fun h => (hv r).2 (le_antisymm ((h 1).trans hm.le) (hv r).1), fun h s => by rw [h, hm]; exact (hv s).1⟩

example : ∀ s, (1 : ℝ) * ratioHingeLoss (-1) (-1) + 3 * ratioHingeLoss 1 (-1) ≤ 1 * ratioHingeLoss s (-1) + 3 * ratioHingeLoss 1 s :=
  (C60_hinge_partial 1 3 one_pos (by norm_num) (by norm_num) (-1)).2 (by norm_num)

/-! ### C88 -/

section finite
variable {A B : Type} [Fintype A] [DecidableEq A] [MeasurableSpace A] [MeasurableSingletonClass A] [MeasurableSpace B] {M : ℕ}
  {xData : Fin M → A} {μ : Measure B} {p : B → ℝ} {lik : Kernel B A} [IsMarkovKernel lik] {q : A → B → ℝ}

omit [MeasurableSpace A] [MeasurableSingletonClass A] in
theorem sum_empirical (xData : Fin M → A) (f : A → ℝ) : ∑ a, Spec.empirical xData a * f a = (∑ m, f (xData m)) / M := by
  simp only [Spec.empirical, div_mul_eq_mul_div, ← Finset.sum_div]
  congr 1
  rw [← Finset.sum_fiberwise (s := Finset.univ) (g := xData)]
  refine Finset.sum_congr rfl fun a _ => ?_
  rw [Finset.sum_congr rfl (g := fun _ => f a) (by intro m hm; simp at hm; rw [hm])]
  simp

omit [Fintype A] [MeasurableSpace A] [MeasurableSingletonClass A] in
theorem empirical_pos (hM : 0 < M) (x : A) (h : ∃ m, xData m = x) : 0 < Spec.empirical xData x := by
  obtain ⟨m, hm⟩ := h
  refine div_pos ?_ (by exact_mod_cast hM)
  exact_mod_cast Finset.card_pos.mpr ⟨m, by simp [hm]⟩

omit [Fintype A] [DecidableEq A] in
theorem integrable_lik (x : A) (κ : Measure B) [IsProbabilityMeasure κ] : Integrable (fun z => (lik z).real {x}) κ := by
  refine (integrable_const (1 : ℝ)).mono' ((Kernel.measurable_coe lik (measurableSet_singleton x)).ennreal_toReal).aestronglyMeasurable
    (.of_forall fun z => ?_)
  rw [Real.norm_eq_abs, abs_of_nonneg measureReal_nonneg]
  exact measureReal_le_one

omit [DecidableEq A] [Fintype A] [MeasurableSpace A] [MeasurableSingletonClass A] in
theorem law_ae {f : B → ℝ} {P : B → Prop} (h : ∀ᵐ z ∂μ, P z) : ∀ᵐ z ∂Spec.lawOf μ f, P z := (withDensity_absolutelyContinuous _ _).ae_le h

/-- The expected loss, as a sum over the values of the data. -/
theorem expectedLossD_eq (h : Spec.ImplicitOk xData μ p lik q) (r : A → B → ℝ) (hr : Spec.HasRatioLoss μ p q r) :
    expectedLossD ratioLogLoss xData (Spec.lawOf μ p) lik (fun x => Spec.lawOf μ (q x)) r = ∑ x,
      (Spec.mixedMarginal xData μ lik q x * ∫ z, sigmoidCrossEntropy 1 (r x z) ∂Spec.lawOf μ p +
        Spec.empirical xData x * ∫ z, sigmoidCrossEntropy 0 (r x z) ∂Spec.lawOf μ (q x)) := by
  have : IsProbabilityMeasure (Spec.lawOf μ p) := lawOf_probability μ p h.p_mass
  have hQ : ∀ x, IsProbabilityMeasure (Spec.lawOf μ (q x)) := fun x => lawOf_probability μ (q x) (h.q_mass x)
  have h1 : ∀ x, Integrable (fun z => sigmoidCrossEntropy 1 (r x z)) (Spec.lawOf μ p) := fun x => by
    simp only [(ce_exp _).1]; exact (hr x).1
  have h0 : ∀ x, Integrable (fun z => sigmoidCrossEntropy 0 (r x z)) (Spec.lawOf μ (q x)) := fun x => by
    simp only [(ce_exp _).2]; exact (hr x).2
  have inner : ∀ m zp zq, ∫ xp, ratioLogLoss (r xp zp) (r (xData m) zq) ∂lik zq =
      (∑ x, (lik zq).real {x} * sigmoidCrossEntropy 1 (r x zp)) + sigmoidCrossEntropy 0 (r (xData m) zq) := fun m zp zq => by
    simp only [ratioLogLoss]
    rw [integral_add .of_finite (integrable_const _), integral_fintype .of_finite]
    simp
  have mid : ∀ m zp, ∫ zq, ∫ xp, ratioLogLoss (r xp zp) (r (xData m) zq) ∂lik zq ∂Spec.lawOf μ (q (xData m)) =
      (∑ x, (∫ z, (lik z).real {x} ∂Spec.lawOf μ (q (xData m))) * sigmoidCrossEntropy 1 (r x zp)) +
        ∫ z, sigmoidCrossEntropy 0 (r (xData m) z) ∂Spec.lawOf μ (q (xData m)) := fun m zp => by
    simp only [inner]
    have hI : ∀ x ∈ Finset.univ, Integrable (fun z => (lik z).real {x} * sigmoidCrossEntropy 1 (r x zp)) (Spec.lawOf μ (q (xData m))) :=
      fun x _ => (integrable_lik x _).mul_const _
    rw [integral_add (integrable_finsetSum _ hI) (h0 _), integral_finsetSum _ hI]
    simp only [integral_mul_const]
  have outer : ∀ m, ∫ zp, ∫ zq, ∫ xp, ratioLogLoss (r xp zp) (r (xData m) zq) ∂lik zq ∂Spec.lawOf μ (q (xData m)) ∂Spec.lawOf μ p =
      (∑ x, (∫ z, (lik z).real {x} ∂Spec.lawOf μ (q (xData m))) * ∫ z, sigmoidCrossEntropy 1 (r x z) ∂Spec.lawOf μ p) +
        ∫ z, sigmoidCrossEntropy 0 (r (xData m) z) ∂Spec.lawOf μ (q (xData m)) := fun m => by
    simp only [mid]
    have hI : ∀ x ∈ Finset.univ, Integrable (fun zp => (∫ z, (lik z).real {x} ∂Spec.lawOf μ (q (xData m))) * sigmoidCrossEntropy 1 (r x zp))
        (Spec.lawOf μ p) := fun x _ => (h1 x).const_mul _
    rw [integral_add (integrable_finsetSum _ hI) (integrable_const _), integral_finsetSum _ hI]
    simp only [integral_const_mul, integral_const, probReal_univ, one_smul]
  rw [expectedLossD]
  simp only [conditioningSample, outer]
  rw [Finset.sum_add_distrib, Finset.sum_add_distrib, sum_empirical xData fun x => ∫ z, sigmoidCrossEntropy 0 (r x z) ∂Spec.lawOf μ (q x), add_div,
    Finset.sum_comm]
  congr 1
  simp only [Spec.mixedMarginal, Finset.sum_div, Finset.sum_mul, div_mul_eq_mul_div]

omit [Fintype A] [DecidableEq A] in
theorem mixedMarginal_pos (h : Spec.ImplicitOk xData μ p lik q) (x : A) : 0 < Spec.mixedMarginal xData μ lik q x := by
  have hQ : ∀ x, IsProbabilityMeasure (Spec.lawOf μ (q x)) := fun x => lawOf_probability μ (q x) (h.q_mass x)
  have : Nonempty (Fin M) := ⟨⟨0, h.M_pos⟩⟩
  refine div_pos (Finset.sum_pos (fun m _ => ?_) Finset.univ_nonempty) (by exact_mod_cast h.M_pos)
  rw [integral_pos_iff_support_of_nonneg (fun z => (h.lik_pos z x).le) (integrable_lik x _)]
  have : Function.support (fun z => (lik z).real {x}) = Set.univ := Set.eq_univ_of_forall fun z => (h.lik_pos z x).ne'
  rw [this, measure_univ]
  exact one_pos

/-- The minimiser of the expected loss. -/
noncomputable def Spec.foundRatio (xData : Fin M → A) (μ : Measure B) (p : B → ℝ) (lik : Kernel B A) (q : A → B → ℝ) (x : A) (z : B) : ℝ :=
  Real.log (p z * Spec.mixedMarginal xData μ lik q x / (Spec.empirical xData x * q x z))

omit [Fintype A] in
theorem found_hasLoss (h : Spec.ImplicitOk xData μ p lik q) : Spec.HasRatioLoss μ p q (Spec.foundRatio xData μ p lik q) := by
  intro x
  have hm := mixedMarginal_pos h x
  have he := empirical_pos h.M_pos x (h.data x)
  set c := Spec.mixedMarginal xData μ lik q x
  set e := Spec.empirical xData x
  have hpi := density_integrable μ p h.p_pos h.p_meas h.p_mass
  have hqi := density_integrable μ (q x) (h.q_pos x) (h.q_meas x) (h.q_mass x)
  have ha : ∀ z, 0 < p z * c := fun z => mul_pos (h.p_pos z) hm
  have hb : ∀ z, 0 < e * q x z := fun z => mul_pos he (h.q_pos x z)
  have ham : Measurable fun z => p z * c := h.p_meas.mul_const c
  have hbm : Measurable fun z => e * q x z := (h.q_meas x).const_mul e
  constructor
  · have e1 : ∀ z, Real.log (1 + Real.exp (-Spec.foundRatio xData μ p lik q x z)) = Real.log ((p z * c + e * q x z) / (p z * c)) := fun z => by
      rw [← (ce_exp _).1, ← (ce_ratio (ha z) (hb z)).1]; rfl
    simp only [e1]
    rw [integrable_lawOf μ p h.p_pos h.p_meas]
    have : Integrable (fun z => p z * c * Real.log ((p z * c + e * q x z) / (p z * c))) μ := by
      refine (hqi.const_mul e).mono' (ham.mul ((ham.add hbm).div ham).log).aestronglyMeasurable (.of_forall fun z => ?_)
      have h1 := ha z
      have h2 := hb z
      have : 0 ≤ Real.log ((p z * c + e * q x z) / (p z * c)) := Real.log_nonneg (by rw [le_div_iff₀ h1]; linarith)
      rw [Real.norm_eq_abs, abs_of_nonneg (mul_nonneg h1.le this)]
      exact log_ratio_le h1 h2
    refine (this.div_const c).congr (.of_forall fun z => ?_)
    simp only
    field_simp
  · have e1 : ∀ z, Real.log (1 + Real.exp (Spec.foundRatio xData μ p lik q x z)) = Real.log ((e * q x z + p z * c) / (e * q x z)) := fun z => by
      rw [← (ce_exp _).2, add_comm (e * q x z), ← (ce_ratio (ha z) (hb z)).2]; rfl
    simp only [e1]
    rw [integrable_lawOf μ (q x) (h.q_pos x) (h.q_meas x)]
    have : Integrable (fun z => e * q x z * Real.log ((e * q x z + p z * c) / (e * q x z))) μ := by
      refine (hpi.mul_const c).mono' (hbm.mul ((hbm.add ham).div hbm).log).aestronglyMeasurable (.of_forall fun z => ?_)
      have h1 := hb z
      have h2 := ha z
      have : 0 ≤ Real.log ((e * q x z + p z * c) / (e * q x z)) := Real.log_nonneg (by rw [le_div_iff₀ h1]; linarith)
      rw [Real.norm_eq_abs, abs_of_nonneg (mul_nonneg h1.le this)]
      exact log_ratio_le h1 h2
    refine (this.div_const e).congr (.of_forall fun z => ?_)
    simp only
    field_simp

/-- What the ratio estimation finds: its only minimum, up to null sets, is `log p(z) m(x) - log q(x, z)`, where `m` is the law of data simulated
from the approximation. -/
theorem C88_optimum_partial (h : Spec.ImplicitOk xData μ p lik q) (r : A → B → ℝ) (hr : Spec.HasRatioLoss μ p q r) :
    let loss := expectedLossD ratioLogLoss xData (Spec.lawOf μ p) lik (fun x => Spec.lawOf μ (q x))
    (∀ r', Spec.HasRatioLoss μ p q r' → loss r ≤ loss r') ↔ ∀ x, r x =ᵐ[μ] Spec.foundRatio xData μ p lik q x := by
  intro loss
  set g := Spec.foundRatio xData μ p lik q with hg
  have hgl := found_hasLoss h
  have hm := mixedMarginal_pos h
  have he : ∀ x, 0 < Spec.empirical xData x := fun x => empirical_pos h.M_pos x (h.data x)
  let F : (A → B → ℝ) → A → B → ℝ := fun r x z => p z * Spec.mixedMarginal xData μ lik q x * sigmoidCrossEntropy 1 (r x z) +
    Spec.empirical xData x * q x z * sigmoidCrossEntropy 0 (r x z)
  have hint : ∀ r, Spec.HasRatioLoss μ p q r → ∀ x, Integrable (fun z => p z * Spec.mixedMarginal xData μ lik q x * sigmoidCrossEntropy 1 (r x z)) μ ∧
      Integrable (fun z => Spec.empirical xData x * q x z * sigmoidCrossEntropy 0 (r x z)) μ := fun r hr x => by
    obtain ⟨h1, h0⟩ := hr x
    rw [integrable_lawOf μ p h.p_pos h.p_meas] at h1
    rw [integrable_lawOf μ (q x) (h.q_pos x) (h.q_meas x)] at h0
    refine ⟨(h1.mul_const (Spec.mixedMarginal xData μ lik q x)).congr (.of_forall fun z => ?_), (h0.const_mul (Spec.empirical xData x)).congr (.of_forall fun z => ?_)⟩
    · simp only [(ce_exp _).1]; ring
    · simp only [(ce_exp _).2]; ring
  have hsum : ∀ r, Spec.HasRatioLoss μ p q r → loss r = ∑ x, ∫ z, F r x z ∂μ := fun r hr => by
    show expectedLossD _ _ _ _ _ r = _
    rw [expectedLossD_eq h r hr]
    refine Finset.sum_congr rfl fun x _ => ?_
    rw [integral_add (hint r hr x).1 (hint r hr x).2, integral_lawOf μ p h.p_pos h.p_meas, integral_lawOf μ (q x) (h.q_pos x) (h.q_meas x),
      ← integral_const_mul, ← integral_const_mul]
    congr 1
    · congr 1; ext z; ring
    · congr 1; ext z; ring
  have key := fun (r : A → B → ℝ) x z => C60_pointwise (p z * Spec.mixedMarginal xData μ lik q x)
    (Spec.empirical xData x * q x z) (mul_pos (h.p_pos z) (hm x)) (mul_pos (he x) (h.q_pos x z)) (r x z)
  have hle : ∀ r' : A → B → ℝ, Spec.HasRatioLoss μ p q r' → ∀ x, ∫ z, F g x z ∂μ ≤ ∫ z, F r' x z ∂μ := fun r' hr' x =>
    integral_mono ((hint g hgl x).1.add (hint g hgl x).2) ((hint r' hr' x).1.add (hint r' hr' x).2) fun z => (key r' x z).1
  constructor
  · intro hmin x
    have heq : loss g = loss r := le_antisymm (by rw [hsum g hgl, hsum r hr]; exact Finset.sum_le_sum fun x _ => hle r hr x) (hmin g hgl)
    rw [hsum g hgl, hsum r hr, Finset.sum_eq_sum_iff_of_le fun x _ => hle r hr x] at heq
    have hx := heq x (Finset.mem_univ _)
    have hx' := (integral_eq_iff_of_ae_le (f := F g x) (g := F r x) ((hint g hgl x).1.add (hint g hgl x).2)
      ((hint r hr x).1.add (hint r hr x).2) (.of_forall fun z => (key r x z).1)).1 hx
    exact hx'.mono fun z hz => (key r x z).2.mp hz
  · intro hae r' hr'
    rw [hsum r hr, hsum r' hr']
    refine Finset.sum_le_sum fun x _ => le_trans (le_of_eq ?_) (hle r' hr' x)
    exact integral_congr_ae ((hae x).mono fun z hz => by simp only [F, hz])

/-- C88, exactly when it holds: the documented ratio minimises the expected loss if and only if the data do not depend on the local latent
variables. -/
theorem C88_partial (h : Spec.ImplicitOk xData μ p lik q) :
    let loss := expectedLossD ratioLogLoss xData (Spec.lawOf μ p) lik (fun x => Spec.lawOf μ (q x))
    (Spec.HasRatioLoss μ p q (Spec.logRatio xData p lik q) ∧
      ∀ r', Spec.HasRatioLoss μ p q r' → loss (Spec.logRatio xData p lik q) ≤ loss r') ↔
      ∀ x, ∃ c, ∀ᵐ z ∂μ, (lik z).real {x} = c := by
  intro loss
  have hm := mixedMarginal_pos h
  have step : ∀ x z, Spec.logRatio xData p lik q x z = Spec.foundRatio xData μ p lik q x z ↔ (lik z).real {x} = Spec.mixedMarginal xData μ lik q x := by
    intro x z
    have hq := mul_pos (empirical_pos h.M_pos x (h.data x)) (h.q_pos x z)
    rw [Spec.logRatio, Spec.foundRatio]
    constructor
    · intro e
      have := Real.log_injOn_pos (div_pos (mul_pos (h.p_pos z) (h.lik_pos z x)) hq) (div_pos (mul_pos (h.p_pos z) (hm x)) hq) e
      rw [div_left_inj' hq.ne'] at this
      exact mul_left_cancel₀ (h.p_pos z).ne' this
    · intro e; rw [e]
  constructor
  · rintro ⟨hr, hmin⟩ x
    exact ⟨_, ((C88_optimum_partial h _ hr).1 hmin x).mono fun z hz => (step x z).1 hz⟩
  · intro hc
    have hae : ∀ x, Spec.logRatio xData p lik q x =ᵐ[μ] Spec.foundRatio xData μ p lik q x := by
      intro x
      obtain ⟨c, hc⟩ := hc x
      have hcm : Spec.mixedMarginal xData μ lik q x = c := by
        have : ∀ m, ∫ z, (lik z).real {x} ∂Spec.lawOf μ (q (xData m)) = c := fun m => by
          have : IsProbabilityMeasure (Spec.lawOf μ (q (xData m))) := lawOf_probability μ _ (h.q_mass _)
          rw [integral_congr_ae (law_ae hc)]
          simp
        rw [Spec.mixedMarginal, Finset.sum_congr rfl fun m _ => this m]
        have hM : (M : ℝ) ≠ 0 := by exact_mod_cast h.M_pos.ne'
        simp [hM]
      exact hc.mono fun z hz => (step x z).2 (hz.trans hcm.symm)
    have hr : Spec.HasRatioLoss μ p q (Spec.logRatio xData p lik q) := fun x =>
      ⟨(found_hasLoss h x).1.congr ((law_ae (hae x)).mono fun z hz => by simp only [hz]),
        (found_hasLoss h x).2.congr ((law_ae (hae x)).mono fun z hz => by simp only [hz])⟩
    exact ⟨hr, (C88_optimum_partial h _ hr).2 hae⟩

/-- C88 fails for every model in which the data depend on the local latent variables: there is a discriminator with smaller expected loss than
the documented log ratio. -/
theorem C88_fails (h : Spec.ImplicitOk xData μ p lik q) (hr : Spec.HasRatioLoss μ p q (Spec.logRatio xData p lik q)) (x : A)
    (hd : ∀ c, ¬ ∀ᵐ z ∂μ, (lik z).real {x} = c) :
    ∃ r, Spec.HasRatioLoss μ p q r ∧ expectedLossD ratioLogLoss xData (Spec.lawOf μ p) lik (fun x => Spec.lawOf μ (q x)) r <
      expectedLossD ratioLogLoss xData (Spec.lawOf μ p) lik (fun x => Spec.lawOf μ (q x)) (Spec.logRatio xData p lik q) := by
  by_contra hne
  push Not at hne
  obtain ⟨c, hc⟩ := (C88_partial h).1 ⟨hr, hne⟩ x
  exact hd c hc

end finite

/-! ### A model with binary data -/

section binary
variable {B : Type} [MeasurableSpace B]

/-- The law of a binary data point that is `true` with probability `f z`. -/
noncomputable def binaryLik (f : B → ℝ) (hf : Measurable f) : Kernel B Bool where
  toFun z := ENNReal.ofReal (f z) • Measure.dirac true + ENNReal.ofReal (1 - f z) • Measure.dirac false
  measurable' := by
    refine Measure.measurable_of_measurable_coe _ fun s hs => ?_
    simp only [Measure.coe_add, Measure.coe_smul, Pi.add_apply, Pi.smul_apply, smul_eq_mul]
    exact (hf.ennreal_ofReal.mul_const _).add ((hf.const_sub 1).ennreal_ofReal.mul_const _)

theorem binaryLik_real (f : B → ℝ) (hf : Measurable f) (h0 : ∀ z, 0 ≤ f z) (h1 : ∀ z, f z ≤ 1) (z : B) (x : Bool) :
    (binaryLik f hf z).real {x} = if x then f z else 1 - f z := by
  have : binaryLik f hf z = ENNReal.ofReal (f z) • Measure.dirac true + ENNReal.ofReal (1 - f z) • Measure.dirac false := rfl
  rw [this, measureReal_def]
  cases x
  · simp [h1 z]
  · simp [h0 z]

theorem binaryLik_markov (f : B → ℝ) (hf : Measurable f) (h0 : ∀ z, 0 ≤ f z) (h1 : ∀ z, f z ≤ 1) : IsMarkovKernel (binaryLik f hf) :=
  ⟨fun z => ⟨by
    have : binaryLik f hf z = ENNReal.ofReal (f z) • Measure.dirac true + ENNReal.ofReal (1 - f z) • Measure.dirac false := rfl
    rw [this]
    simp only [Measure.coe_add, Measure.coe_smul, Pi.add_apply, Pi.smul_apply, smul_eq_mul, measure_univ, mul_one]
    rw [← ENNReal.ofReal_add (h0 z) (by linarith [h1 z])]
    simp⟩⟩

end binary

/-- A model with a binary latent variable that the data reveal with probability 3/4, and an approximation that depends on the data. -/
example : ∃ r, expectedLossD (M := 2) ratioLogLoss ![true, false] (Spec.lawOf .count fun _ : Bool => 1 / 2)
      (binaryLik (fun z => if z then 3 / 4 else 1 / 4) (measurable_of_countable _))
      (fun x => Spec.lawOf .count fun z => if z = x then 2 / 3 else 1 / 3) r <
    expectedLossD (M := 2) ratioLogLoss ![true, false] (Spec.lawOf .count fun _ : Bool => 1 / 2)
      (binaryLik (fun z => if z then 3 / 4 else 1 / 4) (measurable_of_countable _))
      (fun x => Spec.lawOf .count fun z => if z = x then 2 / 3 else 1 / 3)
      (Spec.logRatio ![true, false] (fun _ => 1 / 2) (binaryLik (fun z => if z then 3 / 4 else 1 / 4) (measurable_of_countable _))
        fun x z => if z = x then 2 / 3 else 1 / 3) := by
  have h0 : ∀ z : Bool, (0 : ℝ) ≤ if z then 3 / 4 else 1 / 4 := fun z => by cases z <;> norm_num
  have h1 : ∀ z : Bool, (if z then 3 / 4 else 1 / 4 : ℝ) ≤ 1 := fun z => by cases z <;> norm_num
  have := binaryLik_markov _ (measurable_of_countable _) h0 h1
  have hp : ∫⁻ _ : Bool, ENNReal.ofReal (1 / 2) ∂.count = 1 := by
    rw [lintegral_count, tsum_bool, ← ENNReal.ofReal_add (by norm_num) (by norm_num)]; norm_num
  have hq : ∀ x : Bool, ∫⁻ z : Bool, ENNReal.ofReal (if z = x then 2 / 3 else 1 / 3) ∂.count = 1 := fun x => by
    rw [lintegral_count, tsum_bool, ← ENNReal.ofReal_add (by split_ifs <;> norm_num) (by split_ifs <;> norm_num)]
    cases x <;> norm_num
  have := lawOf_probability Measure.count _ hp
  have := fun x => lawOf_probability Measure.count _ (hq x)
  obtain ⟨r, -, hr⟩ := C88_fails (M := 2) (xData := ![true, false]) (μ := .count) (p := fun _ : Bool => 1 / 2)
    (lik := binaryLik (fun z => if z then 3 / 4 else 1 / 4) (measurable_of_countable _)) (q := fun x z => if z = x then 2 / 3 else 1 / 3)
    ⟨by norm_num, fun x => by cases x; exacts [⟨1, rfl⟩, ⟨0, rfl⟩], fun _ => by norm_num, measurable_const, hp,
      fun z x => by rw [binaryLik_real _ _ h0 h1]; cases x <;> cases z <;> norm_num, fun x z => by split_ifs <;> norm_num,
      fun x => measurable_of_countable _, hq⟩ (fun x => ⟨.of_finite, .of_finite⟩) true (fun c hc => by
        rw [Measure.ae_count_iff] at hc
        have h2 := hc true
        have h3 := hc false
        rw [binaryLik_real _ _ h0 h1] at h2 h3
        norm_num at h2 h3
        linarith)
  exact ⟨r, hr⟩

/-! ### Continuous data -/

section continuous
variable {A B : Type} [MeasurableSpace A] [MeasurableSingletonClass A] [MeasurableSpace B] {M : ℕ}

theorem ratioLogLoss_pos (a b : ℝ) : 0 < ratioLogLoss a b := by
  rw [ratioLogLoss, (ce_exp a).1, (ce_exp b).2]
  exact add_pos (Real.log_pos (by linarith [Real.exp_pos (-a)])) (Real.log_pos (by linarith [Real.exp_pos b]))

/-- C88 for data with a continuous distribution: the model never generates one of the data points again, so discriminators that recognise
these have expected losses as small as one likes, while the loss of no run is zero. The ratio estimation has no solution. -/
theorem C88_continuous_fails (hM : 0 < M) (xData : Fin M → A) (pz : Measure B) [IsProbabilityMeasure pz] (lik : Kernel B A) [IsMarkovKernel lik]
    (qz : A → Measure B) [∀ x, IsProbabilityMeasure (qz x)] (hc : ∀ z m, lik z {xData m} = 0) :
    (∀ ε > 0, ∃ r : A → B → ℝ, Measurable (Function.uncurry r) ∧ expectedLossD ratioLogLoss xData pz lik qz r < ε) ∧
    ∀ (Γ : Type) (logP logQ : Γ → ℝ) (scale : Fin M → ℝ) (xGen : Γ → (Fin M → B) → Fin M → A) (r : A → B → Γ → ℝ) (reg : ℝ) (β : Γ)
      (zp zq : Fin M → B), 0 < (implicitRun ratioLogLoss logP logQ scale xData xGen r reg 0 β zp zq).2 := by
  classical
  constructor
  · intro ε hε
    obtain ⟨c, hc'⟩ : ∃ c : ℝ, 2 * Real.log (1 + Real.exp (-c)) < ε := by
      have h1 : Filter.Tendsto (fun c : ℝ => 2 * Real.log (1 + Real.exp (-c))) Filter.atTop (nhds (2 * Real.log (1 + 0))) :=
        ((Real.continuousAt_log (by norm_num)).tendsto.comp (Real.tendsto_exp_neg_atTop_nhds_zero.const_add 1)).const_mul 2
      simp only [add_zero, Real.log_one, mul_zero] at h1
      exact (h1.eventually_lt_const hε).exists
    have hfin : (Set.range xData).Finite := Set.finite_range _
    refine ⟨fun x _ => if x ∈ Set.range xData then -c else c, ?_, lt_of_eq_of_lt ?_ hc'⟩
    · exact (Measurable.ite hfin.measurableSet measurable_const measurable_const).comp measurable_fst
    · have hz : ∀ z, ∀ᵐ x ∂lik z, x ∉ Set.range xData := fun z => by
        rw [ae_iff]
        simp only [not_not]
        have : {x | x ∈ Set.range xData} = ⋃ m, {xData m} := by ext x; simp [eq_comm]
        rw [this]
        exact measure_iUnion_null fun m => hc z m
      have hin : ∀ m (z : B), ∫ xp, ratioLogLoss (if xp ∈ Set.range xData then -c else c) (if xData m ∈ Set.range xData then -c else c) ∂lik z =
          2 * Real.log (1 + Real.exp (-c)) := fun m z => by
        rw [integral_congr_ae ((hz z).mono fun x hx => by simp only [if_neg hx, if_pos (Set.mem_range_self m)]; rfl), integral_const]
        rw [ratioLogLoss, (ce_exp c).1, (ce_exp (-c)).2]
        simp
        ring
      rw [expectedLossD]
      simp only [hin, integral_const, probReal_univ, one_smul, Finset.sum_const, Finset.card_univ, Fintype.card_fin, nsmul_eq_mul]
      have : (M : ℝ) ≠ 0 := by exact_mod_cast hM.ne'
      field_simp
  · intro Γ logP logQ scale xGen r reg β zp zq
    rw [implicitRun, implicitLosses]
    have : Nonempty (Fin M) := ⟨⟨0, hM⟩⟩
    simp only [add_zero]
    exact div_pos (Finset.sum_pos (fun m _ => ratioLogLoss_pos _ _) Finset.univ_nonempty) (by exact_mod_cast hM)

/-- Normal data whose mean is the local variable. -/
noncomputable def normalLik : Kernel ℝ ℝ := (Kernel.id ×ₖ Kernel.const ℝ (gaussianReal 0 1)).map fun w : ℝ × ℝ => w.1 + w.2

example (x : Fin 3 → ℝ) : ∀ ε > 0, ∃ r : ℝ → ℝ → ℝ, Measurable (Function.uncurry r) ∧
    expectedLossD ratioLogLoss x (gaussianReal 0 1) normalLik (fun y => gaussianReal (y / 2) 1) r < ε := by
  have hm : Measurable fun w : ℝ × ℝ => w.1 + w.2 := measurable_fst.add measurable_snd
  have : IsMarkovKernel normalLik := Kernel.IsMarkovKernel.map _ hm
  refine (C88_continuous_fails (by norm_num) x _ normalLik _ fun z m => ?_).1
  rw [normalLik, Kernel.map_apply' _ hm _ (measurableSet_singleton _), Kernel.prod_apply, Kernel.id_apply, Kernel.const_apply, Measure.dirac_prod,
    Measure.map_apply measurable_prodMk_left (hm (measurableSet_singleton _))]
  have : Prod.mk z ⁻¹' ((fun w : ℝ × ℝ => w.1 + w.2) ⁻¹' {x m}) = {x m - z} := by
    ext e
    simp only [Set.mem_preimage, Set.mem_singleton_iff]
    exact ⟨fun h => by linarith, fun h => by linarith⟩
  rw [this]
  have := nullSingletonClass_gaussianReal (μ := 0) (v := 1) one_ne_zero
  exact measure_singleton _

end continuous
end Edward
