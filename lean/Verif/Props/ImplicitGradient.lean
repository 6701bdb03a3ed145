/-
C136: what the updates of `ImplicitKLqp` minimise.
-/
import Mathlib.Analysis.Calculus.LocalExtr.Basic
import Mathlib.Analysis.Calculus.ParametricIntegral
import Verif.Props.Implicit
import Verif.Props.Descent

open MeasureTheory ProbabilityTheory InformationTheory

namespace Edward

/-! ### With the documented ratio -/

section gradient
variable {A B Γ E Λ : Type} [MeasurableSpace B] [MeasurableSpace Γ] [MeasurableSpace E] {M : ℕ} {ρ : Measure E}
  {ν : Measure Γ} [SigmaFinite ν] {μ : Measure B} [SigmaFinite μ] {glob : Λ → E → Γ} {loc : Λ → E → Fin M → B} {b : Λ → Γ → ℝ}
  {q : Λ → Fin M → Γ → B → ℝ}

omit [SigmaFinite ν] in
/-- The density of the global variables and one local variable. -/
theorem joint_mass (h : Spec.Reparameterised ρ ν μ glob loc b q) (l l' : Λ) (m : Fin M) :
    Measurable (fun w : Γ × B => b l w.1 * q l' m w.1 w.2) ∧ ∫⁻ w : Γ × B, ENNReal.ofReal (b l w.1 * q l' m w.1 w.2) ∂ν.prod μ = 1 := by
  have hm : Measurable fun w : Γ × B => b l w.1 * q l' m w.1 w.2 := ((h.b_meas l).comp measurable_fst).mul (h.q_meas l' m)
  refine ⟨hm, ?_⟩
  rw [lintegral_prod _ hm.ennreal_ofReal.aemeasurable]
  have : ∀ β, ∫⁻ z, ENNReal.ofReal (b l β * q l' m β z) ∂μ = ENNReal.ofReal (b l β) := fun β => by
    simp only [ENNReal.ofReal_mul (h.b_pos l β).le]
    have hz : Measurable fun z => ENNReal.ofReal (q l' m β z) := ((h.q_meas l' m).comp measurable_prodMk_left).ennreal_ofReal
    rw [lintegral_const_mul _ hz, h.q_mass, mul_one]
  simp only [this, h.b_mass]

/-- The expected log ratio of two approximations of a local variable is not negative. -/
theorem ratio_nonneg (h : Spec.Reparameterised ρ ν μ glob loc b q) (l l₀ : Λ) (m : Fin M)
    (hi : Integrable (fun ε => Real.log (q l m (glob l ε) (loc l ε m)) - Real.log (q l₀ m (glob l ε) (loc l ε m))) ρ) :
    0 ≤ ∫ ε, (Real.log (q l m (glob l ε) (loc l ε m)) - Real.log (q l₀ m (glob l ε) (loc l ε m))) ∂ρ := by
  obtain ⟨hm, h1⟩ := joint_mass h l l m
  obtain ⟨hm', h1'⟩ := joint_mass h l l₀ m
  have hp : ∀ l' (w : Γ × B), 0 < b l w.1 * q l' m w.1 w.2 := fun l' w => mul_pos (h.b_pos _ _) (h.q_pos _ _ _ _)
  have e : ∀ w : Γ × B, Real.log (b l w.1 * q l m w.1 w.2) - Real.log (b l w.1 * q l₀ m w.1 w.2) =
      Real.log (q l m w.1 w.2) - Real.log (q l₀ m w.1 w.2) := fun w => by
    rw [Real.log_mul (h.b_pos _ _).ne' (h.q_pos _ _ _ _).ne', Real.log_mul (h.b_pos _ _).ne' (h.q_pos _ _ _ _).ne']; ring
  have hs : AEStronglyMeasurable (fun w : Γ × B => Real.log (q l m w.1 w.2) - Real.log (q l₀ m w.1 w.2))
      (ρ.map fun ε => (glob l ε, loc l ε m)) :=
    ((h.q_meas l m).log.sub (h.q_meas l₀ m).log).aestronglyMeasurable
  have hI : Integrable (fun w : Γ × B => Real.log (q l m w.1 w.2) - Real.log (q l₀ m w.1 w.2)) (ρ.map fun ε => (glob l ε, loc l ε m)) :=
    (integrable_map_measure hs (h.meas l m).aemeasurable).2 hi
  have hk := (klDiv_law (μ := ν.prod μ) (hp l) hm h1 (hp l₀) hm' h1' (by simp only [e]; rwa [← h.law])).1
  simp only [e] at hk
  rw [← h.law, integral_map (h.meas l m).aemeasurable hs] at hk
  rw [← hk]
  exact ENNReal.toReal_nonneg

variable [NormedAddCommGroup Λ] [NormedSpace ℝ Λ]

/-- C136 for the parameters of the approximations: if at `l₀` the discriminator is the documented ratio, then at `l₀` the expected loss of
a run, with that discriminator, has the gradient of the documented objective. -/
theorem C136_gradient_partial (h : Spec.Reparameterised ρ ν μ glob loc b q) (l₀ : Λ) (logP : Γ → ℝ) (scale e : Fin M → ℝ)
    (hscale : ∀ m, 0 ≤ scale m) (j : Fin M → Γ → B → ℝ) (ratioLoss : ℝ → ℝ → ℝ) (xData : Fin M → A) (xGen : Γ → (Fin M → B) → Fin M → A)
    (r : A → B → Γ → ℝ) (hr : ∀ m z β, r (xData m) z β = Real.log (j m β z) - Real.log (e m * q l₀ m β z)) (he : ∀ m, 0 < e m)
    (regD : ℝ) (pz : Λ → E → Fin M → B)
    (hint : ∀ l, Integrable (fun ε => (implicitRun ratioLoss logP (fun β => Real.log (b l β)) scale xData xGen r 0 regD (glob l ε) (pz l ε)
      (loc l ε)).1) ρ)
    (hlog : ∀ l m, Integrable (fun ε => Real.log (q l m (glob l ε) (loc l ε m)) - Real.log (q l₀ m (glob l ε) (loc l ε m))) ρ)
    (D D' : Λ →L[ℝ] ℝ)
    (hD : HasFDerivAt (fun l => ∫ ε, (implicitRun ratioLoss logP (fun β => Real.log (b l β)) scale xData xGen r 0 regD (glob l ε) (pz l ε)
      (loc l ε)).1 ∂ρ) D l₀)
    (hD' : HasFDerivAt (fun l => ∫ ε, Spec.documented logP (b l) scale e j (q l) (glob l ε) (loc l ε) ∂ρ) D' l₀) : D = D' := by
  have key : ∀ l ε, Spec.documented logP (b l) scale e j (q l) (glob l ε) (loc l ε) =
      (implicitRun ratioLoss logP (fun β => Real.log (b l β)) scale xData xGen r 0 regD (glob l ε) (pz l ε) (loc l ε)).1 +
        ∑ m, scale m * (Real.log (q l m (glob l ε) (loc l ε m)) - Real.log (q l₀ m (glob l ε) (loc l ε m))) := fun l ε => by
    simp only [Spec.documented, implicitRun, implicitLosses, hr, sub_zero]
    have : ∀ m, Real.log (e m * q l m (glob l ε) (loc l ε m)) = Real.log (e m) + Real.log (q l m (glob l ε) (loc l ε m)) := fun m =>
      Real.log_mul (he m).ne' (h.q_pos _ _ _ _).ne'
    have this' : ∀ m, Real.log (e m * q l₀ m (glob l ε) (loc l ε m)) = Real.log (e m) + Real.log (q l₀ m (glob l ε) (loc l ε m)) := fun m =>
      Real.log_mul (he m).ne' (h.q_pos _ _ _ _).ne'
    simp only [this, this', mul_sub, mul_add, Finset.sum_sub_distrib, Finset.sum_add_distrib]
    ring
  have hsum : ∀ l, Integrable (fun ε => ∑ m, scale m * (Real.log (q l m (glob l ε) (loc l ε m)) - Real.log (q l₀ m (glob l ε) (loc l ε m)))) ρ :=
    fun l => integrable_finsetSum _ fun m _ => (hlog l m).const_mul _
  have hdiff : ∀ l, (∫ ε, Spec.documented logP (b l) scale e j (q l) (glob l ε) (loc l ε) ∂ρ) -
      ∫ ε, (implicitRun ratioLoss logP (fun β => Real.log (b l β)) scale xData xGen r 0 regD (glob l ε) (pz l ε) (loc l ε)).1 ∂ρ =
      ∑ m, scale m * ∫ ε, (Real.log (q l m (glob l ε) (loc l ε m)) - Real.log (q l₀ m (glob l ε) (loc l ε m))) ∂ρ := fun l => by
    simp only [key]
    rw [integral_add (hint l) (hsum l), add_sub_cancel_left, integral_finsetSum _ fun m _ => (hlog l m).const_mul _]
    simp only [integral_const_mul]
  have hmin : IsLocalMin (fun l => (∫ ε, Spec.documented logP (b l) scale e j (q l) (glob l ε) (loc l ε) ∂ρ) -
      ∫ ε, (implicitRun ratioLoss logP (fun β => Real.log (b l β)) scale xData xGen r 0 regD (glob l ε) (pz l ε) (loc l ε)).1 ∂ρ) l₀ := by
    refine Filter.Eventually.of_forall fun l => ?_
    simp only [hdiff]
    simp only [sub_self, integral_zero, mul_zero, Finset.sum_const_zero]
    exact Finset.sum_nonneg fun m _ => mul_nonneg (hscale m) (ratio_nonneg h l l₀ m (hlog l m))
  have := hmin.hasFDerivAt_eq_zero (hD'.sub hD)
  exact (sub_eq_zero.1 this).symm

/-- C136: the gradient of a run is an unbiased estimate of that of the documented objective, under the same conditions and the usual one
for differentiating under the integral. -/
theorem C136_unbiased_partial (h : Spec.Reparameterised ρ ν μ glob loc b q) (l₀ : Λ) (logP : Γ → ℝ) (scale e : Fin M → ℝ)
    (hscale : ∀ m, 0 ≤ scale m) (j : Fin M → Γ → B → ℝ) (ratioLoss : ℝ → ℝ → ℝ) (xData : Fin M → A) (xGen : Γ → (Fin M → B) → Fin M → A)
    (r : A → B → Γ → ℝ) (hr : ∀ m z β, r (xData m) z β = Real.log (j m β z) - Real.log (e m * q l₀ m β z)) (he : ∀ m, 0 < e m)
    (regD : ℝ) (pz : Λ → E → Fin M → B)
    (hint : ∀ l, Integrable (fun ε => (implicitRun ratioLoss logP (fun β => Real.log (b l β)) scale xData xGen r 0 regD (glob l ε) (pz l ε)
      (loc l ε)).1) ρ)
    (hlog : ∀ l m, Integrable (fun ε => Real.log (q l m (glob l ε) (loc l ε m)) - Real.log (q l₀ m (glob l ε) (loc l ε m))) ρ)
    (grad : Λ → E → Λ →L[ℝ] ℝ) (bound : E → ℝ) (hb : Integrable bound ρ) (hgm : AEStronglyMeasurable (grad l₀) ρ) (s : Set Λ) (hs : s ∈ nhds l₀)
    (hgrad : ∀ᵐ ε ∂ρ, ∀ l ∈ s, HasFDerivAt (fun l => (implicitRun ratioLoss logP (fun β => Real.log (b l β)) scale xData xGen r 0 regD
      (glob l ε) (pz l ε) (loc l ε)).1) (grad l ε) l ∧ ‖grad l ε‖ ≤ bound ε)
    (D' : Λ →L[ℝ] ℝ) (hD' : HasFDerivAt (fun l => ∫ ε, Spec.documented logP (b l) scale e j (q l) (glob l ε) (loc l ε) ∂ρ) D' l₀) :
    ∫ ε, grad l₀ ε ∂ρ = D' :=
  C136_gradient_partial h l₀ logP scale e hscale j ratioLoss xData xGen r hr he regD pz hint hlog _ D'
    (hasFDerivAt_integral_of_dominated_of_fderiv_le (bound := bound) hs (.of_forall fun l => (hint l).aestronglyMeasurable) (hint l₀) hgm
      (hgrad.mono fun _ hε l hl => (hε l hl).2) hb (hgrad.mono fun _ hε l hl => (hε l hl).1)) hD'

omit [MeasurableSpace B] [MeasurableSpace Γ] [MeasurableSpace E] in
/-- C136 fails for parameters of the model: the loss that is differentiated for them does not depend on the data the model generates nor on
the draws from its prior, so the likelihood's parameters get no gradient, whatever the discriminator. -/
theorem C136_model_fails (logP logQ : Γ → ℝ) (ratioLoss : ℝ → ℝ → ℝ) (scale : Fin M → ℝ) (xData : Fin M → A)
    (xGen : Λ → Γ → (Fin M → B) → Fin M → A) (r : A → B → Γ → ℝ) (reg regD : ℝ) (β : Γ) (pz : Λ → Fin M → B) (qz : Fin M → B) (θ : Λ) :
    HasFDerivAt (fun θ => (implicitRun ratioLoss logP logQ scale xData (xGen θ) r reg regD β (pz θ) qz).1) (0 : Λ →L[ℝ] ℝ) θ :=
  hasFDerivAt_const _ _

end gradient

/-! ### With the ratio that is found -/

section found
variable {A B E Λ : Type} [Fintype A] [DecidableEq A] [MeasurableSpace A] [MeasurableSingletonClass A] [MeasurableSpace B] [MeasurableSpace E]
  {M : ℕ} {xData : Fin M → A} {μ : Measure B} [SigmaFinite μ] {p : B → ℝ} {lik : Kernel B A} [IsMarkovKernel lik] {q : Λ → A → B → ℝ}
  {ρ : Measure E} [IsProbabilityMeasure ρ] {loc : Λ → E → Fin M → B} [NormedAddCommGroup Λ] [NormedSpace ℝ Λ]

/-- C136 fails with the ratio estimated by the code. If at `l₀` the discriminator minimises the expected loss of the ratio estimation, the
expected update is the gradient of the divergence of the approximations from the prior of the local variables: the likelihood does not matter. -/
theorem C136_prior_fails (l₀ : Λ) (h : Spec.ImplicitOk xData μ p lik (q l₀)) (hq : ∀ l x z, 0 < q l x z) (hqm : ∀ l x, Measurable (q l x))
    (hq1 : ∀ l x, ∫⁻ z, ENNReal.ofReal (q l x z) ∂μ = 1) (hloc : ∀ l m, Measurable fun ε => loc l ε m)
    (hlaw : ∀ l m, ρ.map (fun ε => loc l ε m) = Spec.lawOf μ (q l (xData m))) (r : A → B → ℝ) (hr : Spec.HasRatioLoss μ p (q l₀) r)
    (hmin : ∀ r', Spec.HasRatioLoss μ p (q l₀) r' → expectedLossD ratioLogLoss xData (Spec.lawOf μ p) lik (fun x => Spec.lawOf μ (q l₀ x)) r ≤
      expectedLossD ratioLogLoss xData (Spec.lawOf μ p) lik (fun x => Spec.lawOf μ (q l₀ x)) r')
    (scale : Fin M → ℝ) (hscale : ∀ m, 0 ≤ scale m)
    (hp : ∀ l m, Integrable (fun z => Real.log (q l (xData m) z) - Real.log (p z)) (Spec.lawOf μ (q l (xData m))))
    (hlog : ∀ l m, Integrable (fun z => Real.log (q l (xData m) z) - Real.log (q l₀ (xData m) z)) (Spec.lawOf μ (q l (xData m))))
    (xGen : Unit → (Fin M → B) → Fin M → A) (reg regD : ℝ) (pz : Λ → E → Fin M → B) (D D' : Λ →L[ℝ] ℝ)
    (hD : HasFDerivAt (fun l => ∫ ε, (implicitRun ratioLogLoss (fun _ => 0) (fun _ => 0) scale xData xGen (fun x z _ => r x z) reg regD ()
      (pz l ε) (loc l ε)).1 ∂ρ) D l₀)
    (hD' : HasFDerivAt (fun l => ∑ m, scale m * (klDiv (Spec.lawOf μ (q l (xData m))) (Spec.lawOf μ p)).toReal) D' l₀) : D = D' := by
  have hQ : ∀ l m, IsProbabilityMeasure (Spec.lawOf μ (q l (xData m))) := fun l m => lawOf_probability μ _ (hq1 l _)
  have hae := (C88_optimum_partial h r hr).1 hmin
  let c : Fin M → ℝ := fun m => Real.log (Spec.mixedMarginal xData μ lik (q l₀) (xData m)) - Real.log (Spec.empirical xData (xData m))
  have hval : ∀ l m, (fun z => r (xData m) z) =ᵐ[Spec.lawOf μ (q l (xData m))] fun z => c m - (Real.log (q l (xData m) z) - Real.log (p z)) +
      (Real.log (q l (xData m) z) - Real.log (q l₀ (xData m) z)) := fun l m =>
    (law_ae (hae (xData m))).mono fun z hz => by
      have h1 := mixedMarginal_pos h (xData m)
      have h2 := empirical_pos h.M_pos (xData m) (h.data (xData m))
      have h3 := h.p_pos z
      have h4 := hq l₀ (xData m) z
      simp only [hz, Spec.foundRatio, c]
      rw [Real.log_div (by positivity) (by positivity), Real.log_mul (by positivity) (by positivity), Real.log_mul (by positivity) (by positivity)]
      ring
  have hI1 : ∀ l m, Integrable (fun z => c m - (Real.log (q l (xData m) z) - Real.log (p z))) (Spec.lawOf μ (q l (xData m))) := fun l m =>
    (integrable_const _).sub (hp l m)
  have hI : ∀ l m, Integrable (fun z => r (xData m) z) (Spec.lawOf μ (q l (xData m))) := fun l m =>
    ((hI1 l m).add (hlog l m)).congr (hval l m).symm
  have hIe : ∀ l m, Integrable (fun ε => r (xData m) (loc l ε m)) ρ := fun l m => by
    have := hI l m
    rw [← hlaw] at this
    exact (integrable_map_measure this.aestronglyMeasurable (hloc l m).aemeasurable).1 this
  have hE : ∀ l m, ∫ ε, r (xData m) (loc l ε m) ∂ρ = c m - (klDiv (Spec.lawOf μ (q l (xData m))) (Spec.lawOf μ p)).toReal +
      (klDiv (Spec.lawOf μ (q l (xData m))) (Spec.lawOf μ (q l₀ (xData m)))).toReal := fun l m => by
    have h1 : ∫ ε, r (xData m) (loc l ε m) ∂ρ = ∫ z, r (xData m) z ∂Spec.lawOf μ (q l (xData m)) := by
      have := (hI l m).aestronglyMeasurable
      rw [← hlaw] at this ⊢
      exact (integral_map (hloc l m).aemeasurable this).symm
    rw [h1, integral_congr_ae (hval l m), integral_add (hI1 l m) (hlog l m), integral_sub (integrable_const _) (hp l m),
      (klDiv_law (hq l _) (hqm l _) (hq1 l _) h.p_pos h.p_meas h.p_mass (hp l m)).1,
      (klDiv_law (hq l _) (hqm l _) (hq1 l _) (hq l₀ _) (hqm l₀ _) (hq1 l₀ _) (hlog l m)).1]
    simp
  have hL : ∀ l, ∫ ε, (implicitRun ratioLogLoss (fun _ => 0) (fun _ => 0) scale xData xGen (fun x z _ => r x z) reg regD ()
      (pz l ε) (loc l ε)).1 ∂ρ = (∑ m, scale m * (klDiv (Spec.lawOf μ (q l (xData m))) (Spec.lawOf μ p)).toReal) -
      ((∑ m, scale m * (klDiv (Spec.lawOf μ (q l (xData m))) (Spec.lawOf μ (q l₀ (xData m)))).toReal) + (∑ m, scale m * c m) - reg) := fun l => by
    have e : ∀ ε, (implicitRun ratioLogLoss (fun _ => 0) (fun _ => 0) scale xData xGen (fun x z (_ : Unit) => r x z) reg regD ()
        (pz l ε) (loc l ε)).1 = reg - ∑ m, scale m * r (xData m) (loc l ε m) := fun ε => by
      simp only [implicitRun, implicitLosses]; ring
    simp only [e]
    rw [integral_sub (integrable_const _) (integrable_finsetSum _ fun m _ => (hIe l m).const_mul _),
      integral_finsetSum _ fun m _ => (hIe l m).const_mul _]
    simp only [integral_const_mul, hE, integral_const, probReal_univ, one_smul, mul_add, mul_sub, Finset.sum_add_distrib, Finset.sum_sub_distrib]
    ring
  have hlm : IsLocalMin (fun l => (∑ m, scale m * (klDiv (Spec.lawOf μ (q l (xData m))) (Spec.lawOf μ p)).toReal) -
      ∫ ε, (implicitRun ratioLogLoss (fun _ => 0) (fun _ => 0) scale xData xGen (fun x z _ => r x z) reg regD () (pz l ε) (loc l ε)).1 ∂ρ) l₀ := by
    refine Filter.Eventually.of_forall fun l => ?_
    simp only [hL, sub_sub_cancel]
    have : ∑ m, scale m * (klDiv (Spec.lawOf μ (q l₀ (xData m))) (Spec.lawOf μ (q l₀ (xData m)))).toReal = 0 :=
      Finset.sum_eq_zero fun m _ => by rw [klDiv_self]; simp
    have h2 : 0 ≤ ∑ m, scale m * (klDiv (Spec.lawOf μ (q l (xData m))) (Spec.lawOf μ (q l₀ (xData m)))).toReal :=
      Finset.sum_nonneg fun m _ => mul_nonneg (hscale m) ENNReal.toReal_nonneg
    linarith
  exact (sub_eq_zero.1 (hlm.hasFDerivAt_eq_zero (hD'.sub hD))).symm

end found

/-! ### Normal local variables -/

theorem normal_kl (l m : ℝ) : (klDiv (Spec.lawOf volume (gaussianPDFReal l 1)) (Spec.lawOf volume (gaussianPDFReal m 1))).toReal = (l - m) ^ 2 / 2 := by
  have h := fit_kl m one_ne_zero l
  rw [Spec.posterior, normal_evidence m one_ne_zero] at h
  simp only [div_one] at h
  rw [h, fitConst]
  push_cast
  ring

theorem normal_log_sub (l m : ℝ) (z : ℝ) :
    Real.log (gaussianPDFReal l 1 z) - Real.log (gaussianPDFReal m 1 z) = (l - m) * z + (m ^ 2 - l ^ 2) / 2 := by
  rw [log_normal l one_ne_zero, log_normal m one_ne_zero]
  push_cast
  ring

theorem normal_log_sub_integrable (k l m : ℝ) :
    Integrable (fun z => Real.log (gaussianPDFReal l 1 z) - Real.log (gaussianPDFReal m 1 z)) (Spec.lawOf volume (gaussianPDFReal k 1)) := by
  simp only [normal_log_sub]
  rw [lawOf_normal k one_ne_zero]
  have hl : MemLp (id : ℝ → ℝ) 1 (gaussianReal k 1) := by simpa using memLp_id_gaussianReal (μ := k) (v := 1) 1
  exact ((memLp_one_iff_integrable.1 hl).const_mul _).add (integrable_const _)

theorem normal_shift_law (l : ℝ) : (gaussianReal 0 1).map (fun ε => l + ε) = Spec.lawOf volume (gaussianPDFReal l 1) := by
  rw [lawOf_normal l one_ne_zero]
  have := gaussianReal_map_const_add (μ := 0) (v := 1) l
  rwa [zero_add] at this

theorem normal_ok (f : ℝ → ℝ) (hf : Measurable f) (h0 : ∀ z, 0 < f z) (h1 : ∀ z, f z < 1) (l₀ : ℝ) :
    Spec.ImplicitOk ![true, false] volume (gaussianPDFReal 0 1) (binaryLik f hf) (fun _ => gaussianPDFReal l₀ 1) :=
  ⟨by norm_num, fun x => by cases x; exacts [⟨1, rfl⟩, ⟨0, rfl⟩], fun z => gaussianPDFReal_pos _ _ _ one_ne_zero, measurable_gaussianPDFReal _ _,
    lintegral_gaussianPDFReal_eq_one 0 one_ne_zero,
    fun z x => by
      rw [binaryLik_real _ _ (fun z => (h0 z).le) fun z => (h1 z).le]
      split_ifs
      exacts [h0 z, by linarith [h1 z]],
    fun _ z => gaussianPDFReal_pos _ _ _ one_ne_zero, fun _ => measurable_gaussianPDFReal _ _, fun _ => lintegral_gaussianPDFReal_eq_one l₀ one_ne_zero⟩

/-- C136 fails: a normal prior, normal approximations with mean `l` and binary data, one point of each kind. Whatever the probability `f z`
of `true`, the expected update with the estimated ratio is `2 * l`, so descent leads to the prior mean. -/
theorem C136_normal_fails (f : ℝ → ℝ) (hf : Measurable f) (h0 : ∀ z, 0 < f z) (h1 : ∀ z, f z < 1) (l₀ : ℝ) (xGen : Unit → (Fin 2 → ℝ) → Fin 2 → Bool)
    (r : Bool → ℝ → ℝ) (hr : Spec.HasRatioLoss volume (gaussianPDFReal 0 1) (fun _ => gaussianPDFReal l₀ 1) r)
    (hmin : ∀ r', Spec.HasRatioLoss volume (gaussianPDFReal 0 1) (fun _ => gaussianPDFReal l₀ 1) r' →
      expectedLossD ratioLogLoss ![true, false] (gaussianReal 0 1) (binaryLik f hf) (fun _ => gaussianReal l₀ 1) r ≤
      expectedLossD ratioLogLoss ![true, false] (gaussianReal 0 1) (binaryLik f hf) (fun _ => gaussianReal l₀ 1) r') :
    HasDerivAt (fun l => ∫ ε, (implicitRun ratioLogLoss (fun _ => 0) (fun _ => 0) (fun _ => 1) ![true, false] xGen
      (fun x z (_ : Unit) => r x z) 0 0 () (fun _ => 0) (fun _ => l + ε)).1 ∂gaussianReal 0 1) (2 * l₀) l₀ := by
  have := binaryLik_markov f hf (fun z => (h0 z).le) fun z => (h1 z).le
  have hok := normal_ok f hf h0 h1 l₀
  have hae := (C88_optimum_partial hok r hr).1 (by
    have e : (fun _ : Bool => Spec.lawOf volume (gaussianPDFReal l₀ 1)) = fun _ => gaussianReal l₀ 1 := by rw [lawOf_normal l₀ one_ne_zero]
    rw [lawOf_normal 0 one_ne_zero]
    rw [e]
    exact hmin)
  let c : Bool → ℝ := fun x => Real.log (Spec.mixedMarginal ![true, false] volume (binaryLik f hf) (fun _ => gaussianPDFReal l₀ 1) x) -
    Real.log (Spec.empirical ![true, false] x)
  have hv : ∀ l x, ∀ᵐ ε ∂gaussianReal 0 1, r x (l + ε) = c x + l₀ ^ 2 / 2 - l₀ * (l + ε) := fun l x => by
    have h2 : ∀ᵐ z ∂(gaussianReal 0 1).map (fun ε => l + ε), r x z = c x + l₀ ^ 2 / 2 - l₀ * z := by
      rw [normal_shift_law]
      refine law_ae ((hae x).mono fun z hz => ?_)
      have h3 := mixedMarginal_pos hok x
      have h4 := empirical_pos hok.M_pos x (hok.data x)
      have h5 := hok.p_pos z
      have h6 := hok.q_pos x z
      rw [hz, Spec.foundRatio, Real.log_div (by positivity) (by positivity), Real.log_mul (by positivity) (by positivity),
        Real.log_mul (by positivity) (by positivity)]
      have := normal_log_sub 0 l₀ z
      simp only [c]
      linarith
    exact ae_of_ae_map (measurable_const.add measurable_id).aemeasurable h2
  have hi : Integrable (fun ε : ℝ => ε) (gaussianReal 0 1) := noise_mem.integrable (by norm_num)
  have hL : ∀ l, ∫ ε, (implicitRun ratioLogLoss (fun _ => 0) (fun _ => 0) (fun _ => 1) ![true, false] xGen
      (fun x z (_ : Unit) => r x z) 0 0 () (fun _ => 0) (fun _ => l + ε)).1 ∂gaussianReal 0 1 = 2 * l₀ * l - (c true + c false + l₀ ^ 2) := fun l => by
    have e : (fun ε => (implicitRun ratioLogLoss (fun _ => 0) (fun _ => 0) (fun _ => 1) ![true, false] xGen
        (fun x z (_ : Unit) => r x z) 0 0 () (fun _ => 0) (fun _ => l + ε)).1) =ᵐ[gaussianReal 0 1]
        fun ε => 2 * l₀ * ε + (2 * l₀ * l - (c true + c false + l₀ ^ 2)) := by
      filter_upwards [hv l true, hv l false] with ε ht hf'
      simp [implicitRun, implicitLosses, Fin.sum_univ_two, ht, hf']
      ring
    rw [integral_congr_ae e, integral_add (hi.const_mul _) (integrable_const _), integral_const_mul, noise_mean]
    simp
  simp only [hL]
  simpa using ((hasDerivAt_id l₀).const_mul (2 * l₀)).sub_const (c true + c false + l₀ ^ 2)

/-- The hypotheses of `C136_prior_fails` and `C136_normal_fails` are met, for every likelihood. -/
example (f : ℝ → ℝ) (hf : Measurable f) (h0 : ∀ z, 0 < f z) (h1 : ∀ z, f z < 1) (l₀ : ℝ) (D' : ℝ →L[ℝ] ℝ)
    (hD' : HasFDerivAt (fun l : ℝ => ∑ _m : Fin 2, (1 : ℝ) * (klDiv (Spec.lawOf volume (gaussianPDFReal l 1)) (Spec.lawOf volume (gaussianPDFReal 0 1))).toReal)
      D' l₀) : D' 1 = 2 * l₀ := by
  have := binaryLik_markov f hf (fun z => (h0 z).le) fun z => (h1 z).le
  have hok := normal_ok f hf h0 h1 l₀
  have hmin := (C88_optimum_partial hok _ (found_hasLoss hok)).2 fun x => Filter.EventuallyEq.rfl
  have e : (fun _ : Bool => Spec.lawOf volume (gaussianPDFReal l₀ 1)) = fun _ => gaussianReal l₀ 1 := by rw [lawOf_normal l₀ one_ne_zero]
  have := C136_prior_fails (q := fun l _ => gaussianPDFReal l 1) (loc := fun l ε _ => l + ε) (ρ := gaussianReal 0 1) l₀ hok
    (fun l x z => gaussianPDFReal_pos _ _ _ one_ne_zero) (fun l x => measurable_gaussianPDFReal _ _) (fun l x => lintegral_gaussianPDFReal_eq_one l one_ne_zero)
    (fun l m => measurable_const.add measurable_id) (fun l m => normal_shift_law l) _ (found_hasLoss hok) hmin (fun _ => 1) (fun _ => zero_le_one)
    (fun l m => normal_log_sub_integrable l l 0) (fun l m => normal_log_sub_integrable l l l₀) (fun _ _ => ![true, true]) 0 0 (fun _ _ _ => 0) _ _
    (C136_normal_fails f hf h0 h1 l₀ _ _ (found_hasLoss hok) (by rw [lawOf_normal 0 one_ne_zero, e] at hmin; exact hmin)).hasFDerivAt hD'
  rw [← this]
  simp

/-- C136 with the documented ratio, for a normal local variable with a normal observation `x`: the hypotheses of `C136_gradient_partial` are met,
and the expected update leads to the posterior mean `x / 2`. -/
example (x l₀ : ℝ) (D : ℝ →L[ℝ] ℝ)
    (hD : HasFDerivAt (fun l => ∫ ε, (implicitRun ratioLogLoss (fun _ => 0) (fun _ : Unit => Real.log 1) (fun _ => 1) (fun _ : Fin 1 => x) (fun _ _ _ => x)
      (fun y z _ => Real.log (gaussianPDFReal 0 1 z * gaussianPDFReal y 1 z) - Real.log (1 * gaussianPDFReal l₀ 1 z)) 0 0 () (fun _ => 0)
      (fun _ => l + ε)).1 ∂gaussianReal 0 1) D l₀) : D 1 = 2 * l₀ - x := by
  have hrep : Spec.Reparameterised (M := 1) (gaussianReal 0 1) (Measure.dirac ()) volume (fun _ _ => ()) (fun l ε _ => l + ε)
      (fun _ _ => 1) (fun l _ _ => gaussianPDFReal l 1) := by
    refine ⟨fun l m => measurable_const.prodMk (measurable_const.add measurable_id), fun l m => ?_, fun _ _ => one_pos, fun _ => measurable_const, fun _ => by simp,
      fun _ _ _ _ => gaussianPDFReal_pos _ _ _ one_ne_zero, fun l m => (measurable_gaussianPDFReal _ _).comp measurable_snd,
      fun l _ _ => lintegral_gaussianPDFReal_eq_one l one_ne_zero⟩
    have h1 : Measurable fun ε : ℝ => l + ε := measurable_const.add measurable_id
    have e : (fun ε : ℝ => ((), l + ε)) = Prod.mk () ∘ fun ε => l + ε := rfl
    rw [e, ← Measure.map_map measurable_prodMk_left h1, normal_shift_law, Measure.dirac_prod]
    ext s hs
    have hm : Measurable fun w : Unit × ℝ => ENNReal.ofReal (1 * gaussianPDFReal l 1 w.2) :=
      ((measurable_const.mul ((measurable_gaussianPDFReal l 1).comp measurable_snd))).ennreal_ofReal
    rw [Measure.map_apply measurable_prodMk_left hs, Spec.lawOf, Spec.lawOf, withDensity_apply _ (measurable_prodMk_left hs), withDensity_apply _ hs,
      setLIntegral_map hs hm measurable_prodMk_left]
    simp
  have hi : Integrable (fun ε : ℝ => ε) (gaussianReal 0 1) := noise_mem.integrable (by norm_num)
  have hsq : ∀ a : ℝ, Integrable (fun ε : ℝ => (a + ε) ^ 2) (gaussianReal 0 1) := fun a => ((memLp_const a).add noise_mem).integrable_sq
  have hv : ∀ k z : ℝ, Real.log (gaussianPDFReal 0 1 z * gaussianPDFReal x 1 z) - Real.log (1 * gaussianPDFReal k 1 z) =
      Real.log (√(2 * Real.pi * (1 : NNReal)))⁻¹ - z ^ 2 / 2 - (z - x) ^ 2 / 2 + (z - k) ^ 2 / 2 := fun k z => by
    rw [one_mul, Real.log_mul (gaussianPDFReal_pos _ _ _ one_ne_zero).ne' (gaussianPDFReal_pos _ _ _ one_ne_zero).ne', log_normal 0 one_ne_zero,
      log_normal x one_ne_zero, log_normal k one_ne_zero]
    push_cast
    ring
  have hdoc : ∀ l, ∫ ε, Spec.documented (M := 1) (fun _ : Unit => 0) (fun _ => 1) (fun _ => 1) (fun _ => 1)
      (fun _ _ z => gaussianPDFReal 0 1 z * gaussianPDFReal x 1 z) (fun _ _ => gaussianPDFReal l 1) () (fun _ => l + ε) ∂gaussianReal 0 1 =
      (l ^ 2 + 1) / 2 + ((l - x) ^ 2 + 1) / 2 - 1 / 2 - Real.log (√(2 * Real.pi * (1 : NNReal)))⁻¹ := fun l => by
    have e : ∀ ε, Spec.documented (M := 1) (fun _ : Unit => 0) (fun _ => 1) (fun _ => 1) (fun _ => 1)
        (fun _ _ z => gaussianPDFReal 0 1 z * gaussianPDFReal x 1 z) (fun _ _ => gaussianPDFReal l 1) () (fun _ => l + ε) =
        (l + ε) ^ 2 / 2 + (l - x + ε) ^ 2 / 2 - (0 + ε) ^ 2 / 2 - Real.log (√(2 * Real.pi * (1 : NNReal)))⁻¹ := fun ε => by
      simp only [Spec.documented, Finset.univ_unique, Finset.sum_const, Finset.card_singleton, hv]
      simp
      ring
    simp only [e]
    have h1 : Integrable (fun ε : ℝ => (l + ε) ^ 2 / 2 + (l - x + ε) ^ 2 / 2) (gaussianReal 0 1) := ((hsq _).div_const 2).add ((hsq _).div_const 2)
    have h2 : Integrable (fun ε : ℝ => (l + ε) ^ 2 / 2 + (l - x + ε) ^ 2 / 2 - (0 + ε) ^ 2 / 2) (gaussianReal 0 1) := h1.sub ((hsq 0).div_const 2)
    rw [integral_sub h2 (integrable_const _), integral_sub h1 ((hsq 0).div_const 2), integral_add ((hsq _).div_const 2) ((hsq _).div_const 2),
      integral_div, integral_div, integral_div, noise_shift_sq, noise_shift_sq, noise_shift_sq]
    simp
  have hD' : HasDerivAt (fun l => ∫ ε, Spec.documented (M := 1) (fun _ : Unit => 0) (fun _ => 1) (fun _ => 1) (fun _ => 1)
      (fun _ _ z => gaussianPDFReal 0 1 z * gaussianPDFReal x 1 z) (fun _ _ => gaussianPDFReal l 1) () (fun _ => l + ε) ∂gaussianReal 0 1) (2 * l₀ - x) l₀ := by
    simp only [hdoc]
    have h1 := (((hasDerivAt_id l₀).pow 2).add_const 1).div_const 2
    have h2 := ((((hasDerivAt_id l₀).sub_const x).pow 2).add_const 1).div_const 2
    have h3 := ((h1.add h2).sub_const (1 / 2)).sub_const (Real.log (√(2 * Real.pi * (1 : NNReal)))⁻¹)
    have e : ((2 : ℕ) : ℝ) * id l₀ ^ (2 - 1) * 1 / 2 + ((2 : ℕ) : ℝ) * (id l₀ - x) ^ (2 - 1) * 1 / 2 = 2 * l₀ - x := by
      norm_num
      ring
    rw [← e]
    exact h3
  have := C136_gradient_partial hrep l₀ (fun _ => 0) (fun _ => 1) (fun _ => 1) (fun _ => zero_le_one)
    (fun _ _ z => gaussianPDFReal 0 1 z * gaussianPDFReal x 1 z) ratioLogLoss (fun _ => x) (fun _ _ _ => x)
    (fun y z _ => Real.log (gaussianPDFReal 0 1 z * gaussianPDFReal y 1 z) - Real.log (1 * gaussianPDFReal l₀ 1 z)) (fun _ _ _ => rfl) (fun _ => one_pos) 0
    (fun _ _ _ => 0) (fun l => by
      simp only [implicitRun, implicitLosses, Finset.univ_unique, Finset.sum_const, Finset.card_singleton, hv]
      have h1 : Integrable (fun ε : ℝ => (l + ε) ^ 2 / 2 + (l - x + ε) ^ 2 / 2) (gaussianReal 0 1) := ((hsq _).div_const 2).add ((hsq _).div_const 2)
      refine ((h1.sub ((hsq (l - l₀)).div_const 2)).sub (integrable_const (Real.log (√(2 * Real.pi * (1 : NNReal)))⁻¹))).congr (.of_forall fun ε => ?_)
      simp
      ring)
    (fun l m => by
      simp only [normal_log_sub]
      exact (((integrable_const l).add hi).const_mul _).add (integrable_const _)) D _ hD hD'.hasFDerivAt
  rw [this]
  simp

end Edward
