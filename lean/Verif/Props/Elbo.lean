/-
C50: the expected loss of KLqp is KL(q || posterior) - log evidence. General measurable
spaces and reference measures; `n_samples` independent draws from `q`.
C80: the reparameterised gradient is unbiased.
-/
import Mathlib.InformationTheory.KullbackLeibler.Basic
import Mathlib.MeasureTheory.Measure.Decomposition.RadonNikodym
import Mathlib.MeasureTheory.Integral.Pi
import Mathlib.Analysis.Calculus.ParametricIntegral
import Mathlib.Probability.Distributions.Gaussian.Real
import Mathlib.Probability.Moments.Variance
import Verif.Props.Variational

namespace Edward
set_option linter.unusedSectionVars false
open MeasureTheory InformationTheory
variable {Z X I Ω : Type} [Fintype I] [MeasurableSpace Ω]

/-- The law with density `q` with respect to `μ`. -/
noncomputable def Spec.lawOf (μ : Measure Ω) (q : Ω → ℝ) : Measure Ω := μ.withDensity fun ω => ENNReal.ofReal (q ω)

/-- The evidence `∫ j`. -/
noncomputable def Spec.evidence (μ : Measure Ω) (j : Ω → ℝ) : ℝ := (∫⁻ ω, ENNReal.ofReal (j ω) ∂μ).toReal

/-- The posterior: the joint density divided by the evidence. -/
noncomputable def Spec.posterior (μ : Measure Ω) (j : Ω → ℝ) : Measure Ω :=
  Spec.lawOf μ fun ω => j ω / Spec.evidence μ j

section
variable (μ : Measure Ω) [SigmaFinite μ] (q j : Ω → ℝ)

theorem evidence_pos (hj : ∀ ω, 0 < j ω) (hjm : Measurable j) (hμ : μ ≠ 0)
    (hfin : ∫⁻ ω, ENNReal.ofReal (j ω) ∂μ ≠ ⊤) : 0 < Spec.evidence μ j := by
  refine ENNReal.toReal_pos (fun h => hμ ?_) hfin
  rw [lintegral_eq_zero_iff hjm.ennreal_ofReal] at h
  rw [← ae_eq_bot]
  rw [Filter.EventuallyEq] at h
  have : ∀ᵐ ω ∂μ, False := h.mono fun ω hω => by
    have := hj ω
    simp at hω
    linarith
  simpa using this

theorem posterior_univ (hj : ∀ ω, 0 < j ω) (hjm : Measurable j) (hμ : μ ≠ 0)
    (hfin : ∫⁻ ω, ENNReal.ofReal (j ω) ∂μ ≠ ⊤) : Spec.posterior μ j Set.univ = 1 := by
  have hZ := evidence_pos μ j hj hjm hμ hfin
  rw [Spec.posterior, Spec.lawOf, withDensity_apply _ MeasurableSet.univ, Measure.restrict_univ]
  have : ∀ ω, ENNReal.ofReal (j ω / Spec.evidence μ j) =
      ENNReal.ofReal (j ω) * ENNReal.ofReal (Spec.evidence μ j)⁻¹ := fun ω => by
    rw [div_eq_mul_inv, ENNReal.ofReal_mul (hj ω).le]
  simp_rw [this]
  rw [lintegral_mul_const _ hjm.ennreal_ofReal, ENNReal.ofReal_inv_of_pos hZ, Spec.evidence, ENNReal.ofReal_toReal hfin]
  refine ENNReal.mul_inv_cancel (fun h => ?_) hfin
  rw [Spec.evidence, h] at hZ
  simp at hZ

/-- `KL(q || posterior) = E_q[log q - log j] + log evidence`. -/
theorem klDiv_posterior (hq : ∀ ω, 0 ≤ q ω) (hqm : Measurable q) (hq1 : ∫⁻ ω, ENNReal.ofReal (q ω) ∂μ = 1)
    (hj : ∀ ω, 0 < j ω) (hjm : Measurable j) (hfin : ∫⁻ ω, ENNReal.ofReal (j ω) ∂μ ≠ ⊤)
    (hint : Integrable (fun ω => Real.log (q ω) - Real.log (j ω)) (Spec.lawOf μ q)) :
    (klDiv (Spec.lawOf μ q) (Spec.posterior μ j)).toReal =
      (∫ ω, (Real.log (q ω) - Real.log (j ω)) ∂Spec.lawOf μ q) + Real.log (Spec.evidence μ j) ∧
    klDiv (Spec.lawOf μ q) (Spec.posterior μ j) ≠ ⊤ := by
  have hμ : μ ≠ 0 := by rintro rfl; simp at hq1
  have hZ := evidence_pos μ j hj hjm hμ hfin
  have hpost := posterior_univ μ j hj hjm hμ hfin
  have hQ1 : Spec.lawOf μ q Set.univ = 1 := by
    rw [Spec.lawOf, withDensity_apply _ MeasurableSet.univ, Measure.restrict_univ, hq1]
  have : IsProbabilityMeasure (Spec.lawOf μ q) := ⟨hQ1⟩
  have : IsProbabilityMeasure (Spec.posterior μ j) := ⟨hpost⟩
  set Zv := Spec.evidence μ j with hZv
  have hac : μ ≪ Spec.posterior μ j := by
    refine withDensity_absolutelyContinuous' (by fun_prop) ?_
    refine Filter.Eventually.of_forall fun ω => ?_
    have := div_pos (hj ω) hZ
    simp only [ne_eq, ENNReal.ofReal_eq_zero, not_le]
    exact this
  have hacQ : Spec.lawOf μ q ≪ μ := withDensity_absolutelyContinuous _ _
  have hQpost : Spec.lawOf μ q ≪ Spec.posterior μ j := hacQ.trans hac
  have hr1 : (Spec.lawOf μ q).rnDeriv (Spec.posterior μ j) =ᵐ[μ]
      fun ω => (ENNReal.ofReal (j ω / Zv))⁻¹ * (Spec.lawOf μ q).rnDeriv μ ω := by
    refine Measure.rnDeriv_withDensity_right _ _ (by fun_prop) ?_ ?_
    · refine Filter.Eventually.of_forall fun ω => ?_
      have := div_pos (hj ω) hZ
      simp only [ne_eq, ENNReal.ofReal_eq_zero, not_le]
      exact this
    · exact Filter.Eventually.of_forall fun ω => ENNReal.ofReal_ne_top
  have hr2 : (Spec.lawOf μ q).rnDeriv μ =ᵐ[μ] fun ω => ENNReal.ofReal (q ω) :=
    Measure.rnDeriv_withDensity μ hqm.ennreal_ofReal
  have hqpos : ∀ᵐ ω ∂Spec.lawOf μ q, 0 < q ω := by
    rw [Spec.lawOf, ae_withDensity_iff hqm.ennreal_ofReal]
    refine Filter.Eventually.of_forall fun ω h => ?_
    simpa using h
  have hllr : llr (Spec.lawOf μ q) (Spec.posterior μ j) =ᵐ[Spec.lawOf μ q]
      fun ω => (Real.log (q ω) - Real.log (j ω)) + Real.log Zv := by
    filter_upwards [hacQ.ae_le hr1, hacQ.ae_le hr2, hqpos] with ω h1 h2 h3
    rw [llr, h1, h2, ENNReal.toReal_mul, ENNReal.toReal_inv, ENNReal.toReal_ofReal (div_pos (hj ω) hZ).le,
      ENNReal.toReal_ofReal (hq ω), Real.log_mul (inv_ne_zero (div_pos (hj ω) hZ).ne') h3.ne', Real.log_inv,
      Real.log_div (hj ω).ne' hZ.ne']
    ring
  have hint' : Integrable (llr (Spec.lawOf μ q) (Spec.posterior μ j)) (Spec.lawOf μ q) :=
    (hint.add (integrable_const _)).congr hllr.symm
  refine ⟨?_, klDiv_ne_top hQpost hint'⟩
  rw [toReal_klDiv_of_measure_eq hQpost (by rw [hQ1, hpost]), integral_congr_ae hllr,
    integral_add hint (integrable_const _)]
  simp

end

/-- The expectation of an average over independent draws. -/
theorem integral_average (Q : Measure Ω) [IsProbabilityMeasure Q] {n : ℕ} (hn : 0 < n) (f : Ω → ℝ)
    (hf : Integrable f Q) :
    ∫ d : Fin n → Ω, Spec.average (fun s => f (d s)) ∂Measure.pi (fun _ => Q) = ∫ ω, f ω ∂Q := by
  have hmp : ∀ s : Fin n, MeasurePreserving (Function.eval s) (Measure.pi fun _ : Fin n => Q) Q :=
    fun s => measurePreserving_eval _ s
  have hi : ∀ s : Fin n, Integrable (fun d : Fin n → Ω => f (d s)) (Measure.pi fun _ => Q) :=
    fun s => (hmp s).integrable_comp_of_integrable hf
  have he : ∀ s : Fin n, ∫ d : Fin n → Ω, f (d s) ∂Measure.pi (fun _ => Q) = ∫ ω, f ω ∂Q := by
    intro s
    have h := (hmp s).map_eq
    have hf' : AEStronglyMeasurable f (Measure.map (Function.eval s) (Measure.pi fun _ : Fin n => Q)) := by
      rw [h]; exact hf.aestronglyMeasurable
    have := integral_map (hmp s).measurable.aemeasurable hf'
    rw [h] at this
    exact this.symm
  have hn' : (n : ℝ) ≠ 0 := by positivity
  simp only [Spec.average]
  rw [integral_div, integral_finsetSum _ fun s _ => hi s]
  simp_rw [he]
  simp
  field_simp

/-- C50: the expectation over the draws of the loss (reparameterised and score-function
variants, no regularisation, unit scales) is `KL(q || posterior) - log evidence`; hence it
is at least `- log evidence`, with equality iff `q` is the posterior. -/
theorem C50_bound (v : ViProblem Z X I Ω) (μ : Measure Ω) [SigmaFinite μ] (q j : Ω → ℝ)
    (hq : ∀ ω, 0 ≤ q ω) (hqm : Measurable q) (hq1 : ∫⁻ ω, ENNReal.ofReal (q ω) ∂μ = 1)
    (hj : ∀ ω, 0 < j ω) (hjm : Measurable j) (hfin : ∫⁻ ω, ENNReal.ofReal (j ω) ∂μ ≠ ⊤)
    (hint : Integrable (fun ω => Real.log (q ω) - Real.log (j ω)) (Spec.lawOf μ q))
    (hQ : ∀ ω, 0 < q ω → Spec.logApprox v ω = Real.log (q ω))
    (hJ : ∀ ω, Spec.logJoint v ω = Real.log (j ω)) {n : ℕ} (hn : 0 < n) :
    (∫ d, reparamLoss v n d 0 ∂Measure.pi (fun _ => Spec.lawOf μ q) =
      (klDiv (Spec.lawOf μ q) (Spec.posterior μ j)).toReal - Real.log (Spec.evidence μ j)) ∧
    (∫ d, scoreLoss v n d 0 ∂Measure.pi (fun _ => Spec.lawOf μ q) =
      (klDiv (Spec.lawOf μ q) (Spec.posterior μ j)).toReal - Real.log (Spec.evidence μ j)) ∧
    -Real.log (Spec.evidence μ j) ≤ ∫ d, reparamLoss v n d 0 ∂Measure.pi (fun _ => Spec.lawOf μ q) ∧
    ((∫ d, reparamLoss v n d 0 ∂Measure.pi (fun _ => Spec.lawOf μ q)) = -Real.log (Spec.evidence μ j) ↔
      Spec.lawOf μ q = Spec.posterior μ j) := by
  have hμ : μ ≠ 0 := by rintro rfl; simp at hq1
  have hQ1 : Spec.lawOf μ q Set.univ = 1 := by
    rw [Spec.lawOf, withDensity_apply _ MeasurableSet.univ, Measure.restrict_univ, hq1]
  have : IsProbabilityMeasure (Spec.lawOf μ q) := ⟨hQ1⟩
  have : IsProbabilityMeasure (Spec.posterior μ j) := ⟨posterior_univ μ j hj hjm hμ hfin⟩
  obtain ⟨hkl, hne⟩ := klDiv_posterior μ q j hq hqm hq1 hj hjm hfin hint
  have hqpos : ∀ᵐ ω ∂Spec.lawOf μ q, 0 < q ω := by
    rw [Spec.lawOf, ae_withDensity_iff hqm.ennreal_ofReal]
    refine Filter.Eventually.of_forall fun ω h => ?_
    simpa using h
  have hae : ∀ᵐ ω ∂Spec.lawOf μ q, Spec.logApprox v ω - Spec.logJoint v ω = Real.log (q ω) - Real.log (j ω) :=
    hqpos.mono fun ω h => by rw [hQ ω h, hJ]
  have hint2 : Integrable (fun ω => Spec.logApprox v ω - Spec.logJoint v ω) (Spec.lawOf μ q) :=
    hint.congr (hae.mono fun ω h => h.symm)
  have hE : ∫ d : Fin n → Ω, Spec.average (fun s => Spec.logApprox v (d s) - Spec.logJoint v (d s))
      ∂Measure.pi (fun _ => Spec.lawOf μ q) =
      (klDiv (Spec.lawOf μ q) (Spec.posterior μ j)).toReal - Real.log (Spec.evidence μ j) := by
    rw [integral_average _ hn (fun ω => Spec.logApprox v ω - Spec.logJoint v ω) hint2, integral_congr_ae hae, hkl]
    ring
  have hR : ∫ d, reparamLoss v n d 0 ∂Measure.pi (fun _ => Spec.lawOf μ q) =
      (klDiv (Spec.lawOf μ q) (Spec.posterior μ j)).toReal - Real.log (Spec.evidence μ j) := by
    simp_rw [C52_reparam, add_zero]; exact hE
  refine ⟨hR, ?_, ?_, ?_⟩
  · simp_rw [C52_score, add_zero]; exact hE
  · rw [hR]
    have : 0 ≤ (klDiv (Spec.lawOf μ q) (Spec.posterior μ j)).toReal := ENNReal.toReal_nonneg
    linarith
  · rw [hR, ← klDiv_eq_zero_iff]
    constructor
    · intro h
      have h0 : (klDiv (Spec.lawOf μ q) (Spec.posterior μ j)).toReal = 0 := by linarith
      exact (ENNReal.toReal_eq_zero_iff _).mp h0 |>.resolve_right hne
    · intro h
      rw [h]; simp

/-- C50, the loss with an analytic KL: the same when the penalty is the divergence from
`q` to the prior and the joint is prior times likelihood. -/
theorem C50_kl_partial (v : ViProblem Z X I Ω) (μ : Measure Ω) [SigmaFinite μ] (q prior lik : Ω → ℝ)
    (ks kl : Z → I → ℝ)
    (hq : ∀ ω, 0 ≤ q ω) (hqm : Measurable q) (hq1 : ∫⁻ ω, ENNReal.ofReal (q ω) ∂μ = 1)
    (hp : ∀ ω, 0 < prior ω) (hpm : Measurable prior) (hp1 : ∫⁻ ω, ENNReal.ofReal (prior ω) ∂μ = 1)
    (hl : ∀ ω, 0 < lik ω) (hlm : Measurable lik)
    (hfin : ∫⁻ ω, ENNReal.ofReal (prior ω * lik ω) ∂μ ≠ ⊤)
    (hintP : Integrable (fun ω => Real.log (q ω) - Real.log (prior ω)) (Spec.lawOf μ q))
    (hintL : Integrable (fun ω => Real.log (lik ω)) (Spec.lawOf μ q))
    (hL : ∀ ω, Spec.logLik v ω = Real.log (lik ω))
    (hks : ∀ z i, ks z i = 1)
    (hkl : (v.latents.map fun z => ∑ i, kl z i).sum = (klDiv (Spec.lawOf μ q) (Spec.lawOf μ prior)).toReal)
    {n : ℕ} (hn : 0 < n) :
    (∫ d, reparamKlLoss v n d ks kl 0 ∂Measure.pi (fun _ => Spec.lawOf μ q) =
      (klDiv (Spec.lawOf μ q) (Spec.posterior μ fun ω => prior ω * lik ω)).toReal -
        Real.log (Spec.evidence μ fun ω => prior ω * lik ω)) := by
  have hQ1 : Spec.lawOf μ q Set.univ = 1 := by
    rw [Spec.lawOf, withDensity_apply _ MeasurableSet.univ, Measure.restrict_univ, hq1]
  have : IsProbabilityMeasure (Spec.lawOf μ q) := ⟨hQ1⟩
  have hsplit : (fun ω => Real.log (q ω) - Real.log (prior ω * lik ω)) =
      fun ω => (Real.log (q ω) - Real.log (prior ω)) - Real.log (lik ω) := by
    funext ω; rw [Real.log_mul (hp ω).ne' (hl ω).ne']; ring
  have h1 := (klDiv_posterior μ q (fun ω => prior ω * lik ω) hq hqm hq1 (fun ω => mul_pos (hp ω) (hl ω))
    (hpm.mul hlm) hfin (by rw [hsplit]; exact hintP.sub hintL)).1
  have h2 := (klDiv_posterior μ q prior hq hqm hq1 hp hpm (by rw [hp1]; exact ENNReal.one_ne_top) hintP).1
  have hev : Spec.evidence μ prior = 1 := by rw [Spec.evidence, hp1]; rfl
  have hpost : Spec.posterior μ prior = Spec.lawOf μ prior := by
    rw [Spec.posterior, hev]; simp
  rw [hev, Real.log_one, add_zero, hpost] at h2
  rw [hsplit, integral_sub hintP hintL] at h1
  have hpen : klPenalty v ks kl = (klDiv (Spec.lawOf μ q) (Spec.lawOf μ prior)).toReal := by
    rw [klPenalty, ← hkl]; simp [hks]
  have hlossE : ∀ d : Fin n → Ω, reparamKlLoss v n d ks kl 0 =
      -Spec.average (fun s => Real.log (lik (d s))) + klPenalty v ks kl := by
    intro d
    rw [reparamKlLoss, pLogLik_eq, listMean_ofFn]
    simp only [hL]; ring
  have hmp : ∀ s : Fin n, MeasurePreserving (Function.eval s) (Measure.pi fun _ : Fin n => Spec.lawOf μ q)
      (Spec.lawOf μ q) := fun s => measurePreserving_eval _ s
  have hiA : Integrable (fun d : Fin n → Ω => Spec.average (fun s => Real.log (lik (d s))))
      (Measure.pi fun _ => Spec.lawOf μ q) := by
    simp only [Spec.average]
    exact (integrable_finsetSum _ fun s _ => (hmp s).integrable_comp_of_integrable hintL).div_const _
  simp_rw [hlossE]
  have hiN : Integrable (fun d : Fin n → Ω => -Spec.average (fun s => Real.log (lik (d s))))
      (Measure.pi fun _ => Spec.lawOf μ q) := hiA.neg
  rw [integral_add hiN (integrable_const _), integral_neg,
    integral_average _ hn (fun ω => Real.log (lik ω)) hintL, h1, hpen, h2]
  simp
  ring

/-- `kl_divergence(Normal(a, s), Normal(b, t))` of TensorFlow. -/
noncomputable def normalKl (a s b t : ℝ) : ℝ := (a - b) ^ 2 / (2 * t ^ 2) + (s ^ 2 / t ^ 2 - 1 - Real.log (s ^ 2 / t ^ 2)) / 2

/-- The two latent variables of `z1 ~ Normal(0, 1)`, `z2 ~ Normal(z1, 1)` with
approximations `Normal(1, 1)`; `ω` is the value of `z1`. -/
noncomputable def hierarchicalKl (ω : ℝ) : Bool → Unit → ℝ
  | false, _ => normalKl 1 1 0 1
  | true, _ => normalKl 1 1 ω 1

theorem integral_one_sub_sq (m : ℝ) :
    ∫ x, (1 - x) ^ 2 / 2 ∂ProbabilityTheory.gaussianReal m 1 = ((1 - m) ^ 2 + 1) / 2 := by
  have hm : MemLp id 2 (ProbabilityTheory.gaussianReal m 1) := by
    have := ProbabilityTheory.memLp_id_gaussianReal (μ := m) (v := 1) 2
    simpa using this
  have hi : Integrable (fun x : ℝ => x) (ProbabilityTheory.gaussianReal m 1) := hm.integrable (by norm_num)
  have hi2 : Integrable (fun x : ℝ => x ^ 2) (ProbabilityTheory.gaussianReal m 1) := hm.integrable_sq
  have hv := ProbabilityTheory.variance_eq_sub hm
  rw [ProbabilityTheory.variance_id_gaussianReal] at hv
  have hE : ∫ x, x ∂ProbabilityTheory.gaussianReal m 1 = m := ProbabilityTheory.integral_id_gaussianReal
  have hE2 : ∫ x, x ^ 2 ∂ProbabilityTheory.gaussianReal m 1 = 1 + m ^ 2 := by
    have h1 : ∫ x, (id ^ 2 : ℝ → ℝ) x ∂ProbabilityTheory.gaussianReal m 1 =
      ∫ x, x ^ 2 ∂ProbabilityTheory.gaussianReal m 1 := rfl
    have h2 : ∫ x, (id : ℝ → ℝ) x ∂ProbabilityTheory.gaussianReal m 1 = m := hE
    rw [h1, h2] at hv
    push_cast at hv
    linarith
  have : ∀ x : ℝ, (1 - x) ^ 2 / 2 = 1 / 2 - x + x ^ 2 / 2 := fun x => by ring
  simp_rw [this]
  have hs : Integrable (fun x : ℝ => 1 / 2 - x) (ProbabilityTheory.gaussianReal m 1) := (integrable_const _).sub hi
  rw [integral_add hs (hi2.div_const 2), integral_sub (integrable_const _) hi, integral_div 2 (fun x : ℝ => x ^ 2), hE, hE2]
  simp
  ring

/-- C50 fails for hierarchical priors with the analytic KL: the penalty draws the parent
`z1` from the prior (expectation 3/2), not from the approximation (expectation 1, the
divergence of the chain rule). The loss built is therefore not the bound. -/
theorem C50_kl_fails :
    let v : ViProblem Bool Unit Unit ℝ :=
      { latents := [false, true], observed := [], scaleZ := fun _ _ => 1, scaleX := fun _ _ => 1,
        logQ := fun _ _ _ => 0, logP := fun _ _ _ => 0, logLik := fun _ _ _ => 0 }
    ∫ ω, klPenalty v (fun _ _ => 1) (hierarchicalKl ω) ∂ProbabilityTheory.gaussianReal 0 1 = 3 / 2 ∧
    ∫ ω, klPenalty v (fun _ _ => 1) (hierarchicalKl ω) ∂ProbabilityTheory.gaussianReal 1 1 = 1 := by
  intro v
  have hpen : ∀ ω, klPenalty v (fun _ _ => 1) (hierarchicalKl ω) = 1 / 2 + (1 - ω) ^ 2 / 2 := by
    intro ω
    simp [klPenalty, v, hierarchicalKl, normalKl]
  have hi : ∀ m, Integrable (fun x : ℝ => (1 - x) ^ 2 / 2) (ProbabilityTheory.gaussianReal m 1) := by
    intro m
    have hm : MemLp id 2 (ProbabilityTheory.gaussianReal m 1) := by
      have := ProbabilityTheory.memLp_id_gaussianReal (μ := m) (v := 1) 2
      simpa using this
    exact (((memLp_const 1).sub hm).integrable_sq).div_const 2
  simp_rw [hpen]
  constructor
  · rw [integral_add (integrable_const _) (hi 0), integral_one_sub_sq]; norm_num
  · rw [integral_add (integrable_const _) (hi 1), integral_one_sub_sq]; norm_num

/-- The hypotheses of `C50_bound` hold for a coin: counting measure on two points. -/
example : ∃ q j : Bool → ℝ, (∀ ω, 0 ≤ q ω) ∧ ∫⁻ ω, ENNReal.ofReal (q ω) ∂Measure.count = 1 ∧ (∀ ω, 0 < j ω) ∧
    ∫⁻ ω, ENNReal.ofReal (j ω) ∂Measure.count ≠ ⊤ ∧
    Integrable (fun ω => Real.log (q ω) - Real.log (j ω)) (Spec.lawOf Measure.count q) ∧
    Spec.lawOf Measure.count q ≠ Spec.posterior Measure.count j := by
  have hE : Spec.evidence (Measure.count : Measure Bool) (fun b => if b then 1 else 3) = 4 := by
    rw [Spec.evidence, lintegral_count, tsum_fintype]
    simp
    norm_num
  refine ⟨fun _ => 1 / 2, fun b => if b then 1 else 3, fun _ => by norm_num, ?_, fun b => by cases b <;> norm_num, ?_, ?_, ?_⟩
  · rw [lintegral_count, tsum_fintype, Fintype.sum_bool, ← ENNReal.ofReal_add (by norm_num) (by norm_num)]
    norm_num
  · rw [lintegral_count, tsum_fintype, Fintype.sum_bool]
    exact ENNReal.add_ne_top.mpr ⟨ENNReal.ofReal_ne_top, ENNReal.ofReal_ne_top⟩
  · have : IsFiniteMeasure (Spec.lawOf (Measure.count : Measure Bool) fun _ => 1 / 2) := by
      refine isFiniteMeasure_withDensity ?_
      rw [lintegral_count, tsum_fintype, Fintype.sum_bool]
      exact ENNReal.add_ne_top.mpr ⟨ENNReal.ofReal_ne_top, ENNReal.ofReal_ne_top⟩
    exact Integrable.of_finite
  · intro h
    have h' := congrArg (fun m : Measure Bool => m {true}) h
    simp only [Spec.posterior, Spec.lawOf, hE] at h'
    rw [withDensity_apply _ (measurableSet_singleton _), withDensity_apply _ (measurableSet_singleton _)] at h'
    simp only [Measure.restrict_singleton, Measure.count_singleton, one_smul, lintegral_dirac, if_true] at h'
    rw [ENNReal.ofReal_eq_ofReal_iff (by norm_num) (by norm_num)] at h'
    norm_num at h'

/-! ### C80 -/

theorem integral_average_vec {F : Type} [NormedAddCommGroup F] [NormedSpace ℝ F] [CompleteSpace F] (ν : Measure Ω)
    [IsProbabilityMeasure ν] {n : ℕ} (hn : 0 < n) (g : Ω → F) (hg : Integrable g ν) (c : F) :
    ∫ d : Fin n → Ω, ((n : ℝ)⁻¹ • ∑ t, g (d t) + c) ∂Measure.pi (fun _ => ν) = (∫ ε, g ε ∂ν) + c := by
  have hn' : (n : ℝ) ≠ 0 := by positivity
  have hmp : ∀ t : Fin n, MeasurePreserving (Function.eval t) (Measure.pi fun _ : Fin n => ν) ν :=
    fun t => measurePreserving_eval _ t
  have hi : ∀ t : Fin n, Integrable (fun d : Fin n → Ω => g (d t)) (Measure.pi fun _ => ν) :=
    fun t => (hmp t).integrable_comp_of_integrable hg
  have he : ∀ t : Fin n, ∫ d : Fin n → Ω, g (d t) ∂Measure.pi (fun _ => ν) = ∫ ε, g ε ∂ν := by
    intro t
    have h := (hmp t).map_eq
    have hf' : AEStronglyMeasurable g (Measure.map (Function.eval t) (Measure.pi fun _ : Fin n => ν)) := by
      rw [h]; exact hg.aestronglyMeasurable
    have := integral_map (hmp t).measurable.aemeasurable hf'
    rw [h] at this
    exact this.symm
  have hsum : Integrable (fun d : Fin n → Ω => ∑ t, g (d t)) (Measure.pi fun _ => ν) :=
    integrable_finsetSum _ fun t _ => hi t
  have hsm : Integrable (fun d : Fin n → Ω => (n : ℝ)⁻¹ • ∑ t, g (d t)) (Measure.pi fun _ => ν) := hsum.smul _
  rw [integral_add hsm (integrable_const _), integral_smul, integral_finsetSum _ fun t _ => hi t]
  simp_rw [he]
  rw [Finset.sum_const, Finset.card_univ, Fintype.card_fin, ← Nat.cast_smul_eq_nsmul ℝ, smul_smul,
    inv_mul_cancel₀ hn', one_smul, integral_const]
  simp

/-- C80: the draws of a reparameterised approximation are a fixed noise `ε ~ ν` pushed
through a function of the parameters, so the loss is a function of parameters and noise.
When the loss of one draw is differentiable with an integrable bound on its derivative,
the loss of `n_samples` draws has a gradient almost surely, and the expectation of that
gradient is the gradient of the expected loss. -/
theorem C80_reparam {E : Type} [NormedAddCommGroup E] [NormedSpace ℝ E] (v : E → ViProblem Z X I Ω)
    (ν : Measure Ω) [IsProbabilityMeasure ν] (reg : E → ℝ) (l₀ : E) (s : Set E) (hs : s ∈ nhds l₀)
    (L : E → Ω → ℝ) (hL : ∀ l ε, L l ε = Spec.logApprox (v l) ε - Spec.logJoint (v l) ε)
    (L' : E → Ω → E →L[ℝ] ℝ) (bound : Ω → ℝ)
    (hmeas : ∀ᶠ l in nhds l₀, AEStronglyMeasurable (L l) ν) (hint : Integrable (L l₀) ν)
    (hmeas' : AEStronglyMeasurable (L' l₀) ν)
    (hbound : ∀ᵐ ε ∂ν, ∀ l ∈ s, ‖L' l ε‖ ≤ bound ε) (hbi : Integrable bound ν)
    (hdiff : ∀ᵐ ε ∂ν, ∀ l ∈ s, HasFDerivAt (fun l => L l ε) (L' l ε) l)
    (hreg : DifferentiableAt ℝ reg l₀) {n : ℕ} (hn : 0 < n) :
    ∃ G : (Fin n → Ω) → E →L[ℝ] ℝ,
      (∀ᵐ d ∂Measure.pi (fun _ : Fin n => ν), HasFDerivAt (fun l => reparamLoss (v l) n d (reg l)) (G d) l₀) ∧
      HasFDerivAt (fun l => ∫ d, reparamLoss (v l) n d (reg l) ∂Measure.pi (fun _ : Fin n => ν))
        (∫ d, G d ∂Measure.pi (fun _ : Fin n => ν)) l₀ := by
  have hn' : (n : ℝ) ≠ 0 := by positivity
  have hmp : ∀ t : Fin n, MeasurePreserving (Function.eval t) (Measure.pi fun _ : Fin n => ν) ν :=
    fun t => measurePreserving_eval _ t
  have hmain := hasFDerivAt_integral_of_dominated_of_fderiv_le hs hmeas hint hmeas' hbound hbi hdiff
  have hL'int : Integrable (L' l₀) ν :=
    hbi.mono' hmeas' (hbound.mono fun ε h => h l₀ (mem_of_mem_nhds hs))
  have hloss : ∀ l (d : Fin n → Ω), reparamLoss (v l) n d (reg l) = Spec.average (fun t => L l (d t)) + reg l := by
    intro l d
    rw [C52_reparam]; simp only [hL]
  refine ⟨fun d => (n : ℝ)⁻¹ • ∑ t, L' l₀ (d t) + fderiv ℝ reg l₀, ?_, ?_⟩
  · have hall : ∀ᵐ d ∂Measure.pi (fun _ : Fin n => ν), ∀ t : Fin n, ∀ l ∈ s,
        HasFDerivAt (fun l => L l (d t)) (L' l (d t)) l := by
      rw [ae_all_iff]
      intro t
      exact (hmp t).quasiMeasurePreserving.ae hdiff
    filter_upwards [hall] with d hd
    simp_rw [hloss, Spec.average, div_eq_inv_mul]
    exact ((HasFDerivAt.fun_sum fun t _ => hd t l₀ (mem_of_mem_nhds hs)).const_mul (n : ℝ)⁻¹).add hreg.hasFDerivAt
  · have hG : ∫ d : Fin n → Ω, ((n : ℝ)⁻¹ • ∑ t, L' l₀ (d t) + fderiv ℝ reg l₀) ∂Measure.pi (fun _ => ν) =
        (∫ ε, L' l₀ ε ∂ν) + fderiv ℝ reg l₀ := by
      exact integral_average_vec ν hn (L' l₀) hL'int (fderiv ℝ reg l₀)
    rw [hG]
    have hnear : ∀ᶠ l in nhds l₀, Integrable (L l) ν := by
      have := hasFDerivAt_integral_of_dominated_of_fderiv_le hs hmeas hint hmeas' hbound hbi hdiff
      obtain ⟨r, hr, hball⟩ := Metric.mem_nhds_iff.mp hs
      filter_upwards [hmeas, Metric.ball_mem_nhds l₀ hr] with l hl hlb
      have hd : ∀ᵐ ε ∂ν, ‖L l ε - L l₀ ε‖ ≤ bound ε * ‖l - l₀‖ := by
        filter_upwards [hbound, hdiff] with ε h1 h2
        refine (convex_ball l₀ r).norm_image_sub_le_of_norm_hasFDerivWithin_le
          (fun x hx => (h2 x (hball hx)).hasFDerivWithinAt) (fun x hx => h1 x (hball hx))
          (Metric.mem_ball_self hr) hlb
      have hsub : Integrable (fun ε => L l ε - L l₀ ε) ν :=
        (hbi.mul_const _).mono' (hl.sub hint.aestronglyMeasurable) hd
      have := hsub.add hint
      refine this.congr (Filter.Eventually.of_forall fun ε => ?_)
      simp
    refine (hmain.add hreg.hasFDerivAt).congr_of_eventuallyEq ?_
    filter_upwards [hnear] with l hl
    simp_rw [hloss]
    have hiA : Integrable (fun d : Fin n → Ω => Spec.average (fun t => L l (d t))) (Measure.pi fun _ => ν) := by
      simp only [Spec.average]
      exact (integrable_finsetSum _ fun t _ => (hmp t).integrable_comp_of_integrable hl).div_const _
    rw [integral_add hiA (integrable_const _), integral_average ν hn (L l) hl]
    simp

/-- An approximation with log density `l * b` at noise `b = ±1`: the hypotheses of
`C80_reparam` hold. -/
example : ∃ (v : ℝ → ViProblem Unit Empty Unit Bool) (ν : Measure Bool) (_ : IsProbabilityMeasure ν)
    (L : ℝ → Bool → ℝ) (L' : ℝ → Bool → ℝ →L[ℝ] ℝ) (bound : Bool → ℝ),
    (∀ l ε, L l ε = Spec.logApprox (v l) ε - Spec.logJoint (v l) ε) ∧
    (∀ᶠ l in nhds (0 : ℝ), AEStronglyMeasurable (L l) ν) ∧ Integrable (L 0) ν ∧ AEStronglyMeasurable (L' 0) ν ∧
    (∀ᵐ ε ∂ν, ∀ l ∈ (Set.univ : Set ℝ), ‖L' l ε‖ ≤ bound ε) ∧ Integrable bound ν ∧
    (∀ᵐ ε ∂ν, ∀ l ∈ (Set.univ : Set ℝ), HasFDerivAt (fun l => L l ε) (L' l ε) l) := by
  refine ⟨fun l => ⟨[()], [], fun _ _ => 1, fun _ _ => 1, fun _ b _ => l * (if b then 1 else -1), fun _ _ _ => 0,
      fun _ _ _ => 0⟩, Measure.dirac true, inferInstance, fun l b => l * (if b then 1 else -1),
    fun _ b => (if b then (1 : ℝ) else -1) • ContinuousLinearMap.id ℝ ℝ,
    fun b => ‖(if b then (1 : ℝ) else -1) • ContinuousLinearMap.id ℝ ℝ‖, ?_, ?_, Integrable.of_finite, ?_, ?_,
    Integrable.of_finite, ?_⟩
  · intro l ε
    simp [Spec.logApprox, Spec.logJoint]
  · exact Filter.Eventually.of_forall fun l => (measurable_of_finite _).aestronglyMeasurable
  · exact (measurable_of_finite _).aestronglyMeasurable
  · exact Filter.Eventually.of_forall fun ε l _ => le_rfl
  · exact Filter.Eventually.of_forall fun ε l _ => (hasFDerivAt_id l).mul_const _

end Edward
