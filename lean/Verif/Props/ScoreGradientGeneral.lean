/-
C51: the score-function gradient is unbiased, for draws from any density with respect to any measure (continuous,
discrete or mixed), under the usual conditions for differentiating under the integral.
-/
import Verif.Props.ScoreGradient
import Verif.Props.Elbo

namespace Edward
open MeasureTheory Filter Topology
variable {Z X I Ω : Type} [Fintype I] [MeasurableSpace Ω]
variable {E : Type} [NormedAddCommGroup E] [NormedSpace ℝ E]

/-- The densities `q l` of the approximation for parameters `l` in a neighbourhood `s` of `l₀`: positive, normalised,
differentiable in `l`, with derivatives `q' l` bounded by an integrable function. -/
structure ScoreOk (μ : Measure Ω) (q : E → Ω → ℝ) (q' : E → Ω → E →L[ℝ] ℝ) (l₀ : E) (s : Set E) : Prop where
  nhds : s ∈ 𝓝 l₀
  meas : ∀ l ∈ s, Measurable (q l)
  pos : ∀ l ∈ s, ∀ ω, 0 < q l ω
  one : ∀ l ∈ s, ∫⁻ ω, ENNReal.ofReal (q l ω) ∂μ = 1
  diff : ∀ᵐ ω ∂μ, ∀ l ∈ s, HasFDerivAt (fun l => q l ω) (q' l ω) l
  meas' : AEStronglyMeasurable (q' l₀) μ
  bound : ∃ b : Ω → ℝ, Integrable b μ ∧ ∀ᵐ ω ∂μ, ∀ l ∈ s, ‖q' l ω‖ ≤ b ω

section core
variable {μ : Measure Ω} {q : E → Ω → ℝ} {q' : E → Ω → E →L[ℝ] ℝ} {l₀ : E} {s : Set E}

theorem ScoreOk.prob (h : ScoreOk μ q q' l₀ s) {l : E} (hl : l ∈ s) : IsProbabilityMeasure (Spec.lawOf μ (q l)) :=
  ⟨by rw [Spec.lawOf, withDensity_apply _ MeasurableSet.univ, Measure.restrict_univ, h.one l hl]⟩

theorem ScoreOk.integral_law {F : Type} [NormedAddCommGroup F] [NormedSpace ℝ F] (h : ScoreOk μ q q' l₀ s) {l : E}
    (hl : l ∈ s) (g : Ω → F) : ∫ ω, g ω ∂Spec.lawOf μ (q l) = ∫ ω, q l ω • g ω ∂μ := by
  rw [Spec.lawOf, integral_withDensity_eq_integral_toReal_smul (h.meas l hl).ennreal_ofReal
    (Eventually.of_forall fun _ => ENNReal.ofReal_lt_top)]
  refine integral_congr_ae (Eventually.of_forall fun ω => ?_)
  show (ENNReal.ofReal (q l ω)).toReal • g ω = _
  rw [ENNReal.toReal_ofReal (h.pos l hl ω).le]

theorem ScoreOk.integrable_law {F : Type} [NormedAddCommGroup F] [NormedSpace ℝ F] (h : ScoreOk μ q q' l₀ s) {l : E}
    (hl : l ∈ s) (g : Ω → F) : Integrable g (Spec.lawOf μ (q l)) ↔ Integrable (fun ω => q l ω • g ω) μ := by
  rw [Spec.lawOf, integrable_withDensity_iff_integrable_smul' (h.meas l hl).ennreal_ofReal
    (Eventually.of_forall fun _ => ENNReal.ofReal_lt_top)]
  refine integrable_congr (Eventually.of_forall fun ω => ?_)
  show (ENNReal.ofReal (q l ω)).toReal • g ω = _
  rw [ENNReal.toReal_ofReal (h.pos l hl ω).le]

theorem ScoreOk.mem (h : ScoreOk μ q q' l₀ s) : l₀ ∈ s := mem_of_mem_nhds h.nhds

theorem ScoreOk.integrable_q (h : ScoreOk μ q q' l₀ s) {l : E} (hl : l ∈ s) : Integrable (q l) μ := by
  have := (h.integrable_law hl (fun _ => (1 : ℝ))).mp (by have := h.prob hl; exact integrable_const _)
  simpa using this

theorem ScoreOk.integral_q (h : ScoreOk μ q q' l₀ s) {l : E} (hl : l ∈ s) : ∫ ω, q l ω ∂μ = 1 := by
  have hp := h.prob hl
  have := h.integral_law hl (fun _ => (1 : ℝ))
  simpa using this.symm

/-- The scores have mean zero. -/
theorem ScoreOk.integral_q' (h : ScoreOk μ q q' l₀ s) : ∫ ω, q' l₀ ω ∂μ = 0 := by
  obtain ⟨b, hb, hbound⟩ := h.bound
  have h1 := hasFDerivAt_integral_of_dominated_of_fderiv_le h.nhds
    (Eventually.mono h.nhds fun l hl => (h.meas l hl).aestronglyMeasurable) (h.integrable_q h.mem) h.meas' hbound hb h.diff
  have h2 : HasFDerivAt (fun l => ∫ ω, q l ω ∂μ) (0 : E →L[ℝ] ℝ) l₀ :=
    (hasFDerivAt_const (1 : ℝ) l₀).congr_of_eventuallyEq (Eventually.mono h.nhds fun l hl => h.integral_q hl)
  exact h1.unique h2

/-- A function dominated near `l₀` stays integrable. -/
theorem integrable_near {A : E → Ω → ℝ} {A' : E → Ω → E →L[ℝ] ℝ} {b : Ω → ℝ} (hs : s ∈ 𝓝 l₀)
    (hm : ∀ l ∈ s, AEStronglyMeasurable (A l) μ) (hi : Integrable (A l₀) μ)
    (hbound : ∀ᵐ ω ∂μ, ∀ l ∈ s, ‖A' l ω‖ ≤ b ω) (hb : Integrable b μ)
    (hdiff : ∀ᵐ ω ∂μ, ∀ l ∈ s, HasFDerivAt (fun l => A l ω) (A' l ω) l) :
    ∀ᶠ l in 𝓝 l₀, Integrable (A l) μ := by
  obtain ⟨r, hr, hball⟩ := Metric.mem_nhds_iff.mp hs
  filter_upwards [Metric.ball_mem_nhds l₀ hr] with l hlb
  have hd : ∀ᵐ ω ∂μ, ‖A l ω - A l₀ ω‖ ≤ b ω * ‖l - l₀‖ := by
    filter_upwards [hbound, hdiff] with ω h1 h2
    exact (convex_ball l₀ r).norm_image_sub_le_of_norm_hasFDerivWithin_le
      (fun x hx => (h2 x (hball hx)).hasFDerivWithinAt) (fun x hx => h1 x (hball hx)) (Metric.mem_ball_self hr) hlb
  have hsub : Integrable (fun ω => A l ω - A l₀ ω) μ :=
    (hb.mul_const _).mono' ((hm l (hball hlb)).sub hi.aestronglyMeasurable) hd
  exact (hsub.add hi).congr (Eventually.of_forall fun ω => by simp)

/-- The common part of the three estimators: the function differentiated is `-mean(log q · f) + B`, the loss is
`mean(A) + B`, and the derivative of `E A` is `-∫ f q'`. -/
theorem score_core (h : ScoreOk μ q q' l₀ s) {n : ℕ} (hn : 0 < n) (f : Ω → ℝ) (A : E → Ω → ℝ) (B : E → ℝ)
    (hB : DifferentiableAt ℝ B l₀)
    (hf : Integrable (fun ω => f ω • q' l₀ ω) μ) (hA : ∀ᶠ l in 𝓝 l₀, Integrable (fun ω => q l ω * A l ω) μ)
    (hT : HasFDerivAt (fun l => ∫ ω, q l ω * A l ω ∂μ) (-∫ ω, f ω • q' l₀ ω ∂μ) l₀)
    (sur loss : E → (Fin n → Ω) → ℝ)
    (hsur : ∀ d, ∀ᶠ l in 𝓝 l₀, sur l d = -Spec.average (fun t => Real.log (q l (d t)) * f (d t)) + B l)
    (hloss : ∀ᶠ l in 𝓝 l₀, ∀ d, loss l d = Spec.average (fun t => A l (d t)) + B l) :
    ∃ G : (Fin n → Ω) → E →L[ℝ] ℝ,
      (∀ᵐ d ∂Measure.pi (fun _ : Fin n => Spec.lawOf μ (q l₀)), HasFDerivAt (fun l => sur l d) (G d) l₀) ∧
      HasFDerivAt (fun l => ∫ d, loss l d ∂Measure.pi (fun _ : Fin n => Spec.lawOf μ (q l)))
        (∫ d, G d ∂Measure.pi (fun _ : Fin n => Spec.lawOf μ (q l₀))) l₀ := by
  have hp0 := h.prob h.mem
  set g : Ω → E →L[ℝ] ℝ := fun ω => -(f ω • (q l₀ ω)⁻¹ • q' l₀ ω) with hg
  refine ⟨fun d => (n : ℝ)⁻¹ • ∑ t, g (d t) + fderiv ℝ B l₀, ?_, ?_⟩
  · have hd0 : ∀ᵐ ω ∂Spec.lawOf μ (q l₀), HasFDerivAt (fun l => q l ω) (q' l₀ ω) l₀ :=
      (withDensity_absolutelyContinuous μ _).ae_le (h.diff.mono fun ω hω => hω l₀ h.mem)
    have hall : ∀ᵐ d ∂Measure.pi (fun _ : Fin n => Spec.lawOf μ (q l₀)), ∀ t : Fin n,
        HasFDerivAt (fun l => q l (d t)) (q' l₀ (d t)) l₀ := by
      rw [ae_all_iff]
      exact fun t => (measurePreserving_eval (fun _ : Fin n => Spec.lawOf μ (q l₀)) t).quasiMeasurePreserving.ae hd0
    filter_upwards [hall] with d hd
    have h1 : HasFDerivAt (fun l => ∑ t, Real.log (q l (d t)) * f (d t))
        (∑ t, f (d t) • (q l₀ (d t))⁻¹ • q' l₀ (d t)) l₀ :=
      HasFDerivAt.fun_sum fun t _ => ((hd t).log (h.pos l₀ h.mem _).ne').mul_const (f (d t))
    have h2 := ((h1.const_mul (n : ℝ)⁻¹).neg).add hB.hasFDerivAt
    refine (h2.congr_of_eventuallyEq ?_).congr_fderiv ?_
    · filter_upwards [hsur d] with l hl
      rw [hl]
      simp only [Spec.average, div_eq_inv_mul, Pi.add_apply, Pi.neg_apply]
    · simp only [hg, Finset.sum_neg_distrib, smul_neg]
  · have hgi : Integrable g (Spec.lawOf μ (q l₀)) := by
      rw [h.integrable_law h.mem]
      refine hf.neg.congr (Eventually.of_forall fun ω => ?_)
      have hne := (h.pos l₀ h.mem ω).ne'
      simp only [hg, smul_neg, smul_smul, Pi.neg_apply]
      congr 2
      field_simp
    rw [integral_average_vec (Spec.lawOf μ (q l₀)) hn g hgi]
    have hgv : ∫ ω, g ω ∂Spec.lawOf μ (q l₀) = -∫ ω, f ω • q' l₀ ω ∂μ := by
      rw [h.integral_law h.mem, ← integral_neg]
      refine integral_congr_ae (Eventually.of_forall fun ω => ?_)
      have hne := (h.pos l₀ h.mem ω).ne'
      simp only [hg, smul_neg, smul_smul]
      congr 2
      field_simp
    rw [hgv]
    refine (hT.add hB.hasFDerivAt).congr_of_eventuallyEq ?_
    filter_upwards [hloss, hA, h.nhds] with l hl hAl hls
    have hpl := h.prob hls
    have hAi : Integrable (A l) (Spec.lawOf μ (q l)) := (h.integrable_law hls _).mpr hAl
    simp_rw [hl]
    have hiA : Integrable (fun d : Fin n → Ω => Spec.average (fun t => A l (d t)))
        (Measure.pi fun _ => Spec.lawOf μ (q l)) := by
      simp only [Spec.average]
      exact (integrable_finsetSum _ fun t _ => (measurePreserving_eval
        (fun _ : Fin n => Spec.lawOf μ (q l)) t).integrable_comp_of_integrable hAi).div_const _
    rw [integral_add hiA (integrable_const _), integral_average _ hn (A l) hAi, h.integral_law hls]
    simp

/-- Derivative of `E_q f`. -/
theorem hasFDerivAt_expect (h : ScoreOk μ q q' l₀ s) {f : Ω → ℝ} (hfm : Measurable f)
    (hi : Integrable (fun ω => q l₀ ω * f ω) μ) {b : Ω → ℝ} (hb : Integrable b μ)
    (hbound : ∀ᵐ ω ∂μ, ∀ l ∈ s, ‖f ω • q' l ω‖ ≤ b ω) :
    HasFDerivAt (fun l => ∫ ω, q l ω * f ω ∂μ) (∫ ω, f ω • q' l₀ ω ∂μ) l₀ ∧
      Integrable (fun ω => f ω • q' l₀ ω) μ ∧ ∀ᶠ l in 𝓝 l₀, Integrable (fun ω => q l ω * f ω) μ := by
  have hm : ∀ l ∈ s, AEStronglyMeasurable (fun ω => q l ω * f ω) μ :=
    fun l hl => ((h.meas l hl).mul hfm).aestronglyMeasurable
  have hd : ∀ᵐ ω ∂μ, ∀ l ∈ s, HasFDerivAt (fun l => q l ω * f ω) (f ω • q' l ω) l :=
    h.diff.mono fun ω hω l hl => (hω l hl).mul_const (f ω)
  have hm' : AEStronglyMeasurable (fun ω => f ω • q' l₀ ω) μ := hfm.aestronglyMeasurable.smul h.meas'
  exact ⟨hasFDerivAt_integral_of_dominated_of_fderiv_le h.nhds (Eventually.mono h.nhds fun l hl => hm l hl) hi hm'
    hbound hb hd, hb.mono' hm' (hbound.mono fun ω hω => hω l₀ h.mem), integrable_near h.nhds hm hi hbound hb hd⟩

/-- Derivative of `E_q[log q - f]`. -/
theorem hasFDerivAt_elbo (h : ScoreOk μ q q' l₀ s) {f : Ω → ℝ} (hfm : Measurable f)
    (hi : Integrable (fun ω => q l₀ ω * (Real.log (q l₀ ω) - f ω)) μ) {b : Ω → ℝ} (hb : Integrable b μ)
    (hbound : ∀ᵐ ω ∂μ, ∀ l ∈ s, ‖(Real.log (q l ω) - f ω) • q' l ω‖ ≤ b ω) :
    HasFDerivAt (fun l => ∫ ω, q l ω * (Real.log (q l ω) - f ω) ∂μ)
        (-∫ ω, (f ω - Real.log (q l₀ ω)) • q' l₀ ω ∂μ) l₀ ∧
      Integrable (fun ω => (f ω - Real.log (q l₀ ω)) • q' l₀ ω) μ ∧
      ∀ᶠ l in 𝓝 l₀, Integrable (fun ω => q l ω * (Real.log (q l ω) - f ω)) μ := by
  obtain ⟨b₁, hb₁, hbound₁⟩ := h.bound
  have hm : ∀ l ∈ s, AEStronglyMeasurable (fun ω => q l ω * (Real.log (q l ω) - f ω)) μ :=
    fun l hl => ((h.meas l hl).mul ((h.meas l hl).log.sub hfm)).aestronglyMeasurable
  have hd : ∀ᵐ ω ∂μ, ∀ l ∈ s, HasFDerivAt (fun l => q l ω * (Real.log (q l ω) - f ω))
      (q' l ω + (Real.log (q l ω) - f ω) • q' l ω) l := by
    filter_upwards [h.diff] with ω hω l hl
    have hne := (h.pos l hl ω).ne'
    refine ((hω l hl).mul (((hω l hl).log hne).sub_const (f ω))).congr_fderiv ?_
    rw [smul_smul, mul_inv_cancel₀ hne, one_smul]
  have hlm : AEStronglyMeasurable (fun ω => Real.log (q l₀ ω) - f ω) μ :=
    ((h.meas l₀ h.mem).log.sub hfm).aestronglyMeasurable
  have hm₂ : AEStronglyMeasurable (fun ω => (Real.log (q l₀ ω) - f ω) • q' l₀ ω) μ := hlm.smul h.meas'
  have hm' : AEStronglyMeasurable (fun ω => q' l₀ ω + (Real.log (q l₀ ω) - f ω) • q' l₀ ω) μ := h.meas'.add hm₂
  have hbd : ∀ᵐ ω ∂μ, ∀ l ∈ s, ‖q' l ω + (Real.log (q l ω) - f ω) • q' l ω‖ ≤ b₁ ω + b ω := by
    filter_upwards [hbound, hbound₁] with ω h2 h1 l hl
    exact (norm_add_le _ _).trans (add_le_add (h1 l hl) (h2 l hl))
  have hi₁ : Integrable (q' l₀) μ := hb₁.mono' h.meas' (hbound₁.mono fun ω hω => hω l₀ h.mem)
  have hi₂ : Integrable (fun ω => (Real.log (q l₀ ω) - f ω) • q' l₀ ω) μ :=
    hb.mono' hm₂ (hbound.mono fun ω hω => hω l₀ h.mem)
  have hneg : (fun ω => (f ω - Real.log (q l₀ ω)) • q' l₀ ω) = fun ω => -((Real.log (q l₀ ω) - f ω) • q' l₀ ω) := by
    funext ω; module
  refine ⟨?_, ?_, integrable_near h.nhds hm hi hbd (hb₁.add hb) hd⟩
  · have := hasFDerivAt_integral_of_dominated_of_fderiv_le h.nhds (Eventually.mono h.nhds fun l hl => hm l hl) hi hm'
      hbd (hb₁.add hb) hd
    rw [integral_add hi₁ hi₂, h.integral_q', zero_add] at this
    rw [hneg, integral_neg, neg_neg]
    exact this
  · rw [hneg]; exact hi₂.neg

end core

/-- C51 (`build_score_loss_and_gradients`), general draws: for every `n_samples` the function differentiated has a
gradient at almost all draws, and the expectation of the gradient is the gradient of the expected loss. -/
theorem C51_score_general {μ : Measure Ω} {q : E → Ω → ℝ} {q' : E → Ω → E →L[ℝ] ℝ} {l₀ : E} {s : Set E}
    (h : ScoreOk μ q q' l₀ s) (v : E → ViProblem Z X I Ω) (reg : E → ℝ) {n : ℕ} (hn : 0 < n)
    (hQ : ∀ᶠ l in 𝓝 l₀, ∀ ω, Spec.logApprox (v l) ω = Real.log (q l ω))
    (hP : ∀ᶠ l in 𝓝 l₀, ∀ ω, Spec.logJoint (v l) ω = Spec.logJoint (v l₀) ω)
    (hjm : Measurable (Spec.logJoint (v l₀)))
    (hi : Integrable (fun ω => q l₀ ω * (Real.log (q l₀ ω) - Spec.logJoint (v l₀) ω)) μ) {b : Ω → ℝ}
    (hb : Integrable b μ)
    (hbound : ∀ᵐ ω ∂μ, ∀ l ∈ s, ‖(Real.log (q l ω) - Spec.logJoint (v l₀) ω) • q' l ω‖ ≤ b ω)
    (hreg : DifferentiableAt ℝ reg l₀) :
    ∃ G : (Fin n → Ω) → E →L[ℝ] ℝ,
      (∀ᵐ d ∂Measure.pi (fun _ : Fin n => Spec.lawOf μ (q l₀)),
        HasFDerivAt (fun l => scoreSurrogate (v l) (v l₀) n d (reg l)) (G d) l₀) ∧
      HasFDerivAt (fun l => ∫ d, scoreLoss (v l) n d (reg l) ∂Measure.pi (fun _ : Fin n => Spec.lawOf μ (q l)))
        (∫ d, G d ∂Measure.pi (fun _ : Fin n => Spec.lawOf μ (q l₀))) l₀ := by
  obtain ⟨h1, h2, h3⟩ := hasFDerivAt_elbo h hjm hi hb hbound
  have hQ0 := hQ.self_of_nhds
  refine score_core h hn (fun ω => Spec.logJoint (v l₀) ω - Real.log (q l₀ ω))
    (fun l ω => Real.log (q l ω) - Spec.logJoint (v l₀) ω) reg hreg h2 h3 h1 _ _ (fun d => ?_) ?_
  · filter_upwards [hQ] with l hl
    rw [scoreSurrogate, pLogProb_eq, qLogProb_eq, qLogProb_eq, zipWith_ofFn, zipWith_ofFn, listMean_ofFn]
    simp only [hl, hQ0]
    ring
  · filter_upwards [hQ, hP] with l hl hp d
    rw [C52_score]
    simp only [hl, hp]

/-- C51 (`build_score_kl_loss_and_gradients`), general draws. -/
theorem C51_score_kl_general {μ : Measure Ω} {q : E → Ω → ℝ} {q' : E → Ω → E →L[ℝ] ℝ} {l₀ : E} {s : Set E}
    (h : ScoreOk μ q q' l₀ s) (v : E → ViProblem Z X I Ω) (reg : E → ℝ) (ks : Z → I → ℝ) (kl : E → Z → I → ℝ)
    {n : ℕ} (hn : 0 < n)
    (hQ : ∀ᶠ l in 𝓝 l₀, ∀ ω, Spec.logApprox (v l) ω = Real.log (q l ω))
    (hL : ∀ᶠ l in 𝓝 l₀, ∀ ω, Spec.logLik (v l) ω = Spec.logLik (v l₀) ω)
    (hlm : Measurable (Spec.logLik (v l₀))) (hi : Integrable (fun ω => q l₀ ω * Spec.logLik (v l₀) ω) μ) {b : Ω → ℝ}
    (hb : Integrable b μ) (hbound : ∀ᵐ ω ∂μ, ∀ l ∈ s, ‖Spec.logLik (v l₀) ω • q' l ω‖ ≤ b ω)
    (hkl : DifferentiableAt ℝ (fun l => klPenalty (v l) ks (kl l)) l₀) (hreg : DifferentiableAt ℝ reg l₀) :
    ∃ G : (Fin n → Ω) → E →L[ℝ] ℝ,
      (∀ᵐ d ∂Measure.pi (fun _ : Fin n => Spec.lawOf μ (q l₀)),
        HasFDerivAt (fun l => scoreKlSurrogate (v l) (v l₀) n d ks (kl l) (reg l)) (G d) l₀) ∧
      HasFDerivAt (fun l => ∫ d, reparamKlLoss (v l) n d ks (kl l) (reg l)
          ∂Measure.pi (fun _ : Fin n => Spec.lawOf μ (q l)))
        (∫ d, G d ∂Measure.pi (fun _ : Fin n => Spec.lawOf μ (q l₀))) l₀ := by
  obtain ⟨h1, h2, h3⟩ := hasFDerivAt_expect h hlm hi hb hbound
  refine score_core h hn (fun ω => Spec.logLik (v l₀) ω) (fun _ ω => -Spec.logLik (v l₀) ω)
    (fun l => klPenalty (v l) ks (kl l) + reg l) (hkl.add hreg) h2 ?_ ?_ _ _ (fun d => ?_) ?_
  · filter_upwards [h3] with l hl
    simpa using hl.neg
  · refine h1.neg.congr_of_eventuallyEq (Eventually.of_forall fun l => ?_)
    simp [integral_neg]
  · filter_upwards [hQ] with l hl
    rw [scoreKlSurrogate, pLogLik_eq, qLogProb_eq, zipWith_ofFn, listMean_ofFn]
    simp only [hl]
    ring
  · filter_upwards [hL] with l hl d
    rw [reparamKlLoss, pLogLik_eq, listMean_ofFn]
    simp only [hl, Spec.average, Finset.sum_neg_distrib]
    ring

/-- C51 (`build_score_entropy_loss_and_gradients`), general draws. -/
theorem C51_score_entropy_general {μ : Measure Ω} {q : E → Ω → ℝ} {q' : E → Ω → E →L[ℝ] ℝ} {l₀ : E} {s : Set E}
    (h : ScoreOk μ q q' l₀ s) (v : E → ViProblem Z X I Ω) (reg : E → ℝ) (ent : E → Z → I → ℝ)
    {n : ℕ} (hn : 0 < n)
    (hQ : ∀ᶠ l in 𝓝 l₀, ∀ ω, Spec.logApprox (v l) ω = Real.log (q l ω))
    (hP : ∀ᶠ l in 𝓝 l₀, ∀ ω, Spec.logJoint (v l) ω = Spec.logJoint (v l₀) ω)
    (hjm : Measurable (Spec.logJoint (v l₀))) (hi : Integrable (fun ω => q l₀ ω * Spec.logJoint (v l₀) ω) μ)
    {b : Ω → ℝ} (hb : Integrable b μ) (hbound : ∀ᵐ ω ∂μ, ∀ l ∈ s, ‖Spec.logJoint (v l₀) ω • q' l ω‖ ≤ b ω)
    (hent : DifferentiableAt ℝ (fun l => qEntropy (v l) (ent l)) l₀) (hreg : DifferentiableAt ℝ reg l₀) :
    ∃ G : (Fin n → Ω) → E →L[ℝ] ℝ,
      (∀ᵐ d ∂Measure.pi (fun _ : Fin n => Spec.lawOf μ (q l₀)),
        HasFDerivAt (fun l => scoreEntropySurrogate (v l) (v l₀) n d (ent l) (reg l)) (G d) l₀) ∧
      HasFDerivAt (fun l => ∫ d, reparamEntropyLoss (v l) n d (ent l) (reg l)
          ∂Measure.pi (fun _ : Fin n => Spec.lawOf μ (q l)))
        (∫ d, G d ∂Measure.pi (fun _ : Fin n => Spec.lawOf μ (q l₀))) l₀ := by
  obtain ⟨h1, h2, h3⟩ := hasFDerivAt_expect h hjm hi hb hbound
  refine score_core h hn (fun ω => Spec.logJoint (v l₀) ω) (fun _ ω => -Spec.logJoint (v l₀) ω)
    (fun l => reg l - qEntropy (v l) (ent l)) (hreg.sub hent) h2 ?_ ?_ _ _ (fun d => ?_) ?_
  · filter_upwards [h3] with l hl
    simpa using hl.neg
  · refine h1.neg.congr_of_eventuallyEq (Eventually.of_forall fun l => ?_)
    simp [integral_neg]
  · filter_upwards [hQ] with l hl
    rw [scoreEntropySurrogate, pLogProb_eq, qLogProb_eq, zipWith_ofFn, listMean_ofFn]
    simp only [hl]
    ring
  · filter_upwards [hP] with l hl d
    rw [reparamEntropyLoss, pLogProb_eq, listMean_ofFn]
    simp only [hl, Spec.average, Finset.sum_neg_distrib]
    ring

/-- C51, model parameters (`p_grads`), general draws: the approximation does not depend on them. -/
theorem C51_model_general (v : E → ViProblem Z X I Ω) (Q : Measure Ω) [IsProbabilityMeasure Q] (reg : E → ℝ) (l₀ : E)
    (s : Set E) (hs : s ∈ 𝓝 l₀) (L : E → Ω → ℝ)
    (hL : ∀ l ω, L l ω = Spec.logApprox (v l) ω - Spec.logJoint (v l) ω) (L' : E → Ω → E →L[ℝ] ℝ) (bound : Ω → ℝ)
    (hmeas : ∀ᶠ l in 𝓝 l₀, AEStronglyMeasurable (L l) Q) (hint : Integrable (L l₀) Q)
    (hmeas' : AEStronglyMeasurable (L' l₀) Q)
    (hbound : ∀ᵐ ω ∂Q, ∀ l ∈ s, ‖L' l ω‖ ≤ bound ω) (hbi : Integrable bound Q)
    (hdiff : ∀ᵐ ω ∂Q, ∀ l ∈ s, HasFDerivAt (fun l => L l ω) (L' l ω) l)
    (hreg : DifferentiableAt ℝ reg l₀) {n : ℕ} (hn : 0 < n) :
    ∃ G : (Fin n → Ω) → E →L[ℝ] ℝ,
      (∀ᵐ d ∂Measure.pi (fun _ : Fin n => Q), HasFDerivAt (fun l => scoreLoss (v l) n d (reg l)) (G d) l₀) ∧
      HasFDerivAt (fun l => ∫ d, scoreLoss (v l) n d (reg l) ∂Measure.pi (fun _ : Fin n => Q))
        (∫ d, G d ∂Measure.pi (fun _ : Fin n => Q)) l₀ := by
  have e : ∀ l (d : Fin n → Ω), scoreLoss (v l) n d (reg l) = reparamLoss (v l) n d (reg l) := fun l d => by
    rw [C52_score, C52_reparam]
  simp_rw [e]
  exact C80_reparam v Q reg l₀ s hs L hL L' bound hmeas hint hmeas' hbound hbi hdiff hreg hn

/-! ### A Normal approximation with unknown mean -/

section gaussian
open ProbabilityTheory

/-- Density of the Normal distribution with mean `l` and variance one. -/
noncomputable def normalQ (l ω : ℝ) : ℝ := gaussianPDFReal l 1 ω

noncomputable def normalQ' (l ω : ℝ) : ℝ →L[ℝ] ℝ := ((ω - l) * normalQ l ω) • ContinuousLinearMap.id ℝ ℝ

theorem normalQ_eq (l ω : ℝ) : normalQ l ω = (√(2 * Real.pi))⁻¹ * Real.exp (-(ω - l) ^ 2 / 2) := by
  simp [normalQ, gaussianPDFReal]

theorem normalQ_le {l : ℝ} (hl : |l| < 1) (ω : ℝ) : normalQ l ω ≤ Real.exp (1 / 2) * Real.exp (-(1 / 4) * ω ^ 2) := by
  have h1 : (√(2 * Real.pi))⁻¹ ≤ 1 := by
    apply inv_le_one_of_one_le₀
    rw [Real.one_le_sqrt]
    linarith [Real.two_le_pi]
  rw [normalQ_eq, ← Real.exp_add]
  have hl2 : l ^ 2 ≤ 1 := by
    have := abs_lt.mp hl
    nlinarith
  have h2 : -(ω - l) ^ 2 / 2 ≤ 1 / 2 + -(1 / 4) * ω ^ 2 := by nlinarith [sq_nonneg (ω - 2 * l)]
  calc (√(2 * Real.pi))⁻¹ * Real.exp (-(ω - l) ^ 2 / 2) ≤ 1 * Real.exp (-(ω - l) ^ 2 / 2) :=
        mul_le_mul_of_nonneg_right h1 (Real.exp_pos _).le
    _ ≤ _ := by rw [one_mul]; exact Real.exp_le_exp.mpr h2

theorem log_normalQ (l ω : ℝ) : Real.log (normalQ l ω) = -Real.log (√(2 * Real.pi)) - (ω - l) ^ 2 / 2 := by
  have : √(2 * Real.pi) ≠ 0 := by positivity
  rw [normalQ_eq, Real.log_mul (inv_ne_zero this) (Real.exp_ne_zero _), Real.log_inv, Real.log_exp]
  ring

/-- The dominating function. -/
noncomputable def normalBound (ω : ℝ) : ℝ := Real.exp (1 / 2) * 32 * Real.exp (-(3 / 16) * ω ^ 2)

theorem integrable_normalBound : Integrable normalBound :=
  (integrable_exp_neg_mul_sq (by norm_num : (0 : ℝ) < 3 / 16)).const_mul _

theorem poly_le (ω : ℝ) : (|ω| + 4) ^ 2 * Real.exp (-(1 / 4) * ω ^ 2) ≤ 32 * Real.exp (-(3 / 16) * ω ^ 2) := by
  have h1 : (|ω| + 4) ^ 2 ≤ 32 * Real.exp ((1 / 16) * ω ^ 2) := by
    have := Real.add_one_le_exp ((1 / 16) * ω ^ 2)
    have h2 := sq_abs ω
    nlinarith [sq_nonneg (|ω| - 4)]
  calc (|ω| + 4) ^ 2 * Real.exp (-(1 / 4) * ω ^ 2) ≤
        32 * Real.exp ((1 / 16) * ω ^ 2) * Real.exp (-(1 / 4) * ω ^ 2) :=
        mul_le_mul_of_nonneg_right h1 (Real.exp_pos _).le
    _ = 32 * Real.exp (-(3 / 16) * ω ^ 2) := by
        rw [mul_assoc, ← Real.exp_add]; congr 2; ring

theorem normal_term_le {l : ℝ} (hl : |l| < 1) (ω c : ℝ) (hc : |c| ≤ |ω| + 4) :
    ‖c • normalQ' l ω‖ ≤ normalBound ω := by
  have hq : 0 < normalQ l ω := gaussianPDFReal_pos _ _ _ one_ne_zero
  have h1 : |ω - l| ≤ |ω| + 4 := (abs_sub _ _).trans (by linarith)
  have h0 : 0 ≤ |ω| + 4 := by positivity
  rw [normalQ', smul_smul, norm_smul]
  have hid : ‖ContinuousLinearMap.id ℝ ℝ‖ = 1 := ContinuousLinearMap.norm_id
  rw [hid, mul_one, Real.norm_eq_abs, abs_mul, abs_mul, abs_of_pos hq]
  calc |c| * (|ω - l| * normalQ l ω) ≤ (|ω| + 4) * ((|ω| + 4) * (Real.exp (1 / 2) * Real.exp (-(1 / 4) * ω ^ 2))) := by
        gcongr
        exact normalQ_le hl ω
    _ = Real.exp (1 / 2) * ((|ω| + 4) ^ 2 * Real.exp (-(1 / 4) * ω ^ 2)) := by ring
    _ ≤ Real.exp (1 / 2) * (32 * Real.exp (-(3 / 16) * ω ^ 2)) :=
        mul_le_mul_of_nonneg_left (poly_le ω) (Real.exp_pos _).le
    _ = normalBound ω := by rw [normalBound]; ring

theorem hasFDerivAt_normalQ (l ω : ℝ) : HasFDerivAt (fun l => normalQ l ω) (normalQ' l ω) l := by
  have h : HasDerivAt (fun l => (√(2 * Real.pi))⁻¹ * Real.exp (-(ω - l) ^ 2 / 2)) ((ω - l) * normalQ l ω) l := by
    have h1 : HasDerivAt (fun l : ℝ => -(ω - l) ^ 2 / 2) (ω - l) l := by
      have h2 : HasDerivAt (fun l : ℝ => ω - l) (-1) l := by simpa using (hasDerivAt_id l).const_sub ω
      have h3 := ((h2.pow 2).neg).div_const 2
      refine h3.congr_deriv ?_
      simp
    have h4 := (h1.exp).const_mul (√(2 * Real.pi))⁻¹
    refine h4.congr_deriv ?_
    rw [normalQ_eq]; ring
  have h' : HasDerivAt (fun l => normalQ l ω) ((ω - l) * normalQ l ω) l :=
    h.congr_of_eventuallyEq (Eventually.of_forall fun x => normalQ_eq x ω)
  have := h'.hasFDerivAt
  refine this.congr_fderiv ?_
  ext
  simp [normalQ']

theorem scoreOk_normal : ScoreOk volume normalQ normalQ' 0 (Metric.ball (0 : ℝ) 1) where
  nhds := Metric.ball_mem_nhds _ one_pos
  meas := fun l _ => measurable_gaussianPDFReal l 1
  pos := fun l _ ω => gaussianPDFReal_pos l 1 ω one_ne_zero
  one := fun l _ => lintegral_gaussianPDFReal_eq_one l one_ne_zero
  diff := Eventually.of_forall fun ω l _ => hasFDerivAt_normalQ l ω
  meas' := by
    refine Measurable.aestronglyMeasurable ?_
    have : Measurable fun ω : ℝ => (ω - 0) * normalQ 0 ω := (by fun_prop : Measurable fun ω : ℝ => ω - 0).mul
      (measurable_gaussianPDFReal 0 1)
    exact this.smul_const _
  bound := ⟨normalBound, integrable_normalBound, Eventually.of_forall fun ω l hl => by
    have hl' : |l| < 1 := by simpa using hl
    have := normal_term_le hl' ω 1 (by rw [abs_one]; linarith [abs_nonneg ω])
    simpa using this⟩

/-- The approximation `Normal(l, 1)` of a model whose log joint density is `-ω² / 2`. -/
noncomputable def normalVi (l : ℝ) : ViProblem Unit Empty Unit ℝ where
  latents := [()]
  observed := []
  scaleZ := fun _ _ => 1
  scaleX := fun _ _ => 1
  logQ := fun _ ω _ => Real.log (normalQ l ω)
  logP := fun _ ω _ => -ω ^ 2 / 2
  logLik := fun _ _ _ => 0

/-- The hypotheses of `C51_score_general` hold for it. -/
example {n : ℕ} (hn : 0 < n) :
    ∃ G : (Fin n → ℝ) → ℝ →L[ℝ] ℝ,
      (∀ᵐ d ∂Measure.pi (fun _ : Fin n => Spec.lawOf volume (normalQ 0)),
        HasFDerivAt (fun l => scoreSurrogate (normalVi l) (normalVi 0) n d 0) (G d) 0) ∧
      HasFDerivAt (fun l => ∫ d, scoreLoss (normalVi l) n d 0 ∂Measure.pi (fun _ : Fin n => Spec.lawOf volume (normalQ l)))
        (∫ d, G d ∂Measure.pi (fun _ : Fin n => Spec.lawOf volume (normalQ 0))) 0 := by
  have hJ : ∀ l, Spec.logJoint (normalVi l) = fun ω => -ω ^ 2 / 2 := by
    intro l; funext ω; simp [Spec.logJoint, normalVi]
  have hlog : Real.log (√(2 * Real.pi)) ≤ 3 ∧ 0 ≤ Real.log (√(2 * Real.pi)) := by
    have h1 : 1 ≤ √(2 * Real.pi) := by rw [Real.one_le_sqrt]; linarith [Real.two_le_pi]
    have h2 : √(2 * Real.pi) ≤ 3 := by
      rw [Real.sqrt_le_left (by norm_num)]
      nlinarith [Real.pi_le_four]
    exact ⟨(Real.log_le_self (by linarith)).trans h2, Real.log_nonneg h1⟩
  have hterm : ∀ l : ℝ, |l| < 1 → ∀ ω : ℝ, |Real.log (normalQ l ω) - -ω ^ 2 / 2| ≤ |ω| + 4 := by
    intro l hl ω
    rw [log_normalQ]
    have hl' := abs_lt.mp hl
    have e : -Real.log (√(2 * Real.pi)) - (ω - l) ^ 2 / 2 - -ω ^ 2 / 2 =
        -Real.log (√(2 * Real.pi)) + (ω * l - l ^ 2 / 2) := by ring
    rw [e]
    have h1 : |ω * l| ≤ |ω| := by
      rw [abs_mul]
      nlinarith [abs_nonneg ω]
    have h1' := abs_le.mp h1
    have h2 : l ^ 2 ≤ 1 := by nlinarith
    have h3 : 0 ≤ l ^ 2 := sq_nonneg l
    rw [abs_le]
    constructor <;> linarith [hlog.1, hlog.2]
  refine C51_score_general scoreOk_normal normalVi (fun _ => 0) hn ?_ ?_ ?_ ?_ (b := normalBound) integrable_normalBound
    ?_ (differentiableAt_const _)
  · exact Eventually.of_forall fun l ω => by simp [Spec.logApprox, normalVi]
  · exact Eventually.of_forall fun l ω => by rw [hJ, hJ]
  · rw [hJ]; fun_prop
  · rw [hJ]
    refine integrable_normalBound.mono' ?_ (Eventually.of_forall fun ω => ?_)
    · have hm : Measurable (normalQ 0) := measurable_gaussianPDFReal 0 1
      exact (hm.mul (hm.log.sub (by fun_prop))).aestronglyMeasurable
    · have hq : 0 < normalQ 0 ω := gaussianPDFReal_pos _ _ _ one_ne_zero
      rw [Real.norm_eq_abs, abs_mul, abs_of_pos hq]
      have h0 : 0 ≤ |ω| + 4 := by positivity
      have hq' := normalQ_le (by simp : |(0 : ℝ)| < 1) ω
      calc normalQ 0 ω * |Real.log (normalQ 0 ω) - -ω ^ 2 / 2| ≤
            (Real.exp (1 / 2) * Real.exp (-(1 / 4) * ω ^ 2)) * (|ω| + 4) := by
              gcongr
              exact hterm 0 (by simp) ω
        _ ≤ (Real.exp (1 / 2) * Real.exp (-(1 / 4) * ω ^ 2)) * (|ω| + 4) ^ 2 := by
              gcongr
              nlinarith [abs_nonneg ω]
        _ = Real.exp (1 / 2) * ((|ω| + 4) ^ 2 * Real.exp (-(1 / 4) * ω ^ 2)) := by ring
        _ ≤ Real.exp (1 / 2) * (32 * Real.exp (-(3 / 16) * ω ^ 2)) :=
              mul_le_mul_of_nonneg_left (poly_le ω) (Real.exp_pos _).le
        _ = normalBound ω := by rw [normalBound]; ring
  · refine Eventually.of_forall fun ω l hl => ?_
    have hl' : |l| < 1 := by simpa using hl
    rw [hJ]
    exact normal_term_le hl' ω _ (hterm l hl' ω)

/-- The approximation `Normal(l, 1)` of a latent variable with a flat prior and an observation with log likelihood
`ω`. -/
noncomputable def normalVi' (l : ℝ) : ViProblem Unit Unit Unit ℝ where
  latents := [()]
  observed := [()]
  scaleZ := fun _ _ => 1
  scaleX := fun _ _ => 1
  logQ := fun _ ω _ => Real.log (normalQ l ω)
  logP := fun _ _ _ => 0
  logLik := fun _ ω _ => ω

theorem integrable_normal_mul : Integrable fun ω => normalQ 0 ω * ω := by
  have h : (fun ω => normalQ 0 ω * ω) = fun ω => (1 : ℝ) • normalQ' 0 ω 1 := by
    funext ω; simp [normalQ', mul_comm]
  refine integrable_normalBound.mono' ?_ (Eventually.of_forall fun ω => ?_)
  · have hm : Measurable (normalQ 0) := measurable_gaussianPDFReal 0 1
    exact (hm.mul measurable_id).aestronglyMeasurable
  · have h1 := normal_term_le (by simp : |(0 : ℝ)| < 1) ω 1 (by rw [abs_one]; linarith [abs_nonneg ω])
    have h2 := ((1 : ℝ) • normalQ' 0 ω).le_opNorm 1
    rw [congrFun h ω]
    refine le_trans ?_ h1
    simpa using h2

/-- The hypotheses of `C51_score_kl_general` and `C51_score_entropy_general` hold for it. -/
example {n : ℕ} (hn : 0 < n) :
    (∃ G : (Fin n → ℝ) → ℝ →L[ℝ] ℝ,
      (∀ᵐ d ∂Measure.pi (fun _ : Fin n => Spec.lawOf volume (normalQ 0)),
        HasFDerivAt (fun l => scoreKlSurrogate (normalVi' l) (normalVi' 0) n d (fun _ _ => 1) (fun _ _ => l ^ 2) 0) (G d) 0) ∧
      HasFDerivAt (fun l => ∫ d, reparamKlLoss (normalVi' l) n d (fun _ _ => 1) (fun _ _ => l ^ 2) 0
          ∂Measure.pi (fun _ : Fin n => Spec.lawOf volume (normalQ l)))
        (∫ d, G d ∂Measure.pi (fun _ : Fin n => Spec.lawOf volume (normalQ 0))) 0) ∧
    (∃ G : (Fin n → ℝ) → ℝ →L[ℝ] ℝ,
      (∀ᵐ d ∂Measure.pi (fun _ : Fin n => Spec.lawOf volume (normalQ 0)),
        HasFDerivAt (fun l => scoreEntropySurrogate (normalVi' l) (normalVi' 0) n d (fun _ _ => 1) 0) (G d) 0) ∧
      HasFDerivAt (fun l => ∫ d, reparamEntropyLoss (normalVi' l) n d (fun _ _ => 1) 0
          ∂Measure.pi (fun _ : Fin n => Spec.lawOf volume (normalQ l)))
        (∫ d, G d ∂Measure.pi (fun _ : Fin n => Spec.lawOf volume (normalQ 0))) 0) := by
  have hJ : ∀ l, Spec.logJoint (normalVi' l) = fun ω => ω := by
    intro l; funext ω; simp [Spec.logJoint, normalVi']
  have hL : ∀ l, Spec.logLik (normalVi' l) = fun ω => ω := by
    intro l; funext ω; simp [Spec.logLik, normalVi']
  have hQ : ∀ l ω, Spec.logApprox (normalVi' l) ω = Real.log (normalQ l ω) := by
    intro l ω; simp [Spec.logApprox, normalVi']
  have hb : ∀ᵐ ω, ∀ l ∈ Metric.ball (0 : ℝ) 1, ‖ω • normalQ' l ω‖ ≤ normalBound ω :=
    Eventually.of_forall fun ω l hl => normal_term_le (by simpa using hl) ω ω (by linarith)
  constructor
  · refine C51_score_kl_general scoreOk_normal normalVi' (fun _ => 0) (fun _ _ => 1) (fun l _ _ => l ^ 2) hn
      (Eventually.of_forall hQ) (Eventually.of_forall fun l ω => by rw [hL, hL]) (by rw [hL]; exact measurable_id)
      (by rw [hL]; exact integrable_normal_mul) (b := normalBound) integrable_normalBound (by rw [hL]; exact hb) ?_
      (differentiableAt_const _)
    have : (fun l => klPenalty (normalVi' l) (fun _ _ => 1) (fun _ _ => l ^ 2)) = fun l => l ^ 2 := by
      funext l; simp [klPenalty, normalVi']
    rw [this]
    fun_prop
  · refine C51_score_entropy_general scoreOk_normal normalVi' (fun _ => 0) (fun _ _ _ => 1) hn
      (Eventually.of_forall hQ) (Eventually.of_forall fun l ω => by rw [hJ, hJ]) (by rw [hJ]; exact measurable_id)
      (by rw [hJ]; exact integrable_normal_mul) (b := normalBound) integrable_normalBound (by rw [hJ]; exact hb) ?_
      (differentiableAt_const _)
    have : (fun l => qEntropy (normalVi' l) (fun _ _ => 1)) = fun _ => 1 := by
      funext l; simp [qEntropy, normalVi']
    rw [this]
    exact differentiableAt_const _

end gaussian

end Edward
