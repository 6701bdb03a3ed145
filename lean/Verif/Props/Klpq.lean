/-
C101: KLpq estimates KL(p || q) and its gradient. C102: KLpq with one sample.
C103: the gradient KLpq applies to the parameters of the model.
-/
import Mathlib.Analysis.Complex.ExponentialBounds
import Mathlib.Probability.StrongLaw
import Mathlib.Probability.Independence.InfinitePi
import Mathlib.MeasureTheory.Constructions.BorelSpace.ContinuousLinearMap
import Verif.Props.ScoreGradientGeneral

namespace Edward
open MeasureTheory Filter Topology ProbabilityTheory InformationTheory
variable {Z X I Ω : Type} [Fintype I]

/-- The problem with every factor of `scale` equal to one: KLpq does not use `scale` (C56). -/
def Spec.unscaled (v : ViProblem Z X I Ω) : ViProblem Z X I Ω :=
  { v with scaleZ := fun _ _ => 1, scaleX := fun _ _ => 1 }

/-! ### What the loops compute -/

theorem klpqLogProbs_eq (v : ViProblem Z X I Ω) (n : ℕ) (draws : Fin n → Ω) :
    klpqLogProbs v n draws = (List.ofFn fun s => Spec.logJoint (Spec.unscaled v) (draws s),
      List.ofFn fun s => Spec.logApprox (Spec.unscaled v) (draws s)) := by
  rw [klpqLogProbs, pLogProb_eq, qLogProb_eq]
  rfl

theorem klpqWeights_ofFn {n : ℕ} (hn : 0 < n) (f : Fin n → ℝ) :
    klpqWeights (List.ofFn f) = List.ofFn fun s => Real.exp (f s) / ∑ t, Real.exp (f t) := by
  rw [klpqWeights_eq _ (by simp; omega), List.map_ofFn, List.map_ofFn, List.sum_ofFn]
  rfl

theorem klpqLoss_eq (v : ViProblem Z X I Ω) {n : ℕ} (hn : 0 < n) (draws : Fin n → Ω) (reg : ℝ) (w : Fin n → ℝ)
    (hw : ∀ s, w s = Spec.logJoint (Spec.unscaled v) (draws s) - Spec.logApprox (Spec.unscaled v) (draws s)) :
    klpqLoss v n draws reg = (∑ s, Real.exp (w s) / (∑ t, Real.exp (w t)) * w s) - reg := by
  rw [klpqLoss, klpqLogProbs_eq]
  dsimp only
  rw [zipWith_ofFn, klpqWeights_ofFn hn, zipWith_ofFn, List.sum_ofFn]
  simp only [← hw]

theorem klpqSurrogate_eq (v' v : ViProblem Z X I Ω) {n : ℕ} (hn : 0 < n) (draws : Fin n → Ω) (reg : ℝ) (w : Fin n → ℝ)
    (hw : ∀ s, w s = Spec.logJoint (Spec.unscaled v) (draws s) - Spec.logApprox (Spec.unscaled v) (draws s)) :
    klpqSurrogate v' v n draws reg =
      -(∑ s, Spec.logApprox (Spec.unscaled v') (draws s) * (Real.exp (w s) / ∑ t, Real.exp (w t))) + reg := by
  rw [klpqSurrogate, klpqLogProbs_eq, klpqLogProbs_eq]
  dsimp only
  rw [zipWith_ofFn, klpqWeights_ofFn hn, zipWith_ofFn, List.sum_ofFn]
  simp only [← hw]
  ring

/-! ### C101 -/

section consistency
variable [MeasurableSpace Ω]
variable {E : Type} [NormedAddCommGroup E] [NormedSpace ℝ E]

/-- The strong law for functions of independent draws. -/
theorem tendsto_mean_draws {F : Type} [NormedAddCommGroup F] [NormedSpace ℝ F] [CompleteSpace F]
    (Q : Measure Ω) [IsProbabilityMeasure Q] {f : Ω → F} (hf : Integrable f Q) :
    ∀ᵐ d ∂Measure.infinitePi (fun _ : ℕ => Q),
      Tendsto (fun n : ℕ => (n : ℝ)⁻¹ • ∑ i ∈ Finset.range n, f (d i)) atTop (𝓝 (∫ ω, f ω ∂Q)) := by
  borelize F
  obtain ⟨g, hg, hfg⟩ := hf.aestronglyMeasurable
  have hgi : Integrable g Q := hf.congr hfg
  have hmp := fun i : ℕ => measurePreserving_eval_infinitePi (fun _ : ℕ => Q) i
  have hind := iIndepFun_infinitePi (P := fun _ : ℕ => Q) (X := fun _ => g) (fun _ => hg.measurable)
  have hlaw := strong_law_ae (fun (i : ℕ) (d : ℕ → Ω) => g (d i)) (μ := Measure.infinitePi (fun _ : ℕ => Q))
    ((hmp 0).integrable_comp_of_integrable hgi) (fun i j hij => hind.indepFun hij)
    (fun i => ⟨(hg.measurable.comp (hmp i).measurable).aemeasurable, (hg.measurable.comp (hmp 0).measurable).aemeasurable, by
      show Measure.map (g ∘ (Function.eval i : (ℕ → Ω) → Ω)) _ = Measure.map (g ∘ (Function.eval 0 : (ℕ → Ω) → Ω)) _
      rw [← Measure.map_map hg.measurable (hmp i).measurable, ← Measure.map_map hg.measurable (hmp 0).measurable,
        (hmp i).map_eq, (hmp 0).map_eq]⟩)
  have heq : ∀ᵐ d ∂Measure.infinitePi (fun _ : ℕ => Q), ∀ i : ℕ, f (d i) = g (d i) := by
    rw [ae_all_iff]
    exact fun i => (hmp i).quasiMeasurePreserving.ae hfg
  have hint : ∫ d, g (d 0) ∂Measure.infinitePi (fun _ : ℕ => Q) = ∫ ω, f ω ∂Q := by
    rw [integral_congr_ae hfg]
    conv_rhs => rw [← (hmp 0).map_eq]
    rw [integral_map (hmp 0).measurable.aemeasurable]
    rw [(hmp 0).map_eq]
    exact hgi.aestronglyMeasurable
  filter_upwards [hlaw, heq] with d hd he
  simp only [he]
  rw [← hint]
  exact hd

/-- Self-normalised averages of independent draws converge to the ratio of the integrals. -/
theorem tendsto_selfnormalised {F : Type} [NormedAddCommGroup F] [NormedSpace ℝ F] [CompleteSpace F]
    (Q : Measure Ω) [IsProbabilityMeasure Q] {r : Ω → ℝ} {g : Ω → F} (hr : Integrable r Q)
    (hrg : Integrable (fun ω => r ω • g ω) Q) (h0 : ∫ ω, r ω ∂Q ≠ 0) :
    ∀ᵐ d ∂Measure.infinitePi (fun _ : ℕ => Q),
      Tendsto (fun n : ℕ => ∑ s : Fin n, (r (d s) / ∑ t : Fin n, r (d t)) • g (d s)) atTop
        (𝓝 ((∫ ω, r ω ∂Q)⁻¹ • ∫ ω, r ω • g ω ∂Q)) := by
  filter_upwards [tendsto_mean_draws Q hr, tendsto_mean_draws Q hrg] with d h1 h2
  refine Tendsto.congr' ?_ ((h1.inv₀ h0).smul h2)
  filter_upwards [eventually_gt_atTop 0] with n hn
  have hn' : (n : ℝ) ≠ 0 := by positivity
  rw [Finset.sum_range, Finset.sum_range, smul_eq_mul, mul_inv, inv_inv, smul_smul, mul_right_comm,
    mul_inv_cancel₀ hn', one_mul, Finset.smul_sum]
  refine Finset.sum_congr rfl fun s _ => ?_
  rw [smul_smul, div_eq_inv_mul]

variable (μ : Measure Ω) [SigmaFinite μ]

/-- `KL(posterior || q) = E_posterior[log j - log q] - log evidence`. -/
theorem klDiv_from_posterior (q j : Ω → ℝ) (hq : ∀ ω, 0 < q ω) (hqm : Measurable q)
    (hq1 : ∫⁻ ω, ENNReal.ofReal (q ω) ∂μ = 1) (hj : ∀ ω, 0 < j ω) (hjm : Measurable j)
    (hfin : ∫⁻ ω, ENNReal.ofReal (j ω) ∂μ ≠ ⊤)
    (hint : Integrable (fun ω => Real.log (j ω) - Real.log (q ω)) (Spec.posterior μ j)) :
    (klDiv (Spec.posterior μ j) (Spec.lawOf μ q)).toReal =
      (∫ ω, (Real.log (j ω) - Real.log (q ω)) ∂Spec.posterior μ j) - Real.log (Spec.evidence μ j) := by
  have hμ : μ ≠ 0 := by rintro rfl; simp at hq1
  have hZ := evidence_pos μ j hj hjm hμ hfin
  have hpost := posterior_univ μ j hj hjm hμ hfin
  have hprob : IsProbabilityMeasure (Spec.posterior μ j) := ⟨hpost⟩
  have hev : Spec.evidence μ q = 1 := by rw [Spec.evidence, hq1]; rfl
  have hpq : Spec.posterior μ q = Spec.lawOf μ q := by
    rw [Spec.posterior, hev]; simp
  have hlog : ∀ ω, Real.log (j ω / Spec.evidence μ j) - Real.log (q ω) =
      (Real.log (j ω) - Real.log (q ω)) + -Real.log (Spec.evidence μ j) := fun ω => by
    rw [Real.log_div (hj ω).ne' hZ.ne']; ring
  have h := (klDiv_posterior μ (fun ω => j ω / Spec.evidence μ j) q (fun ω => (div_pos (hj ω) hZ).le)
    (hjm.div_const _) (by
      rw [Spec.posterior, Spec.lawOf, withDensity_apply _ MeasurableSet.univ, Measure.restrict_univ] at hpost
      exact hpost) hq hqm (by rw [hq1]; simp) (by
      simp_rw [hlog]
      exact hint.add (integrable_const _))).1
  rw [hpq, hev, Real.log_one, add_zero] at h
  rw [Spec.posterior, h]
  simp_rw [hlog]
  rw [← Spec.posterior, integral_add hint (integrable_const _)]
  simp; ring

omit [SigmaFinite μ] in
/-- Integrals with respect to the posterior, as integrals of importance ratios over draws from `q`. -/
theorem integral_posterior_ratio {F : Type} [NormedAddCommGroup F] [NormedSpace ℝ F] (q j : Ω → ℝ) (hq : ∀ ω, 0 < q ω)
    (hqm : Measurable q) (hj : ∀ ω, 0 < j ω) (hjm : Measurable j) (hZ : 0 < Spec.evidence μ j) (g : Ω → F) :
    (∫ ω, g ω ∂Spec.posterior μ j = (Spec.evidence μ j)⁻¹ • ∫ ω, (j ω / q ω) • g ω ∂Spec.lawOf μ q) ∧
    (Integrable g (Spec.posterior μ j) ↔ Integrable (fun ω => (j ω / q ω) • g ω) (Spec.lawOf μ q)) := by
  have e1 : ∀ (p : Ω → ℝ) (hp : ∀ ω, 0 < p ω) (hpm : Measurable p) (f : Ω → F),
      (∫ ω, f ω ∂Spec.lawOf μ p = ∫ ω, p ω • f ω ∂μ) ∧
      (Integrable f (Spec.lawOf μ p) ↔ Integrable (fun ω => p ω • f ω) μ) := by
    intro p hp hpm f
    constructor
    · rw [Spec.lawOf, integral_withDensity_eq_integral_toReal_smul hpm.ennreal_ofReal
        (Eventually.of_forall fun _ => ENNReal.ofReal_lt_top)]
      refine integral_congr_ae (Eventually.of_forall fun ω => ?_)
      show (ENNReal.ofReal (p ω)).toReal • f ω = _
      rw [ENNReal.toReal_ofReal (hp ω).le]
    · rw [Spec.lawOf, integrable_withDensity_iff_integrable_smul' hpm.ennreal_ofReal
        (Eventually.of_forall fun _ => ENNReal.ofReal_lt_top)]
      refine integrable_congr (Eventually.of_forall fun ω => ?_)
      show (ENNReal.ofReal (p ω)).toReal • f ω = _
      rw [ENNReal.toReal_ofReal (hp ω).le]
  have h1 := e1 (fun ω => j ω / Spec.evidence μ j) (fun ω => div_pos (hj ω) hZ) (hjm.div_const _) g
  have h2 := e1 q hq hqm (fun ω => (j ω / q ω) • g ω)
  have h3 : ∀ ω, (j ω / Spec.evidence μ j) • g ω = (Spec.evidence μ j)⁻¹ • (q ω • (j ω / q ω) • g ω) := fun ω => by
    have := (hq ω).ne'
    rw [smul_smul, smul_smul]; congr 1; field_simp
  constructor
  · rw [Spec.posterior, h1.1, h2.1, ← integral_smul]
    simp_rw [h3]
  · rw [Spec.posterior, h1.2, h2.2]
    simp_rw [h3]
    rw [integrable_fun_smul_iff (inv_ne_zero hZ.ne')]

omit [SigmaFinite μ] in
/-- The mean of the importance ratios is the evidence. -/
theorem integrable_ratio (q j : Ω → ℝ) (hq : ∀ ω, 0 < q ω) (hqm : Measurable q) (hj : ∀ ω, 0 < j ω)
    (hjm : Measurable j) (hZ : 0 < Spec.evidence μ j) [IsProbabilityMeasure (Spec.posterior μ j)] :
    Integrable (fun ω => j ω / q ω) (Spec.lawOf μ q) ∧ ∫ ω, j ω / q ω ∂Spec.lawOf μ q = Spec.evidence μ j := by
  have hone := integral_posterior_ratio μ q j hq hqm hj hjm hZ (fun _ => (1 : ℝ))
  refine ⟨by simpa using hone.2.mp (integrable_const _), ?_⟩
  have := hone.1
  simp only [smul_eq_mul, mul_one, integral_const, probReal_univ] at this
  field_simp at this
  linarith

/-- C101, the loss: with independent draws from the approximation, the loss of `n_samples` draws converges almost
surely, as `n_samples` grows, to `KL(posterior || q) + log evidence`, less the regularisation penalty (its sign is C79).
Without the penalty only the additive constant `log evidence` separates the limit from the divergence. -/
theorem C101_loss (v : ViProblem Z X I Ω) (q j : Ω → ℝ) (hq : ∀ ω, 0 < q ω) (hqm : Measurable q)
    (hq1 : ∫⁻ ω, ENNReal.ofReal (q ω) ∂μ = 1) (hj : ∀ ω, 0 < j ω) (hjm : Measurable j)
    (hfin : ∫⁻ ω, ENNReal.ofReal (j ω) ∂μ ≠ ⊤)
    (hQ : ∀ ω, Spec.logApprox (Spec.unscaled v) ω = Real.log (q ω))
    (hJ : ∀ ω, Spec.logJoint (Spec.unscaled v) ω = Real.log (j ω))
    (hint : Integrable (fun ω => Real.log (j ω) - Real.log (q ω)) (Spec.posterior μ j)) (reg : ℝ) :
    ∀ᵐ d ∂Measure.infinitePi (fun _ : ℕ => Spec.lawOf μ q),
      Tendsto (fun n : ℕ => klpqLoss v n (fun s => d s) reg) atTop
        (𝓝 ((klDiv (Spec.posterior μ j) (Spec.lawOf μ q)).toReal + Real.log (Spec.evidence μ j) - reg)) := by
  have hμ : μ ≠ 0 := by rintro rfl; simp at hq1
  have hZ := evidence_pos μ j hj hjm hμ hfin
  have hprob : IsProbabilityMeasure (Spec.lawOf μ q) :=
    ⟨by rw [Spec.lawOf, withDensity_apply _ MeasurableSet.univ, Measure.restrict_univ, hq1]⟩
  have hpp : IsProbabilityMeasure (Spec.posterior μ j) := ⟨posterior_univ μ j hj hjm hμ hfin⟩
  have hratio := fun g : Ω → ℝ => integral_posterior_ratio μ q j hq hqm hj hjm hZ g
  obtain ⟨hr, hrZ⟩ := integrable_ratio μ q j hq hqm hj hjm hZ
  have hlim := tendsto_selfnormalised (Spec.lawOf μ q) hr ((hratio _).2.mp hint) (by rw [hrZ]; exact hZ.ne')
  rw [klDiv_from_posterior μ q j hq hqm hq1 hj hjm hfin hint, sub_add_cancel, (hratio _).1, ← hrZ]
  filter_upwards [hlim] with d hd
  refine (hd.sub_const reg).congr' ?_
  filter_upwards [eventually_gt_atTop 0] with n hn
  have hw : ∀ s : Fin n, Real.log (j (d s)) - Real.log (q (d s)) =
      Spec.logJoint (Spec.unscaled v) (d s) - Spec.logApprox (Spec.unscaled v) (d s) := fun s => by rw [hQ, hJ]
  have he : ∀ s : Fin n, Real.exp (Real.log (j (d s)) - Real.log (q (d s))) = j (d s) / q (d s) := fun s => by
    rw [Real.exp_sub, Real.exp_log (hj _), Real.exp_log (hq _)]
  rw [klpqLoss_eq v hn _ reg _ hw]
  simp only [he, smul_eq_mul]

/-- The gradient of `KL(posterior || q)` in the parameters of `q`. -/
theorem hasFDerivAt_klDiv_from_posterior (q : E → Ω → ℝ) (q' : E → Ω → E →L[ℝ] ℝ) (j : Ω → ℝ)
    (l₀ : E) (s : Set E) (hs : s ∈ 𝓝 l₀) (hq : ∀ l ∈ s, ∀ ω, 0 < q l ω) (hqm : ∀ l ∈ s, Measurable (q l))
    (hq1 : ∀ l ∈ s, ∫⁻ ω, ENNReal.ofReal (q l ω) ∂μ = 1) (hj : ∀ ω, 0 < j ω) (hjm : Measurable j)
    (hfin : ∫⁻ ω, ENNReal.ofReal (j ω) ∂μ ≠ ⊤)
    (hint : Integrable (fun ω => Real.log (j ω) - Real.log (q l₀ ω)) (Spec.posterior μ j))
    (hdiff : ∀ ω, ∀ l ∈ s, HasFDerivAt (fun l => q l ω) (q' l ω) l)
    (hm' : AEStronglyMeasurable (fun ω => (q l₀ ω)⁻¹ • q' l₀ ω) (Spec.posterior μ j)) {b : Ω → ℝ}
    (hb : Integrable b (Spec.posterior μ j))
    (hbound : ∀ᵐ ω ∂Spec.posterior μ j, ∀ l ∈ s, ‖(q l ω)⁻¹ • q' l ω‖ ≤ b ω) :
    HasFDerivAt (fun l => (klDiv (Spec.posterior μ j) (Spec.lawOf μ (q l))).toReal)
      (-∫ ω, (q l₀ ω)⁻¹ • q' l₀ ω ∂Spec.posterior μ j) l₀ := by
  have hmq : ∀ l ∈ s, AEStronglyMeasurable (fun ω => Real.log (j ω) - Real.log (q l ω)) (Spec.posterior μ j) :=
    fun l hl => (hjm.log.sub (hqm l hl).log).aestronglyMeasurable
  have hd : ∀ᵐ ω ∂Spec.posterior μ j, ∀ l ∈ s,
      HasFDerivAt (fun l => Real.log (j ω) - Real.log (q l ω)) (-((q l ω)⁻¹ • q' l ω)) l :=
    Eventually.of_forall fun ω l hl => ((hdiff ω l hl).log (hq l hl ω).ne').const_sub _
  have hbd : ∀ᵐ ω ∂Spec.posterior μ j, ∀ l ∈ s, ‖-((q l ω)⁻¹ • q' l ω)‖ ≤ b ω := by
    filter_upwards [hbound] with ω h l hl
    rw [norm_neg]; exact h l hl
  have hmain : HasFDerivAt (fun l => ∫ ω, (Real.log (j ω) - Real.log (q l ω)) ∂Spec.posterior μ j)
      (∫ ω, -((q l₀ ω)⁻¹ • q' l₀ ω) ∂Spec.posterior μ j) l₀ :=
    hasFDerivAt_integral_of_dominated_of_fderiv_le (μ := Spec.posterior μ j)
      (F := fun l ω => Real.log (j ω) - Real.log (q l ω)) (F' := fun l ω => -((q l ω)⁻¹ • q' l ω)) (bound := b) hs
      (Eventually.mono hs hmq) hint hm'.neg hbd hb hd
  have hnear := integrable_near (A := fun l ω => Real.log (j ω) - Real.log (q l ω))
    (A' := fun l ω => -((q l ω)⁻¹ • q' l ω)) hs hmq hint hbd hb hd
  rw [integral_neg] at hmain
  refine (hmain.sub_const (Real.log (Spec.evidence μ j))).congr_of_eventuallyEq ?_
  filter_upwards [hnear, hs] with l hl hls
  exact klDiv_from_posterior μ (q l) j (hq l hls) (hqm l hls) (hq1 l hls) hj hjm hfin hl

omit [MeasurableSpace Ω] in
/-- The gradient of the function KLpq differentiates. -/
theorem hasFDerivAt_klpqSurrogate (v : E → ViProblem Z X I Ω) (q : E → Ω → ℝ) (q' : E → Ω → E →L[ℝ] ℝ) (j : Ω → ℝ)
    (l₀ : E) (s : Set E) (hs : s ∈ 𝓝 l₀) (hq : ∀ l ∈ s, ∀ ω, 0 < q l ω) (hj : ∀ ω, 0 < j ω)
    (hQ : ∀ l ∈ s, ∀ ω, Spec.logApprox (Spec.unscaled (v l)) ω = Real.log (q l ω))
    (hJ : ∀ ω, Spec.logJoint (Spec.unscaled (v l₀)) ω = Real.log (j ω))
    (hdiff : ∀ ω, ∀ l ∈ s, HasFDerivAt (fun l => q l ω) (q' l ω) l)
    (reg : E → ℝ) (hreg : DifferentiableAt ℝ reg l₀) {n : ℕ} (hn : 0 < n) (d : Fin n → Ω) :
    HasFDerivAt (fun l => klpqSurrogate (v l) (v l₀) n d (reg l))
      (-(∑ t, (j (d t) / q l₀ (d t) / ∑ u, j (d u) / q l₀ (d u)) • (q l₀ (d t))⁻¹ • q' l₀ (d t)) +
        fderiv ℝ reg l₀) l₀ := by
  have hl₀ := mem_of_mem_nhds hs
  have hw : ∀ t, Real.log (j (d t)) - Real.log (q l₀ (d t)) =
      Spec.logJoint (Spec.unscaled (v l₀)) (d t) - Spec.logApprox (Spec.unscaled (v l₀)) (d t) := fun t => by
    rw [hQ l₀ hl₀, hJ]
  have he : ∀ t, Real.exp (Real.log (j (d t)) - Real.log (q l₀ (d t))) = j (d t) / q l₀ (d t) := fun t => by
    rw [Real.exp_sub, Real.exp_log (hj _), Real.exp_log (hq l₀ hl₀ _)]
  have h1 : HasFDerivAt (fun l => -(∑ t, Real.log (q l (d t)) *
        (j (d t) / q l₀ (d t) / ∑ u, j (d u) / q l₀ (d u))) + reg l)
      (-(∑ t, (j (d t) / q l₀ (d t) / ∑ u, j (d u) / q l₀ (d u)) • (q l₀ (d t))⁻¹ • q' l₀ (d t)) +
        fderiv ℝ reg l₀) l₀ :=
    (HasFDerivAt.fun_sum fun t _ => ((hdiff (d t) l₀ hl₀).log (hq l₀ hl₀ _).ne').mul_const _).neg.add
      hreg.hasFDerivAt
  refine h1.congr_of_eventuallyEq ?_
  filter_upwards [hs] with l hl
  rw [klpqSurrogate_eq (v l) (v l₀) hn _ (reg l) _ hw]
  simp only [he, hQ l hl]

/-- C101, the gradient: the function differentiated for the parameters of the approximation has a gradient for every
`n_samples`, and as `n_samples` grows these gradients converge almost surely to the gradient of `KL(posterior || q)`
plus that of the penalty. -/
theorem C101_gradient (v : E → ViProblem Z X I Ω) (q : E → Ω → ℝ) (q' : E → Ω → E →L[ℝ] ℝ) (j : Ω → ℝ)
    (l₀ : E) (s : Set E) (hs : s ∈ 𝓝 l₀) (hq : ∀ l ∈ s, ∀ ω, 0 < q l ω) (hqm : ∀ l ∈ s, Measurable (q l))
    (hq1 : ∀ l ∈ s, ∫⁻ ω, ENNReal.ofReal (q l ω) ∂μ = 1) (hj : ∀ ω, 0 < j ω) (hjm : Measurable j)
    (hfin : ∫⁻ ω, ENNReal.ofReal (j ω) ∂μ ≠ ⊤)
    (hQ : ∀ l ∈ s, ∀ ω, Spec.logApprox (Spec.unscaled (v l)) ω = Real.log (q l ω))
    (hJ : ∀ ω, Spec.logJoint (Spec.unscaled (v l₀)) ω = Real.log (j ω))
    (hint : Integrable (fun ω => Real.log (j ω) - Real.log (q l₀ ω)) (Spec.posterior μ j))
    (hdiff : ∀ ω, ∀ l ∈ s, HasFDerivAt (fun l => q l ω) (q' l ω) l)
    (hm' : AEStronglyMeasurable (fun ω => (q l₀ ω)⁻¹ • q' l₀ ω) (Spec.posterior μ j)) {b : Ω → ℝ}
    (hb : Integrable b (Spec.posterior μ j))
    (hbound : ∀ᵐ ω ∂Spec.posterior μ j, ∀ l ∈ s, ‖(q l ω)⁻¹ • q' l ω‖ ≤ b ω)
    (reg : E → ℝ) (hreg : DifferentiableAt ℝ reg l₀) :
    ∃ D : E →L[ℝ] ℝ, HasFDerivAt (fun l => (klDiv (Spec.posterior μ j) (Spec.lawOf μ (q l))).toReal) D l₀ ∧
      ∀ᵐ d ∂Measure.infinitePi (fun _ : ℕ => Spec.lawOf μ (q l₀)), ∃ G : ℕ → E →L[ℝ] ℝ,
        (∀ n, 0 < n → HasFDerivAt (fun l => klpqSurrogate (v l) (v l₀) n (fun t => d t) (reg l)) (G n) l₀) ∧
        Tendsto G atTop (𝓝 (D + fderiv ℝ reg l₀)) := by
  refine ⟨_, hasFDerivAt_klDiv_from_posterior μ q q' j l₀ s hs hq hqm hq1 hj hjm hfin hint hdiff hm' hb hbound, ?_⟩
  have hl₀ := mem_of_mem_nhds hs
  have hμ : μ ≠ 0 := by rintro rfl; simpa using hq1 l₀ hl₀
  have hZ := evidence_pos μ j hj hjm hμ hfin
  have hprob : IsProbabilityMeasure (Spec.lawOf μ (q l₀)) :=
    ⟨by rw [Spec.lawOf, withDensity_apply _ MeasurableSet.univ, Measure.restrict_univ, hq1 l₀ hl₀]⟩
  have hpp : IsProbabilityMeasure (Spec.posterior μ j) := ⟨posterior_univ μ j hj hjm hμ hfin⟩
  obtain ⟨hr, hrZ⟩ := integrable_ratio μ (q l₀) j (hq l₀ hl₀) (hqm l₀ hl₀) hj hjm hZ
  have hgi : Integrable (fun ω => (q l₀ ω)⁻¹ • q' l₀ ω) (Spec.posterior μ j) :=
    hb.mono' hm' (hbound.mono fun ω h => h l₀ hl₀)
  obtain ⟨hg1, hg2⟩ := integral_posterior_ratio μ (q l₀) j (hq l₀ hl₀) (hqm l₀ hl₀) hj hjm hZ
    (fun ω => (q l₀ ω)⁻¹ • q' l₀ ω)
  have hlim := tendsto_selfnormalised (Spec.lawOf μ (q l₀)) hr (hg2.mp hgi) (by rw [hrZ]; exact hZ.ne')
  rw [hg1, ← hrZ]
  filter_upwards [hlim] with d hdl
  exact ⟨_, fun n hn => hasFDerivAt_klpqSurrogate v q q' j l₀ s hs hq hj hQ hJ hdiff reg hreg hn (fun t => d t),
    hdl.neg.add_const _⟩

/-! ### C102 -/

omit [SigmaFinite μ] in
/-- C102, one sample (the default): the function differentiated is `-log q`, whatever the model and the data, and the
expectation of its gradient over the draw is the gradient of the penalty alone. -/
theorem C102_one_sample {q : E → Ω → ℝ} {q' : E → Ω → E →L[ℝ] ℝ} {l₀ : E} {s : Set E} (h : ScoreOk μ q q' l₀ s)
    (hdiff : ∀ ω, ∀ l ∈ s, HasFDerivAt (fun l => q l ω) (q' l ω) l) (v : E → ViProblem Z X I Ω)
    (hQ : ∀ l ∈ s, ∀ ω, Spec.logApprox (Spec.unscaled (v l)) ω = Real.log (q l ω))
    (reg : E → ℝ) (hreg : DifferentiableAt ℝ reg l₀) :
    (∀ (v' v'' : ViProblem Z X I Ω) (d : Fin 1 → Ω) (r : ℝ),
      klpqSurrogate v' v'' 1 d r = -Spec.logApprox (Spec.unscaled v') (d 0) + r) ∧
    ∃ G : (Fin 1 → Ω) → E →L[ℝ] ℝ,
      (∀ d, HasFDerivAt (fun l => klpqSurrogate (v l) (v l₀) 1 d (reg l)) (G d) l₀) ∧
      ∫ d, G d ∂Measure.pi (fun _ : Fin 1 => Spec.lawOf μ (q l₀)) = fderiv ℝ reg l₀ := by
  have hone : ∀ (v' v'' : ViProblem Z X I Ω) (d : Fin 1 → Ω) (r : ℝ),
      klpqSurrogate v' v'' 1 d r = -Spec.logApprox (Spec.unscaled v') (d 0) + r := by
    intro v' v'' d r
    rw [klpqSurrogate_eq v' v'' Nat.one_pos d r _ fun _ => rfl]
    simp
  refine ⟨hone, fun d => -((q l₀ (d 0))⁻¹ • q' l₀ (d 0)) + fderiv ℝ reg l₀, fun d => ?_, ?_⟩
  · have h1 : HasFDerivAt (fun l => -Real.log (q l (d 0)) + reg l)
        (-((q l₀ (d 0))⁻¹ • q' l₀ (d 0)) + fderiv ℝ reg l₀) l₀ :=
      ((hdiff (d 0) l₀ h.mem).log (h.pos l₀ h.mem _).ne').neg.add hreg.hasFDerivAt
    refine h1.congr_of_eventuallyEq ?_
    filter_upwards [h.nhds] with l hl
    rw [hone, hQ l hl]
  · have hp := h.prob h.mem
    have hmp := measurePreserving_eval (fun _ : Fin 1 => Spec.lawOf μ (q l₀)) 0
    have hne : ∀ ω, q l₀ ω • (q l₀ ω)⁻¹ • q' l₀ ω = q' l₀ ω := fun ω => by
      rw [smul_smul, mul_inv_cancel₀ (h.pos l₀ h.mem ω).ne', one_smul]
    have hi : Integrable (fun ω => (q l₀ ω)⁻¹ • q' l₀ ω) (Spec.lawOf μ (q l₀)) := by
      rw [h.integrable_law h.mem]
      simp_rw [hne]
      obtain ⟨b, hb, hbound⟩ := h.bound
      exact hb.mono' h.meas' (hbound.mono fun ω hω => hω l₀ h.mem)
    have hi' : Integrable (fun d : Fin 1 → Ω => (q l₀ (d 0))⁻¹ • q' l₀ (d 0))
        (Measure.pi fun _ : Fin 1 => Spec.lawOf μ (q l₀)) := hmp.integrable_comp_of_integrable hi
    have hz : ∫ ω, (q l₀ ω)⁻¹ • q' l₀ ω ∂Spec.lawOf μ (q l₀) = 0 := by
      rw [h.integral_law h.mem]
      simp_rw [hne]
      exact h.integral_q'
    have hz' : ∫ d : Fin 1 → Ω, (q l₀ (d 0))⁻¹ • q' l₀ (d 0) ∂Measure.pi (fun _ : Fin 1 => Spec.lawOf μ (q l₀)) = 0 := by
      rw [← hz]
      conv_rhs => rw [← hmp.map_eq]
      rw [integral_map hmp.measurable.aemeasurable]
      rw [hmp.map_eq]; exact hi.aestronglyMeasurable
    have := integral_add hi'.neg (integrable_const (fderiv ℝ reg l₀))
    simp only [Pi.neg_apply] at this
    rw [this, integral_neg, hz']
    simp

/-- A Bernoulli approximation with probability `1/2 + l`. -/
noncomputable def coinQ (l : ℝ) (b : Bool) : ℝ := if b then 1 / 2 + l else 1 / 2 - l

noncomputable def coinQ' (_l : ℝ) (b : Bool) : ℝ →L[ℝ] ℝ := (if b then (1 : ℝ) else -1) • ContinuousLinearMap.id ℝ ℝ

/-- A joint density with posterior probability `3/4`. -/
noncomputable def coinJ (b : Bool) : ℝ := if b then 3 / 4 else 1 / 4

/-- The inference problem with these densities. -/
noncomputable def coinProblem (l : ℝ) : ViProblem Unit Empty Unit Bool where
  latents := [()]
  observed := []
  scaleZ := fun _ _ => 1
  scaleX := fun _ _ => 1
  logQ := fun _ b _ => Real.log (coinQ l b)
  logP := fun _ b _ => Real.log (coinJ b)
  logLik := fun _ _ _ => 0

theorem coinQ_pos {l : ℝ} (hl : l ∈ Metric.ball (0 : ℝ) (1 / 4)) (b : Bool) : 1 / 4 < coinQ l b := by
  rw [Metric.mem_ball, Real.dist_eq, sub_zero, abs_lt] at hl
  rw [coinQ]; split <;> linarith [hl.1, hl.2]

theorem coinJ_pos (b : Bool) : 0 < coinJ b := by rw [coinJ]; split <;> norm_num

theorem lintegral_coin (f : Bool → ℝ) (h : ∀ b, 0 ≤ f b) :
    ∫⁻ b, ENNReal.ofReal (f b) ∂Measure.count = ENNReal.ofReal (f true + f false) := by
  rw [lintegral_count, tsum_fintype, Fintype.sum_bool, ENNReal.ofReal_add (h _) (h _)]

theorem evidence_coin : Spec.evidence Measure.count coinJ = 1 := by
  rw [Spec.evidence, lintegral_coin _ fun b => (coinJ_pos b).le]
  norm_num [coinJ]

theorem hasFDerivAt_coinQ (b : Bool) (l : ℝ) : HasFDerivAt (fun l => coinQ l b) (coinQ' l b) l := by
  cases b
  · refine (((hasFDerivAt_id l).const_sub (1 / 2)).congr_fderiv ?_)
    ext; simp [coinQ']
  · refine (((hasFDerivAt_id l).const_add (1 / 2)).congr_fderiv ?_)
    ext; simp [coinQ']

theorem norm_coinQ' (l : ℝ) (b : Bool) : ‖coinQ' l b‖ = 1 := by
  rw [coinQ', norm_smul]; cases b <;> simp

theorem coin_scoreOk : ScoreOk Measure.count coinQ coinQ' 0 (Metric.ball (0 : ℝ) (1 / 4)) where
  nhds := Metric.ball_mem_nhds _ (by norm_num)
  meas := fun _ _ => measurable_of_finite _
  pos := fun l hl b => lt_trans (by norm_num) (coinQ_pos hl b)
  one := fun l hl => by
    rw [lintegral_coin _ fun b => (lt_trans (by norm_num) (coinQ_pos hl b)).le]
    norm_num [coinQ]
  diff := Eventually.of_forall fun b l _ => hasFDerivAt_coinQ b l
  meas' := (StronglyMeasurable.of_discrete).aestronglyMeasurable
  bound := ⟨fun _ => 1, integrable_const _, Eventually.of_forall fun b l _ => (norm_coinQ' l b).le⟩

theorem coin_posterior : IsProbabilityMeasure (Spec.posterior Measure.count coinJ) :=
  ⟨posterior_univ _ _ coinJ_pos (measurable_of_finite _) (by
    intro h
    have := congrArg (· {true}) h
    simp at this) (by
    rw [lintegral_coin _ fun b => (coinJ_pos b).le]; exact ENNReal.ofReal_ne_top)⟩

theorem integral_coin_posterior {F : Type} [NormedAddCommGroup F] [NormedSpace ℝ F] [CompleteSpace F] (g : Bool → F) :
    ∫ b, g b ∂Spec.posterior Measure.count coinJ = (3 / 4 : ℝ) • g true + (1 / 4 : ℝ) • g false := by
  have h := (integral_posterior_ratio Measure.count (fun _ => 1) coinJ (fun _ => one_pos) measurable_const coinJ_pos
    (measurable_of_finite _) (by rw [evidence_coin]; exact one_pos) g).1
  rw [h, evidence_coin, Spec.lawOf]
  simp [coinJ, integral_fintype, measureReal_def]

/-- The hypotheses of `C101_loss` and `C101_gradient` hold for the coin. -/
theorem coin_hypotheses :
    (∫⁻ b, ENNReal.ofReal (coinJ b) ∂Measure.count ≠ ⊤) ∧
    (∀ l b, Spec.logApprox (Spec.unscaled (coinProblem l)) b = Real.log (coinQ l b)) ∧
    (∀ b, Spec.logJoint (Spec.unscaled (coinProblem 0)) b = Real.log (coinJ b)) ∧
    Integrable (fun b => Real.log (coinJ b) - Real.log (coinQ 0 b)) (Spec.posterior Measure.count coinJ) ∧
    AEStronglyMeasurable (fun b => (coinQ 0 b)⁻¹ • coinQ' 0 b) (Spec.posterior Measure.count coinJ) ∧
    ∀ᵐ b ∂Spec.posterior Measure.count coinJ, ∀ l ∈ Metric.ball (0 : ℝ) (1 / 4), ‖(coinQ l b)⁻¹ • coinQ' l b‖ ≤ 4 := by
  have := coin_posterior
  refine ⟨?_, fun l b => ?_, fun b => ?_, Integrable.of_finite, StronglyMeasurable.of_discrete.aestronglyMeasurable,
    Eventually.of_forall fun b l hl => ?_⟩
  · rw [lintegral_coin _ fun b => (coinJ_pos b).le]; exact ENNReal.ofReal_ne_top
  · simp [Spec.logApprox, Spec.unscaled, coinProblem]
  · simp [Spec.logJoint, Spec.unscaled, coinProblem]
  · have h := coinQ_pos hl b
    rw [norm_smul, norm_coinQ', mul_one, norm_inv, Real.norm_of_nonneg (lt_trans (by norm_num) h).le]
    rw [inv_le_comm₀ (lt_trans (by norm_num) h) (by norm_num)]
    linarith

/-- C101 on the coin: the gradients converge to `-1` times the identity. -/
example : ∀ᵐ d ∂Measure.infinitePi (fun _ : ℕ => Spec.lawOf Measure.count (coinQ 0)), ∃ (G : ℕ → ℝ →L[ℝ] ℝ) (D : ℝ →L[ℝ] ℝ),
    (∀ n, 0 < n → HasFDerivAt (fun l => klpqSurrogate (coinProblem l) (coinProblem 0) n (fun t => d t) 0) (G n) 0) ∧
    Tendsto G atTop (𝓝 D) := by
  obtain ⟨h1, h2, h3, h4, h5, h6⟩ := coin_hypotheses
  have := coin_posterior
  obtain ⟨D, _, hG⟩ := C101_gradient Measure.count coinProblem coinQ coinQ' coinJ 0 _ coin_scoreOk.nhds coin_scoreOk.pos
    coin_scoreOk.meas coin_scoreOk.one coinJ_pos (measurable_of_finite _) h1 (fun l _ => h2 l) h3 h4
    (fun b l _ => hasFDerivAt_coinQ b l) h5 (integrable_const 4) h6 (fun _ => 0) (differentiableAt_const _)
  filter_upwards [hG] with d hd
  obtain ⟨G, hG1, hG2⟩ := hd
  exact ⟨G, _, hG1, hG2⟩

/-- C102 fails with one sample, the default: here the gradient of `KL(posterior || q)` is not zero, but the gradient
applied has expectation zero. -/
theorem C102_fails :
    ∃ D : ℝ →L[ℝ] ℝ, D ≠ 0 ∧
      HasFDerivAt (fun l => (klDiv (Spec.posterior Measure.count coinJ) (Spec.lawOf Measure.count (coinQ l))).toReal) D 0 ∧
      ∃ G : (Fin 1 → Bool) → ℝ →L[ℝ] ℝ,
        (∀ d, HasFDerivAt (fun l => klpqSurrogate (coinProblem l) (coinProblem 0) 1 d 0) (G d) 0) ∧
        ∫ d, G d ∂Measure.pi (fun _ : Fin 1 => Spec.lawOf Measure.count (coinQ 0)) = 0 := by
  obtain ⟨h1, h2, h3, h4, h5, h6⟩ := coin_hypotheses
  have := coin_posterior
  have hkl := hasFDerivAt_klDiv_from_posterior Measure.count coinQ coinQ' coinJ 0 _ coin_scoreOk.nhds coin_scoreOk.pos
    coin_scoreOk.meas coin_scoreOk.one coinJ_pos (measurable_of_finite _) h1 h4
    (fun b l _ => hasFDerivAt_coinQ b l) h5 (integrable_const 4) h6
  refine ⟨_, ?_, hkl, ?_⟩
  · rw [integral_coin_posterior]
    intro h
    have := congrArg (fun L : ℝ →L[ℝ] ℝ => L 1) h
    norm_num [coinQ, coinQ'] at this
  · obtain ⟨_, G, hG1, hG2⟩ := C102_one_sample Measure.count coin_scoreOk (fun b l _ => hasFDerivAt_coinQ b l) coinProblem
      (fun l _ => h2 l) (fun _ => 0) (differentiableAt_const _)
    exact ⟨G, hG1, by rw [hG2]; simp⟩

end consistency

/-! ### C103 -/

section model
variable {E : Type} [NormedAddCommGroup E] [NormedSpace ℝ E]

/-- The self-normalised weight of a draw. -/
noncomputable def Spec.selfWeight {n : ℕ} (w : Fin n → ℝ) (s : Fin n) : ℝ := Real.exp (w s) / ∑ t, Real.exp (w t)

/-- C103: the gradient applied to a parameter of the model. With `w` the log weights, every draw counts with its weight
times `1 + w - mean of w`, where the weight alone would give the documented gradient of
`-E[log p(x, z)]` over the posterior. -/
theorem C103_gradient_partial (v : E → ViProblem Z X I Ω) (l₀ : E) {n : ℕ} (hn : 0 < n) (d : Fin n → Ω)
    (p' : Fin n → E →L[ℝ] ℝ)
    (hP : ∀ s, HasFDerivAt (fun l => Spec.logJoint (Spec.unscaled (v l)) (d s)) (p' s) l₀)
    (hQ : ∀ᶠ l in 𝓝 l₀, ∀ s, Spec.logApprox (Spec.unscaled (v l)) (d s) = Spec.logApprox (Spec.unscaled (v l₀)) (d s))
    (w : Fin n → ℝ)
    (hw : ∀ s, w s = Spec.logJoint (Spec.unscaled (v l₀)) (d s) - Spec.logApprox (Spec.unscaled (v l₀)) (d s))
    (reg : E → ℝ) (hreg : DifferentiableAt ℝ reg l₀) :
    HasFDerivAt (fun l => -klpqLoss (v l) n d (reg l))
      (-(∑ s, (Spec.selfWeight w s * (1 + (w s - ∑ t, Spec.selfWeight w t * w t))) • p' s) + fderiv ℝ reg l₀) l₀ := by
  have hne : Nonempty (Fin n) := ⟨⟨0, hn⟩⟩
  set W : E → Fin n → ℝ := fun l s =>
    Spec.logJoint (Spec.unscaled (v l)) (d s) - Spec.logApprox (Spec.unscaled (v l₀)) (d s) with hWdef
  have hW0 : W l₀ = w := by funext s; rw [hWdef, hw]
  have hW : ∀ s, HasFDerivAt (fun l => W l s) (p' s) l₀ := fun s => (hP s).sub_const _
  have hE : ∀ s, HasFDerivAt (fun l => Real.exp (W l s)) (Real.exp (w s) • p' s) l₀ := fun s => by
    have := (hW s).exp
    rwa [hW0] at this
  set S : ℝ := ∑ t, Real.exp (w t) with hS
  have hSpos : 0 < S := Finset.sum_pos (fun t _ => Real.exp_pos _) Finset.univ_nonempty
  have hA : HasFDerivAt (fun l => ∑ s, Real.exp (W l s) * W l s)
      (∑ s, (Real.exp (w s) * (1 + w s)) • p' s) l₀ := by
    refine HasFDerivAt.fun_sum fun s _ => ?_
    refine ((hE s).mul (hW s)).congr_fderiv ?_
    rw [hW0]; module
  have hB : HasFDerivAt (fun l => ∑ s, Real.exp (W l s)) (∑ s, Real.exp (w s) • p' s) l₀ :=
    HasFDerivAt.fun_sum fun s _ => hE s
  have hB0 : (∑ s, Real.exp (W l₀ s)) ≠ 0 := by rw [hW0]; exact hSpos.ne'
  have hdiv := (hA.mul ((hasDerivAt_inv hB0).comp_hasFDerivAt l₀ hB)).neg.add hreg.hasFDerivAt
  refine (hdiv.congr_of_eventuallyEq ?_).congr_fderiv ?_
  · filter_upwards [hQ] with l hl
    rw [klpqLoss_eq (v l) hn d (reg l) (W l) fun s => by rw [hl]]
    simp only [Pi.add_apply, Pi.neg_apply, Pi.mul_apply, Function.comp, Finset.sum_mul]
    rw [neg_sub, sub_eq_neg_add]
    congr 2
    exact Finset.sum_congr rfl fun s _ => by ring
  · congr 2
    simp only [hW0, ← hS, Function.comp, Finset.smul_sum, smul_smul]
    rw [← Finset.sum_add_distrib]
    refine Finset.sum_congr rfl fun s _ => ?_
    simp only [← add_smul, Spec.selfWeight, ← hS]
    congr 1
    have hm : ∑ t, Real.exp (w t) / S * w t = (∑ t, Real.exp (w t) * w t) / S := by
      rw [Finset.sum_div]; exact Finset.sum_congr rfl fun t _ => by ring
    rw [hm]
    have := hSpos.ne'
    field_simp
    ring

/-- C103 holds for one sample: the gradient is that of `-log p(x, z)` at the draw. -/
theorem C103_one_partial (v : E → ViProblem Z X I Ω) (l₀ : E) (d : Fin 1 → Ω) (p' : E →L[ℝ] ℝ)
    (hP : HasFDerivAt (fun l => Spec.logJoint (Spec.unscaled (v l)) (d 0)) p' l₀)
    (hQ : ∀ᶠ l in 𝓝 l₀, ∀ s, Spec.logApprox (Spec.unscaled (v l)) (d s) = Spec.logApprox (Spec.unscaled (v l₀)) (d s))
    (reg : E → ℝ) (hreg : DifferentiableAt ℝ reg l₀) :
    HasFDerivAt (fun l => -klpqLoss (v l) 1 d (reg l)) (-p' + fderiv ℝ reg l₀) l₀ := by
  have := C103_gradient_partial v l₀ Nat.one_pos d (fun _ => p') (fun s => by rw [Fin.fin_one_eq_zero s]; exact hP) hQ _
    (fun _ => rfl) reg hreg
  refine this.congr_fderiv ?_
  simp [Spec.selfWeight]

/-- Two draws with log weights `log 9` and `0`; the parameter of the model enters the log density of the second. -/
noncomputable def emExample (l : ℝ) : ViProblem Unit Empty Unit Bool where
  latents := [()]
  observed := []
  scaleZ := fun _ _ => 1
  scaleX := fun _ _ => 1
  logQ := fun _ _ _ => 0
  logP := fun _ b _ => if b then Real.log 9 else l
  logLik := fun _ _ _ => 0

/-- C103 fails for more samples: the gradient applied and the gradient of the documented objective
`-sum of w_norm log p(x, z)` have opposite signs. -/
theorem C103_fails :
    ∃ g : ℝ, HasDerivAt (fun l => -klpqLoss (emExample l) 2 ![true, false] 0) g 0 ∧ 0 < g ∧
      HasDerivAt (fun l => -∑ s, Spec.selfWeight ![Real.log 9, 0] s *
        Spec.logJoint (Spec.unscaled (emExample l)) ((![true, false] : Fin 2 → Bool) s)) (-(1 / 10)) 0 := by
  have hlog : (10 / 9 : ℝ) < Real.log 9 := by
    rw [Real.lt_log_iff_exp_lt (by norm_num)]
    have h1 : Real.exp (10 / 9) < Real.exp 2 := Real.exp_lt_exp.mpr (by norm_num)
    have h2 : Real.exp 2 = Real.exp 1 * Real.exp 1 := by rw [← Real.exp_add]; norm_num
    have h3 := Real.exp_one_lt_d9
    have h4 := Real.exp_pos 1
    nlinarith
  have hJ : ∀ l b, Spec.logJoint (Spec.unscaled (emExample l)) b = if b then Real.log 9 else l := fun l b => by
    simp [Spec.logJoint, Spec.unscaled, emExample]
  have hQ : ∀ l b, Spec.logApprox (Spec.unscaled (emExample l)) b = 0 := fun l b => by
    simp [Spec.logApprox, Spec.unscaled, emExample]
  have h := C103_gradient_partial emExample 0 (n := 2) (by norm_num) ![true, false] ![0, ContinuousLinearMap.id ℝ ℝ]
    (fun s => by
      simp_rw [hJ]
      fin_cases s
      · exact hasFDerivAt_const _ _
      · exact hasFDerivAt_id _)
    (Eventually.of_forall fun l s => by rw [hQ, hQ]) ![Real.log 9, 0]
    (fun s => by rw [hJ, hQ]; fin_cases s <;> simp) (fun _ => 0) (differentiableAt_const _)
  refine ⟨_, h.hasDerivAt, ?_, ?_⟩
  · simp [Spec.selfWeight, Fin.sum_univ_two, Real.exp_log (show (0 : ℝ) < 9 by norm_num)]
    linarith
  · simp_rw [hJ]
    simp only [Fin.sum_univ_two, Spec.selfWeight, Matrix.cons_val_zero, Matrix.cons_val_one,
      Real.exp_log (show (0 : ℝ) < 9 by norm_num), Real.exp_zero, if_true, Bool.false_eq_true, if_false]
    have := (((hasDerivAt_id (0 : ℝ)).const_mul (1 / 10)).const_add (9 / 10 * Real.log 9)).neg
    refine (this.congr_of_eventuallyEq (Eventually.of_forall fun l => ?_)).congr_deriv (by norm_num)
    simp only [Pi.neg_apply, id]
    ring

end model
end Edward
