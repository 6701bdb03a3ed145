/-
C124 for the score function gradients of KLqp, which also serve discrete latent variables.
-/
import Verif.Props.Descent
import Verif.Props.ScoreGradientGeneral
import Verif.Props.DirichletLaw
import Mathlib.Analysis.SpecialFunctions.Sigmoid

namespace Edward
set_option linter.unusedSectionVars false
open MeasureTheory Filter Topology ProbabilityTheory InformationTheory

section
variable {Z X I Θ N : Type} [Fintype I] [MeasurableSpace Θ] [MeasurableSpace N]
  {E : Type} [NormedAddCommGroup E] [InnerProductSpace ℝ E] [CompleteSpace E] [MeasurableSpace E] [BorelSpace E] [SecondCountableTopology E]
  {v : E → ViProblem Z X I Θ} {T : E → N → Θ} {ν : Measure N} [IsProbabilityMeasure ν]

/-- The score function gradients of `KLqp` are right on average. -/
theorem score_mean {μ : Measure Θ} [SigmaFinite μ] {q : E → Θ → ℝ} {j : Θ → ℝ} (h : KlqpOk v T ν μ q j) {n : ℕ} (hn : 0 < n) {l₀ : E}
    {q' : E → Θ → E →L[ℝ] ℝ} {s : Set E} (hs : ScoreOk μ q q' l₀ s) (hpos : ∀ l ω, 0 < q l ω) {b : Θ → ℝ} (hb : Integrable b μ)
    (hbound : ∀ᵐ ω ∂μ, ∀ l ∈ s, ‖(Real.log (q l ω) - Real.log (j ω)) • q' l ω‖ ≤ b ω)
    (hm : AEStronglyMeasurable (fun d : Fin n → Θ => scoreGradient v n l₀ d) (Measure.pi fun _ => Spec.lawOf μ (q l₀))) :
    HasGradientAt (fun l => (klDiv (Spec.lawOf μ (q l)) (Spec.posterior μ j)).toReal)
      (∫ d, scoreGradient v n l₀ (fun t => T l₀ (d t)) ∂Measure.pi fun _ : Fin n => ν) l₀ := by
  have hJ : Spec.logJoint (v l₀) = fun ω => Real.log (j ω) := funext (h.joint l₀)
  have hi : Integrable (fun ω => q l₀ ω * (Real.log (q l₀ ω) - Spec.logJoint (v l₀) ω)) μ := by
    rw [hJ]
    exact (hs.integrable_law hs.mem _).mp (h.int l₀)
  obtain ⟨G, hG1, hG2⟩ := C51_score_general hs v (fun _ => 0) hn (Eventually.of_forall fun l ω => h.approx l ω (hpos l ω))
    (Eventually.of_forall fun l ω => by rw [h.joint, h.joint]) (by rw [hJ]; exact Real.measurable_log.comp h.jmeas) hi hb
    (by rw [hJ]; exact hbound) (differentiableAt_const _)
  have hobj : (fun l => ∫ d, scoreLoss (v l) n d 0 ∂Measure.pi fun _ : Fin n => Spec.lawOf μ (q l)) =
      fun l => (klDiv (Spec.lawOf μ (q l)) (Spec.posterior μ j)).toReal - Real.log (Spec.evidence μ j) := by
    funext l
    exact (C50_bound (v l) μ (q l) j (h.nonneg l) (h.meas l) (h.one l) h.pos h.jmeas h.fin (h.int l) (h.approx l) (h.joint l) hn).2.1
  have hprob := hs.prob hs.mem
  have hGa : G =ᵐ[Measure.pi fun _ : Fin n => Spec.lawOf μ (q l₀)] fun d => InnerProductSpace.toDual ℝ E (scoreGradient v n l₀ d) := by
    filter_upwards [hG1] with d hd
    have hg : HasGradientAt (fun l => scoreSurrogate (v l) (v l₀) n d 0) ((InnerProductSpace.toDual ℝ E).symm (G d)) l₀ := by
      rw [hasGradientAt_iff_hasFDerivAt]
      simpa using hd
    rw [scoreGradient, hg.gradient]
    simp
  have hpi : (Measure.pi fun _ : Fin n => Spec.lawOf μ (q l₀)) = (Measure.pi fun _ : Fin n => ν).map fun d t => T l₀ (d t) := by
    have : ∀ i : Fin n, SigmaFinite (ν.map (T l₀)) := fun i => by rw [h.law l₀]; infer_instance
    rw [Measure.pi_map_pi fun i => (h.sampler l₀).aemeasurable, h.law l₀]
  have hTm : Measurable fun (d : Fin n → N) t => T l₀ (d t) := measurable_pi_lambda _ fun t => (h.sampler l₀).comp (measurable_pi_apply t)
  have e : ∫ d, G d ∂Measure.pi (fun _ : Fin n => Spec.lawOf μ (q l₀)) =
      InnerProductSpace.toDual ℝ E (∫ d, scoreGradient v n l₀ (fun t => T l₀ (d t)) ∂Measure.pi fun _ : Fin n => ν) := by
    rw [integral_congr_ae hGa]
    have h1 : ∫ d, scoreGradient v n l₀ d ∂Measure.pi (fun _ : Fin n => Spec.lawOf μ (q l₀)) =
        ∫ d, scoreGradient v n l₀ (fun t => T l₀ (d t)) ∂Measure.pi fun _ : Fin n => ν := by
      rw [hpi] at hm ⊢
      exact integral_map hTm.aemeasurable hm
    rw [← h1]
    exact (InnerProductSpace.toDual ℝ E).toContinuousLinearEquiv.integral_comp_comm _
  rw [hobj, e] at hG2
  rw [hasGradientAt_iff_hasFDerivAt]
  have := hG2.add_const (Real.log (Spec.evidence μ j))
  simpa using this

/-- The gradient of one draw: the loss of the draw times the score. -/
noncomputable def scoreOne (v : E → ViProblem Z X I Θ) (l : E) (ω : Θ) : E :=
  (Spec.logApprox (v l) ω - Spec.logJoint (v l) ω) • gradient (fun l' => Spec.logApprox (v l') ω) l

theorem scoreGradient_eq (hd : ∀ l ω, DifferentiableAt ℝ (fun l' => Spec.logApprox (v l') ω) l) (n : ℕ) (l : E) (d : Fin n → Θ) :
    scoreGradient v n l d = (n : ℝ)⁻¹ • ∑ s, scoreOne v l (d s) := by
  refine HasGradientAt.gradient ?_
  have e : (fun l' => scoreSurrogate (v l') (v l) n d 0) =
      fun l' => (n : ℝ)⁻¹ * ∑ s, (Spec.logApprox (v l) (d s) - Spec.logJoint (v l) (d s)) * Spec.logApprox (v l') (d s) := by
    funext l'
    rw [scoreSurrogate, pLogProb_eq, qLogProb_eq, qLogProb_eq, zipWith_ofFn, zipWith_ofFn, listMean_ofFn, Spec.average, sub_zero, ← neg_div,
      ← Finset.sum_neg_distrib, div_eq_inv_mul]
    congr 1
    refine Finset.sum_congr rfl fun s _ => ?_
    simp only [Spec.logApprox, Spec.logJoint]
    ring
  rw [e, hasGradientAt_iff_hasFDerivAt]
  have h2 := (HasFDerivAt.fun_sum (u := Finset.univ) fun (s : Fin n) _ => (hd l (d s)).hasGradientAt.hasFDerivAt.const_mul
    (Spec.logApprox (v l) (d s) - Spec.logJoint (v l) (d s))).const_mul (n : ℝ)⁻¹
  have e2 : InnerProductSpace.toDual ℝ E ((n : ℝ)⁻¹ • ∑ s, scoreOne v l (d s)) =
      (n : ℝ)⁻¹ • ∑ s, (Spec.logApprox (v l) (d s) - Spec.logJoint (v l) (d s)) •
        InnerProductSpace.toDual ℝ E (gradient (fun l' => Spec.logApprox (v l') (d s)) l) := by
    rw [map_smulₛₗ, map_sum]
    simp only [scoreOne, map_smulₛₗ]
    rfl
  rw [e2]
  exact h2

/-- Conditions on the score function gradients of one draw: the densities are positive, differentiable and dominated, and the
gradients are Lipschitz on average with mean square growing at most like the divergence. -/
structure ScoreDescent (v : E → ViProblem Z X I Θ) (T : E → N → Θ) (ν : Measure N) (μ : Measure Θ) (q : E → Θ → ℝ) (j : Θ → ℝ) : Prop where
  pos : ∀ l ω, 0 < q l ω
  diff : ∀ l ω, DifferentiableAt ℝ (fun l' => q l' ω) l
  score : ∀ l₀, ∃ (q' : E → Θ → E →L[ℝ] ℝ) (s : Set E) (b : Θ → ℝ), ScoreOk μ q q' l₀ s ∧ Integrable b μ ∧
    ∀ᵐ ω ∂μ, ∀ l ∈ s, ‖(Real.log (q l ω) - Real.log (j ω)) • q' l ω‖ ≤ b ω
  meas : Measurable fun p : E × N => scoreOne v p.1 (T p.1 p.2)
  measOne : ∀ l, Measurable (scoreOne v l)
  lip : ∃ K, ∀ x y, ‖∫ ε, scoreOne v x (T x ε) ∂ν - ∫ ε, scoreOne v y (T y ε) ∂ν‖ ≤ K * ‖x - y‖
  sq : ∀ l, MemLp (fun ε => scoreOne v l (T l ε)) 2 ν
  bound : ∃ A B, ∀ l, ∫ ε, ‖scoreOne v l (T l ε)‖ ^ 2 ∂ν ≤ A + B * (klDiv (Spec.lawOf μ (q l)) (Spec.posterior μ j)).toReal

variable {Ω : Type} [MeasurableSpace Ω] {Pr : Measure Ω} [IsProbabilityMeasure Pr]

/-- C124, `KLqp` with score functions and any `n_samples`: almost surely the divergence from the approximation to the posterior
converges along the updates, and its gradient is, again and again, as small as one likes. -/
theorem C124_score {μ : Measure Θ} [SigmaFinite μ] {q : E → Θ → ℝ} {j : Θ → ℝ} (h : KlqpOk v T ν μ q j) (hS : ScoreDescent v T ν μ q j)
    {lr : ℕ → ℝ} (hlr : Spec.RobbinsMonro lr) {n : ℕ} (hn : 0 < n) {w : ℕ → Ω → Fin n → N} (hw : ∀ i, Measurable (w i))
    (hlaw : ∀ i, Pr.map (w i) = Measure.pi fun _ => ν) (hind : iIndepFun w Pr) (x : E) :
    ∀ᵐ ω ∂Pr,
      (∃ k, Tendsto (fun t => (klDiv (Spec.lawOf μ (q (descend lr (fun l d => scoreGradient v n l fun s => T l (d s)) x (fun i => w i ω) t)))
        (Spec.posterior μ j)).toReal) atTop (𝓝 k)) ∧
      ∀ ε > 0, ∃ᶠ t in atTop, ‖gradient (fun l => (klDiv (Spec.lawOf μ (q l)) (Spec.posterior μ j)).toReal)
        (descend lr (fun l d => scoreGradient v n l fun s => T l (d s)) x (fun i => w i ω) t)‖ < ε := by
  have hlog : ∀ l ω, Spec.logApprox (v l) ω = Real.log (q l ω) := fun l ω => h.approx l ω (hS.pos l ω)
  have hd : ∀ l ω, DifferentiableAt ℝ (fun l' => Spec.logApprox (v l') ω) l := fun l ω => by
    simp_rw [hlog]
    exact (hS.diff l ω).log (hS.pos l ω).ne'
  have hone : Spec.GradientNoise (fun l => (klDiv (Spec.lawOf μ (q l)) (Spec.posterior μ j)).toReal) (fun l ε => scoreOne v l (T l ε)) ν 0 := by
    refine ⟨hS.meas, fun l => ?_, hS.lip, fun l => ENNReal.toReal_nonneg, hS.sq, ?_⟩
    · obtain ⟨q', s, b, h1, h2, h3⟩ := hS.score l
      have hm : AEStronglyMeasurable (fun d : Fin 1 → Θ => scoreGradient v 1 l d) (Measure.pi fun _ => Spec.lawOf μ (q l)) := by
        simp_rw [scoreGradient_eq hd]
        exact ((Finset.measurable_sum _ fun s _ => (hS.measOne l).comp (measurable_pi_apply s)).const_smul _).aestronglyMeasurable
      have h4 := score_mean h one_pos h1 hS.pos h2 h3 hm
      simp_rw [scoreGradient_eq hd] at h4
      have h5 := integral_average_vec ν one_pos (fun ε => scoreOne v l (T l ε)) ((hS.sq l).integrable (by norm_num)) 0
      simp only [add_zero] at h5
      rwa [h5] at h4
    · obtain ⟨A, B, hAB⟩ := hS.bound
      exact ⟨A, B, fun l => by rw [sub_zero]; exact hAB l⟩
  have hG : (fun l (d : Fin n → N) => scoreGradient v n l fun s => T l (d s)) = fun l d => (n : ℝ)⁻¹ • ∑ s, scoreOne v l (T l (d s)) := by
    funext l d
    exact scoreGradient_eq hd n l _
  have hN := hone.average hn
  rw [← hG] at hN
  exact C124_stationary hN hlr hw hlaw hind x

end

/-! ### A Bernoulli approximation -/

/-- `Bernoulli(logits=l)`. -/
noncomputable def logitQ (l : ℝ) (c : Bool) : ℝ := if c then Real.sigmoid l else 1 - Real.sigmoid l

/-- A latent coin with joint density `j` with the data, approximated by `Bernoulli(logits=l)`. -/
noncomputable def logitVi (j : Bool → ℝ) (l : ℝ) : ViProblem Unit Empty Unit Bool where
  latents := [()]
  observed := []
  scaleZ := fun _ _ => 1
  scaleX := fun _ _ => 1
  logQ := fun _ c _ => Real.log (logitQ l c)
  logP := fun _ c _ => Real.log (j c)
  logLik := fun _ _ _ => 0

/-- A draw of `Bernoulli(logits=l)` from a uniform number. -/
noncomputable def logitSample (l u : ℝ) : Bool := decide (u < Real.sigmoid l)

theorem logitQ_pos (l : ℝ) (c : Bool) : 0 < logitQ l c := by
  cases c
  · simpa [logitQ] using Real.sigmoid_lt_one l
  · simpa [logitQ] using Real.sigmoid_pos l

theorem logitQ_le (l : ℝ) (c : Bool) : logitQ l c ≤ 1 := by
  cases c
  · simpa [logitQ] using Real.sigmoid_nonneg l
  · simpa [logitQ] using Real.sigmoid_le_one l

theorem logit_approx (j : Bool → ℝ) (l : ℝ) (c : Bool) : Spec.logApprox (logitVi j l) c = Real.log (logitQ l c) := by
  simp [Spec.logApprox, logitVi]

theorem logit_joint (j : Bool → ℝ) (l : ℝ) (c : Bool) : Spec.logJoint (logitVi j l) c = Real.log (j c) := by
  simp [Spec.logJoint, logitVi]

/-- The derivative of `logitQ`. -/
noncomputable def logitD (l : ℝ) (c : Bool) : ℝ := (if c then 1 else -1) * (Real.sigmoid l * (1 - Real.sigmoid l))

theorem logit_deriv (l : ℝ) (c : Bool) : HasDerivAt (fun l => logitQ l c) (logitD l c) l := by
  cases c
  · simpa [logitQ, logitD] using (Real.hasDerivAt_sigmoid l).const_sub 1
  · simpa [logitQ, logitD] using Real.hasDerivAt_sigmoid l

theorem logitD_eq (l : ℝ) (c : Bool) : logitD l c = (if c then 1 else -1) * (logitQ l true * logitQ l false) := by
  simp [logitD, logitQ]

/-- `q |log q|` and `q (log q)²` are bounded. -/
theorem logit_log (l : ℝ) (c : Bool) : logitQ l c * |Real.log (logitQ l c)| ≤ 1 ∧ logitQ l c * Real.log (logitQ l c) ^ 2 ≤ 4 := by
  have hp := logitQ_pos l c
  have hl := logitQ_le l c
  generalize logitQ l c = p at hp hl ⊢
  constructor
  · have := Real.abs_log_mul_self_lt p hp hl
    rw [abs_mul, abs_of_pos hp, mul_comm] at this
    exact this.le
  · have h := Real.abs_log_mul_self_rpow_lt p (1 / 2) hp hl (by norm_num)
    have h2 := pow_le_pow_left₀ (abs_nonneg _) h.le 2
    rw [sq_abs, mul_pow, ← Real.rpow_natCast (p ^ (1 / 2 : ℝ)), ← Real.rpow_mul hp.le] at h2
    norm_num at h2
    linarith

theorem lawOf_coin (f : Bool → ℝ) (c : Bool) : Spec.lawOf Measure.count f {c} = ENNReal.ofReal (f c) := by
  rw [Spec.lawOf, withDensity_apply _ (measurableSet_singleton _)]
  simp

theorem logit_law (l : ℝ) : dpUnif.map (logitSample l) = Spec.lawOf Measure.count (logitQ l) := by
  have hm : Measurable (logitSample l) := measurable_to_bool (by
    have : logitSample l ⁻¹' {true} = Set.Iio (Real.sigmoid l) := by ext u; simp [logitSample]
    rw [this]; exact measurableSet_Iio)
  have ht : dpUnif.map (logitSample l) {true} = ENNReal.ofReal (Real.sigmoid l) := by
    rw [Measure.map_apply hm (measurableSet_singleton _)]
    have : logitSample l ⁻¹' {true} = Set.Iio (Real.sigmoid l) := by ext u; simp [logitSample]
    rw [this, dpUnif_Iio (Real.sigmoid_nonneg l) (Real.sigmoid_le_one l)]
  have hprob : IsProbabilityMeasure (dpUnif.map (logitSample l)) := Measure.isProbabilityMeasure_map hm.aemeasurable
  refine Measure.ext_of_singleton fun c => ?_
  rw [lawOf_coin]
  cases c
  · have hc : ({false} : Set Bool) = {true}ᶜ := by ext b; cases b <;> simp
    rw [hc, prob_compl_eq_one_sub (measurableSet_singleton _), ht, ← ENNReal.ofReal_one, ← ENNReal.ofReal_sub _ (Real.sigmoid_nonneg l)]
    simp [logitQ]
  · rw [ht]; simp [logitQ]

theorem logit_one (l : ℝ) : ∫⁻ c, ENNReal.ofReal (logitQ l c) ∂Measure.count = 1 := by
  rw [lintegral_count, tsum_fintype, Fintype.sum_bool, ← ENNReal.ofReal_add (logitQ_pos l _).le (logitQ_pos l _).le]
  simp [logitQ]

theorem logit_klqp {j : Bool → ℝ} (hj : ∀ c, 0 < j c) :
    KlqpOk (logitVi j) logitSample dpUnif Measure.count logitQ j where
  sampler l := measurable_to_bool (by
    have : logitSample l ⁻¹' {true} = Set.Iio (Real.sigmoid l) := by ext u; simp [logitSample]
    rw [this]; exact measurableSet_Iio)
  law := logit_law
  nonneg l c := (logitQ_pos l c).le
  meas l := measurable_of_finite _
  one := logit_one
  pos := hj
  jmeas := measurable_of_finite _
  fin := by
    rw [lintegral_count, tsum_fintype, Fintype.sum_bool]
    exact ENNReal.add_ne_top.mpr ⟨ENNReal.ofReal_ne_top, ENNReal.ofReal_ne_top⟩
  int l := by
    have : IsFiniteMeasure (Spec.lawOf Measure.count (logitQ l)) := ⟨by
      rw [Spec.lawOf, withDensity_apply _ MeasurableSet.univ, Measure.restrict_univ, logit_one]; exact ENNReal.one_lt_top⟩
    exact Integrable.of_finite
  approx l c _ := logit_approx j l c
  joint l c := logit_joint j l c
  logm l := measurable_of_finite _

theorem logit_scoreOne (j : Bool → ℝ) (l : ℝ) (c : Bool) :
    scoreOne (logitVi j) l c = (Real.log (logitQ l c) - Real.log (j c)) * ((if c then 1 else -1) * logitQ l (!c)) := by
  rw [scoreOne, logit_approx, logit_joint, smul_eq_mul]
  congr 1
  simp_rw [logit_approx]
  have h := ((logit_deriv l c).log (logitQ_pos l c).ne').hasGradientAt'.gradient
  rw [h, logitD_eq, div_eq_iff (logitQ_pos l c).ne']
  cases c
  · simp
  · simp
    ring

theorem logit_integral (f : Bool → ℝ) (l : ℝ) : ∫ u, f (logitSample l u) ∂dpUnif = logitQ l true * f true + logitQ l false * f false := by
  have hm : Measurable (logitSample l) := measurable_to_bool (by
    have : logitSample l ⁻¹' {true} = Set.Iio (Real.sigmoid l) := by ext u; simp [logitSample]
    rw [this]; exact measurableSet_Iio)
  rw [← integral_map (f := f) hm.aemeasurable (measurable_of_finite f).aestronglyMeasurable, logit_law, Spec.lawOf,
    integral_withDensity_eq_integral_toReal_smul (measurable_of_finite _) (ae_of_all _ fun _ => ENNReal.ofReal_lt_top)]
  simp only [ENNReal.toReal_ofReal (logitQ_pos l _).le]
  rw [integral_count]
  simp

/-- The hypotheses of `C124_score` hold for a latent coin with any joint density. -/
theorem logit_score (j : Bool → ℝ) : ScoreDescent (logitVi j) logitSample dpUnif Measure.count logitQ j := by
  set B := |Real.log (j true)| + |Real.log (j false)| with hB
  have hB0 : 0 ≤ B := by positivity
  have hjB : ∀ c, |Real.log (j c)| ≤ B := fun c => by
    cases c
    · linarith [abs_nonneg (Real.log (j true))]
    · linarith [abs_nonneg (Real.log (j false))]
  have hsm : Measurable fun p : ℝ × ℝ => logitSample p.1 p.2 := measurable_to_bool (by
    have : (fun p : ℝ × ℝ => logitSample p.1 p.2) ⁻¹' {true} = {p | p.2 < Real.sigmoid p.1} := by ext p; simp [logitSample]
    rw [this]; exact measurableSet_lt measurable_snd (continuous_sigmoid.measurable.comp measurable_fst))
  have hqm : ∀ c, Measurable fun l => logitQ l c := fun c => by
    cases c
    · have h : Measurable fun l : ℝ => 1 - Real.sigmoid l := continuous_sigmoid.measurable.const_sub 1
      simpa [logitQ] using h
    · simpa [logitQ] using continuous_sigmoid.measurable
  have hone : ∀ c, Measurable fun l => scoreOne (logitVi j) l c := fun c => by
    simp_rw [logit_scoreOne]
    exact ((Real.measurable_log.comp (hqm c)).sub measurable_const).mul (measurable_const.mul (hqm _))
  have hsq : ∀ l c, logitQ l c * scoreOne (logitVi j) l c ^ 2 ≤ 8 + 2 * B ^ 2 := by
    intro l c
    rw [logit_scoreOne, mul_pow, mul_pow]
    have h1 : (if c then (1 : ℝ) else -1) ^ 2 = 1 := by cases c <;> simp
    have h2 : logitQ l (!c) ^ 2 ≤ 1 := pow_le_one₀ (logitQ_pos l _).le (logitQ_le l _)
    rw [h1, one_mul]
    have h3 := (logit_log l c).2
    have h4 : Real.log (j c) ^ 2 ≤ B ^ 2 := by rw [← sq_abs]; exact pow_le_pow_left₀ (abs_nonneg _) (hjB c) 2
    have h5 := logitQ_le l c
    have h6 := logitQ_pos l c
    have h7 : (Real.log (logitQ l c) - Real.log (j c)) ^ 2 ≤ 2 * Real.log (logitQ l c) ^ 2 + 2 * Real.log (j c) ^ 2 := by
      nlinarith [sq_nonneg (Real.log (logitQ l c) + Real.log (j c))]
    have h8 : logitQ l c * (Real.log (logitQ l c) - Real.log (j c)) ^ 2 ≤ 8 + 2 * B ^ 2 := by
      calc logitQ l c * (Real.log (logitQ l c) - Real.log (j c)) ^ 2
          ≤ logitQ l c * (2 * Real.log (logitQ l c) ^ 2 + 2 * Real.log (j c) ^ 2) := mul_le_mul_of_nonneg_left h7 h6.le
        _ = 2 * (logitQ l c * Real.log (logitQ l c) ^ 2) + 2 * (logitQ l c * Real.log (j c) ^ 2) := by ring
        _ ≤ 2 * 4 + 2 * (1 * B ^ 2) := by gcongr
        _ = 8 + 2 * B ^ 2 := by ring
    have h9 : 0 ≤ logitQ l c * (Real.log (logitQ l c) - Real.log (j c)) ^ 2 := by positivity
    nlinarith
  have hmean : ∀ l, ∫ u, scoreOne (logitVi j) l (logitSample l u) ∂dpUnif =
      logitQ l true * logitQ l false * (Real.log (logitQ l true) - Real.log (logitQ l false) - (Real.log (j true) - Real.log (j false))) := by
    intro l
    rw [logit_integral (scoreOne (logitVi j) l), logit_scoreOne, logit_scoreOne]
    simp
    ring
  refine ⟨logitQ_pos, fun l c => (logit_deriv l c).differentiableAt, fun l₀ => ?_, ?_, fun l => measurable_of_finite _, ?_, fun l => ?_, ?_⟩
  · refine ⟨fun l c => ContinuousLinearMap.toSpanSingleton ℝ (logitD l c), Set.univ, fun _ => 1 + B, ?_, Integrable.of_finite,
      ae_of_all _ fun c l _ => ?_⟩
    · refine ⟨univ_mem, fun l _ => measurable_of_finite _, fun l _ c => logitQ_pos l c, fun l _ => logit_one l,
        ae_of_all _ fun c l _ => (logit_deriv l c).hasFDerivAt, (measurable_of_finite _).aestronglyMeasurable,
        fun _ => 1, Integrable.of_finite, ae_of_all _ fun c l _ => ?_⟩
      rw [ContinuousLinearMap.norm_toSpanSingleton, logitD_eq, Real.norm_eq_abs, abs_mul]
      have h1 : |if c then (1 : ℝ) else -1| = 1 := by cases c <;> simp
      rw [h1, one_mul, abs_of_pos (mul_pos (logitQ_pos l _) (logitQ_pos l _))]
      exact mul_le_one₀ (logitQ_le l _) (logitQ_pos l _).le (logitQ_le l _)
    · rw [norm_smul, ContinuousLinearMap.norm_toSpanSingleton, logitD_eq, Real.norm_eq_abs, Real.norm_eq_abs, abs_mul]
      have h1 : |if c then (1 : ℝ) else -1| = 1 := by cases c <;> simp
      rw [h1, one_mul, abs_of_pos (mul_pos (logitQ_pos l _) (logitQ_pos l _))]
      have e : logitQ l true * logitQ l false = logitQ l c * logitQ l (!c) := by cases c <;> simp [mul_comm]
      rw [e]
      have h2 := (logit_log l c).1
      have h3 := logitQ_pos l c
      have h4 := logitQ_pos l (!c)
      calc |Real.log (logitQ l c) - Real.log (j c)| * (logitQ l c * logitQ l (!c))
          ≤ (|Real.log (logitQ l c)| + |Real.log (j c)|) * (logitQ l c * logitQ l (!c)) := by gcongr; exact abs_sub _ _
        _ = (logitQ l c * |Real.log (logitQ l c)| + logitQ l c * |Real.log (j c)|) * logitQ l (!c) := by ring
        _ ≤ (1 + 1 * B) * 1 := by
            gcongr
            · exact logitQ_le l c
            · exact hjB c
            · exact logitQ_le l _
        _ = 1 + B := by ring
  · have e : (fun p : ℝ × ℝ => scoreOne (logitVi j) p.1 (logitSample p.1 p.2)) =
        fun p => if logitSample p.1 p.2 = true then scoreOne (logitVi j) p.1 true else scoreOne (logitVi j) p.1 false := by
      funext p
      cases logitSample p.1 p.2 <;> simp
    rw [e]
    exact Measurable.ite (hsm (measurableSet_singleton true)) ((hone true).comp measurable_fst) ((hone false).comp measurable_fst)
  · refine ⟨4 + B, fun x y => ?_⟩
    set f : ℝ → ℝ := fun l => logitQ l true * logitQ l false * (Real.log (logitQ l true) - Real.log (logitQ l false) - (Real.log (j true) - Real.log (j false))) with hf
    rw [hmean, hmean]
    have hd : ∀ l, HasDerivAt f ((logitD l true * logitQ l false + logitQ l true * logitD l false) *
        (Real.log (logitQ l true) - Real.log (logitQ l false) - (Real.log (j true) - Real.log (j false))) +
        logitQ l true * logitQ l false * (logitD l true / logitQ l true - logitD l false / logitQ l false)) l := fun l =>
      ((logit_deriv l true).mul (logit_deriv l false)).mul
        ((((logit_deriv l true).log (logitQ_pos l true).ne').sub ((logit_deriv l false).log (logitQ_pos l false).ne')).sub_const _)
    have hb : ∀ l, ‖(logitD l true * logitQ l false + logitQ l true * logitD l false) *
        (Real.log (logitQ l true) - Real.log (logitQ l false) - (Real.log (j true) - Real.log (j false))) +
        logitQ l true * logitQ l false * (logitD l true / logitQ l true - logitD l false / logitQ l false)‖ ≤ 4 + B := by
      intro l
      have ht := logitQ_pos l true
      have hfp := logitQ_pos l false
      have h1 := logitQ_le l true
      have h2 := logitQ_le l false
      have h3 := (logit_log l true).1
      have h4 := (logit_log l false).1
      have hs : logitQ l true + logitQ l false = 1 := by simp [logitQ]
      have e : (logitD l true * logitQ l false + logitQ l true * logitD l false) *
        (Real.log (logitQ l true) - Real.log (logitQ l false) - (Real.log (j true) - Real.log (j false))) +
        logitQ l true * logitQ l false * (logitD l true / logitQ l true - logitD l false / logitQ l false) =
        (logitQ l false - logitQ l true) * (logitQ l false * (logitQ l true * Real.log (logitQ l true)) - logitQ l true * (logitQ l false * Real.log (logitQ l false)) -
          logitQ l true * logitQ l false * (Real.log (j true) - Real.log (j false))) + logitQ l true * logitQ l false * (logitQ l true + logitQ l false) := by
        rw [logitD_eq, logitD_eq]
        simp
        field_simp
        ring
      rw [e, Real.norm_eq_abs]
      have a1 : |logitQ l true * Real.log (logitQ l true)| ≤ 1 := by rw [abs_mul, abs_of_pos ht]; exact h3
      have a2 : |logitQ l false * Real.log (logitQ l false)| ≤ 1 := by rw [abs_mul, abs_of_pos hfp]; exact h4
      have a3 : |Real.log (j true) - Real.log (j false)| ≤ B := abs_sub _ _
      have a4 : |logitQ l false - logitQ l true| ≤ 1 := by rw [abs_le]; constructor <;> linarith
      have a5 : logitQ l true * logitQ l false ≤ 1 := mul_le_one₀ h1 hfp.le h2
      have a6 : 0 ≤ logitQ l true * logitQ l false := by positivity
      have b1 : |logitQ l false * (logitQ l true * Real.log (logitQ l true))| ≤ 1 := by
        rw [abs_mul, abs_of_pos hfp]; exact mul_le_one₀ h2 (abs_nonneg _) a1
      have b2 : |logitQ l true * (logitQ l false * Real.log (logitQ l false))| ≤ 1 := by
        rw [abs_mul, abs_of_pos ht]; exact mul_le_one₀ h1 (abs_nonneg _) a2
      have b3 : |logitQ l true * logitQ l false * (Real.log (j true) - Real.log (j false))| ≤ B := by
        rw [abs_mul, abs_of_nonneg a6]
        calc _ ≤ 1 * B := by gcongr
          _ = B := one_mul B
      have b4 : |logitQ l false * (logitQ l true * Real.log (logitQ l true)) - logitQ l true * (logitQ l false * Real.log (logitQ l false)) -
          logitQ l true * logitQ l false * (Real.log (j true) - Real.log (j false))| ≤ 1 + 1 + B :=
        (abs_sub _ _).trans (add_le_add ((abs_sub _ _).trans (add_le_add b1 b2)) b3)
      refine (abs_add_le _ _).trans ?_
      rw [abs_mul, hs, mul_one, abs_of_nonneg a6]
      have b5 := mul_le_mul a4 b4 (abs_nonneg _) zero_le_one
      linarith
    have := Convex.norm_image_sub_le_of_norm_hasDerivWithin_le (f := f) (s := Set.univ) (x := y) (y := x)
      (fun l _ => (hd l).hasDerivWithinAt) (fun l _ => hb l) convex_univ (Set.mem_univ _) (Set.mem_univ _)
    exact this
  · refine MemLp.of_bound ?_ (max |scoreOne (logitVi j) l true| |scoreOne (logitVi j) l false|) (ae_of_all _ fun u => ?_)
    · have hm : Measurable fun u => scoreOne (logitVi j) l (logitSample l u) :=
        (measurable_of_finite (scoreOne (logitVi j) l)).comp (hsm.comp (measurable_const.prodMk measurable_id))
      exact hm.aestronglyMeasurable
    · cases logitSample l u
      · exact le_max_right _ _
      · exact le_max_left _ _
  · refine ⟨2 * (8 + 2 * B ^ 2), 0, fun l => ?_⟩
    rw [logit_integral (fun c => ‖scoreOne (logitVi j) l c‖ ^ 2)]
    simp only [Real.norm_eq_abs, sq_abs]
    linarith [hsq l true, hsq l false]

/-- Independent batches of uniform numbers exist. -/
theorem uniforms_exist (n : ℕ) :
    (∀ i, Measurable fun w : ℕ → Fin n → ℝ => w i) ∧
    (∀ i, (Measure.infinitePi fun _ : ℕ => Measure.pi fun _ : Fin n => dpUnif).map (fun w => w i) = Measure.pi fun _ => dpUnif) ∧
    iIndepFun (fun i (w : ℕ → Fin n → ℝ) => w i) (Measure.infinitePi fun _ : ℕ => Measure.pi fun _ : Fin n => dpUnif) :=
  ⟨fun i => measurable_pi_apply i, fun i => Measure.infinitePi_map_eval _ i, iIndepFun_infinitePi (X := fun _ x => x) fun _ => measurable_id⟩

/-- C124 for a latent coin, approximated by `Bernoulli(logits=l)` with score functions, rates `1 / (t + 1)` and 3 draws. -/
example {j : Bool → ℝ} (hj : ∀ c, 0 < j c) (x : ℝ) :
    ∀ᵐ w ∂Measure.infinitePi (fun _ : ℕ => Measure.pi fun _ : Fin 3 => dpUnif),
      (∃ k, Tendsto (fun t => (klDiv (Spec.lawOf Measure.count (logitQ (descend (fun t => 1 / ((t : ℝ) + 1))
        (fun l d => scoreGradient (logitVi j) 3 l fun s => logitSample l (d s)) x w t))) (Spec.posterior Measure.count j)).toReal) atTop (𝓝 k)) ∧
      ∀ ε > 0, ∃ᶠ t in atTop, ‖gradient (fun l => (klDiv (Spec.lawOf Measure.count (logitQ l)) (Spec.posterior Measure.count j)).toReal)
        (descend (fun t => 1 / ((t : ℝ) + 1)) (fun l d => scoreGradient (logitVi j) 3 l fun s => logitSample l (d s)) x w t)‖ < ε := by
  obtain ⟨h1, h2, h3⟩ := uniforms_exist 3
  exact C124_score (logit_klqp hj) (logit_score j) harmonic_rates Nat.succ_pos' h1 h2 h3 x

end Edward
