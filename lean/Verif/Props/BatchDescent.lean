/-
C133, continued: gradient descent on batches chosen at random makes the approximation as good as gradient descent on all data.
-/
import Mathlib.MeasureTheory.Integral.Prod
import Mathlib.Probability.Distributions.Uniform
import Verif.Props.Batch

namespace Edward
set_option linter.unusedSectionVars false
open MeasureTheory Filter Topology ProbabilityTheory InformationTheory

section
variable {E : Type} [NormedAddCommGroup E] [InnerProductSpace ℝ E] [CompleteSpace E] [MeasurableSpace E] [BorelSpace E]
  [SecondCountableTopology E] {W : Type} [MeasurableSpace W] {ν : Measure W} [IsProbabilityMeasure ν]
  {β : Type} [Fintype β] [MeasurableSpace β] [MeasurableSingletonClass β]

/-- Gradients of an objective chosen at random are right on average for the mean objective. -/
theorem Spec.GradientNoise.mix {F : β → E → ℝ} {G : β → E → W → E} {c : β → ℝ} (P : PMF β) (h : ∀ k, Spec.GradientNoise (F k) (G k) ν (c k)) :
    Spec.GradientNoise (fun l => ∑ k, (P k).toReal * F k l) (fun l (w : β × W) => G w.1 l w.2) (P.toMeasure.prod ν)
      (∑ k, (P k).toReal * c k) := by
  have hmeas : Measurable fun p : E × (β × W) => G p.2.1 p.1 p.2.2 := by
    have h1 : Measurable fun q : β × (E × W) => G q.1 q.2.1 q.2.2 := measurable_from_prod_countable_right fun k => (h k).meas
    exact h1.comp (measurable_snd.fst.prodMk (measurable_fst.prodMk measurable_snd.snd))
  have hml : ∀ l, Measurable fun w : β × W => G w.1 l w.2 := fun l => hmeas.comp (measurable_const.prodMk measurable_id)
  have hsq : ∀ l, Integrable (fun w : β × W => ‖G w.1 l w.2‖ ^ 2) (P.toMeasure.prod ν) := fun l => by
    rw [integrable_prod_iff ((hml l).norm.pow_const 2).aestronglyMeasurable]
    exact ⟨ae_of_all _ fun k => ((h k).sq l).integrable_norm_pow (by norm_num), Integrable.of_finite⟩
  have hLp : ∀ l, MemLp (fun w : β × W => G w.1 l w.2) 2 (P.toMeasure.prod ν) := fun l =>
    (memLp_two_iff_integrable_sq_norm (hml l).aestronglyMeasurable).mpr (hsq l)
  have hmean : ∀ l, ∫ w, G w.1 l w.2 ∂P.toMeasure.prod ν = ∑ k, (P k).toReal • ∫ w, G k l w ∂ν := fun l => by
    rw [integral_prod _ ((hLp l).integrable (by norm_num)), PMF.integral_eq_sum]
  refine ⟨hmeas, fun l => ?_, ?_, fun l => Finset.sum_le_sum fun k _ => mul_le_mul_of_nonneg_left ((h k).low l) ENNReal.toReal_nonneg, hLp, ?_⟩
  · rw [hmean, hasGradientAt_iff_hasFDerivAt]
    have h1 := HasFDerivAt.fun_sum (u := Finset.univ) fun (k : β) _ => (((h k).grad l).hasFDerivAt).const_mul (P k).toReal
    have e : InnerProductSpace.toDual ℝ E (∑ k, (P k).toReal • ∫ w, G k l w ∂ν) =
        ∑ k, (P k).toReal • InnerProductSpace.toDual ℝ E (∫ w, G k l w ∂ν) := by
      rw [map_sum]
      refine Finset.sum_congr rfl fun k _ => ?_
      rw [map_smulₛₗ]; rfl
    rw [e]
    exact h1
  · choose K hK using fun k => (h k).lip
    refine ⟨∑ k, (P k).toReal * K k, fun x y => ?_⟩
    rw [hmean, hmean, ← Finset.sum_sub_distrib, Finset.sum_mul]
    refine (norm_sum_le _ _).trans (Finset.sum_le_sum fun k _ => ?_)
    rw [← smul_sub, norm_smul, Real.norm_of_nonneg ENNReal.toReal_nonneg, mul_assoc]
    exact mul_le_mul_of_nonneg_left (hK k x y) ENNReal.toReal_nonneg
  · choose A B hAB using fun k => (h k).bound
    refine ⟨∑ k, (P k).toReal * A k, ∑ k, |B k|, fun l => ?_⟩
    rw [integral_prod _ (hsq l), PMF.integral_eq_sum, ← Finset.sum_sub_distrib, Finset.mul_sum, ← Finset.sum_add_distrib]
    refine Finset.sum_le_sum fun k _ => ?_
    have h1 : B k * (F k l - c k) ≤ (∑ k, |B k|) * (F k l - c k) :=
      mul_le_mul_of_nonneg_right ((le_abs_self _).trans (Finset.single_le_sum (f := fun k => |B k|) (fun k _ => abs_nonneg _) (Finset.mem_univ k)))
        (sub_nonneg.mpr ((h k).low l))
    rw [smul_eq_mul]
    refine (mul_le_mul_of_nonneg_left ((hAB k l).trans (add_le_add le_rfl h1)) ENNReal.toReal_nonneg).trans (le_of_eq ?_)
    ring

/-- The bound on the objective may be any lower bound. -/
theorem Spec.GradientNoise.change {F : E → ℝ} {G : E → W → E} {c c' : ℝ} (h : Spec.GradientNoise F G ν c) (hc : ∀ l, c' ≤ F l) :
    Spec.GradientNoise F G ν c' := by
  obtain ⟨A, B, hAB⟩ := h.bound
  exact ⟨h.meas, h.grad, h.lip, hc, h.sq, A + B * (c' - c), B, fun l => (hAB l).trans (le_of_eq (by ring))⟩

variable {Z X I Θ A Ω : Type} [Fintype I] [MeasurableSpace Θ] [MeasurableSpace A] {η : Measure A} [IsProbabilityMeasure η]
  [MeasurableSpace Ω] {Pr : Measure Ω} [IsProbabilityMeasure Pr] {N M : ℕ} {b : β → Fin M → Fin N} {inZ : Z → Bool} {inX : X → Bool}
  {v : E → ViProblem Z X (I ⊕ Fin N) Θ} {T : E → A → Θ}

/-- The gradient of an update: that of the batch fed, at the draws made. -/
noncomputable def batchGradient (v : E → ViProblem Z X (I ⊕ Fin N) Θ) (inZ : Z → Bool) (inX : X → Bool) (b : β → Fin M → Fin N) (T : E → A → Θ)
    (n : ℕ) (l : E) (w : β × (Fin n → A)) : E :=
  reparamGradient (fun l => plateBatch (v l) inZ inX (b w.1)) T n l w.2

/-- Gradients of batches chosen at random are right on average for the divergence to the posterior given all data. -/
theorem batch_noise {μ : Measure Θ} [SigmaFinite μ] {q : E → Θ → ℝ} {j : Θ → ℝ} (h : KlqpOk v T η μ q j)
    {P : PMF β} (hb : Spec.Balanced (fun k => (P k).toReal) b) (hv : ∀ l, Spec.Plated (v l) inZ inX) (hN : 0 < N) (hM : 0 < M)
    {L' : β → E → A → E} {c : β → ℝ}
    (hL : ∀ k, PathGradient (fun l ε => Spec.logApprox (plateBatch (v l) inZ inX (b k)) (T l ε) -
      Spec.logJoint (plateBatch (v l) inZ inX (b k)) (T l ε)) (L' k) η (c k))
    (hc : ∀ k l, c k ≤ ∫ ε, (Spec.logApprox (plateBatch (v l) inZ inX (b k)) (T l ε) -
      Spec.logJoint (plateBatch (v l) inZ inX (b k)) (T l ε)) ∂η) {n : ℕ} (hn : 0 < n) :
    Spec.GradientNoise (fun l => (klDiv (Spec.lawOf μ (q l)) (Spec.posterior μ j)).toReal) (batchGradient v inZ inX b T n)
      (P.toMeasure.prod (Measure.pi fun _ => η)) 0 := by
  have hobj : ∀ l, ∑ k, (P k).toReal * ∫ ε, (Spec.logApprox (plateBatch (v l) inZ inX (b k)) (T l ε) -
      Spec.logJoint (plateBatch (v l) inZ inX (b k)) (T l ε)) ∂η =
      (klDiv (Spec.lawOf μ (q l)) (Spec.posterior μ j)).toReal - Real.log (Spec.evidence μ j) := fun l => by
    rw [← h.objective l]
    simp_rw [← integral_const_mul]
    rw [← integral_finsetSum _ fun k _ => ((hL k).int l).const_mul _]
    refine integral_congr_ae (ae_of_all _ fun ε => ?_)
    simp only [mul_sub, Finset.sum_sub_distrib]
    rw [batch_logApprox hb (hv l) hN hM, batch_logJoint hb (hv l) hN hM]
  have hmix := Spec.GradientNoise.mix P fun k => (hL k).noise (hc k) hn
  have hlow : ∀ l, -Real.log (Spec.evidence μ j) ≤ ∑ k, (P k).toReal * ∫ ε, (Spec.logApprox (plateBatch (v l) inZ inX (b k)) (T l ε) -
      Spec.logJoint (plateBatch (v l) inZ inX (b k)) (T l ε)) ∂η := fun l => by
    rw [hobj]
    linarith [ENNReal.toReal_nonneg (a := klDiv (Spec.lawOf μ (q l)) (Spec.posterior μ j))]
  have hN := hmix.change hlow
  have hF : (fun l => ∑ k, (P k).toReal * ∫ ε, (Spec.logApprox (plateBatch (v l) inZ inX (b k)) (T l ε) -
      Spec.logJoint (plateBatch (v l) inZ inX (b k)) (T l ε)) ∂η) =
      fun l => (klDiv (Spec.lawOf μ (q l)) (Spec.posterior μ j)).toReal - Real.log (Spec.evidence μ j) := funext hobj
  rw [hF] at hN
  obtain ⟨A, B, hAB⟩ := hN.bound
  refine ⟨hN.meas, fun l => ?_, hN.lip, fun l => ENNReal.toReal_nonneg, hN.sq, A, B, fun l => (hAB l).trans (le_of_eq (by ring))⟩
  have hg := hN.grad l
  rw [hasGradientAt_iff_hasFDerivAt] at hg ⊢
  have := hg.add_const (Real.log (Spec.evidence μ j))
  simp only [sub_add_cancel] at this
  exact this

/-- C133, `KLqp` with reparameterised draws, fed batches chosen independently at random: almost surely the divergence from the
approximation to the posterior given all data converges along the updates, and its gradient is, again and again, as small as
one likes. -/
theorem C133_descent_partial {μ : Measure Θ} [SigmaFinite μ] {q : E → Θ → ℝ} {j : Θ → ℝ} (h : KlqpOk v T η μ q j)
    {P : PMF β} (hb : Spec.Balanced (fun k => (P k).toReal) b) (hv : ∀ l, Spec.Plated (v l) inZ inX) (hN : 0 < N) (hM : 0 < M)
    {L' : β → E → A → E} {c : β → ℝ}
    (hL : ∀ k, PathGradient (fun l ε => Spec.logApprox (plateBatch (v l) inZ inX (b k)) (T l ε) -
      Spec.logJoint (plateBatch (v l) inZ inX (b k)) (T l ε)) (L' k) η (c k))
    (hc : ∀ k l, c k ≤ ∫ ε, (Spec.logApprox (plateBatch (v l) inZ inX (b k)) (T l ε) -
      Spec.logJoint (plateBatch (v l) inZ inX (b k)) (T l ε)) ∂η)
    {lr : ℕ → ℝ} (hlr : Spec.RobbinsMonro lr) {n : ℕ} (hn : 0 < n) {w : ℕ → Ω → β × (Fin n → A)} (hw : ∀ i, Measurable (w i))
    (hlaw : ∀ i, Pr.map (w i) = P.toMeasure.prod (Measure.pi fun _ => η)) (hind : iIndepFun w Pr) (x : E) :
    ∀ᵐ ω ∂Pr,
      (∃ l, Tendsto (fun t => (klDiv (Spec.lawOf μ (q (descend lr (batchGradient v inZ inX b T n) x (fun i => w i ω) t))) (Spec.posterior μ j)).toReal)
        atTop (𝓝 l)) ∧
      ∀ ε > 0, ∃ᶠ t in atTop, ‖gradient (fun l => (klDiv (Spec.lawOf μ (q l)) (Spec.posterior μ j)).toReal)
        (descend lr (batchGradient v inZ inX b T n) x (fun i => w i ω) t)‖ < ε :=
  C124_stationary (batch_noise h hb hv hN hM hL hc hn) hlr hw hlaw hind x

/-- C133, when the divergence is strongly convex in the parameters: almost surely they converge to those of the best approximation
of the posterior given all data. -/
theorem C133_best_partial {μ : Measure Θ} [SigmaFinite μ] {q : E → Θ → ℝ} {j : Θ → ℝ} (h : KlqpOk v T η μ q j)
    {P : PMF β} (hb : Spec.Balanced (fun k => (P k).toReal) b) (hv : ∀ l, Spec.Plated (v l) inZ inX) (hN : 0 < N) (hM : 0 < M)
    {L' : β → E → A → E} {c : β → ℝ}
    (hL : ∀ k, PathGradient (fun l ε => Spec.logApprox (plateBatch (v l) inZ inX (b k)) (T l ε) -
      Spec.logJoint (plateBatch (v l) inZ inX (b k)) (T l ε)) (L' k) η (c k))
    (hc : ∀ k l, c k ≤ ∫ ε, (Spec.logApprox (plateBatch (v l) inZ inX (b k)) (T l ε) -
      Spec.logJoint (plateBatch (v l) inZ inX (b k)) (T l ε)) ∂η)
    {m : ℝ} (hm : 0 < m) {K : E → ℝ} (hK : ∀ l, K l = (klDiv (Spec.lawOf μ (q l)) (Spec.posterior μ j)).toReal)
    (hsc : ∀ y z, K y + inner ℝ (gradient K y) (z - y) + m / 2 * ‖z - y‖ ^ 2 ≤ K z) {best : E} (hbest : gradient K best = 0)
    {lr : ℕ → ℝ} (hlr : Spec.RobbinsMonro lr) {n : ℕ} (hn : 0 < n) {w : ℕ → Ω → β × (Fin n → A)} (hw : ∀ i, Measurable (w i))
    (hlaw : ∀ i, Pr.map (w i) = P.toMeasure.prod (Measure.pi fun _ => η)) (hind : iIndepFun w Pr) (x : E) :
    (∀ y, y ≠ best → K best < K y) ∧
    ∀ᵐ ω ∂Pr, Tendsto (descend lr (batchGradient v inZ inX b T n) x (fun i => w i ω)) atTop (𝓝 best) := by
  obtain rfl : K = fun l => (klDiv (Spec.lawOf μ (q l)) (Spec.posterior μ j)).toReal := funext hK
  exact C124_minimum (batch_noise h hb hv hN hM hL hc hn) hlr hm hsc hbest hw hlaw hind x

end

/-! ### A normal mean, one observation at a time -/

section
variable {N : ℕ}

/-- `z ~ Normal(0, 1)`, `x n ~ Normal(z, 1)` for each of `N` data points, and the approximation `Normal(l, 1)`. -/
noncomputable def locVi (x : Fin N → ℝ) (l : ℝ) : ViProblem Unit Unit (Unit ⊕ Fin N) ℝ where
  latents := [()]
  observed := [()]
  scaleZ := fun _ _ => 1
  scaleX := fun _ _ => 1
  logQ := fun _ z i => match i with
    | .inl _ => Real.log (gaussianPDFReal l 1 z)
    | .inr _ => 0
  logP := fun _ z i => match i with
    | .inl _ => Real.log (gaussianPDFReal 0 1 z)
    | .inr _ => 0
  logLik := fun _ z i => match i with
    | .inl _ => 0
    | .inr n => Real.log (gaussianPDFReal z 1 (x n))

/-- The batch `k` is the data point `k`. -/
def single (k : Fin N) (_ : Fin 1) : Fin N := k

theorem locVi_plated (x : Fin N → ℝ) (l : ℝ) : Spec.Plated (locVi x l) (fun _ => false) fun _ => true := by
  refine ⟨fun _ _ => rfl, fun _ _ => rfl, fun z ω => ?_, fun z ω => ?_, fun x ω => ?_⟩ <;> simp [Spec.OnPlate, locVi]

theorem single_balanced [NeZero N] : Spec.Balanced (fun k => (PMF.uniformOfFintype (Fin N) k).toReal) single := by
  have hN : (N : ℝ) ≠ 0 := by simp [NeZero.ne N]
  refine ⟨?_, fun n => ?_⟩
  · simp [PMF.uniformOfFintype_apply, hN]
  · simp only [PMF.uniformOfFintype_apply, ← Finset.mul_sum]
    have h1 : ∑ k : Fin N, ∑ m : Fin 1, (if single k m = n then (1 : ℝ) else 0) = 1 := by
      simp only [Finset.univ_unique, Finset.sum_singleton]
      rw [Finset.sum_eq_single n (fun k _ hk => if_neg (show ¬ single k default = n from hk)) fun h => absurd (Finset.mem_univ n) h]
      exact if_pos rfl
    rw [h1]
    simp

/-- Precision of the posterior, as a variance. -/
noncomputable def locVar (N : ℕ) : NNReal := ((N : NNReal) + 1)⁻¹

theorem locVar_ne (N : ℕ) : locVar N ≠ 0 := by
  unfold locVar; positivity

theorem locVar_coe (N : ℕ) : (locVar N : ℝ) = ((N : ℝ) + 1)⁻¹ := by simp [locVar]

/-- Posterior mean. -/
noncomputable def locMean (x : Fin N → ℝ) : ℝ := (∑ n, x n) / (N + 1)

/-- Log of the evidence. -/
noncomputable def locK (x : Fin N → ℝ) : ℝ :=
  (N + 1) * Real.log (√(2 * Real.pi * (1 : NNReal)))⁻¹ - Real.log (√(2 * Real.pi * locVar N))⁻¹ - (∑ n, x n ^ 2 - (N + 1) * locMean x ^ 2) / 2

theorem loc_joint (x : Fin N → ℝ) (l z : ℝ) :
    Spec.logJoint (locVi x l) z = locK x + Real.log (gaussianPDFReal (locMean x) (locVar N) z) := by
  have hN : (N : ℝ) + 1 ≠ 0 := by positivity
  have h1 : ∑ n, (x n - z) ^ 2 = ∑ n, x n ^ 2 - 2 * z * ∑ n, x n + N * z ^ 2 := by
    have e : ∀ n, (x n - z) ^ 2 = x n ^ 2 - 2 * z * x n + z ^ 2 := fun n => by ring
    simp only [e, Finset.sum_add_distrib, Finset.sum_sub_distrib, ← Finset.mul_sum]
    simp
  have hs : ∑ n, x n = (N + 1) * locMean x := by rw [locMean]; field_simp
  simp only [Spec.logJoint, locVi, List.map_cons, List.map_nil, List.sum_cons, List.sum_nil, Fintype.sum_sum_type, one_mul]
  simp only [log_normal _ one_ne_zero, log_normal _ (locVar_ne N), Finset.sum_sub_distrib, ← Finset.sum_div, h1, locK, hs, locVar_coe]
  simp
  field_simp
  ring

theorem loc_approx (x : Fin N → ℝ) (l z : ℝ) : Spec.logApprox (locVi x l) z = Real.log (gaussianPDFReal l 1 z) := by
  simp [Spec.logApprox, locVi]

theorem loc_batch_approx (x : Fin N → ℝ) (k : Fin N) (l z : ℝ) :
    Spec.logApprox (plateBatch (locVi x l) (fun _ => false) (fun _ => true) (single k)) z = Real.log (gaussianPDFReal l 1 z) := by
  simp [Spec.logApprox, locVi, ViProblem.batch, Spec.plateScale]

theorem loc_batch_joint (x : Fin N → ℝ) (k : Fin N) : ∃ κ, ∀ l z,
    Spec.logJoint (plateBatch (locVi x l) (fun _ => false) (fun _ => true) (single k)) z =
      κ + Real.log (gaussianPDFReal (N * x k / (N + 1)) (locVar N) z) := by
  have hN : (N : ℝ) + 1 ≠ 0 := by positivity
  refine ⟨(N + 1) * Real.log (√(2 * Real.pi * (1 : NNReal)))⁻¹ - Real.log (√(2 * Real.pi * locVar N))⁻¹ - N * x k ^ 2 / 2 +
    (N + 1) * (N * x k / (N + 1)) ^ 2 / 2, fun l z => ?_⟩
  simp only [Spec.logJoint, locVi, ViProblem.batch, List.map_cons, List.map_nil, List.sum_cons, List.sum_nil, Fintype.sum_sum_type, Spec.plateScale,
    Bool.false_eq_true, if_false, if_true, one_mul, single, Sum.map_inl, Sum.map_inr]
  simp only [log_normal _ one_ne_zero, log_normal _ (locVar_ne N), locVar_coe]
  simp
  field_simp
  ring

theorem PathGradient.add_const {E A : Type} [NormedAddCommGroup E] [InnerProductSpace ℝ E] [CompleteSpace E] [MeasurableSpace E]
    [MeasurableSpace A] {L : E → A → ℝ} {L' : E → A → E} {ν : Measure A} [IsProbabilityMeasure ν] {c : ℝ} (h : PathGradient L L' ν c) (a : ℝ) :
    PathGradient (fun l ε => L l ε + a) L' ν (c + a) := by
  refine ⟨h.meas, fun l => (h.int l).add (integrable_const a), fun ε l => ?_, h.dom, h.lip, h.sq, ?_⟩
  · have := h.grad ε l
    rw [hasGradientAt_iff_hasFDerivAt] at this ⊢
    exact this.add_const a
  · obtain ⟨A, B, hAB⟩ := h.bound
    refine ⟨A, B, fun l => (hAB l).trans (le_of_eq ?_)⟩
    rw [integral_add (h.int l) (integrable_const a)]
    simp

theorem loc_klqp (x : Fin N → ℝ) :
    KlqpOk (locVi x) fitSample (gaussianReal 0 1) volume (fun l => gaussianPDFReal l 1)
      (fun z => Real.exp (locK x) * gaussianPDFReal (locMean x) (locVar N) z) := by
  have hf := fit_klqp (locMean x) (locVar_ne N)
  have hlog : ∀ z, Real.log (Real.exp (locK x) * gaussianPDFReal (locMean x) (locVar N) z) =
      locK x + Real.log (gaussianPDFReal (locMean x) (locVar N) z) := fun z => by
    rw [Real.log_mul (Real.exp_pos _).ne' (hf.pos z).ne', Real.log_exp]
  refine ⟨hf.sampler, hf.law, hf.nonneg, hf.meas, hf.one, fun z => mul_pos (Real.exp_pos _) (hf.pos z), hf.jmeas.const_mul _, ?_, fun l => ?_,
    fun l z _ => loc_approx x l z, fun l z => by rw [hlog, loc_joint], fun l => ?_⟩
  · have e : ∀ z, ENNReal.ofReal (Real.exp (locK x) * gaussianPDFReal (locMean x) (locVar N) z) =
        ENNReal.ofReal (Real.exp (locK x)) * ENNReal.ofReal (gaussianPDFReal (locMean x) (locVar N) z) := fun z =>
      ENNReal.ofReal_mul (Real.exp_pos _).le
    simp_rw [e]
    rw [lintegral_const_mul _ hf.jmeas.ennreal_ofReal, lintegral_gaussianPDFReal_eq_one _ (locVar_ne N), mul_one]
    exact ENNReal.ofReal_ne_top
  · have : IsProbabilityMeasure (Spec.lawOf volume (gaussianPDFReal l 1)) := by
      rw [lawOf_normal l one_ne_zero]; infer_instance
    have := (hf.int l).sub (integrable_const (locK x))
    refine this.congr (ae_of_all _ fun z => ?_)
    simp only [hlog, Pi.sub_apply]
    ring
  · simp_rw [loc_approx, loc_joint]
    exact (Real.measurable_log.comp (hf.meas l)).sub (measurable_const.add (Real.measurable_log.comp hf.jmeas))

theorem loc_loss (x : Fin N → ℝ) (l ε : ℝ) :
    Spec.logApprox (locVi x l) (fitSample l ε) - Spec.logJoint (locVi x l) (fitSample l ε) =
      (Spec.logApprox (fitVi (locMean x) (locVar N) l) (fitSample l ε) - Spec.logJoint (fitVi (locMean x) (locVar N) l) (fitSample l ε)) - locK x := by
  rw [loc_approx, loc_joint, fit_approx, fit_joint]; ring

theorem loc_kl (x : Fin N → ℝ) (l : ℝ) :
    (klDiv (Spec.lawOf volume (gaussianPDFReal l 1))
      (Spec.posterior volume fun z => Real.exp (locK x) * gaussianPDFReal (locMean x) (locVar N) z)).toReal =
      fitConst (locVar N) - 1 / 2 + ((l - locMean x) ^ 2 + 1) / (2 * locVar N) := by
  have h := (loc_klqp x).objective l
  have hev : Spec.evidence volume (fun z => Real.exp (locK x) * gaussianPDFReal (locMean x) (locVar N) z) = Real.exp (locK x) := by
    have e : ∀ z, ENNReal.ofReal (Real.exp (locK x) * gaussianPDFReal (locMean x) (locVar N) z) =
        ENNReal.ofReal (Real.exp (locK x)) * ENNReal.ofReal (gaussianPDFReal (locMean x) (locVar N) z) := fun z =>
      ENNReal.ofReal_mul (Real.exp_pos _).le
    rw [Spec.evidence]
    simp_rw [e]
    rw [lintegral_const_mul _ (measurable_gaussianPDFReal _ _).ennreal_ofReal, lintegral_gaussianPDFReal_eq_one _ (locVar_ne N), mul_one,
      ENNReal.toReal_ofReal (Real.exp_pos _).le]
  simp_rw [loc_loss, fit_loss _ (locVar_ne N)] at h
  rw [integral_sub (fit_mean _ _ l).1 (integrable_const _), (fit_mean _ _ l).2, hev, Real.log_exp] at h
  simp at h
  linarith

variable {Ω : Type} [MeasurableSpace Ω] {Pr : Measure Ω} [IsProbabilityMeasure Pr]

/-- C133 for a normal mean: the hypotheses of `C133_descent_partial` and `C133_best_partial` hold for any data; fed one data point
at a time, chosen at random, with the factor `N`, the location converges to the posterior mean given all data. -/
theorem C133_normal [NeZero N] (x : Fin N → ℝ) {n : ℕ} (hn : 0 < n) {w : ℕ → Ω → Fin N × (Fin n → ℝ)} (hw : ∀ i, Measurable (w i))
    (hlaw : ∀ i, Pr.map (w i) = (PMF.uniformOfFintype (Fin N)).toMeasure.prod (Measure.pi fun _ => gaussianReal 0 1))
    (hind : iIndepFun w Pr) (x₀ : ℝ) :
    ∀ᵐ ω ∂Pr, Tendsto (descend (fun t => 1 / ((t : ℝ) + 1)) (batchGradient (locVi x) (fun _ => false) (fun _ => true) single fitSample n) x₀
      (fun i => w i ω)) atTop (𝓝 ((∑ k, x k) / (N + 1))) := by
  have hv' : 0 < (locVar N : ℝ) := by have := locVar_ne N; positivity
  have hgrad : ∀ y, gradient (fun l : ℝ => fitConst (locVar N) - 1 / 2 + ((l - locMean x) ^ 2 + 1) / (2 * locVar N)) y = (y - locMean x) / locVar N := by
    intro y
    refine HasGradientAt.gradient (HasDerivAt.hasGradientAt' ?_)
    have h1 : HasDerivAt (fun l : ℝ => l - locMean x) 1 y := (hasDerivAt_id y).sub_const _
    have h2 := (((h1.pow 2).add_const 1).div_const (2 * (locVar N : ℝ))).const_add (fitConst (locVar N) - 1 / 2)
    have e : ((2 : ℕ) : ℝ) * (y - locMean x) ^ (2 - 1) * 1 / (2 * (locVar N : ℝ)) = (y - locMean x) / locVar N := by
      push_cast; field_simp
    rw [e] at h2
    exact h2
  choose κ hκ using loc_batch_joint x
  have hloss : ∀ k l ε, Spec.logApprox (plateBatch (locVi x l) (fun _ => false) (fun _ => true) (single k)) (fitSample l ε) -
      Spec.logJoint (plateBatch (locVi x l) (fun _ => false) (fun _ => true) (single k)) (fitSample l ε) =
      Spec.logApprox (fitVi (N * x k / (N + 1)) (locVar N) l) (fitSample l ε) -
        Spec.logJoint (fitVi (N * x k / (N + 1)) (locVar N) l) (fitSample l ε) + -κ k := fun k l ε => by
    rw [loc_batch_approx, hκ, fit_approx, fit_joint]; ring
  have hpath : ∀ k, PathGradient (fun l ε => Spec.logApprox (plateBatch (locVi x l) (fun _ => false) (fun _ => true) (single k)) (fitSample l ε) -
      Spec.logJoint (plateBatch (locVi x l) (fun _ => false) (fun _ => true) (single k)) (fitSample l ε))
      (fun l ε => (l + ε - N * x k / (N + 1)) / locVar N) (gaussianReal 0 1)
      (-Real.log (Spec.evidence volume (gaussianPDFReal (N * x k / (N + 1)) (locVar N))) + -κ k) := fun k => by
    have := (fit_path (N * x k / (N + 1)) (locVar_ne N)).add_const (-κ k)
    simp_rw [hloss]
    exact this
  refine (C133_best_partial (loc_klqp x) single_balanced (locVi_plated x) (NeZero.pos N) one_pos hpath (fun k l => ?_) (inv_pos.mpr hv')
    (K := fun l => fitConst (locVar N) - 1 / 2 + ((l - locMean x) ^ 2 + 1) / (2 * locVar N)) (fun l => (loc_kl x l).symm) (fun y z => ?_)
    (best := locMean x) (by rw [hgrad]; simp) harmonic_rates hn hw hlaw hind x₀).2
  · simp_rw [hloss]
    rw [integral_add ((fit_path (N * x k / (N + 1)) (locVar_ne N)).int l) (integrable_const _)]
    have h1 := (fit_klqp (N * x k / (N + 1)) (locVar_ne N)).objective l
    rw [h1]
    simp only [integral_const, probReal_univ, smul_eq_mul, one_mul]
    linarith [ENNReal.toReal_nonneg (a := klDiv (Spec.lawOf volume (gaussianPDFReal l 1))
      (Spec.posterior volume (gaussianPDFReal (N * x k / (N + 1)) (locVar N))))]
  · rw [hgrad, Real.norm_eq_abs, sq_abs]
    apply le_of_eq
    simp only [RCLike.inner_apply, conj_trivial]
    field_simp
    ring

example (x : Fin 3 → ℝ) (x₀ : ℝ) : ∀ᵐ w ∂Measure.infinitePi (fun _ : ℕ => (PMF.uniformOfFintype (Fin 3)).toMeasure.prod
      (Measure.pi fun _ : Fin 5 => gaussianReal 0 1)),
    Tendsto (descend (fun t => 1 / ((t : ℝ) + 1)) (batchGradient (locVi x) (fun _ => false) (fun _ => true) single fitSample 5) x₀ w) atTop
      (𝓝 ((∑ k, x k) / (3 + 1))) := by
  have := C133_normal x (n := 5) (by norm_num) (w := fun i (w : ℕ → Fin 3 × (Fin 5 → ℝ)) => w i) (fun i => measurable_pi_apply i)
    (Pr := Measure.infinitePi (fun _ : ℕ => (PMF.uniformOfFintype (Fin 3)).toMeasure.prod (Measure.pi fun _ : Fin 5 => gaussianReal 0 1)))
    (fun i => Measure.infinitePi_map_eval _ i) (iIndepFun_infinitePi (X := fun _ x => x) fun _ => measurable_id) x₀
  simpa using this

end

end Edward
