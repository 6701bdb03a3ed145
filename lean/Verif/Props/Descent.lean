/-
C124: variational inference by gradient descent. With learning rates that satisfy Robbins and Monro's conditions the objective
converges and its gradient comes arbitrarily close to zero; for a strongly convex objective the parameters converge to the
minimum. Neither of the two learning rates the library builds satisfies the conditions.
-/
import Mathlib.Analysis.PSeries
import Mathlib.Probability.BorelCantelli
import Mathlib.Probability.Independence.InfinitePi
import Verif.Lemmas.RobbinsMonro
import Verif.Props.Elbo
import Verif.Props.Optimizer

namespace Edward
set_option linter.unusedSectionVars false
open MeasureTheory Filter Topology ProbabilityTheory InformationTheory

section general
variable {E : Type} [NormedAddCommGroup E] [InnerProductSpace ℝ E] [CompleteSpace E] [MeasurableSpace E] [BorelSpace E]
  [SecondCountableTopology E] {W : Type} [MeasurableSpace W] {ν : Measure W} [IsProbabilityMeasure ν]
  {Ω : Type} [MeasurableSpace Ω] {Pr : Measure Ω} [IsProbabilityMeasure Pr] {w : ℕ → Ω → W}

/-- C124: with unbiased gradients and Robbins-Monro rates, from every starting point, almost surely the objective converges
and its gradient is, again and again, as small as one likes. -/
theorem C124_stationary {F : E → ℝ} {G : E → W → E} {c : ℝ} (h : Spec.GradientNoise F G ν c) {lr : ℕ → ℝ} (hlr : Spec.RobbinsMonro lr)
    (hw : ∀ i, Measurable (w i)) (hlaw : ∀ i, Pr.map (w i) = ν) (hind : iIndepFun w Pr) (x : E) :
    ∀ᵐ ω ∂Pr, (∃ l, Tendsto (fun n => F (descend lr G x (fun i => w i ω) n)) atTop (𝓝 l)) ∧
      ∀ ε > 0, ∃ᶠ n in atTop, ‖gradient F (descend lr G x (fun i => w i ω) n)‖ < ε := by
  filter_upwards [descend_converges h hlr.pos hlr.sq hw hlaw hind x] with ω ⟨h1, h2⟩
  refine ⟨h1, fun ε hε => (frequently_small hlr.pos hlr.sum h2 (pow_pos hε 2)).mono fun n hn => ?_⟩
  rw [(h.grad _).gradient]
  exact lt_of_pow_lt_pow_left₀ 2 hε.le hn

/-- C124: when the gradient vanishes only at the infimum `c`, at least at a linear rate, the objective converges to its infimum. -/
theorem C124_infimum {F : E → ℝ} {G : E → W → E} {c : ℝ} (h : Spec.GradientNoise F G ν c) {lr : ℕ → ℝ} (hlr : Spec.RobbinsMonro lr)
    {m : ℝ} (hm : 0 < m) (hpl : ∀ y, m * (F y - c) ≤ ‖gradient F y‖ ^ 2)
    (hw : ∀ i, Measurable (w i)) (hlaw : ∀ i, Pr.map (w i) = ν) (hind : iIndepFun w Pr) (x : E) :
    ∀ᵐ ω ∂Pr, Tendsto (fun n => F (descend lr G x (fun i => w i ω) n)) atTop (𝓝 c) := by
  filter_upwards [C124_stationary h hlr hw hlaw hind x] with ω ⟨⟨l, hl⟩, hf⟩
  have hc : c ≤ l := ge_of_tendsto' hl fun n => h.low _
  rcases hc.eq_or_lt with e | hlt
  · rwa [e]
  · exfalso
    have h1 : ∀ᶠ n in atTop, (c + l) / 2 < F (descend lr G x (fun i => w i ω) n) := hl.eventually (lt_mem_nhds (by linarith))
    have hp : 0 < m * ((l - c) / 2) := mul_pos hm (by linarith)
    obtain ⟨n, hn1, hn2⟩ := ((hf _ (Real.sqrt_pos.mpr hp)).and_eventually h1).exists
    have h2 := hpl (descend lr G x (fun i => w i ω) n)
    have h3 := (Real.lt_sqrt (norm_nonneg _)).mp hn1
    nlinarith

/-- C124: for a strongly convex objective the parameters converge to the minimum, almost surely and from every starting point. -/
theorem C124_minimum {F : E → ℝ} {G : E → W → E} {c : ℝ} (h : Spec.GradientNoise F G ν c) {lr : ℕ → ℝ} (hlr : Spec.RobbinsMonro lr)
    {m : ℝ} (hm : 0 < m) (hsc : ∀ y z, F y + inner ℝ (gradient F y) (z - y) + m / 2 * ‖z - y‖ ^ 2 ≤ F z)
    {best : E} (hbest : gradient F best = 0)
    (hw : ∀ i, Measurable (w i)) (hlaw : ∀ i, Pr.map (w i) = ν) (hind : iIndepFun w Pr) (x : E) :
    (∀ y, y ≠ best → F best < F y) ∧
    ∀ᵐ ω ∂Pr, Tendsto (descend lr G x (fun i => w i ω)) atTop (𝓝 best) := by
  have hmin : ∀ y, m / 2 * ‖y - best‖ ^ 2 ≤ F y - F best := by
    intro y
    have := hsc best y
    rw [hbest, inner_zero_left] at this
    linarith
  have hpl : ∀ y, 2 * m * (F y - F best) ≤ ‖gradient F y‖ ^ 2 := by
    intro y
    have h1 := hsc y best
    have h2 := neg_le_of_abs_le (abs_real_inner_le_norm (gradient F y) (best - y))
    nlinarith [sq_nonneg (‖gradient F y‖ - m * ‖best - y‖)]
  have hlow : ∀ y, F best ≤ F y := fun y => by
    have := hmin y
    have h2 : 0 ≤ m / 2 * ‖y - best‖ ^ 2 := by positivity
    linarith
  have h' : Spec.GradientNoise F G ν (F best) := by
    obtain ⟨A, B, hAB⟩ := h.bound
    refine ⟨h.meas, h.grad, h.lip, hlow, h.sq, A + B * (F best - c), B, fun y => (hAB y).trans (le_of_eq (by ring))⟩
  refine ⟨fun y hy => ?_, ?_⟩
  · have := hmin y
    have h2 : 0 < m / 2 * ‖y - best‖ ^ 2 := by
      have := norm_pos_iff.mpr (sub_ne_zero.mpr hy)
      positivity
    linarith
  · filter_upwards [C124_infimum h' hlr (by positivity : 0 < 2 * m) hpl hw hlaw hind x] with ω hω
    rw [tendsto_iff_norm_sub_tendsto_zero]
    have h1 : Tendsto (fun n => 2 / m * (F (descend lr G x (fun i => w i ω) n) - F best)) atTop (𝓝 0) := by
      have := (hω.sub_const (F best)).const_mul (2 / m)
      simpa using this
    have h2 : Tendsto (fun n => ‖descend lr G x (fun i => w i ω) n - best‖ ^ 2) atTop (𝓝 0) := by
      refine squeeze_zero (fun n => sq_nonneg _) (fun n => ?_) h1
      have := hmin (descend lr G x (fun i => w i ω) n)
      rw [div_mul_eq_mul_div, le_div_iff₀ hm]
      linarith
    have h3 := h2.sqrt
    simpa [Real.sqrt_sq (norm_nonneg _)] using h3

end general

/-! ### The loss of `KLqp` with reparameterised draws -/

section klqp
variable {Z X I Θ N : Type} [Fintype I] [MeasurableSpace Θ] [MeasurableSpace N]
  {E : Type} [NormedAddCommGroup E] [InnerProductSpace ℝ E] [CompleteSpace E] [MeasurableSpace E] [BorelSpace E] [SecondCountableTopology E]

/-- Conditions on the loss `L l ε` of one draw and its gradients `L' l ε`: differentiable for all noise, dominated near every
parameter, Lipschitz on average, and with mean square growing at most like the mean loss. -/
structure PathGradient (L : E → N → ℝ) (L' : E → N → E) (ν : Measure N) (c : ℝ) : Prop where
  meas : Measurable fun p : E × N => L' p.1 p.2
  int : ∀ l, Integrable (L l) ν
  grad : ∀ ε l, HasGradientAt (fun l => L l ε) (L' l ε) l
  dom : ∀ l₀, ∃ s ∈ 𝓝 l₀, ∃ b : N → ℝ, Integrable b ν ∧ ∀ᵐ ε ∂ν, ∀ l ∈ s, ‖L' l ε‖ ≤ b ε
  lip : ∃ K, ∀ x y, ‖∫ ε, L' x ε ∂ν - ∫ ε, L' y ε ∂ν‖ ≤ K * ‖x - y‖
  sq : ∀ l, MemLp (L' l) 2 ν
  bound : ∃ A B, ∀ l, ∫ ε, ‖L' l ε‖ ^ 2 ∂ν ≤ A + B * (∫ ε, L l ε ∂ν - c)

theorem PathGradient.hasGradientAt {L : E → N → ℝ} {L' : E → N → E} {ν : Measure N} {c : ℝ} (h : PathGradient L L' ν c) (l : E) :
    HasGradientAt (fun l => ∫ ε, L l ε ∂ν) (∫ ε, L' l ε ∂ν) l := by
  obtain ⟨s, hs, b, hb, hbound⟩ := h.dom l
  have hint : Integrable (L' l) ν :=
    hb.mono' (h.sq l).aestronglyMeasurable (hbound.mono fun ε hε => hε l (mem_of_mem_nhds hs))
  have hmain := hasFDerivAt_integral_of_dominated_of_fderiv_le (F' := fun l ε => InnerProductSpace.toDual ℝ E (L' l ε)) hs
    (Eventually.of_forall fun l => (h.int l).aestronglyMeasurable) (h.int l)
    ((InnerProductSpace.toDual ℝ E).continuous.comp_aestronglyMeasurable (h.sq l).aestronglyMeasurable)
    (hbound.mono fun ε hε l hl => by rw [LinearIsometryEquiv.norm_map]; exact hε l hl) hb
    (ae_of_all _ fun ε l _ => (h.grad ε l).hasFDerivAt)
  have e : ∫ ε, InnerProductSpace.toDual ℝ E (L' l ε) ∂ν = InnerProductSpace.toDual ℝ E (∫ ε, L' l ε ∂ν) :=
    (InnerProductSpace.toDual ℝ E).toContinuousLinearEquiv.toContinuousLinearMap.integral_comp_comm hint
  rw [e] at hmain
  exact hmain

variable {v : E → ViProblem Z X I Θ} {T : E → N → Θ}

theorem reparamLoss_path (l : E) {n : ℕ} (d : Fin n → N) :
    reparamLoss (v l) n (fun s => T l (d s)) 0 =
      (n : ℝ)⁻¹ * ∑ s, (Spec.logApprox (v l) (T l (d s)) - Spec.logJoint (v l) (T l (d s))) := by
  rw [C52_reparam, add_zero, Spec.average, div_eq_inv_mul]

theorem reparamGradient_eq {L' : E → N → E} (hg : ∀ ε l, HasGradientAt (fun l => Spec.logApprox (v l) (T l ε) - Spec.logJoint (v l) (T l ε)) (L' l ε) l)
    (n : ℕ) (l : E) (d : Fin n → N) : reparamGradient v T n l d = (n : ℝ)⁻¹ • ∑ s, L' l (d s) := by
  have h1 : HasGradientAt (fun l => reparamLoss (v l) n (fun s => T l (d s)) 0) ((n : ℝ)⁻¹ • ∑ s, L' l (d s)) l := by
    simp_rw [reparamLoss_path]
    rw [hasGradientAt_iff_hasFDerivAt]
    have h2 := (HasFDerivAt.fun_sum (u := Finset.univ) fun (s : Fin n) _ => (hg (d s) l).hasFDerivAt).const_mul (n : ℝ)⁻¹
    have e : InnerProductSpace.toDual ℝ E ((n : ℝ)⁻¹ • ∑ s, L' l (d s)) = (n : ℝ)⁻¹ • ∑ s, InnerProductSpace.toDual ℝ E (L' l (d s)) := by
      rw [map_smulₛₗ, map_sum]; rfl
    rw [e]
    exact h2
  exact h1.gradient

variable {ν : Measure N} [IsProbabilityMeasure ν]

/-- Gradients averaged over `n` draws are right on average and no more variable than those of one draw. -/
theorem Spec.GradientNoise.average {F : E → ℝ} {L' : E → N → E} {c : ℝ} (h : Spec.GradientNoise F L' ν c) {n : ℕ} (hn : 0 < n) :
    Spec.GradientNoise F (fun l (d : Fin n → N) => (n : ℝ)⁻¹ • ∑ s, L' l (d s)) (Measure.pi fun _ : Fin n => ν) c := by
  have hn' : (n : ℝ) ≠ 0 := by positivity
  have hmp : ∀ t : Fin n, MeasurePreserving (Function.eval t) (Measure.pi fun _ : Fin n => ν) ν := fun t => measurePreserving_eval _ t
  have hmean : ∀ l, ∫ d : Fin n → N, (n : ℝ)⁻¹ • ∑ s, L' l (d s) ∂Measure.pi (fun _ => ν) = ∫ ε, L' l ε ∂ν := by
    intro l
    have := integral_average_vec ν hn (L' l) ((h.sq l).integrable (by norm_num)) 0
    simpa using this
  have hLp : ∀ l (t : Fin n), MemLp (fun d : Fin n → N => L' l (d t)) 2 (Measure.pi fun _ => ν) := fun l t =>
    (h.sq l).comp_measurePreserving (hmp t)
  refine ⟨?_, fun l => by rw [hmean]; exact h.grad l, ?_, h.low, fun l => ?_, ?_⟩
  · refine Measurable.const_smul (Finset.measurable_sum _ fun s _ => ?_) _
    exact h.meas.comp (measurable_fst.prodMk ((measurable_pi_apply s).comp measurable_snd))
  · obtain ⟨K, hK⟩ := h.lip
    exact ⟨K, fun x y => by rw [hmean, hmean]; exact hK x y⟩
  · exact (memLp_finsetSum _ fun t _ => hLp l t).const_smul _
  · obtain ⟨A, B, hAB⟩ := h.bound
    refine ⟨A, B, fun l => le_trans ?_ (hAB l)⟩
    have hi : ∀ t : Fin n, Integrable (fun d : Fin n → N => ‖L' l (d t)‖ ^ 2) (Measure.pi fun _ => ν) := fun t =>
      (hLp l t).integrable_norm_pow (by norm_num)
    have hle : ∀ d : Fin n → N, ‖(n : ℝ)⁻¹ • ∑ s, L' l (d s)‖ ^ 2 ≤ Spec.average fun s => ‖L' l (d s)‖ ^ 2 := by
      intro d
      have h1 : ‖∑ s, L' l (d s)‖ ^ 2 ≤ n * ∑ s, ‖L' l (d s)‖ ^ 2 := by
        refine (pow_le_pow_left₀ (norm_nonneg _) (norm_sum_le _ _) 2).trans ?_
        simpa using sq_sum_le_card_mul_sum_sq (s := (Finset.univ : Finset (Fin n))) (f := fun s => ‖L' l (d s)‖)
      rw [norm_smul, mul_pow, Real.norm_eq_abs, abs_of_pos (by positivity), Spec.average, le_div_iff₀ (by positivity)]
      calc ((n : ℝ)⁻¹) ^ 2 * ‖∑ s, L' l (d s)‖ ^ 2 * n ≤ ((n : ℝ)⁻¹) ^ 2 * (n * ∑ s, ‖L' l (d s)‖ ^ 2) * n := by gcongr
        _ = ∑ s, ‖L' l (d s)‖ ^ 2 := by field_simp
    have hia : Integrable (fun d : Fin n → N => Spec.average fun s => ‖L' l (d s)‖ ^ 2) (Measure.pi fun _ => ν) := by
      simp only [Spec.average]
      exact (integrable_finsetSum _ fun s _ => hi s).div_const _
    refine (integral_mono_of_nonneg (ae_of_all _ fun d => by positivity) hia (ae_of_all _ hle)).trans (le_of_eq ?_)
    exact integral_average ν hn (fun ε => ‖L' l ε‖ ^ 2) ((h.sq l).integrable_norm_pow (by norm_num))

/-- The gradients `KLqp` builds from `n` reparameterised draws are right on average. -/
theorem PathGradient.noise {L' : E → N → E} {c : ℝ}
    (h : PathGradient (fun l ε => Spec.logApprox (v l) (T l ε) - Spec.logJoint (v l) (T l ε)) L' ν c)
    (hlow : ∀ l, c ≤ ∫ ε, (Spec.logApprox (v l) (T l ε) - Spec.logJoint (v l) (T l ε)) ∂ν) {n : ℕ} (hn : 0 < n) :
    Spec.GradientNoise (fun l => ∫ ε, (Spec.logApprox (v l) (T l ε) - Spec.logJoint (v l) (T l ε)) ∂ν) (reparamGradient v T n)
      (Measure.pi fun _ : Fin n => ν) c := by
  have hG : reparamGradient v T n = fun l (d : Fin n → N) => (n : ℝ)⁻¹ • ∑ s, L' l (d s) := by
    funext l d; exact reparamGradient_eq h.grad n l d
  rw [hG]
  exact Spec.GradientNoise.average ⟨h.meas, h.hasGradientAt, h.lip, hlow, h.sq, h.bound⟩ hn

variable {Ω : Type} [MeasurableSpace Ω] {Pr : Measure Ω} [IsProbabilityMeasure Pr]

/-- The model and the approximations `q l` of `KLqp`: densities with respect to `μ`, draws of `q l` made from noise by `T l`, and
a joint density `j` with a finite evidence. -/
structure KlqpOk (v : E → ViProblem Z X I Θ) (T : E → N → Θ) (ν : Measure N) (μ : Measure Θ) (q : E → Θ → ℝ) (j : Θ → ℝ) : Prop where
  sampler : ∀ l, Measurable (T l)
  law : ∀ l, ν.map (T l) = Spec.lawOf μ (q l)
  nonneg : ∀ l ω, 0 ≤ q l ω
  meas : ∀ l, Measurable (q l)
  one : ∀ l, ∫⁻ ω, ENNReal.ofReal (q l ω) ∂μ = 1
  pos : ∀ ω, 0 < j ω
  jmeas : Measurable j
  fin : ∫⁻ ω, ENNReal.ofReal (j ω) ∂μ ≠ ⊤
  int : ∀ l, Integrable (fun ω => Real.log (q l ω) - Real.log (j ω)) (Spec.lawOf μ (q l))
  approx : ∀ l ω, 0 < q l ω → Spec.logApprox (v l) ω = Real.log (q l ω)
  joint : ∀ l ω, Spec.logJoint (v l) ω = Real.log (j ω)
  logm : ∀ l, Measurable fun ω => Spec.logApprox (v l) ω - Spec.logJoint (v l) ω

theorem KlqpOk.objective {μ : Measure Θ} [SigmaFinite μ] {q : E → Θ → ℝ} {j : Θ → ℝ} (h : KlqpOk v T ν μ q j) (l : E) :
    ∫ ε, (Spec.logApprox (v l) (T l ε) - Spec.logJoint (v l) (T l ε)) ∂ν =
      (klDiv (Spec.lawOf μ (q l)) (Spec.posterior μ j)).toReal - Real.log (Spec.evidence μ j) := by
  have h1 : ∫ ε, (Spec.logApprox (v l) (T l ε) - Spec.logJoint (v l) (T l ε)) ∂ν =
      ∫ ω, (Spec.logApprox (v l) ω - Spec.logJoint (v l) ω) ∂Spec.lawOf μ (q l) := by
    rw [← h.law l, integral_map (h.sampler l).aemeasurable (h.logm l).aestronglyMeasurable]
  have hqpos : ∀ᵐ ω ∂Spec.lawOf μ (q l), 0 < q l ω := by
    rw [Spec.lawOf, ae_withDensity_iff (h.meas l).ennreal_ofReal]
    refine Filter.Eventually.of_forall fun ω h => ?_
    simpa using h
  rw [h1, (klDiv_posterior μ (q l) j (h.nonneg l) (h.meas l) (h.one l) h.pos h.jmeas h.fin (h.int l)).1,
    integral_congr_ae (hqpos.mono fun ω hω => by
      show Spec.logApprox (v l) ω - Spec.logJoint (v l) ω = Real.log (q l ω) - Real.log (j ω)
      rw [h.approx l ω hω, h.joint])]
  ring

/-- C124, `KLqp` with reparameterised draws and any `n_samples`: almost surely the divergence from the approximation to the
posterior converges along the updates, and its gradient is, again and again, as small as one likes. -/
theorem C124_klqp {μ : Measure Θ} [SigmaFinite μ] {q : E → Θ → ℝ} {j : Θ → ℝ} (h : KlqpOk v T ν μ q j) {L' : E → N → E}
    (hL : PathGradient (fun l ε => Spec.logApprox (v l) (T l ε) - Spec.logJoint (v l) (T l ε)) L' ν (-Real.log (Spec.evidence μ j)))
    {lr : ℕ → ℝ} (hlr : Spec.RobbinsMonro lr) {n : ℕ} (hn : 0 < n) {w : ℕ → Ω → Fin n → N} (hw : ∀ i, Measurable (w i))
    (hlaw : ∀ i, Pr.map (w i) = Measure.pi fun _ => ν) (hind : iIndepFun w Pr) (x : E) :
    ∀ᵐ ω ∂Pr,
      (∃ l, Tendsto (fun t => (klDiv (Spec.lawOf μ (q (descend lr (reparamGradient v T n) x (fun i => w i ω) t))) (Spec.posterior μ j)).toReal)
        atTop (𝓝 l)) ∧
      ∀ ε > 0, ∃ᶠ t in atTop, ‖gradient (fun l => (klDiv (Spec.lawOf μ (q l)) (Spec.posterior μ j)).toReal)
        (descend lr (reparamGradient v T n) x (fun i => w i ω) t)‖ < ε := by
  have hF : (fun l => (klDiv (Spec.lawOf μ (q l)) (Spec.posterior μ j)).toReal) =
      fun l => ∫ ε, (Spec.logApprox (v l) (T l ε) - Spec.logJoint (v l) (T l ε)) ∂ν + Real.log (Spec.evidence μ j) := by
    funext l; rw [h.objective]; ring
  have hlow : ∀ l, -Real.log (Spec.evidence μ j) ≤ ∫ ε, (Spec.logApprox (v l) (T l ε) - Spec.logJoint (v l) (T l ε)) ∂ν := fun l => by
    rw [h.objective]
    linarith [ENNReal.toReal_nonneg (a := klDiv (Spec.lawOf μ (q l)) (Spec.posterior μ j))]
  have hN := hL.noise hlow hn
  filter_upwards [C124_stationary hN hlr hw hlaw hind x] with ω ⟨⟨l, hl⟩, hf⟩
  refine ⟨⟨l + Real.log (Spec.evidence μ j), ?_⟩, fun ε hε => (hf ε hε).mono fun t ht => ?_⟩
  · have e : (fun t => (klDiv (Spec.lawOf μ (q (descend lr (reparamGradient v T n) x (fun i => w i ω) t))) (Spec.posterior μ j)).toReal) =
        fun t => (fun l => ∫ ε, (Spec.logApprox (v l) (T l ε) - Spec.logJoint (v l) (T l ε)) ∂ν) (descend lr (reparamGradient v T n) x (fun i => w i ω) t) +
          Real.log (Spec.evidence μ j) := by
      funext t; exact congrFun hF _
    rw [e]
    exact hl.add_const _
  · rw [hF]
    set y := descend lr (reparamGradient v T n) x (fun i => w i ω) t
    have hg := hL.hasGradientAt y
    have hg' : HasGradientAt (fun l => ∫ ε, (Spec.logApprox (v l) (T l ε) - Spec.logJoint (v l) (T l ε)) ∂ν + Real.log (Spec.evidence μ j))
        (∫ ε, L' y ε ∂ν) y := by
      rw [hasGradientAt_iff_hasFDerivAt] at hg ⊢
      exact hg.add_const _
    rw [hg'.gradient]
    rwa [hg.gradient] at ht

/-- C124, `KLqp` with a divergence that is strongly convex in the parameters: almost surely the parameters converge to those of
the best approximation. -/
theorem C124_klqp_best {μ : Measure Θ} [SigmaFinite μ] {q : E → Θ → ℝ} {j : Θ → ℝ} (h : KlqpOk v T ν μ q j) {L' : E → N → E}
    (hL : PathGradient (fun l ε => Spec.logApprox (v l) (T l ε) - Spec.logJoint (v l) (T l ε)) L' ν (-Real.log (Spec.evidence μ j)))
    {m : ℝ} (hm : 0 < m) {K : E → ℝ} (hK : ∀ l, K l = (klDiv (Spec.lawOf μ (q l)) (Spec.posterior μ j)).toReal)
    (hsc : ∀ y z, K y + inner ℝ (gradient K y) (z - y) + m / 2 * ‖z - y‖ ^ 2 ≤ K z) {best : E} (hbest : gradient K best = 0)
    {lr : ℕ → ℝ} (hlr : Spec.RobbinsMonro lr) {n : ℕ} (hn : 0 < n) {w : ℕ → Ω → Fin n → N} (hw : ∀ i, Measurable (w i))
    (hlaw : ∀ i, Pr.map (w i) = Measure.pi fun _ => ν) (hind : iIndepFun w Pr) (x : E) :
    (∀ y, y ≠ best → K best < K y) ∧
    ∀ᵐ ω ∂Pr, Tendsto (descend lr (reparamGradient v T n) x (fun i => w i ω)) atTop (𝓝 best) := by
  have hlow : ∀ l, -Real.log (Spec.evidence μ j) ≤ ∫ ε, (Spec.logApprox (v l) (T l ε) - Spec.logJoint (v l) (T l ε)) ∂ν := fun l => by
    rw [h.objective]
    linarith [ENNReal.toReal_nonneg (a := klDiv (Spec.lawOf μ (q l)) (Spec.posterior μ j))]
  have hN := hL.noise hlow hn
  have hKF : K = fun l => ∫ ε, (Spec.logApprox (v l) (T l ε) - Spec.logJoint (v l) (T l ε)) ∂ν + Real.log (Spec.evidence μ j) := by
    funext l; rw [hK, h.objective]; ring
  have hN' : Spec.GradientNoise K (reparamGradient v T n) (Measure.pi fun _ : Fin n => ν) 0 := by
    obtain ⟨A, B, hAB⟩ := hN.bound
    refine ⟨hN.meas, fun l => ?_, hN.lip, fun l => by rw [hK]; exact ENNReal.toReal_nonneg, hN.sq, A, B, fun l => (hAB l).trans (le_of_eq ?_)⟩
    · have hg := hN.grad l
      rw [hKF]
      rw [hasGradientAt_iff_hasFDerivAt] at hg ⊢
      exact hg.add_const _
    · rw [hKF]; ring
  exact C124_minimum hN' hlr hm hsc hbest hw hlaw hind x

end klqp

/-! ### A normal approximation of a normal posterior -/

/-- The posterior is `Normal(m, √v)` and the approximation is `Normal(l, 1)` with parameter `l`. -/
noncomputable def fitVi (m : ℝ) (v : NNReal) (l : ℝ) : ViProblem Unit Empty Unit ℝ where
  latents := [()]
  observed := []
  scaleZ := fun _ _ => 1
  scaleX := fun _ _ => 1
  logQ := fun _ z _ => Real.log (gaussianPDFReal l 1 z)
  logP := fun _ z _ => Real.log (gaussianPDFReal m v z)
  logLik := fun _ _ _ => 0

/-- `tf.contrib.distributions.Normal.sample`: location plus noise. -/
def fitSample (l ε : ℝ) : ℝ := l + ε

section fit
variable (m : ℝ) {v : NNReal}

theorem fit_approx (v : NNReal) (l z : ℝ) : Spec.logApprox (fitVi m v l) z = Real.log (gaussianPDFReal l 1 z) := by
  simp [Spec.logApprox, fitVi]

theorem fit_joint (v : NNReal) (l z : ℝ) : Spec.logJoint (fitVi m v l) z = Real.log (gaussianPDFReal m v z) := by
  simp [Spec.logJoint, fitVi]

theorem log_normal (hv : v ≠ 0) (z : ℝ) : Real.log (gaussianPDFReal m v z) = Real.log (√(2 * Real.pi * v))⁻¹ - (z - m) ^ 2 / (2 * v) := by
  have hv' : 0 < (v : ℝ) := by positivity
  rw [gaussianPDFReal, Real.log_mul (by positivity) (Real.exp_pos _).ne', Real.log_exp]
  ring

/-- A constant of the loss below. -/
noncomputable def fitConst (v : NNReal) : ℝ := Real.log (√(2 * Real.pi * (1 : NNReal)))⁻¹ - Real.log (√(2 * Real.pi * v))⁻¹

theorem fit_loss (hv : v ≠ 0) (l ε : ℝ) :
    Spec.logApprox (fitVi m v l) (fitSample l ε) - Spec.logJoint (fitVi m v l) (fitSample l ε) =
      fitConst v - ε ^ 2 / 2 + (l + ε - m) ^ 2 / (2 * v) := by
  rw [fit_approx, fit_joint, log_normal l one_ne_zero, log_normal m hv, fitConst, fitSample]
  push_cast
  ring

theorem noise_mem : MemLp (fun ε : ℝ => ε) 2 (gaussianReal 0 1) := by
  have h : MemLp (id : ℝ → ℝ) 2 (gaussianReal 0 1) := by simpa using memLp_id_gaussianReal (μ := 0) (v := 1) 2
  exact h

theorem noise_mean : ∫ ε, ε ∂gaussianReal 0 1 = 0 := integral_id_gaussianReal

theorem noise_sq : ∫ ε, ε ^ 2 ∂gaussianReal 0 1 = 1 := by
  have hv := variance_eq_sub (noise_mem)
  have h1 : Var[fun ε : ℝ => ε; gaussianReal 0 1] = 1 := by simp
  rw [h1, noise_mean] at hv
  have h2 : ∫ x, ((fun ε : ℝ => ε) ^ 2) x ∂gaussianReal 0 1 = ∫ ε, ε ^ 2 ∂gaussianReal 0 1 := rfl
  rw [h2] at hv
  linarith

theorem noise_shift_sq (a : ℝ) : ∫ ε, (a + ε) ^ 2 ∂gaussianReal 0 1 = a ^ 2 + 1 := by
  have hi : Integrable (fun ε : ℝ => ε) (gaussianReal 0 1) := noise_mem.integrable (by norm_num)
  have e : ∀ ε : ℝ, (a + ε) ^ 2 = a ^ 2 + 2 * a * ε + ε ^ 2 := fun ε => by ring
  simp_rw [e]
  have h1 : Integrable (fun ε : ℝ => a ^ 2 + 2 * a * ε) (gaussianReal 0 1) := (integrable_const _).add (hi.const_mul _)
  rw [integral_add h1 noise_mem.integrable_sq, integral_add (integrable_const _) (hi.const_mul _), integral_const_mul, noise_mean, noise_sq]
  simp

theorem fit_mean (v : NNReal) (l : ℝ) :
    Integrable (fun ε => fitConst v - ε ^ 2 / 2 + (l + ε - m) ^ 2 / (2 * v)) (gaussianReal 0 1) ∧
    ∫ ε, (fitConst v - ε ^ 2 / 2 + (l + ε - m) ^ 2 / (2 * v)) ∂gaussianReal 0 1 =
      fitConst v - 1 / 2 + ((l - m) ^ 2 + 1) / (2 * v) := by
  have h1 : Integrable (fun ε : ℝ => ε ^ 2 / 2) (gaussianReal 0 1) := noise_mem.integrable_sq.div_const 2
  have h2 : Integrable (fun ε : ℝ => fitConst v - ε ^ 2 / 2) (gaussianReal 0 1) := (integrable_const _).sub h1
  have hm : MemLp (fun ε : ℝ => l - m + ε) 2 (gaussianReal 0 1) := (memLp_const (l - m)).add noise_mem
  have e : ∀ ε : ℝ, (l + ε - m) ^ 2 = (l - m + ε) ^ 2 := fun ε => by ring
  have h3 : Integrable (fun ε : ℝ => (l + ε - m) ^ 2 / (2 * (v : ℝ))) (gaussianReal 0 1) := by
    simp_rw [e]
    exact hm.integrable_sq.div_const _
  have e3 : ∫ ε, (l + ε - m) ^ 2 / (2 * (v : ℝ)) ∂gaussianReal 0 1 = ((l - m) ^ 2 + 1) / (2 * v) := by
    rw [integral_div]
    simp_rw [e]
    rw [noise_shift_sq]
  have e2 : ∫ ε, (fitConst v - ε ^ 2 / 2) ∂gaussianReal 0 1 = fitConst v - 1 / 2 := by
    rw [integral_sub (integrable_const _) h1, integral_div, noise_sq]
    simp
  exact ⟨h2.add h3, by rw [integral_add h2 h3, e2, e3]⟩

theorem lawOf_normal (hv : v ≠ 0) : Spec.lawOf volume (gaussianPDFReal m v) = gaussianReal m v := by
  rw [gaussianReal_of_var_ne_zero _ hv]; rfl

theorem normal_evidence (hv : v ≠ 0) : Spec.evidence volume (gaussianPDFReal m v) = 1 := by
  rw [Spec.evidence, lintegral_gaussianPDFReal_eq_one m hv]; rfl

theorem fit_klqp (hv : v ≠ 0) :
    KlqpOk (fitVi m v) fitSample (gaussianReal 0 1) volume (fun l => gaussianPDFReal l 1) (gaussianPDFReal m v) where
  sampler l := measurable_const.add measurable_id
  law l := by
    rw [lawOf_normal l one_ne_zero]
    have := gaussianReal_map_const_add (μ := 0) (v := 1) l
    rw [zero_add] at this
    exact this
  nonneg l ω := gaussianPDFReal_nonneg _ _ _
  meas l := measurable_gaussianPDFReal _ _
  one l := lintegral_gaussianPDFReal_eq_one l one_ne_zero
  pos ω := gaussianPDFReal_pos _ _ _ hv
  jmeas := measurable_gaussianPDFReal _ _
  fin := by rw [lintegral_gaussianPDFReal_eq_one m hv]; exact ENNReal.one_ne_top
  int l := by
    have hl : MemLp (fun z : ℝ => z) 2 (gaussianReal l 1) := by
      have h : MemLp (id : ℝ → ℝ) 2 (gaussianReal l 1) := by simpa using memLp_id_gaussianReal (μ := l) (v := 1) 2
      exact h
    rw [lawOf_normal l one_ne_zero]
    simp_rw [log_normal l one_ne_zero, log_normal m hv]
    exact ((integrable_const _).sub (((hl.sub (memLp_const l)).integrable_sq).div_const _)).sub
      ((integrable_const _).sub (((hl.sub (memLp_const m)).integrable_sq).div_const _))
  approx l ω _ := fit_approx m v l ω
  joint l ω := fit_joint m v l ω
  logm l := by
    simp_rw [fit_approx, fit_joint]
    exact (Real.measurable_log.comp (measurable_gaussianPDFReal _ _)).sub (Real.measurable_log.comp (measurable_gaussianPDFReal _ _))

theorem fit_hasGradientAt (hv : v ≠ 0) (ε l : ℝ) :
    HasGradientAt (fun l => Spec.logApprox (fitVi m v l) (fitSample l ε) - Spec.logJoint (fitVi m v l) (fitSample l ε)) ((l + ε - m) / v) l := by
  simp_rw [fit_loss m hv]
  refine HasDerivAt.hasGradientAt' ?_
  have h1 : HasDerivAt (fun l : ℝ => l + ε - m) 1 l := ((hasDerivAt_id l).add_const ε).sub_const m
  have h2 := ((h1.pow 2).div_const (2 * (v : ℝ))).const_add (fitConst v - ε ^ 2 / 2)
  have hv' : (v : ℝ) ≠ 0 := by positivity
  have e : ((2 : ℕ) : ℝ) * (l + ε - m) ^ (2 - 1) * 1 / (2 * (v : ℝ)) = (l + ε - m) / v := by
    push_cast; field_simp
  rw [e] at h2
  exact h2

theorem fit_path (hv : v ≠ 0) :
    PathGradient (fun l ε => Spec.logApprox (fitVi m v l) (fitSample l ε) - Spec.logJoint (fitVi m v l) (fitSample l ε))
      (fun l ε => (l + ε - m) / v) (gaussianReal 0 1) (-Real.log (Spec.evidence volume (gaussianPDFReal m v))) := by
  have hv' : 0 < (v : ℝ) := by positivity
  have hmem : ∀ l, MemLp (fun ε : ℝ => (l + ε - m) / v) 2 (gaussianReal 0 1) := fun l => by
    have := (((memLp_const l).add noise_mem).sub (memLp_const m)).const_mul (v : ℝ)⁻¹
    refine this.ae_eq (ae_of_all _ fun ε => ?_)
    simp [div_eq_inv_mul]
  have hi : Integrable (fun ε : ℝ => ε) (gaussianReal 0 1) := noise_mem.integrable (by norm_num)
  have hmean : ∀ l, ∫ ε, (l + ε - m) / v ∂gaussianReal 0 1 = (l - m) / v := fun l => by
    have h1 : Integrable (fun ε : ℝ => l + ε) (gaussianReal 0 1) := (integrable_const _).add hi
    rw [integral_div, integral_sub h1 (integrable_const _), integral_add (integrable_const _) hi, noise_mean]
    simp
  refine ⟨?_, fun l => ?_, fun ε l => fit_hasGradientAt m hv ε l, fun l₀ => ⟨Metric.ball l₀ 1, Metric.ball_mem_nhds _ one_pos,
    fun ε => (|l₀| + 1 + |ε| + |m|) / v, ?_, ae_of_all _ fun ε l hl => ?_⟩, ⟨(v : ℝ)⁻¹, fun x y => ?_⟩, hmem,
    ⟨1 / v ^ 2 - 2 / v * (fitConst v - 1 / 2 + 1 / (2 * v)), 2 / v, fun l => le_of_eq ?_⟩⟩
  · exact (((measurable_fst.add measurable_snd).sub measurable_const).div_const _)
  · simp_rw [fit_loss m hv]; exact (fit_mean m v l).1
  · exact (((integrable_const _).add hi.abs).add (integrable_const _)).div_const _
  · rw [Real.norm_eq_abs, abs_div, abs_of_pos hv']
    have h1 : |l - l₀| < 1 := by simpa [Real.dist_eq] using hl
    have h2 : |l + ε - m| ≤ |l₀| + 1 + |ε| + |m| := by
      calc |l + ε - m| = |l₀ + (l - l₀) + ε - m| := by ring_nf
        _ ≤ |l₀ + (l - l₀) + ε| + |m| := abs_sub _ _
        _ ≤ |l₀ + (l - l₀)| + |ε| + |m| := by gcongr; exact abs_add_le _ _
        _ ≤ |l₀| + |l - l₀| + |ε| + |m| := by gcongr; exact abs_add_le _ _
        _ ≤ _ := by linarith
    exact div_le_div_of_nonneg_right h2 hv'.le
  · rw [hmean, hmean, Real.norm_eq_abs, Real.norm_eq_abs, ← sub_div, abs_div, abs_of_pos hv', div_eq_inv_mul]
    apply le_of_eq; congr 2; ring
  · simp_rw [fit_loss m hv]
    rw [(fit_mean m v l).2, normal_evidence m hv]
    have e : ∀ ε : ℝ, ‖(l + ε - m) / v‖ ^ 2 = (l - m + ε) ^ 2 / v ^ 2 := fun ε => by
      rw [Real.norm_eq_abs, sq_abs, div_pow]; congr 2; ring
    simp_rw [e]
    rw [integral_div, noise_shift_sq]
    simp
    field_simp
    ring

theorem fit_kl (hv : v ≠ 0) (l : ℝ) :
    (klDiv (Spec.lawOf volume (gaussianPDFReal l 1)) (Spec.posterior volume (gaussianPDFReal m v))).toReal =
      fitConst v - 1 / 2 + ((l - m) ^ 2 + 1) / (2 * v) := by
  have h := (fit_klqp m hv).objective l
  simp_rw [fit_loss m hv] at h
  rw [(fit_mean m v l).2, normal_evidence m hv] at h
  simp only [Real.log_one, sub_zero] at h
  exact h.symm

theorem fit_gradient (hv : v ≠ 0) (n : ℕ) (l : ℝ) (d : Fin n → ℝ) :
    reparamGradient (fitVi m v) fitSample n l d = (n : ℝ)⁻¹ * ∑ s, (l + d s - m) / v :=
  reparamGradient_eq (fun ε l => fit_hasGradientAt m hv ε l) n l d

/-- The rates `1 / (t + 1)`. -/
theorem harmonic_rates : Spec.RobbinsMonro fun t : ℕ => 1 / ((t : ℝ) + 1) where
  pos t := by positivity
  sum h := by
    have h1 := (summable_nat_add_iff (f := fun t : ℕ => 1 / (t : ℝ)) 1).mp (by simpa using h)
    exact Real.not_summable_one_div_natCast h1
  sq := by
    have h1 := (summable_nat_add_iff (f := fun t : ℕ => 1 / (t : ℝ) ^ 2) 1).mpr (Real.summable_one_div_nat_pow.mpr (by norm_num))
    simpa [div_pow] using h1

variable {Ω : Type} [MeasurableSpace Ω] {Pr : Measure Ω} [IsProbabilityMeasure Pr]

/-- C124 for a normal posterior: the hypotheses of `C124_klqp` and `C124_klqp_best` hold for every variance and every
`n_samples`; with rates `1 / (t + 1)` the location converges to the posterior mean. -/
theorem C124_normal (hv : v ≠ 0) {n : ℕ} (hn : 0 < n) {w : ℕ → Ω → Fin n → ℝ} (hw : ∀ i, Measurable (w i))
    (hlaw : ∀ i, Pr.map (w i) = Measure.pi fun _ => gaussianReal 0 1) (hind : iIndepFun w Pr) (x : ℝ) :
    ∀ᵐ ω ∂Pr, Tendsto (descend (fun t => 1 / ((t : ℝ) + 1)) (reparamGradient (fitVi m v) fitSample n) x (fun i => w i ω)) atTop (𝓝 m) := by
  have hv' : 0 < (v : ℝ) := by positivity
  have hgrad : ∀ y, gradient (fun l : ℝ => fitConst v - 1 / 2 + ((l - m) ^ 2 + 1) / (2 * v)) y = (y - m) / v := by
    intro y
    refine HasGradientAt.gradient (HasDerivAt.hasGradientAt' ?_)
    have h1 : HasDerivAt (fun l : ℝ => l - m) 1 y := (hasDerivAt_id y).sub_const m
    have h2 := (((h1.pow 2).add_const 1).div_const (2 * (v : ℝ))).const_add (fitConst v - 1 / 2)
    have e : ((2 : ℕ) : ℝ) * (y - m) ^ (2 - 1) * 1 / (2 * (v : ℝ)) = (y - m) / v := by
      push_cast; field_simp
    rw [e] at h2
    exact h2
  refine (C124_klqp_best (fit_klqp m hv) (fit_path m hv) (inv_pos.mpr hv') (K := fun l => fitConst v - 1 / 2 + ((l - m) ^ 2 + 1) / (2 * v))
    (fun l => (fit_kl m hv l).symm) (fun y z => ?_) (best := m) (by rw [hgrad]; simp) harmonic_rates hn hw hlaw hind x).2
  rw [hgrad, Real.norm_eq_abs, sq_abs]
  apply le_of_eq
  simp only [RCLike.inner_apply, conj_trivial]
  field_simp
  ring

/-- Draws as in `C124_normal` exist. -/
theorem draws_exist (n : ℕ) :
    (∀ i, Measurable fun w : ℕ → Fin n → ℝ => w i) ∧
    (∀ i, (Measure.infinitePi fun _ : ℕ => Measure.pi fun _ : Fin n => gaussianReal 0 1).map (fun w => w i) = Measure.pi fun _ => gaussianReal 0 1) ∧
    iIndepFun (fun i (w : ℕ → Fin n → ℝ) => w i) (Measure.infinitePi fun _ : ℕ => Measure.pi fun _ : Fin n => gaussianReal 0 1) :=
  ⟨fun i => measurable_pi_apply i, fun i => Measure.infinitePi_map_eval _ i, iIndepFun_infinitePi (X := fun _ x => x) fun _ => measurable_id⟩

example (x m : ℝ) : ∀ᵐ w ∂Measure.infinitePi (fun _ : ℕ => Measure.pi fun _ : Fin 5 => gaussianReal 0 1),
    Tendsto (descend (fun t => 1 / ((t : ℝ) + 1)) (reparamGradient (fitVi m 4) fitSample 5) x w) atTop (𝓝 m) := by
  obtain ⟨h1, h2, h3⟩ := draws_exist 5
  exact C124_normal m four_ne_zero Nat.succ_pos' h1 h2 h3 x

/-! ### The learning rates the library builds -/

/-- Independent standard normal draws exceed one, and fall below minus one, again and again. -/
theorem noise_frequently {w : ℕ → Ω → ℝ} (hw : ∀ i, Measurable (w i)) (hlaw : ∀ i, Pr.map (w i) = gaussianReal 0 1) (hind : iIndepFun w Pr)
    {s : Set ℝ} (hs : IsOpen s) (hne : s.Nonempty) : ∀ᵐ ω ∂Pr, ∃ᶠ i in atTop, w i ω ∈ s := by
  have hpos : gaussianReal 0 1 s ≠ 0 := fun h0 =>
    (hs.measure_pos volume hne).ne' (gaussianReal_absolutelyContinuous' 0 one_ne_zero h0)
  have hms : ∀ i, MeasurableSet (w i ⁻¹' s) := fun i => hw i hs.measurableSet
  have hset : iIndepSet (fun i => w i ⁻¹' s) Pr := by
    rw [iIndepSet_iff_meas_biInter hms]
    intro S
    exact hind.measure_inter_preimage_eq_mul S fun i _ => hs.measurableSet
  have hsum : ∑' i, Pr (w i ⁻¹' s) = ⊤ := by
    have e : ∀ i, Pr (w i ⁻¹' s) = gaussianReal 0 1 s := fun i => by rw [← hlaw i, Measure.map_apply (hw i) hs.measurableSet]
    simp_rw [e]
    exact ENNReal.tsum_const_eq_top_of_ne_zero hpos
  have h1 := measure_limsup_eq_one hms hset hsum
  have h2 : ∀ᵐ ω ∂Pr, ω ∈ limsup (fun i => w i ⁻¹' s) atTop := by
    rw [← prob_compl_eq_zero_iff (MeasurableSet.measurableSet_limsup hms)] at h1
    exact mem_ae_iff.mpr h1
  filter_upwards [h2] with ω hω
  rw [mem_limsup_iff_frequently_mem] at hω
  exact hω

theorem draw_law {w : Ω → Fin 1 → ℝ} (hw : Measurable w) (hlaw : Pr.map w = Measure.pi fun _ => gaussianReal 0 1) :
    Pr.map (fun ω => w ω 0) = gaussianReal 0 1 := by
  have h : (fun ω => w ω 0) = (Function.eval 0) ∘ w := rfl
  rw [h, ← Measure.map_map (measurable_pi_apply 0) hw, hlaw]
  exact (measurePreserving_eval (fun _ : Fin 1 => gaussianReal 0 1) 0).map_eq

/-- C124 fails for `optimizer="gradientdescent"`: the learning rate is 0.01 throughout, and for every normal posterior and every
starting point the parameter, almost surely, does not converge. -/
theorem C124_fixed_fails (hv : v ≠ 0) {w : ℕ → Ω → Fin 1 → ℝ} (hw : ∀ i, Measurable (w i))
    (hlaw : ∀ i, Pr.map (w i) = Measure.pi fun _ => gaussianReal 0 1) (hind : iIndepFun w Pr) (x : ℝ) :
    buildOptimizer (.name "gradientdescent") .none = .ok (.built .gradientDescent .fixed, .none) ∧
    ¬ Spec.RobbinsMonro LearningRate.fixed.at ∧
    ∀ᵐ ω ∂Pr, ¬ ∃ l, Tendsto (descend LearningRate.fixed.at (reparamGradient (fitVi m v) fitSample 1) x (fun i => w i ω)) atTop (𝓝 l) := by
  refine ⟨rfl, fun h => ?_, ?_⟩
  · have := h.sq.tendsto_atTop_zero
    simp only [LearningRate.at] at this
    have h2 := tendsto_nhds_unique this tendsto_const_nhds
    norm_num at h2
  have hv' : 0 < (v : ℝ) := by positivity
  have hm1 : ∀ i, Measurable fun ω => w i ω 0 := fun i => (measurable_pi_apply 0).comp (hw i)
  have hl1 : ∀ i, Pr.map (fun ω => w i ω 0) = gaussianReal 0 1 := fun i => draw_law (hw i) (hlaw i)
  have hi1 : iIndepFun (fun i ω => w i ω 0) Pr := hind.comp (fun _ d => d 0) fun _ => measurable_pi_apply 0
  filter_upwards [noise_frequently hm1 hl1 hi1 (isOpen_Ioi (a := (1 : ℝ))) ⟨2, by norm_num⟩,
    noise_frequently hm1 hl1 hi1 (isOpen_Iio (a := (-1 : ℝ))) ⟨-2, by norm_num⟩] with ω hup hdown
  rintro ⟨l, hl⟩
  set θ := descend LearningRate.fixed.at (reparamGradient (fitVi m v) fitSample 1) x (fun i => w i ω) with hθ
  have hstep : ∀ t, w t ω 0 = (θ t - θ (t + 1)) * (100 * v) - θ t + m := by
    intro t
    have h1 : θ (t + 1) = θ t - LearningRate.fixed.at t • reparamGradient (fitVi m v) fitSample 1 (θ t) (w t ω) := rfl
    rw [fit_gradient m hv] at h1
    simp only [Finset.univ_unique, Fin.default_eq_zero, Finset.sum_singleton, Nat.cast_one, inv_one, one_mul, LearningRate.at, smul_eq_mul] at h1
    rw [h1]
    field_simp
    norm_num
    try ring
  have hconv : Tendsto (fun t => w t ω 0) atTop (𝓝 ((l - l) * (100 * v) - l + m)) := by
    simp_rw [hstep]
    exact (((hl.sub (hl.comp (tendsto_add_atTop_nat 1))).mul_const _).sub hl).add_const m
  set e := (l - l) * (100 * v) - l + m
  rcases le_or_gt e 0 with he | he
  · have h1 : ∀ᶠ t in atTop, w t ω 0 < 1 := hconv.eventually (gt_mem_nhds (by linarith))
    obtain ⟨t, h2, h3⟩ := (hup.and_eventually h1).exists
    exact absurd h2 (not_lt.mpr h3.le)
  · have h1 : ∀ᶠ t in atTop, -1 < w t ω 0 := hconv.eventually (lt_mem_nhds (by linarith))
    obtain ⟨t, h2, h3⟩ := (hdown.and_eventually h1).exists
    exact absurd h2 (not_lt.mpr h3.le)

/-- C124 fails for `optimizer="gradientdescent"` with a `global_step`: the learning rates add up to 100. For a posterior of variance
200 and a starting point other than its mean, the expected parameter never gets closer to the posterior mean than half way, the
expected divergence stays above its minimum by a fixed amount, and the parameter does not converge to the mean almost surely. -/
theorem C124_decay_fails {w : ℕ → Ω → Fin 1 → ℝ} (hw : ∀ i, Measurable (w i))
    (hlaw : ∀ i, Pr.map (w i) = Measure.pi fun _ => gaussianReal 0 1) (x : ℝ) (hx : x ≠ m) :
    let θ := fun ω => descend (LearningRate.decay 0).at (reparamGradient (fitVi m 200) fitSample 1) x (fun i => w i ω)
    buildOptimizer (.name "gradientdescent") (.variable 0) = .ok (.built .gradientDescent (.decay 0), .given) ∧
    ¬ Spec.RobbinsMonro (LearningRate.decay 0).at ∧
    (∀ t, |x - m| / 2 ≤ |(∫ ω, θ ω t ∂Pr) - m|) ∧
    (∀ t, (x - m) ^ 2 / 1600 ≤ ∫ ω, ((klDiv (Spec.lawOf volume (gaussianPDFReal (θ ω t) 1)) (Spec.posterior volume (gaussianPDFReal m 200))).toReal -
      (klDiv (Spec.lawOf volume (gaussianPDFReal m 1)) (Spec.posterior volume (gaussianPDFReal m 200))).toReal) ∂Pr) ∧
    ¬ ∀ᵐ ω ∂Pr, Tendsto (θ ω) atTop (𝓝 m) := by
  intro θ
  set a := (LearningRate.decay 0).at with ha
  have h200 : (200 : NNReal) ≠ 0 := by norm_num
  have ha0 : ∀ t, 0 < a t := decay_pos 0
  have hasum : ∀ t, ∑ i ∈ Finset.range t, a i ≤ 100 := fun t =>
    sum_le_hasSum _ (fun i _ => (ha0 i).le) C105_rates
  have ha1 : ∀ t, a t ≤ 100 := fun t => le_hasSum C105_rates t fun i _ => (ha0 i).le
  have hm1 : ∀ i, Measurable fun ω => w i ω 0 := fun i => (measurable_pi_apply 0).comp (hw i)
  have hl1 : ∀ i, Pr.map (fun ω => w i ω 0) = gaussianReal 0 1 := fun i => draw_law (hw i) (hlaw i)
  have hmem : ∀ i, MemLp (fun ω => w i ω 0) 2 Pr := fun i => by
    have h := noise_mem
    rw [← hl1 i] at h
    exact (memLp_map_measure_iff aestronglyMeasurable_id (hm1 i).aemeasurable).mp h
  have hE : ∀ i, ∫ ω, w i ω 0 ∂Pr = 0 := fun i => by
    have h := noise_mean
    rw [← hl1 i, integral_map (hm1 i).aemeasurable (by fun_prop)] at h
    exact h
  have hE2 : ∀ i, ∫ ω, (w i ω 0) ^ 2 ∂Pr = 1 := fun i => by
    have h := noise_sq
    rw [← hl1 i, integral_map (hm1 i).aemeasurable (by fun_prop)] at h
    exact h
  set y : ℕ → Ω → ℝ := fun t ω => θ ω t - m with hy
  have hy0 : ∀ ω, y 0 ω = x - m := fun ω => rfl
  have hstep : ∀ t ω, y (t + 1) ω = (1 - a t / 200) * y t ω - a t / 200 * w t ω 0 := by
    intro t ω
    have h1 : θ ω (t + 1) = θ ω t - a t • reparamGradient (fitVi m 200) fitSample 1 (θ ω t) (w t ω) := rfl
    rw [fit_gradient m h200] at h1
    simp only [Finset.univ_unique, Fin.default_eq_zero, Finset.sum_singleton, Nat.cast_one, inv_one, one_mul, smul_eq_mul] at h1
    simp only [hy]
    rw [h1]
    push_cast
    ring
  have hymem : ∀ t, MemLp (y t) 2 Pr := by
    intro t
    induction t with
    | zero => exact memLp_const (x - m)
    | succ t ih =>
      have h1 : y (t + 1) = fun ω => (1 - a t / 200) * y t ω - a t / 200 * w t ω 0 := funext (hstep t)
      rw [h1]
      exact (ih.const_mul _).sub ((hmem t).const_mul _)
  have hyi : ∀ t, Integrable (y t) Pr := fun t => (hymem t).integrable (by norm_num)
  have hwi : ∀ t, Integrable (fun ω => w t ω 0) Pr := fun t => (hmem t).integrable (by norm_num)
  have hmean : ∀ t, ∃ P, 1 - (∑ i ∈ Finset.range t, a i) / 200 ≤ P ∧ P ≤ 1 ∧ ∫ ω, y t ω ∂Pr = P * (x - m) := by
    intro t
    induction t with
    | zero => exact ⟨1, by simp, le_rfl, by simp [hy0]⟩
    | succ t ih =>
      obtain ⟨P, hP1, hP2, hP3⟩ := ih
      have hP0 : 0 ≤ P := by linarith [hasum t]
      refine ⟨(1 - a t / 200) * P, ?_, ?_, ?_⟩
      · rw [Finset.sum_range_succ]
        nlinarith [ha0 t]
      · nlinarith [ha0 t]
      · simp_rw [hstep]
        rw [integral_sub ((hyi t).const_mul _) ((hwi t).const_mul _), integral_const_mul, integral_const_mul, hP3, hE]
        ring
  have hhalf : ∀ t, |x - m| / 2 ≤ |∫ ω, y t ω ∂Pr| := by
    intro t
    obtain ⟨P, hP1, hP2, hP3⟩ := hmean t
    have h1 : 1 / 2 ≤ P := by linarith [hasum t]
    rw [hP3, abs_mul, abs_of_nonneg (by linarith : 0 ≤ P)]
    nlinarith [abs_nonneg (x - m)]
  have hsqb : ∀ t, ∫ ω, y t ω ^ 2 ∂Pr ≤ (x - m) ^ 2 + 1 := by
    intro t
    induction t with
    | zero => simp [hy0]
    | succ t ih =>
      have hb0 : 0 ≤ a t / 200 := by linarith [ha0 t]
      have hb1 : a t / 200 ≤ 1 := by linarith [ha1 t]
      have hle : ∀ ω, y (t + 1) ω ^ 2 ≤ (1 - a t / 200) * y t ω ^ 2 + a t / 200 * (w t ω 0) ^ 2 := by
        intro ω
        rw [hstep]
        nlinarith [mul_nonneg (mul_nonneg hb0 (sub_nonneg.mpr hb1)) (sq_nonneg (y t ω + w t ω 0))]
      have hi2 : Integrable (fun ω => (1 - a t / 200) * y t ω ^ 2 + a t / 200 * (w t ω 0) ^ 2) Pr :=
        ((hymem t).integrable_sq.const_mul _).add ((hmem t).integrable_sq.const_mul _)
      refine (integral_mono (hymem (t + 1)).integrable_sq hi2 hle).trans ?_
      rw [integral_add ((hymem t).integrable_sq.const_mul _) ((hmem t).integrable_sq.const_mul _), integral_const_mul, integral_const_mul, hE2]
      nlinarith [sq_nonneg (x - m)]
  have hxm : 0 < |x - m| := abs_pos.mpr (sub_ne_zero.mpr hx)
  refine ⟨rfl, fun h => h.sum C105_rates.summable, fun t => ?_, fun t => ?_, fun hall => ?_⟩
  · have h1 := hhalf t
    have hθi : Integrable (fun ω => θ ω t) Pr := by
      have := (hyi t).add (integrable_const m)
      refine this.congr (ae_of_all _ fun ω => ?_)
      simp [hy]
    simp only [hy] at h1
    rw [integral_sub hθi (integrable_const m)] at h1
    simpa using h1
  · have e : ∀ ω, (klDiv (Spec.lawOf volume (gaussianPDFReal (θ ω t) 1)) (Spec.posterior volume (gaussianPDFReal m 200))).toReal -
        (klDiv (Spec.lawOf volume (gaussianPDFReal m 1)) (Spec.posterior volume (gaussianPDFReal m 200))).toReal = y t ω ^ 2 / 400 := by
      intro ω
      rw [fit_kl m h200, fit_kl m h200]
      simp only [hy]
      push_cast
      ring
    simp_rw [e]
    rw [integral_div]
    have h1 := variance_nonneg (y t) Pr
    rw [variance_eq_sub (hymem t)] at h1
    have h2 : ∫ ω, (y t ^ 2) ω ∂Pr = ∫ ω, y t ω ^ 2 ∂Pr := rfl
    rw [h2] at h1
    have h3 := pow_le_pow_left₀ (by positivity) (hhalf t) 2
    rw [sq_abs, div_pow, sq_abs] at h3
    linarith
  · -- a bounded second moment makes the expectations converge too
    set R := 4 * ((x - m) ^ 2 + 1) / |x - m| with hR
    have hR0 : 0 < R := by positivity
    have hlim : Tendsto (fun t => ∫ ω, min |y t ω| R ∂Pr) atTop (𝓝 (∫ _ω : Ω, (0 : ℝ) ∂Pr)) := by
      refine tendsto_integral_of_dominated_convergence (fun _ => R) (fun t => ?_) (integrable_const R) (fun t => ae_of_all _ fun ω => ?_) ?_
      · exact ((hyi t).aestronglyMeasurable.norm).inf aestronglyMeasurable_const
      · rw [Real.norm_eq_abs, abs_of_nonneg (le_min (abs_nonneg _) hR0.le)]
        exact min_le_right _ _
      · filter_upwards [hall] with ω hω
        have h1 : Tendsto (fun t => y t ω) atTop (𝓝 0) := by
          have := hω.sub_const m
          simpa [hy] using this
        have h2 := (h1.abs).min (tendsto_const_nhds (x := R))
        simpa [hR0.le] using h2
    rw [integral_zero] at hlim
    obtain ⟨t, ht⟩ := (hlim.eventually (gt_mem_nhds (by positivity : 0 < |x - m| / 4))).exists
    have hle : ∀ ω, |y t ω| ≤ min |y t ω| R + y t ω ^ 2 / R := by
      intro ω
      rcases le_total |y t ω| R with h | h
      · rw [min_eq_left h]
        have : 0 ≤ y t ω ^ 2 / R := by positivity
        linarith
      · rw [min_eq_right h]
        have h1 : |y t ω| ≤ y t ω ^ 2 / R := by
          rw [le_div_iff₀ hR0, ← sq_abs]
          nlinarith [abs_nonneg (y t ω)]
        linarith
    have hmi : Integrable (fun ω => min |y t ω| R) Pr := (hyi t).abs.inf (integrable_const R)
    have h1 : |∫ ω, y t ω ∂Pr| ≤ ∫ ω, min |y t ω| R ∂Pr + (∫ ω, y t ω ^ 2 ∂Pr) / R := by
      refine (abs_integral_le_integral_abs).trans ((integral_mono (hyi t).abs (hmi.add ((hymem t).integrable_sq.div_const R)) hle).trans (le_of_eq ?_))
      rw [← integral_div]
      exact integral_add hmi ((hymem t).integrable_sq.div_const R)
    have h2 : (∫ ω, y t ω ^ 2 ∂Pr) / R ≤ |x - m| / 4 := by
      rw [div_le_iff₀ hR0, hR]
      have e : |x - m| / 4 * (4 * ((x - m) ^ 2 + 1) / |x - m|) = (x - m) ^ 2 + 1 := by field_simp
      rw [e]
      exact hsqb t
    linarith [hhalf t]

example (x m : ℝ) (hx : x ≠ m) : ¬ ∀ᵐ w ∂Measure.infinitePi (fun _ : ℕ => Measure.pi fun _ : Fin 1 => gaussianReal 0 1),
    Tendsto (descend (LearningRate.decay 0).at (reparamGradient (fitVi m 200) fitSample 1) x w) atTop (𝓝 m) := by
  obtain ⟨h1, h2, -⟩ := draws_exist 1
  exact (C124_decay_fails m h1 h2 x hx).2.2.2.2

example (x m : ℝ) : ∀ᵐ w ∂Measure.infinitePi (fun _ : ℕ => Measure.pi fun _ : Fin 1 => gaussianReal 0 1),
    ¬ ∃ l, Tendsto (descend LearningRate.fixed.at (reparamGradient (fitVi m 1) fitSample 1) x w) atTop (𝓝 l) := by
  obtain ⟨h1, h2, h3⟩ := draws_exist 1
  exact (C124_fixed_fails m one_ne_zero h1 h2 h3 x).2.2

end fit

end Edward
