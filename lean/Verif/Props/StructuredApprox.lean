/-
C104: score-function gradients of approximations with dependent factors.
-/
import Verif.Model.StructuredApprox
import Verif.Props.ScoreGradientGeneral
import Mathlib.MeasureTheory.Integral.Prod

namespace Edward
open MeasureTheory Filter Topology ProbabilityTheory
variable {Z X I Ω : Type} [Fintype I]
variable {E : Type} [NormedAddCommGroup E] [NormedSpace ℝ E]

/-- The documented estimator: the log density of the approximation at fixed values of all its factors. -/
def Spec.fixedDraws (v : ViProblem Z X I Ω) (S : StructuredQ Z I Ω E) (l : E) : ViProblem Z X I Ω :=
  { v with logQ := fun z ω i => S.logQ l z ω ω i }

omit [NormedAddCommGroup E] [NormedSpace ℝ E] in
/-- C104 holds when no factor's parameters depend on a value that is a differentiable function of the parameters
(independent factors, or dependence on factors without reparameterised sampling): the function differentiated is the
documented one, so C51 applies. -/
theorem C104_independent_partial (v : ViProblem Z X I Ω) (S : StructuredQ Z I Ω E) (n : ℕ) (d : Fin n → Ω) (reg : ℝ)
    (l l₀ : E) (h : ∀ l' z ω i, S.logQ l' z ω (S.path l' ω) i = S.logQ l' z ω ω i) :
    scoreSurrogate (structuredProblem v S l) (structuredProblem v S l₀) n d reg =
      scoreSurrogate (Spec.fixedDraws v S l) (Spec.fixedDraws v S l₀) n d reg := by
  simp only [structuredProblem, Spec.fixedDraws, h]

/-- C104, what is computed in general: the gradient is that of the documented estimator plus a term for the movement of
the values the parameters are computed from. -/
theorem C104_gradient_partial (v : ViProblem Z X I Ω) (S : StructuredQ Z I Ω E) (l₀ : E) {n : ℕ} (d : Fin n → Ω)
    (hpath : ∀ ω, S.path l₀ ω = ω) (a b : Fin n → E →L[ℝ] ℝ)
    (hab : ∀ s, HasFDerivAt (fun l : E × E => (v.latents.map fun z => ∑ i, v.scaleZ z i *
      S.logQ l.1 z (d s) (S.path l.2 (d s)) i).sum) ((a s).coprod (b s)) (l₀, l₀)) :
    let f := fun s => Spec.logJoint v (d s) - Spec.logApprox (Spec.fixedDraws v S l₀) (d s)
    HasFDerivAt (fun l => scoreSurrogate (Spec.fixedDraws v S l) (Spec.fixedDraws v S l₀) n d 0)
      (-((n : ℝ)⁻¹ • ∑ s, f s • a s)) l₀ ∧
    HasFDerivAt (fun l => scoreSurrogate (structuredProblem v S l) (structuredProblem v S l₀) n d 0)
      (-((n : ℝ)⁻¹ • ∑ s, f s • a s) - (n : ℝ)⁻¹ • ∑ s, f s • b s) l₀ := by
  intro f
  have hA : ∀ s, HasFDerivAt (fun l => Spec.logApprox (Spec.fixedDraws v S l) (d s)) (a s) l₀ := fun s => by
    have h1 : HasFDerivAt (fun l : E => (l, l₀)) (ContinuousLinearMap.inl ℝ E E) l₀ := hasFDerivAt_prodMk_left l₀ l₀
    have := HasFDerivAt.comp (f := fun l : E => (l, l₀)) l₀ (hab s) h1
    rw [ContinuousLinearMap.coprod_comp_inl] at this
    refine this.congr_of_eventuallyEq (Eventually.of_forall fun l => ?_)
    simp [Spec.logApprox, Spec.fixedDraws, hpath]
  have hB : ∀ s, HasFDerivAt (fun l => Spec.logApprox (structuredProblem v S l) (d s)) (a s + b s) l₀ := fun s => by
    have h1 : HasFDerivAt (fun l : E => (l, l)) ((ContinuousLinearMap.id ℝ E).prod (ContinuousLinearMap.id ℝ E)) l₀ :=
      (hasFDerivAt_id l₀).prodMk (hasFDerivAt_id l₀)
    have := HasFDerivAt.comp (f := fun l : E => (l, l)) l₀ (hab s) h1
    refine (this.congr_of_eventuallyEq (Eventually.of_forall fun l => ?_)).congr_fderiv ?_
    · simp [Spec.logApprox, structuredProblem]
    · ext x; simp
  have key : ∀ (w : E → ViProblem Z X I Ω) (w₀ : ViProblem Z X I Ω) (c : Fin n → E →L[ℝ] ℝ)
      (_ : ∀ s, HasFDerivAt (fun l => Spec.logApprox (w l) (d s)) (c s) l₀)
      (_ : ∀ s, Spec.logJoint w₀ (d s) - Spec.logApprox w₀ (d s) = f s),
      HasFDerivAt (fun l => scoreSurrogate (w l) w₀ n d 0) (-((n : ℝ)⁻¹ • ∑ s, f s • c s)) l₀ := by
    intro w w₀ c hc hf
    have h1 : HasFDerivAt (fun l => ∑ s, Spec.logApprox (w l) (d s) * f s) (∑ s, f s • c s) l₀ :=
      HasFDerivAt.fun_sum fun s _ => (hc s).mul_const (f s)
    refine (h1.const_mul (n : ℝ)⁻¹).neg.congr_of_eventuallyEq (Eventually.of_forall fun l => ?_)
    show scoreSurrogate (w l) w₀ n d 0 = _
    rw [scoreSurrogate, pLogProb_eq, qLogProb_eq, qLogProb_eq, zipWith_ofFn, zipWith_ofFn, listMean_ofFn]
    simp only [Spec.average, hf, div_eq_inv_mul, sub_zero, Pi.neg_apply]
  refine ⟨key _ _ a hA fun s => rfl, ?_⟩
  refine (key _ _ (fun s => a s + b s) hB fun s => ?_).congr_fderiv ?_
  · have : Spec.logApprox (structuredProblem v S l₀) (d s) = Spec.logApprox (Spec.fixedDraws v S l₀) (d s) := by
      simp [Spec.logApprox, structuredProblem, Spec.fixedDraws, hpath]
    rw [this]; rfl
  · simp only [smul_add, Finset.sum_add_distrib]
    abel

/-! ### A Normal factor and a Bernoulli factor whose logits are its value -/

/-- Probability of the second factor given the first. -/
noncomputable def condProb (ω : ℝ × Bool) : ℝ := if ω.2 then logistic ω.1 else 1 - logistic ω.1

noncomputable def pairQ (l : ℝ) (ω : ℝ × Bool) : ℝ := normalQ l ω.1 * condProb ω

noncomputable def pairQ' (l : ℝ) (ω : ℝ × Bool) : ℝ →L[ℝ] ℝ := condProb ω • normalQ' l ω.1

theorem condProb_pos (ω : ℝ × Bool) : 0 < condProb ω ∧ condProb ω < 1 := by
  have := logistic_pos ω.1
  rw [condProb]; split
  · exact this
  · constructor <;> linarith [this.1, this.2]

theorem measurable_logistic : Measurable logistic := by unfold logistic; fun_prop

theorem measurable_condProb : Measurable condProb := by
  unfold condProb
  refine Measurable.ite ?_ (measurable_logistic.comp measurable_fst)
    (measurable_const.sub (measurable_logistic.comp measurable_fst))
  exact measurable_snd (MeasurableSet.singleton true)

noncomputable abbrev pairRef : Measure (ℝ × Bool) := (volume : Measure ℝ).prod Measure.count

theorem integrable_pairBound : Integrable (fun ω : ℝ × Bool => normalBound ω.1) pairRef := by
  have := integrable_normalBound.mul_prod (integrable_const (1 : ℝ) : Integrable (fun _ : Bool => (1 : ℝ)) Measure.count)
  simpa using this

theorem measurable_normalQ (l : ℝ) : Measurable (normalQ l) := measurable_gaussianPDFReal l 1

theorem pairQ_bound {l : ℝ} (hl : |l| < 1) (ω : ℝ × Bool) (c : ℝ) (hc : |c| ≤ |ω.1| + 4) :
    ‖c • pairQ' l ω‖ ≤ normalBound ω.1 := by
  have h := normal_term_le hl ω.1 c hc
  rw [pairQ', smul_comm, norm_smul, Real.norm_of_nonneg (condProb_pos ω).1.le]
  calc condProb ω * ‖c • normalQ' l ω.1‖ ≤ 1 * ‖c • normalQ' l ω.1‖ :=
        mul_le_mul_of_nonneg_right (condProb_pos ω).2.le (norm_nonneg _)
    _ ≤ _ := by rw [one_mul]; exact h

theorem scoreOk_pair : ScoreOk pairRef pairQ pairQ' 0 (Metric.ball (0 : ℝ) 1) where
  nhds := Metric.ball_mem_nhds _ one_pos
  meas := fun l _ => ((measurable_normalQ l).comp measurable_fst).mul measurable_condProb
  pos := fun l hl ω => mul_pos (scoreOk_normal.pos l hl ω.1) (condProb_pos ω).1
  one := fun l hl => by
    have hm : Measurable (pairQ l) := ((measurable_normalQ l).comp measurable_fst).mul measurable_condProb
    rw [lintegral_prod _ hm.ennreal_ofReal.aemeasurable]
    rw [← scoreOk_normal.one l hl]
    refine lintegral_congr fun z => ?_
    rw [lintegral_count, tsum_fintype, Fintype.sum_bool, pairQ, pairQ, ← ENNReal.ofReal_add
      (mul_pos (scoreOk_normal.pos l hl z) (condProb_pos (z, true)).1).le
      (mul_pos (scoreOk_normal.pos l hl z) (condProb_pos (z, false)).1).le]
    congr 1
    simp only [condProb, if_true, Bool.false_eq_true, if_false]
    ring
  diff := Eventually.of_forall fun ω l _ => by
    have := (hasFDerivAt_normalQ l ω.1).mul_const (condProb ω)
    exact this
  meas' := by
    refine Measurable.aestronglyMeasurable ?_
    have h1 : Measurable fun ω : ℝ × Bool => condProb ω * ((ω.1 - 0) * normalQ 0 ω.1) :=
      measurable_condProb.mul ((measurable_fst.sub_const 0).mul ((measurable_normalQ 0).comp measurable_fst))
    have h2 : pairQ' 0 = fun ω => (condProb ω * ((ω.1 - 0) * normalQ 0 ω.1)) • ContinuousLinearMap.id ℝ ℝ := by
      funext ω; rw [pairQ', normalQ', smul_smul]
    rw [h2]
    exact h1.smul_const _
  bound := ⟨fun ω => normalBound ω.1, integrable_pairBound, Eventually.of_forall fun ω l hl => by
    have hl' : |l| < 1 := by simpa using hl
    have := pairQ_bound hl' ω 1 (by rw [abs_one]; linarith [abs_nonneg ω.1])
    simpa using this⟩

/-- The model: its prior is the approximation at `l = 0`, and the data have log likelihood one if the second variable is
true and zero otherwise. `false`: the Normal factor; `true`: the Bernoulli factor. -/
noncomputable def pairModel : ViProblem Bool Unit Unit (ℝ × Bool) where
  latents := [false, true]
  observed := [()]
  scaleZ := fun _ _ => 1
  scaleX := fun _ _ => 1
  logQ := fun _ _ _ => 0
  logP := fun z ω _ => if z then Real.log (condProb ω) else Real.log (normalQ 0 ω.1)
  logLik := fun _ ω _ => if ω.2 then 1 else 0

/-- The approximation: `Normal(l, 1)`, whose draw is `l` plus noise, and a Bernoulli with logits its value. -/
noncomputable def pairApprox : StructuredQ Bool Unit (ℝ × Bool) ℝ where
  logQ := fun l z own par _ => if z then Real.log (condProb (par.1, own.2)) else Real.log (normalQ l own.1)
  path := fun l ω => (ω.1 + l, ω.2)

theorem hasDerivAt_log_logistic (x : ℝ) : HasDerivAt (fun l => Real.log (logistic (x + l))) (1 - logistic x) 0 := by
  have h1 : HasDerivAt (fun l : ℝ => 1 + Real.exp (-(x + l))) (-Real.exp (-x)) 0 := by
    have h2 : HasDerivAt (fun l : ℝ => -(x + l)) (-1) 0 :=
      ((hasDerivAt_id (0 : ℝ)).const_add x).neg
    simpa using (h2.exp).const_add 1
  have hpos : ∀ y : ℝ, 0 < 1 + Real.exp (-y) := fun y => by positivity
  have h3 := (h1.log (hpos _).ne').neg
  refine (h3.congr_of_eventuallyEq (Eventually.of_forall fun l => ?_)).congr_deriv ?_
  · simp [logistic, Real.log_inv]
  · have := (hpos x).ne'
    simp only [logistic, add_zero]
    field_simp
    ring

theorem pair_logJoint (ω : ℝ × Bool) :
    Spec.logJoint pairModel ω = Real.log (pairQ 0 ω) + if ω.2 then 1 else 0 := by
  have h1 := (scoreOk_normal.pos 0 (by simp) ω.1).ne'
  have h2 := (condProb_pos ω).1.ne'
  simp [Spec.logJoint, pairModel, pairQ, Real.log_mul h1 h2]

theorem pair_logApprox (l : ℝ) (ω : ℝ × Bool) (hl : l ∈ Metric.ball (0 : ℝ) 1) :
    Spec.logApprox (Spec.fixedDraws pairModel pairApprox l) ω = Real.log (pairQ l ω) := by
  have h1 := (scoreOk_normal.pos l hl ω.1).ne'
  have h2 := (condProb_pos ω).1.ne'
  simp [Spec.logApprox, Spec.fixedDraws, pairModel, pairApprox, pairQ, Real.log_mul h1 h2]

/-- The expected loss has the documented gradient. -/
theorem pair_documented :
    ∃ G : (Fin 1 → ℝ × Bool) → ℝ →L[ℝ] ℝ,
      (∀ᵐ d ∂Measure.pi (fun _ : Fin 1 => Spec.lawOf pairRef (pairQ 0)),
        HasFDerivAt (fun l => scoreSurrogate (Spec.fixedDraws pairModel pairApprox l)
          (Spec.fixedDraws pairModel pairApprox 0) 1 d 0) (G d) 0) ∧
      HasFDerivAt (fun l => ∫ d, scoreLoss (Spec.fixedDraws pairModel pairApprox l) 1 d 0
          ∂Measure.pi (fun _ : Fin 1 => Spec.lawOf pairRef (pairQ l)))
        (∫ d, G d ∂Measure.pi (fun _ : Fin 1 => Spec.lawOf pairRef (pairQ 0))) 0 := by
  have hJ : ∀ l, Spec.logJoint (Spec.fixedDraws pairModel pairApprox l) =
      fun ω => Real.log (pairQ 0 ω) + if ω.2 then 1 else 0 := fun l => funext fun ω => pair_logJoint ω
  have hm0 : Measurable (pairQ 0) := scoreOk_pair.meas 0 (by simp)
  have hind : Measurable fun ω : ℝ × Bool => if ω.2 then (1 : ℝ) else 0 :=
    Measurable.ite (measurable_snd (MeasurableSet.singleton true)) measurable_const measurable_const
  have hdiff : ∀ l : ℝ, |l| < 1 → ∀ ω : ℝ × Bool,
      |Real.log (pairQ l ω) - (Real.log (pairQ 0 ω) + if ω.2 then 1 else 0)| ≤ |ω.1| + 4 := by
    intro l hl ω
    have hb : l ∈ Metric.ball (0 : ℝ) 1 := by simpa using hl
    have h1 := (scoreOk_normal.pos l hb ω.1).ne'
    have h1' := (scoreOk_normal.pos 0 (by simp) ω.1).ne'
    have h2 := (condProb_pos ω).1.ne'
    rw [pairQ, pairQ, Real.log_mul h1 h2, Real.log_mul h1' h2, log_normalQ, log_normalQ]
    have hl' := abs_lt.mp hl
    have h3 : |ω.1 * l| ≤ |ω.1| := by
      rw [abs_mul]
      nlinarith [abs_nonneg ω.1]
    have h3' := abs_le.mp h3
    have h4 : l ^ 2 ≤ 1 := by nlinarith
    have h5 : 0 ≤ l ^ 2 := sq_nonneg l
    have h6 : (0 : ℝ) ≤ (if ω.2 then 1 else 0) ∧ (if ω.2 then (1 : ℝ) else 0) ≤ 1 := by split <;> norm_num
    rw [abs_le]
    constructor <;> nlinarith [h6.1, h6.2]
  refine C51_score_general scoreOk_pair (fun l => Spec.fixedDraws pairModel pairApprox l) (fun _ => 0) Nat.one_pos
    ?_ ?_ ?_ ?_ (b := fun ω => normalBound ω.1) integrable_pairBound ?_ (differentiableAt_const _)
  · filter_upwards [Metric.ball_mem_nhds (0 : ℝ) one_pos] with l hl ω
    exact pair_logApprox l ω hl
  · exact Eventually.of_forall fun l ω => by rw [hJ, hJ]
  · rw [hJ]; exact hm0.log.add hind
  · rw [hJ]
    have hq := scoreOk_pair.integrable_q (l := 0) (by simp)
    refine hq.mono' (hm0.mul (hm0.log.sub (hm0.log.add hind))).aestronglyMeasurable (Eventually.of_forall fun ω => ?_)
    have h0 := scoreOk_pair.pos 0 (by simp) ω
    rw [norm_mul, Real.norm_of_nonneg h0.le]
    have : ‖Real.log (pairQ 0 ω) - (Real.log (pairQ 0 ω) + if ω.2 then 1 else 0)‖ ≤ 1 := by
      split <;> simp
    nlinarith
  · refine Eventually.of_forall fun ω l hl => ?_
    rw [hJ]
    have hl' : |l| < 1 := by simpa using hl
    exact pairQ_bound hl' ω _ (hdiff l hl' ω)

/-- The movement of the Bernoulli factor's log density with its logits. -/
noncomputable def pairMove (ω : ℝ × Bool) : ℝ := if ω.2 then 1 - logistic ω.1 else 0

theorem pairMove_integral : 0 < ∫ ω, pairMove ω ∂Spec.lawOf pairRef (pairQ 0) := by
  have hprob := scoreOk_pair.prob (l := 0) (by simp)
  have hnn : ∀ ω, 0 ≤ pairMove ω ∧ pairMove ω ≤ 1 := fun ω => by
    have := logistic_pos ω.1
    rw [pairMove]; split
    · constructor <;> linarith [this.1, this.2]
    · norm_num
  have hm : Measurable pairMove := Measurable.ite (measurable_snd (MeasurableSet.singleton true))
    (measurable_const.sub (measurable_logistic.comp measurable_fst)) measurable_const
  have hi : Integrable pairMove (Spec.lawOf pairRef (pairQ 0)) :=
    (integrable_const (1 : ℝ)).mono' hm.aestronglyMeasurable (Eventually.of_forall fun ω => by
      rw [Real.norm_of_nonneg (hnn ω).1]; exact (hnn ω).2)
  rw [integral_pos_iff_support_of_nonneg (fun ω => (hnn ω).1) hi]
  have hsub : (Set.univ ×ˢ {true} : Set (ℝ × Bool)) ⊆ Function.support pairMove := by
    rintro ⟨z, b⟩ ⟨_, hb⟩
    have hb' : b = true := hb
    have := (logistic_pos z).2
    simp only [Function.mem_support, pairMove, hb', if_true]
    linarith
  refine lt_of_lt_of_le ?_ (measure_mono hsub)
  rw [pos_iff_ne_zero]
  intro h0
  have hac : pairRef ≪ Spec.lawOf pairRef (pairQ 0) := by
    refine withDensity_absolutelyContinuous' (scoreOk_pair.meas 0 (by simp)).ennreal_ofReal.aemeasurable ?_
    refine Eventually.of_forall fun ω => ?_
    have := scoreOk_pair.pos 0 (by simp) ω
    simpa using this
  have := hac h0
  rw [Measure.prod_prod] at this
  simp at this

/-- C104 fails: with a Normal factor and a Bernoulli factor whose logits are its value, the gradient applied exists at
every draw, but its expectation is not the gradient of the expected loss. -/
theorem C104_fails :
    ∃ (G : (Fin 1 → ℝ × Bool) → ℝ →L[ℝ] ℝ) (g : ℝ →L[ℝ] ℝ),
      (∀ d, HasFDerivAt (fun l => scoreSurrogate (structuredProblem pairModel pairApprox l)
          (structuredProblem pairModel pairApprox 0) 1 d 0) (G d) 0) ∧
      Integrable G (Measure.pi fun _ : Fin 1 => Spec.lawOf pairRef (pairQ 0)) ∧
      HasFDerivAt (fun l => ∫ d, scoreLoss (Spec.fixedDraws pairModel pairApprox l) 1 d 0
          ∂Measure.pi (fun _ : Fin 1 => Spec.lawOf pairRef (pairQ l))) g 0 ∧
      ∫ d, G d ∂Measure.pi (fun _ : Fin 1 => Spec.lawOf pairRef (pairQ 0)) ≠ g := by
  have hprob := scoreOk_pair.prob (l := 0) (by simp)
  obtain ⟨G₀, hG₀, hg⟩ := pair_documented
  set Q := Spec.lawOf pairRef (pairQ 0) with hQdef
  have hmp := measurePreserving_eval (fun _ : Fin 1 => Q) 0
  have hid : HasFDerivAt (fun l : ℝ => l) (ContinuousLinearMap.id ℝ ℝ) 0 := hasFDerivAt_id 0
  -- the two parts of the gradient
  have hab : ∀ ω : ℝ × Bool, ∃ b : ℝ →L[ℝ] ℝ, ((if ω.2 then (1 : ℝ) else 0) • b = pairMove ω • ContinuousLinearMap.id ℝ ℝ) ∧
      HasFDerivAt (fun l : ℝ × ℝ => (pairModel.latents.map fun z => ∑ i, pairModel.scaleZ z i *
        pairApprox.logQ l.1 z ω (pairApprox.path l.2 ω) i).sum)
        ((ω.1 • ContinuousLinearMap.id ℝ ℝ : ℝ →L[ℝ] ℝ).coprod b) ((0, 0) : ℝ × ℝ) := by
    intro ω
    have h1 : HasDerivAt (fun l => Real.log (normalQ l ω.1)) ω.1 0 := by
      have := ((hasFDerivAt_normalQ 0 ω.1).log (scoreOk_normal.pos 0 (by simp) ω.1).ne').hasDerivAt
      refine this.congr_deriv ?_
      have hne := (scoreOk_normal.pos 0 (by simp) ω.1).ne'
      simp [normalQ']
      field_simp
    have h2 : ∃ c : ℝ, (if ω.2 then (1 : ℝ) else 0) * c = pairMove ω ∧
        HasDerivAt (fun l => Real.log (condProb (ω.1 + l, ω.2))) c 0 := by
      obtain ⟨z, b⟩ := ω
      cases b
      · have hne : ∀ l, 1 - logistic (z + l) ≠ 0 := fun l => by have := (logistic_pos (z + l)).2; linarith
        have hl : HasDerivAt (fun l => logistic (z + l)) (logistic z * (1 - logistic z)) 0 := by
          have := (hasDerivAt_log_logistic z).exp
          simp only [Real.exp_log (logistic_pos _).1, add_zero] at this
          exact this
        exact ⟨_, by simp [pairMove], (hl.const_sub 1).log (hne 0)⟩
      · exact ⟨1 - logistic z, by simp [pairMove], hasDerivAt_log_logistic z⟩
    obtain ⟨c, hc, h2⟩ := h2
    refine ⟨c • ContinuousLinearMap.id ℝ ℝ, by rw [smul_smul, hc], ?_⟩
    have hA := HasFDerivAt.comp (f := fun l : ℝ × ℝ => l.1) ((0, 0) : ℝ × ℝ) h1.hasFDerivAt hasFDerivAt_fst
    have hB := HasFDerivAt.comp (f := fun l : ℝ × ℝ => l.2) ((0, 0) : ℝ × ℝ) h2.hasFDerivAt hasFDerivAt_snd
    refine ((hA.add hB).congr_of_eventuallyEq (Eventually.of_forall fun l => ?_)).congr_fderiv ?_
    · simp [pairModel, pairApprox]
    · ext <;> simp
  choose b hb1 hb2 using hab
  have hf : ∀ ω, Spec.logJoint pairModel ω - Spec.logApprox (Spec.fixedDraws pairModel pairApprox 0) ω =
      if ω.2 then 1 else 0 := fun ω => by
    rw [pair_logJoint, pair_logApprox 0 ω (by simp)]; ring
  have hgrad := fun d : Fin 1 → ℝ × Bool => C104_gradient_partial pairModel pairApprox (0 : ℝ) d
    (fun ω => by simp [pairApprox]) (fun s => (d s).1 • ContinuousLinearMap.id ℝ ℝ) (fun s => b (d s)) (fun s => hb2 (d s))
  simp only [hf, Nat.cast_one, inv_one, one_smul, Fin.sum_univ_one, hb1] at hgrad
  set A : ℝ × Bool → ℝ →L[ℝ] ℝ := fun ω => -((if ω.2 then (1 : ℝ) else 0) • ω.1 • ContinuousLinearMap.id ℝ ℝ) with hA
  have hmind : Measurable fun ω : ℝ × Bool => if ω.2 then (1 : ℝ) else 0 :=
    Measurable.ite (measurable_snd (MeasurableSet.singleton true)) measurable_const measurable_const
  have hAi : Integrable A Q := by
    rw [hQdef, scoreOk_pair.integrable_law (by simp)]
    obtain ⟨bd, hbd, hbound⟩ := scoreOk_pair.bound
    have hm : Measurable fun ω : ℝ × Bool => (pairQ 0 ω * -((if ω.2 then (1 : ℝ) else 0) * ω.1)) :=
      (scoreOk_pair.meas 0 (by simp)).mul (hmind.mul measurable_fst).neg
    refine hbd.mono' ?_ ?_
    · refine ((hm.smul_const (ContinuousLinearMap.id ℝ ℝ)).aestronglyMeasurable).congr (Eventually.of_forall fun ω => ?_)
      simp only [hA, smul_neg, smul_smul, mul_neg]
      by_cases h : ω.2 = true <;> ext <;> simp [h]
    · filter_upwards [hbound] with ω hω
      refine le_trans ?_ (hω 0 (by simp))
      have e : pairQ 0 ω • A ω = -((if ω.2 then (1 : ℝ) else 0) • pairQ' 0 ω) := by
        simp only [hA, pairQ', normalQ', pairQ, smul_neg, smul_smul, sub_zero]
        congr 2; ring
      rw [e, norm_neg, norm_smul]
      have : ‖(if ω.2 then (1 : ℝ) else 0)‖ ≤ 1 := by split <;> simp
      nlinarith [norm_nonneg (pairQ' 0 ω)]
  have hBi : Integrable (fun ω => pairMove ω • ContinuousLinearMap.id ℝ ℝ) Q := by
    have hm : Measurable pairMove := Measurable.ite (measurable_snd (MeasurableSet.singleton true))
      (measurable_const.sub (measurable_logistic.comp measurable_fst)) measurable_const
    refine (integrable_const (1 : ℝ)).mono' (hm.smul_const _).aestronglyMeasurable (Eventually.of_forall fun ω => ?_)
    have := logistic_pos ω.1
    rw [norm_smul, ContinuousLinearMap.norm_id, mul_one, pairMove]
    split
    · rw [Real.norm_of_nonneg (by linarith [this.2])]; linarith [this.1]
    · simp
  have hAi' : Integrable (fun d : Fin 1 → ℝ × Bool => A (d 0)) (Measure.pi fun _ : Fin 1 => Q) :=
    hmp.integrable_comp_of_integrable hAi
  have hBi' : Integrable (fun d : Fin 1 → ℝ × Bool => pairMove (d 0) • ContinuousLinearMap.id ℝ ℝ)
      (Measure.pi fun _ : Fin 1 => Q) := hmp.integrable_comp_of_integrable hBi
  refine ⟨_, _, fun d => (hgrad d).2, hAi'.sub hBi', hg, ?_⟩
  have e1 : ∫ d, G₀ d ∂Measure.pi (fun _ : Fin 1 => Q) = ∫ d, A (d 0) ∂Measure.pi (fun _ : Fin 1 => Q) := by
    refine integral_congr_ae ?_
    filter_upwards [hG₀] with d hd
    exact hd.unique (hgrad d).1
  have e2 : ∫ d : Fin 1 → ℝ × Bool, pairMove (d 0) • ContinuousLinearMap.id ℝ ℝ ∂Measure.pi (fun _ : Fin 1 => Q) =
      (∫ ω, pairMove ω ∂Q) • ContinuousLinearMap.id ℝ ℝ := by
    have h1 := integral_smul_const (μ := Q) pairMove (ContinuousLinearMap.id ℝ ℝ)
    have h2 := integral_map (f := fun ω => pairMove ω • ContinuousLinearMap.id ℝ ℝ) hmp.measurable.aemeasurable
      (by rw [hmp.map_eq]; exact hBi.aestronglyMeasurable)
    rw [hmp.map_eq] at h2
    exact h2.symm.trans h1
  have e3 := integral_sub hAi' hBi'
  rw [e1]
  intro h
  have h' : ∫ d, A (d 0) ∂Measure.pi (fun _ : Fin 1 => Q) -
      (∫ ω, pairMove ω ∂Q) • ContinuousLinearMap.id ℝ ℝ = ∫ d, A (d 0) ∂Measure.pi (fun _ : Fin 1 => Q) := by
    rw [← e2, ← e3]; exact h
  have h1 := congrArg (fun L : ℝ →L[ℝ] ℝ => L 1) h'
  have := pairMove_integral
  simp at h1
  linarith

end Edward
