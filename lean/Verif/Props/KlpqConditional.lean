/-
C143, KLpq: what conditional inference with KLpq approximates.
-/
import Verif.Props.Klpq
import Verif.Spec.Conditional
import Mathlib.MeasureTheory.Measure.Prod
import Mathlib.MeasureTheory.Integral.Prod
import Mathlib.MeasureTheory.Measure.Count

namespace Edward
open MeasureTheory Filter Topology ProbabilityTheory InformationTheory
variable {Z X I S B : Type} [Fintype I] [MeasurableSpace S] [MeasurableSpace B]
variable {E : Type} [NormedAddCommGroup E] [NormedSpace ℝ E]

section
variable (μ : Measure S) [SigmaFinite μ] (R : Measure B) [IsProbabilityMeasure R] {J : S × B → ℝ}

omit [MeasurableSpace S] in
theorem averaged_pos (hJ : ∀ ω, 0 < J ω) (hJi : ∀ z, Integrable (fun b => J (z, b)) R) (z : S) : 0 < Spec.averagedJoint R J z := by
  refine (integral_pos_iff_support_of_nonneg (fun b => (hJ (z, b)).le) (hJi z)).mpr ?_
  have : Function.support (fun b => J (z, b)) = Set.univ := by
    ext b; simp [(hJ (z, b)).ne']
  rw [this]
  simp

theorem averaged_measurable (hJm : Measurable J) : Measurable (Spec.averagedJoint (S := S) R J) :=
  hJm.stronglyMeasurable.integral_prod_right'.measurable

theorem lintegral_joint (hJ : ∀ ω, 0 < J ω) (hJm : Measurable J) (hJi : ∀ z, Integrable (fun b => J (z, b)) R) {c : ℝ} (hc : 0 < c)
    (A : Set S) :
    ∫⁻ ω in Prod.fst ⁻¹' A, ENNReal.ofReal (J ω / c) ∂μ.prod R = ∫⁻ z in A, ENNReal.ofReal (Spec.averagedJoint R J z / c) ∂μ := by
  have hm : Measurable fun ω => ENNReal.ofReal (J ω / c) := (hJm.div_const c).ennreal_ofReal
  have e : (Prod.fst ⁻¹' A : Set (S × B)) = A ×ˢ Set.univ := by ext; simp
  rw [e, ← Measure.prod_restrict, Measure.restrict_univ, lintegral_prod _ hm.aemeasurable]
  refine lintegral_congr fun z => ?_
  rw [← ofReal_integral_eq_lintegral_ofReal ((hJi z).div_const c) (Eventually.of_forall fun b => (div_pos (hJ _) hc).le), integral_div]
  rfl

theorem evidence_joint (hJ : ∀ ω, 0 < J ω) (hJm : Measurable J) (hJi : ∀ z, Integrable (fun b => J (z, b)) R) :
    Spec.evidence (μ.prod R) J = Spec.evidence μ (Spec.averagedJoint R J) := by
  have h := lintegral_joint μ R hJ hJm hJi one_pos Set.univ
  simp only [Set.preimage_univ, Measure.restrict_univ, div_one] at h
  rw [Spec.evidence, Spec.evidence, h]

theorem posterior_joint_fst (hJ : ∀ ω, 0 < J ω) (hJm : Measurable J) (hJi : ∀ z, Integrable (fun b => J (z, b)) R)
    (hZ : 0 < Spec.evidence μ (Spec.averagedJoint R J)) :
    Measure.map Prod.fst (Spec.posterior (μ.prod R) J) = Spec.posterior μ (Spec.averagedJoint R J) := by
  ext A hA
  rw [Measure.map_apply measurable_fst hA, Spec.posterior, Spec.posterior, Spec.lawOf, Spec.lawOf,
    withDensity_apply _ (measurable_fst hA), withDensity_apply _ hA, evidence_joint μ R hJ hJm hJi]
  exact lintegral_joint μ R hJ hJm hJi hZ A

/-- C143, KLpq: with `z` drawn from the approximation and `beta` from `qbeta`, the gradient applied to the parameters of the approximation
converges almost surely, as `n_samples` grows, to the gradient of the divergence from the law whose density is proportional to
`E_qbeta[p(x, z, beta)]`. -/
theorem C143_klpq (v : E → ViProblem Z X I (S × B)) (q : E → S → ℝ) (q' : E → S → E →L[ℝ] ℝ)
    (l₀ : E) (s : Set E) (hs : s ∈ 𝓝 l₀) (hq : ∀ l ∈ s, ∀ z, 0 < q l z) (hqm : ∀ l ∈ s, Measurable (q l))
    (hq1 : ∀ l ∈ s, ∫⁻ z, ENNReal.ofReal (q l z) ∂μ = 1) (hJ : ∀ ω, 0 < J ω) (hJm : Measurable J)
    (hJi : ∀ z, Integrable (fun b => J (z, b)) R) (hfin : ∫⁻ z, ENNReal.ofReal (Spec.averagedJoint R J z) ∂μ ≠ ⊤)
    (hQ : ∀ l ∈ s, ∀ ω, Spec.logApprox (Spec.unscaled (v l)) ω = Real.log (q l ω.1))
    (hP : ∀ ω, Spec.logJoint (Spec.unscaled (v l₀)) ω = Real.log (J ω))
    (hint : Integrable (fun z => Real.log (Spec.averagedJoint R J z) - Real.log (q l₀ z)) (Spec.posterior μ (Spec.averagedJoint R J)))
    (hdiff : ∀ z, ∀ l ∈ s, HasFDerivAt (fun l => q l z) (q' l z) l)
    (hm' : AEStronglyMeasurable (fun z => (q l₀ z)⁻¹ • q' l₀ z) (Spec.posterior μ (Spec.averagedJoint R J))) {b : S → ℝ}
    (hb : Integrable b (Spec.posterior μ (Spec.averagedJoint R J)))
    (hbound : ∀ᵐ z ∂Spec.posterior μ (Spec.averagedJoint R J), ∀ l ∈ s, ‖(q l z)⁻¹ • q' l z‖ ≤ b z)
    (reg : E → ℝ) (hreg : DifferentiableAt ℝ reg l₀) :
    ∃ D : E →L[ℝ] ℝ, HasFDerivAt (fun l => (klDiv (Spec.posterior μ (Spec.averagedJoint R J)) (Spec.lawOf μ (q l))).toReal) D l₀ ∧
      ∀ᵐ d ∂Measure.infinitePi (fun _ : ℕ => (Spec.lawOf μ (q l₀)).prod R), ∃ G : ℕ → E →L[ℝ] ℝ,
        (∀ n, 0 < n → HasFDerivAt (fun l => klpqSurrogate (v l) (v l₀) n (fun t => d t) (reg l)) (G n) l₀) ∧
        Tendsto G atTop (𝓝 (D + fderiv ℝ reg l₀)) := by
  have hA := averaged_pos R hJ hJi
  have hAm := averaged_measurable (S := S) R hJm
  refine ⟨_, hasFDerivAt_klDiv_from_posterior μ q q' (Spec.averagedJoint R J) l₀ s hs hq hqm hq1 hA hAm hfin hint hdiff hm' hb hbound, ?_⟩
  have hl₀ := mem_of_mem_nhds hs
  have hμ : μ ≠ 0 := by rintro rfl; simpa using hq1 l₀ hl₀
  have hZ := evidence_pos μ (Spec.averagedJoint R J) hA hAm hμ hfin
  have hlaw : (Spec.lawOf μ (q l₀)).prod R = Spec.lawOf (μ.prod R) (fun ω => q l₀ ω.1) := by
    rw [Spec.lawOf, Spec.lawOf, prod_withDensity_left (hqm l₀ hl₀).ennreal_ofReal]
  have hprob : IsProbabilityMeasure (Spec.lawOf μ (q l₀)) :=
    ⟨by rw [Spec.lawOf, withDensity_apply _ MeasurableSet.univ, Measure.restrict_univ, hq1 l₀ hl₀]⟩
  have hprob' : IsProbabilityMeasure (Spec.lawOf (μ.prod R) (fun ω => q l₀ ω.1)) := by rw [← hlaw]; infer_instance
  have hpp : IsProbabilityMeasure (Spec.posterior μ (Spec.averagedJoint R J)) := ⟨posterior_univ μ _ hA hAm hμ hfin⟩
  have hmap := posterior_joint_fst μ R hJ hJm hJi hZ
  have hpj : IsProbabilityMeasure (Spec.posterior (μ.prod R) J) := by
    constructor
    have := congrArg (fun m : Measure S => m Set.univ) hmap
    simp only [Measure.map_apply measurable_fst MeasurableSet.univ, Set.preimage_univ, measure_univ] at this
    exact this
  have hZj : 0 < Spec.evidence (μ.prod R) J := by rw [evidence_joint μ R hJ hJm hJi]; exact hZ
  have hqm1 : Measurable fun ω : S × B => q l₀ ω.1 := (hqm l₀ hl₀).comp measurable_fst
  obtain ⟨hr, hrZ⟩ := integrable_ratio (μ.prod R) (fun ω => q l₀ ω.1) J (fun ω => hq l₀ hl₀ ω.1) hqm1 hJ hJm hZj
  have hgi : Integrable (fun z => (q l₀ z)⁻¹ • q' l₀ z) (Spec.posterior μ (Spec.averagedJoint R J)) :=
    hb.mono' hm' (hbound.mono fun ω h => h l₀ hl₀)
  have hgj : Integrable (fun ω : S × B => (q l₀ ω.1)⁻¹ • q' l₀ ω.1) (Spec.posterior (μ.prod R) J) := by
    rw [← hmap] at hgi
    exact hgi.comp_measurable measurable_fst
  have hge : ∫ ω : S × B, (q l₀ ω.1)⁻¹ • q' l₀ ω.1 ∂Spec.posterior (μ.prod R) J =
      ∫ z, (q l₀ z)⁻¹ • q' l₀ z ∂Spec.posterior μ (Spec.averagedJoint R J) := by
    rw [← hmap, integral_map measurable_fst.aemeasurable (by rw [hmap]; exact hgi.aestronglyMeasurable)]
  obtain ⟨hg1, hg2⟩ := integral_posterior_ratio (μ.prod R) (fun ω => q l₀ ω.1) J (fun ω => hq l₀ hl₀ ω.1) hqm1 hJ hJm hZj
    (fun ω => (q l₀ ω.1)⁻¹ • q' l₀ ω.1)
  have hlim := tendsto_selfnormalised (Spec.lawOf (μ.prod R) (fun ω => q l₀ ω.1)) hr (hg2.mp hgj) (by rw [hrZ]; exact hZj.ne')
  rw [← hge, hg1, ← hrZ, hlaw]
  filter_upwards [hlim] with d hdl
  exact ⟨_, fun n hn => hasFDerivAt_klpqSurrogate v (fun l ω => q l ω.1) (fun l ω => q' l ω.1) J l₀ s hs (fun l hl ω => hq l hl ω.1) hJ hQ hP
    (fun ω l hl => hdiff ω.1 l hl) reg hreg hn (fun t => d t), hdl.neg.add_const _⟩

end

theorem posterior_const_mul (μ : Measure S) (f : S → ℝ) {c : ℝ} (hc : 0 < c) : Spec.posterior μ (fun z => c * f z) = Spec.posterior μ f := by
  have he : Spec.evidence μ (fun z => c * f z) = c * Spec.evidence μ f := by
    simp only [Spec.evidence, ENNReal.ofReal_mul hc.le]
    rw [lintegral_const_mul' _ _ ENNReal.ofReal_ne_top, ENNReal.toReal_mul, ENNReal.toReal_ofReal hc.le]
  simp only [Spec.posterior, he, mul_div_mul_left _ _ hc.ne']

section
variable [Fintype B] [MeasurableSingletonClass B] (R : Measure B) [IsProbabilityMeasure R]

omit [MeasurableSpace S] in
theorem averaged_fintype (J : S × B → ℝ) (z : S) : Spec.averagedJoint R J z = ∑ b, R.real {b} * J (z, b) := by
  rw [Spec.averagedJoint, integral_fintype .of_finite]
  rfl

/-- C143, KLpq: the law approximated is the posterior of `z` if `qbeta` is uniform, and also if `z` and `beta` are independent
given the data. -/
theorem C143_klpq_partial (μ : Measure S) (J : S × B → ℝ) :
    ((∀ b, R.real {b} = 1 / Fintype.card B) →
      Spec.posterior μ (Spec.averagedJoint R J) = Spec.posterior μ (Spec.marginalOf fun z b => J (z, b))) ∧
    ∀ (f : S → ℝ) (g : B → ℝ), (∀ b, 0 < g b) → (∀ z b, J (z, b) = f z * g b) →
      Spec.posterior μ (Spec.averagedJoint R J) = Spec.posterior μ (Spec.marginalOf fun z b => J (z, b)) := by
  have hB : Nonempty B := by
    by_contra h
    rw [not_nonempty_iff] at h
    have := measure_univ (μ := R)
    rw [Set.univ_eq_empty_iff.mpr h] at this
    simp at this
  constructor
  · intro h
    have e : Spec.averagedJoint R J = fun z => 1 / (Fintype.card B : ℝ) * Spec.marginalOf (fun z b => J (z, b)) z := by
      funext z
      simp only [averaged_fintype, h, Spec.marginalOf, Finset.mul_sum]
    rw [e]
    exact posterior_const_mul μ _ (by positivity)
  · intro f g hg hJ
    have h1 : 0 < ∑ b, g b := Finset.sum_pos (fun b _ => hg b) Finset.univ_nonempty
    have h2 : 0 < ∑ b, R.real {b} * g b := by
      have : ∫ b, g b ∂R = ∑ b, R.real {b} * g b := by rw [integral_fintype .of_finite]; rfl
      rw [← this]
      refine (integral_pos_iff_support_of_nonneg (fun b => (hg b).le) .of_finite).mpr ?_
      have : Function.support g = Set.univ := by ext b; simp [(hg b).ne']
      rw [this]
      simp
    have e1 : Spec.averagedJoint R J = fun z => (∑ b, R.real {b} * g b) * f z := by
      funext z
      simp only [averaged_fintype, hJ, Finset.sum_mul]
      exact Finset.sum_congr rfl fun b _ => by ring
    have e2 : (Spec.marginalOf fun z b => J (z, b)) = fun z => (∑ b, g b) * f z := by
      funext z
      simp only [Spec.marginalOf, hJ, Finset.sum_mul]
      exact Finset.sum_congr rfl fun b _ => by ring
    rw [e1, e2, posterior_const_mul μ _ h1, posterior_const_mul μ _ h2]

end

/-- Two switches that tend to agree on being on. -/
noncomputable def switches (ω : Bool × Bool) : ℝ := if ω.1 && ω.2 then 3 else 1

theorem switches_posterior (b : Bool) : Spec.posteriorOf Measure.count (fun z b => switches (z, b)) b = if b then 2 / 3 else 1 / 3 := by
  simp only [Spec.posteriorOf, integral_count, Fintype.sum_bool, switches]
  cases b <;> norm_num

theorem posterior_count_true (f : Bool → ℝ) (hf : ∀ z, 0 < f z) :
    (Spec.posterior Measure.count f).real {true} = f true / (f true + f false) := by
  have he : Spec.evidence Measure.count f = f true + f false := by
    rw [Spec.evidence, lintegral_count, tsum_fintype, Fintype.sum_bool, ENNReal.toReal_add ENNReal.ofReal_ne_top ENNReal.ofReal_ne_top,
      ENNReal.toReal_ofReal (hf _).le, ENNReal.toReal_ofReal (hf _).le]
  rw [Spec.posterior, Spec.lawOf, Measure.real, withDensity_apply _ (measurableSet_singleton _), lintegral_singleton, he]
  simp only [Measure.count_singleton, mul_one]
  exact ENNReal.toReal_ofReal (div_pos (hf _) (add_pos (hf _) (hf _))).le

/-- C143, KLpq fails: with the posterior of `beta` as `qbeta`, the law approximated is not the posterior of `z`: its probability of
`true` is 7/10 instead of 2/3. -/
theorem C143_klpq_fails (R : Measure Bool) [IsProbabilityMeasure R]
    (hR : ∀ b, R.real {b} = Spec.posteriorOf Measure.count (fun z b => switches (z, b)) b) :
    (Spec.posterior Measure.count (Spec.averagedJoint R switches)).real {true} = 7 / 10 ∧
      (Spec.posterior Measure.count (Spec.marginalOf fun z b => switches (z, b))).real {true} = 2 / 3 := by
  have e : ∀ z, Spec.averagedJoint R switches z = if z then 7 / 3 else 1 := by
    intro z
    simp only [averaged_fintype, Fintype.sum_bool, hR true, hR false, switches_posterior]
    cases z <;> norm_num [switches]
  have e2 : ∀ z, (Spec.marginalOf fun z b => switches (z, b)) z = if z then 4 else 2 := by
    intro z
    simp only [Spec.marginalOf, Fintype.sum_bool, switches]
    cases z <;> norm_num
  rw [posterior_count_true _ (fun z => by rw [e]; cases z <;> norm_num), posterior_count_true _ (fun z => by rw [e2]; cases z <;> norm_num)]
  simp only [e, e2]
  norm_num

/-- There is such a `qbeta`. -/
example : ∃ R : Measure Bool, IsProbabilityMeasure R ∧
    ∀ b, R.real {b} = Spec.posteriorOf Measure.count (fun z b => switches (z, b)) b := by
  refine ⟨ENNReal.ofReal (2 / 3) • Measure.dirac true + ENNReal.ofReal (1 / 3) • Measure.dirac false, ⟨?_⟩, fun b => ?_⟩
  · simp only [Measure.coe_add, Measure.coe_smul, Pi.add_apply, Pi.smul_apply, measure_univ, smul_eq_mul, mul_one]
    rw [← ENNReal.ofReal_add (by norm_num) (by norm_num)]
    norm_num
  · rw [switches_posterior, Measure.real]
    cases b
    · simp
    · simp; norm_num

/-- The switches with a Bernoulli approximation of the first and `qbeta` of the second. -/
noncomputable def switchProblem (l : ℝ) : ViProblem Unit Unit Unit (Bool × Bool) where
  latents := [()]
  observed := [()]
  scaleZ := fun _ _ => 1
  scaleX := fun _ _ => 1
  logQ := fun _ ω _ => Real.log (coinQ l ω.1)
  logP := fun _ _ _ => 0
  logLik := fun _ ω _ => Real.log (switches ω)

/-- The hypotheses of `C143_klpq` are met. -/
example (R : Measure Bool) [IsProbabilityMeasure R] :
    ∀ᵐ d ∂Measure.infinitePi (fun _ : ℕ => (Spec.lawOf Measure.count (coinQ 0)).prod R), ∃ (G : ℕ → ℝ →L[ℝ] ℝ) (D : ℝ →L[ℝ] ℝ),
      (∀ n, 0 < n → HasFDerivAt (fun l => klpqSurrogate (switchProblem l) (switchProblem 0) n (fun t => d t) 0) (G n) 0) ∧
      Tendsto G atTop (𝓝 D) := by
  have hJ : ∀ ω, 0 < switches ω := fun ω => by rw [switches]; split <;> norm_num
  have hA := averaged_pos (S := Bool) R hJ fun _ => .of_finite
  have hfin : ∫⁻ z, ENNReal.ofReal (Spec.averagedJoint R switches z) ∂Measure.count ≠ ⊤ := by
    rw [lintegral_coin _ fun b => (hA b).le]; exact ENNReal.ofReal_ne_top
  have : IsProbabilityMeasure (Spec.posterior Measure.count (Spec.averagedJoint R switches)) :=
    ⟨posterior_univ _ _ hA (measurable_of_finite _) (by
      intro h
      have := congrArg (· {true}) h
      simp at this) hfin⟩
  obtain ⟨D, _, hG⟩ := C143_klpq Measure.count R switchProblem coinQ coinQ' 0 _ coin_scoreOk.nhds coin_scoreOk.pos
    coin_scoreOk.meas coin_scoreOk.one hJ (measurable_of_finite _) (fun _ => .of_finite) hfin
    (fun l _ ω => by simp [Spec.logApprox, Spec.unscaled, switchProblem]) (fun ω => by simp [Spec.logJoint, Spec.unscaled, switchProblem])
    .of_finite (fun b l _ => hasFDerivAt_coinQ b l) StronglyMeasurable.of_discrete.aestronglyMeasurable (integrable_const 4)
    (Eventually.of_forall fun b l hl => by
      have h := coinQ_pos hl b
      rw [norm_smul, norm_coinQ', mul_one, norm_inv, Real.norm_of_nonneg (lt_trans (by norm_num) h).le]
      rw [inv_le_comm₀ (lt_trans (by norm_num) h) (by norm_num)]
      linarith) (fun _ => 0) (differentiableAt_const _)
  filter_upwards [hG] with d hd
  obtain ⟨G, hG1, hG2⟩ := hd
  exact ⟨G, _, hG1, hG2⟩

end Edward
