/-
C139: a ParamMixture in inference stands for the mixture.
-/
import Mathlib.Probability.Distributions.Gaussian.Real
import Mathlib.Tactic.FinCases
import Verif.Props.Elbo
import Verif.Model.MixtureInference
import Verif.Spec.MixtureInference

namespace Edward
open MeasureTheory Filter
variable {K N : ℕ} {W A Z : Type}

theorem mixtureSelect_eq (cat : Fin K) (t : Fin K → ℝ) : mixtureSelect cat t = t cat := by
  simp [mixtureSelect]

section approximation
variable (w : Fin K → ℝ) (f : Fin K → ℝ → ℝ) (μ : Measure ℝ)

/-- The density of component `k` is measurable, positive and normalised; the weights are those of a distribution. -/
structure MixtureOk : Prop where
  nonneg : ∀ k, 0 ≤ w k
  sum : ∑ k, w k = 1
  meas : ∀ k, Measurable (f k)
  pos : ∀ k x, 0 < f k x
  one : ∀ k, ∫⁻ x, ENNReal.ofReal (f k x) ∂μ = 1

variable {w f μ}

theorem MixtureOk.prob (h : MixtureOk w f μ) (k : Fin K) : IsProbabilityMeasure (Spec.lawOf μ (f k)) :=
  ⟨by rw [Spec.lawOf, withDensity_apply _ MeasurableSet.univ, Measure.restrict_univ, h.one k]⟩

theorem MixtureOk.integral_law (h : MixtureOk w f μ) (k : Fin K) (g : ℝ → ℝ) :
    ∫ x, g x ∂Spec.lawOf μ (f k) = ∫ x, f k x * g x ∂μ := by
  rw [Spec.lawOf, integral_withDensity_eq_integral_toReal_smul (h.meas k).ennreal_ofReal
    (Eventually.of_forall fun _ => ENNReal.ofReal_lt_top)]
  refine integral_congr_ae (Eventually.of_forall fun x => ?_)
  show (ENNReal.ofReal (f k x)).toReal • g x = _
  rw [ENNReal.toReal_ofReal (h.pos k x).le, smul_eq_mul]

theorem MixtureOk.integrable_law (h : MixtureOk w f μ) (k : Fin K) (g : ℝ → ℝ) :
    Integrable g (Spec.lawOf μ (f k)) ↔ Integrable (fun x => f k x * g x) μ := by
  rw [Spec.lawOf, integrable_withDensity_iff_integrable_smul' (h.meas k).ennreal_ofReal
    (Eventually.of_forall fun _ => ENNReal.ofReal_lt_top)]
  refine integrable_congr (Eventually.of_forall fun x => ?_)
  show (ENNReal.ofReal (f k x)).toReal • g x = _
  rw [ENNReal.toReal_ofReal (h.pos k x).le, smul_eq_mul]

theorem MixtureOk.integrable (h : MixtureOk w f μ) (k : Fin K) : Integrable (f k) μ := by
  refine ⟨(h.meas k).aestronglyMeasurable, ?_⟩
  rw [hasFiniteIntegral_iff_ofReal (Eventually.of_forall fun x => (h.pos k x).le), h.one k]
  exact ENNReal.one_lt_top

theorem MixtureOk.integral_one (h : MixtureOk w f μ) (k : Fin K) : ∫ x, f k x ∂μ = 1 := by
  rw [integral_eq_lintegral_of_nonneg_ae (Eventually.of_forall fun x => (h.pos k x).le) (h.meas k).aestronglyMeasurable, h.one k]
  rfl

instance {ρ : Fin K → Measure ℝ} [∀ k, IsProbabilityMeasure (ρ k)] : IsFiniteMeasure (Spec.mixtureDrawLaw w ρ) := by
  refine ⟨?_⟩
  simp only [Spec.mixtureDrawLaw, Measure.finsetSum_apply, Measure.smul_apply, measure_univ, smul_eq_mul, mul_one]
  exact ENNReal.sum_lt_top.mpr fun k _ => ENNReal.ofReal_lt_top

theorem mixtureDrawLaw_prob (h0 : ∀ k, 0 ≤ w k) (h1 : ∑ k, w k = 1) (ρ : Fin K → Measure ℝ) [∀ k, IsProbabilityMeasure (ρ k)] :
    IsProbabilityMeasure (Spec.mixtureDrawLaw w ρ) := by
  refine ⟨?_⟩
  simp only [Spec.mixtureDrawLaw, Measure.finsetSum_apply, Measure.smul_apply, measure_univ, smul_eq_mul, mul_one]
  rw [← ENNReal.ofReal_sum_of_nonneg fun k _ => h0 k, h1, ENNReal.ofReal_one]

/-- The expectation over `cat` and the components of a function of the sample of the component that is selected. -/
theorem integral_drawLaw (h0 : ∀ k, 0 ≤ w k) (ρ : Fin K → Measure ℝ) [∀ k, IsProbabilityMeasure (ρ k)] (g : Fin K → ℝ → ℝ)
    (hg : ∀ k, Integrable (g k) (ρ k)) :
    Integrable (fun ω : Fin K × (Fin K → ℝ) => g ω.1 (ω.2 ω.1)) (Spec.mixtureDrawLaw w ρ) ∧
    ∫ ω, g ω.1 (ω.2 ω.1) ∂Spec.mixtureDrawLaw w ρ = ∑ k, w k * ∫ x, g k x ∂ρ k := by
  have hev : ∀ k, Integrable (fun c : Fin K → ℝ => g k (c k)) (Measure.pi ρ) := fun k =>
    (measurePreserving_eval ρ k).integrable_comp_of_integrable (hg k)
  have hi : ∀ k, Integrable (fun ω : Fin K × (Fin K → ℝ) => g ω.1 (ω.2 ω.1)) ((Measure.dirac k).prod (Measure.pi ρ)) := by
    intro k
    rw [Measure.dirac_prod]
    rw [MeasurableEmbedding.integrable_map_iff (measurableEmbedding_prodMk_left k)]
    exact hev k
  have hi' : ∀ k ∈ Finset.univ, Integrable (fun ω : Fin K × (Fin K → ℝ) => g ω.1 (ω.2 ω.1))
      (ENNReal.ofReal (w k) • (Measure.dirac k).prod (Measure.pi ρ)) := fun k _ => (hi k).smul_measure ENNReal.ofReal_ne_top
  refine ⟨integrable_finsetSum_measure.mpr hi', ?_⟩
  rw [Spec.mixtureDrawLaw, integral_finsetSum_measure hi']
  refine Finset.sum_congr rfl fun k _ => ?_
  rw [integral_smul_measure, ENNReal.toReal_ofReal (h0 k), smul_eq_mul, Measure.dirac_prod,
    (measurableEmbedding_prodMk_left k).integral_map]
  congr 1
  exact integral_comp_eval (μ := ρ) (i := k) (f := g k) (hg k).aestronglyMeasurable

/-- C139, approximation: what KLqp minimises. For any `n_samples` the expected loss is the average of the objectives of the single
components with the mixing weights. -/
theorem C139_objective_partial (h : MixtureOk w f μ) {logP : ℝ → ℝ}
    (hi : ∀ k, Integrable (fun x => f k x * (Real.log (f k x) - logP x)) μ) {n : ℕ} (hn : 0 < n) (reg : ℝ) :
    ∫ d, reparamLoss (mixtureVi (fun k x => Real.log (f k x)) logP) n d reg
        ∂Measure.pi (fun _ : Fin n => Spec.mixtureDrawLaw w fun k => Spec.lawOf μ (f k)) =
      ∑ k, w k * Spec.klObjective μ logP (f k) + reg := by
  have hp := h.prob
  have hpl := mixtureDrawLaw_prob h.nonneg h.sum fun k => Spec.lawOf μ (f k)
  obtain ⟨h1, h2⟩ := integral_drawLaw (w := w) h.nonneg (fun k => Spec.lawOf μ (f k)) (fun k x => Real.log (f k x) - logP x)
    fun k => (h.integrable_law k _).mpr (hi k)
  have e : ∀ d : Fin n → Fin K × (Fin K → ℝ), reparamLoss (mixtureVi (fun k x => Real.log (f k x)) logP) n d reg =
      Spec.average (fun s => (fun ω : Fin K × (Fin K → ℝ) => Real.log (f ω.1 (ω.2 ω.1)) - logP (ω.2 ω.1)) (d s)) + reg := by
    intro d
    rw [C52_reparam]
    congr 2
    funext s
    simp [Spec.logApprox, Spec.logJoint, mixtureVi, mixtureCondLogProb, mixtureValue, mixtureSelect_eq]
  simp_rw [e]
  have hA : Integrable (fun d : Fin n → Fin K × (Fin K → ℝ) =>
      Spec.average (fun s => (fun ω : Fin K × (Fin K → ℝ) => Real.log (f ω.1 (ω.2 ω.1)) - logP (ω.2 ω.1)) (d s)))
      (Measure.pi fun _ => Spec.mixtureDrawLaw w fun k => Spec.lawOf μ (f k)) := by
    simp only [Spec.average]
    exact (integrable_finsetSum _ fun t _ => (measurePreserving_eval
      (fun _ : Fin n => Spec.mixtureDrawLaw w fun k => Spec.lawOf μ (f k)) t).integrable_comp_of_integrable h1).div_const _
  rw [integral_add hA (integrable_const _), integral_average _ hn _ h1, h2]
  simp only [integral_const, probReal_univ, one_smul]
  congr 1
  refine Finset.sum_congr rfl fun k _ => ?_
  rw [h.integral_law, Spec.klObjective]

theorem MixtureOk.density_pos (h : MixtureOk w f μ) (x : ℝ) : 0 < Spec.mixtureDensity w f x := by
  have h0 : ∀ k ∈ Finset.univ, 0 ≤ w k * f k x := fun k _ => mul_nonneg (h.nonneg k) (h.pos k x).le
  refine (Finset.sum_nonneg h0).lt_of_ne fun e => ?_
  have hz := (Finset.sum_eq_zero_iff_of_nonneg h0).mp e.symm
  have : ∑ k, w k = 0 := Finset.sum_eq_zero fun k hk => by
    rcases mul_eq_zero.mp (hz k hk) with h' | h'
    · exact h'
    · exact absurd h' (h.pos k x).ne'
  linarith [h.sum]

theorem MixtureOk.density_meas (h : MixtureOk w f μ) : Measurable (Spec.mixtureDensity w f) := by
  unfold Spec.mixtureDensity
  exact Finset.measurable_sum _ fun k _ => (h.meas k).const_mul (w k)

theorem MixtureOk.density_integrable (h : MixtureOk w f μ) : Integrable (Spec.mixtureDensity w f) μ := by
  unfold Spec.mixtureDensity
  exact integrable_finsetSum _ fun k _ => (h.integrable k).const_mul (w k)

theorem MixtureOk.density_one (h : MixtureOk w f μ) : ∫ x, Spec.mixtureDensity w f x ∂μ = 1 := by
  unfold Spec.mixtureDensity
  rw [integral_finsetSum _ fun k _ => (h.integrable k).const_mul (w k)]
  simp_rw [integral_const_mul, h.integral_one, mul_one, h.sum]

/-- `f log f - f log m ≥ f - m`, with equality only where `f = m`. -/
theorem gibbs_point {a m : ℝ} (ha : 0 < a) (hm : 0 < m) : a - m ≤ a * (Real.log a - Real.log m) ∧
    (a * (Real.log a - Real.log m) = a - m → a = m) := by
  have hd : 0 < m / a := div_pos hm ha
  have e : Real.log a - Real.log m = -Real.log (m / a) := by rw [Real.log_div hm.ne' ha.ne']; ring
  have e2 : a * (m / a) = m := by field_simp
  refine ⟨?_, fun heq => ?_⟩
  · have := mul_le_mul_of_nonneg_left (Real.log_le_sub_one_of_pos hd) ha.le
    rw [mul_sub, e2] at this
    rw [e]; linarith
  · by_contra hne
    have hne' : m / a ≠ 1 := fun h' => hne ((div_eq_one_iff_eq ha.ne').mp h').symm
    have := mul_lt_mul_of_pos_left (Real.log_lt_sub_one_of_pos hd hne') ha
    rw [mul_sub, e2] at this
    rw [e] at heq; linarith

/-- C139, approximation: the expected loss is never below the documented objective `E_q[log q - log p]` of the mixture `q`, and
equal to it only if all components with positive weight are the same distribution. -/
theorem C139_fails (h : MixtureOk w f μ) {logP : ℝ → ℝ}
    (hi : ∀ k, Integrable (fun x => f k x * (Real.log (f k x) - logP x)) μ)
    (hm : ∀ k, Integrable (fun x => f k x * (Real.log (Spec.mixtureDensity w f x) - logP x)) μ) :
    Spec.klObjective μ logP (Spec.mixtureDensity w f) ≤ ∑ k, w k * Spec.klObjective μ logP (f k) ∧
    (Spec.klObjective μ logP (Spec.mixtureDensity w f) = ∑ k, w k * Spec.klObjective μ logP (f k) →
      ∀ k, w k ≠ 0 → f k =ᵐ[μ] Spec.mixtureDensity w f) := by
  set m := Spec.mixtureDensity w f with hmdef
  have e1 : Spec.klObjective μ logP m = ∑ k, w k * ∫ x, f k x * (Real.log (m x) - logP x) ∂μ := by
    have : ∀ x, m x * (Real.log (m x) - logP x) = ∑ k, w k * (f k x * (Real.log (m x) - logP x)) := by
      intro x
      have hx : m x = ∑ k, w k * f k x := rfl
      generalize Real.log (m x) - logP x = r
      rw [hx, Finset.sum_mul]
      exact Finset.sum_congr rfl fun k _ => by ring
    rw [Spec.klObjective]
    simp_rw [this]
    rw [integral_finsetSum _ fun k _ => (hm k).const_mul (w k)]
    simp_rw [integral_const_mul]
  have hg : ∀ k, Integrable (fun x => f k x * (Real.log (f k x) - Real.log (m x))) μ := fun k =>
    ((hi k).sub (hm k)).congr (Eventually.of_forall fun x => by simp only [Pi.sub_apply]; ring)
  have hgap : ∀ k, Spec.klObjective μ logP (f k) - ∫ x, f k x * (Real.log (m x) - logP x) ∂μ =
      ∫ x, f k x * (Real.log (f k x) - Real.log (m x)) ∂μ := by
    intro k
    rw [Spec.klObjective, ← integral_sub (hi k) (hm k)]
    exact integral_congr_ae (Eventually.of_forall fun x => by ring)
  have hfm : ∀ k, Integrable (fun x => f k x - m x) μ := fun k => (h.integrable k).sub h.density_integrable
  have hfm0 : ∀ k, ∫ x, f k x - m x ∂μ = 0 := fun k => by
    rw [integral_sub (h.integrable k) h.density_integrable, h.integral_one, h.density_one, sub_self]
  have hle : ∀ k, 0 ≤ ∫ x, f k x * (Real.log (f k x) - Real.log (m x)) ∂μ := fun k => by
    rw [← hfm0 k]
    exact integral_mono (hfm k) (hg k) fun x => (gibbs_point (h.pos k x) (h.density_pos x)).1
  have hdiff : ∑ k, w k * Spec.klObjective μ logP (f k) - Spec.klObjective μ logP m =
      ∑ k, w k * ∫ x, f k x * (Real.log (f k x) - Real.log (m x)) ∂μ := by
    rw [e1, ← Finset.sum_sub_distrib]
    exact Finset.sum_congr rfl fun k _ => by rw [← hgap k]; ring
  have hn : ∀ k ∈ Finset.univ, 0 ≤ w k * ∫ x, f k x * (Real.log (f k x) - Real.log (m x)) ∂μ := fun k _ =>
    mul_nonneg (h.nonneg k) (hle k)
  refine ⟨by linarith [Finset.sum_nonneg hn], fun heq k hk => ?_⟩
  rw [heq, sub_self] at hdiff
  have hz := (Finset.sum_eq_zero_iff_of_nonneg hn).mp hdiff.symm k (Finset.mem_univ k)
  have hz' := (mul_eq_zero.mp hz).resolve_left hk
  have hae : (fun x => f k x - m x) =ᵐ[μ] fun x => f k x * (Real.log (f k x) - Real.log (m x)) :=
    (integral_eq_iff_of_ae_le (hfm k) (hg k)
      (Eventually.of_forall fun x => (gibbs_point (h.pos k x) (h.density_pos x)).1)).mp (by rw [hfm0 k, hz'])
  filter_upwards [hae] with x hx
  exact (gibbs_point (h.pos k x) (h.density_pos x)).2 hx.symm

/-- C139, approximation: for components from one family, with positive weights, parameters minimise the expected loss iff the
parameter of each component minimises the objective of that component alone. Nothing makes the components complement each other. -/
theorem C139_minimisers_fails {P : Type} (w : Fin K → ℝ) (hw : ∀ k, 0 < w k) (g : P → ℝ → ℝ) (μ : Measure ℝ) (logP : ℝ → ℝ)
    (a : Fin K → P) :
    (∀ b : Fin K → P, ∑ k, w k * Spec.klObjective μ logP (g (a k)) ≤ ∑ k, w k * Spec.klObjective μ logP (g (b k))) ↔
      ∀ k p, Spec.klObjective μ logP (g (a k)) ≤ Spec.klObjective μ logP (g p) := by
  constructor
  · intro h k p
    have := h (Function.update a k p)
    rw [← Finset.add_sum_erase _ _ (Finset.mem_univ k), ← Finset.add_sum_erase _ _ (Finset.mem_univ k)] at this
    rw [Function.update_self] at this
    have e : ∑ j ∈ Finset.univ.erase k, w j * Spec.klObjective μ logP (g (Function.update a k p j)) =
        ∑ j ∈ Finset.univ.erase k, w j * Spec.klObjective μ logP (g (a j)) :=
      Finset.sum_congr rfl fun j hj => by rw [Function.update_of_ne (Finset.ne_of_mem_erase hj)]
    rw [e] at this
    exact le_of_mul_le_mul_left (by linarith) (hw k)
  · exact fun h b => Finset.sum_le_sum fun k _ => mul_le_mul_of_nonneg_left (h k _) (hw k).le

/-- C139, approximation: the loss of a run, at its draws, does not depend on the mixing weights, so they are not trained; the
expected loss does depend on them, with derivative `∑ u k * L k` in direction `u`. -/
theorem C139_weights_fails (w u L : Fin K → ℝ) (hL : ∑ k, u k * L k ≠ 0) (logF : Fin K → ℝ → ℝ) (logP : ℝ → ℝ) (n : ℕ)
    (d : Fin n → Fin K × (Fin K → ℝ)) (reg : ℝ) :
    HasDerivAt (fun _t : ℝ => reparamLoss (mixtureVi logF logP) n d reg) 0 0 ∧
    ∃ g ≠ 0, HasDerivAt (fun t : ℝ => ∑ k, (w k + t * u k) * L k) g 0 := by
  refine ⟨hasDerivAt_const _ _, _, hL, ?_⟩
  have e : (fun t : ℝ => ∑ k, (w k + t * u k) * L k) = fun t => ∑ k, w k * L k + t * ∑ k, u k * L k := by
    funext t
    rw [Finset.mul_sum, ← Finset.sum_add_distrib]
    exact Finset.sum_congr rfl fun k _ => by ring
  rw [e]
  simpa using ((hasDerivAt_id (0 : ℝ)).mul_const (∑ k, u k * L k)).const_add (∑ k, w k * L k)

/-- Two distributions on 0 and 1, equal weights: the objectives are integrable, and the loss is above that of the mixture. -/
noncomputable def twoPoint (k : Fin 2) (x : ℝ) : ℝ := if k = 0 then 1 / 2 else if x = 0 then 1 / 4 else 3 / 4

theorem twoPoint_ok : MixtureOk (fun _ => 1 / 2) twoPoint (Measure.dirac 0 + Measure.dirac 1) where
  nonneg := fun _ => by norm_num
  sum := by norm_num
  meas := fun k => by
    unfold twoPoint
    split
    · exact measurable_const
    · exact Measurable.ite (measurableSet_singleton (0 : ℝ)) measurable_const measurable_const
  pos := fun k x => by unfold twoPoint; split <;> [norm_num; (split <;> norm_num)]
  one := fun k => by
    rw [lintegral_add_measure, lintegral_dirac, lintegral_dirac, ← ENNReal.ofReal_add]
    · fin_cases k <;> norm_num [twoPoint]
    all_goals fin_cases k <;> norm_num [twoPoint]

theorem twoPoint_integrable (g : ℝ → ℝ) : Integrable g (Measure.dirac (0 : ℝ) + Measure.dirac 1) :=
  (integrable_dirac enorm_lt_top).add_measure (integrable_dirac enorm_lt_top)

example (logP : ℝ → ℝ) : Spec.klObjective (Measure.dirac 0 + Measure.dirac 1) logP (Spec.mixtureDensity (fun _ => 1 / 2) twoPoint) <
    ∑ k, 1 / 2 * Spec.klObjective (Measure.dirac 0 + Measure.dirac 1) logP (twoPoint k) := by
  obtain ⟨h1, h2⟩ := C139_fails twoPoint_ok (logP := logP) (fun k => twoPoint_integrable _) fun k => twoPoint_integrable _
  refine h1.lt_of_ne fun e => ?_
  have := h2 e 0 (by norm_num)
  have h0 : ∀ᵐ x ∂Measure.dirac (0 : ℝ), twoPoint 0 x = Spec.mixtureDensity (fun _ => 1 / 2) twoPoint x :=
    ae_mono (Measure.le_add_right le_rfl) this
  rw [ae_dirac_eq] at h0
  have h0' : twoPoint 0 0 = Spec.mixtureDensity (fun _ => 1 / 2) twoPoint 0 := h0
  norm_num [twoPoint, Spec.mixtureDensity, Fin.sum_univ_two] at h0'

example : ∑ k : Fin 2, (if k = 0 then 1 else -1 : ℝ) * (if k = 0 then 2 else 3) ≠ 0 := by norm_num [Fin.sum_univ_two]

end approximation

section observed
variable (w : Fin K → ℝ) (latents : List Z) (logPrior logQ : Z → W → ℝ) (f : W → Fin K → A → ℝ) (x : Fin N → A)

theorem mapLoss_mixture (θ : W) (c : Fin N → Fin K) (reg : ℝ) :
    mapLoss (observedMixtureVi latents logPrior logQ (fun θ k a => Real.log (f θ k a)) x) (θ, c) reg =
      -((latents.map fun z => logPrior z θ).sum + ∑ i, Real.log (f θ (c i) (x i))) + reg := by
  have hl : ∀ (l : List Z) (a : ℝ) (t : Z → ℝ), l.foldl (fun p z => p + t z) a = a + (l.map t).sum := by
    intro l
    induction l with
    | nil => intro a t; simp
    | cons z l ih => intro a t; rw [List.foldl_cons, ih, List.map_cons, List.sum_cons]; ring
  unfold mapLoss
  simp only
  rw [hl]
  simp [observedMixtureVi, ViProblem.termP, ViProblem.termX, Fintype.sum_option, mixtureCondLogProb, mixtureSelect_eq]

/-- C139, observed: the expected loss of MAP, over `cat` with the mixing weights, averages the log densities of the components. -/
theorem C139_observed_partial (h1 : ∑ k, w k = 1) (θ : W) (reg : ℝ) :
    ∑ c : Fin N → Fin K, Spec.drawsProb w c *
        mapLoss (observedMixtureVi latents logPrior logQ (fun θ k a => Real.log (f θ k a)) x) (θ, c) reg =
      -((latents.map fun z => logPrior z θ).sum + ∑ i, ∑ k, w k * Real.log (f θ k (x i))) + reg := by
  simp_rw [mapLoss_mixture]
  have e : ∀ c : Fin N → Fin K, Spec.drawsProb w c * (-((latents.map fun z => logPrior z θ).sum +
      ∑ i, Real.log (f θ (c i) (x i))) + reg) =
      Spec.drawsProb w c * (-(latents.map fun z => logPrior z θ).sum + reg) -
        ∑ i, Spec.drawsProb w c * Real.log (f θ (c i) (x i)) := by
    intro c
    rw [← Finset.mul_sum]
    ring
  simp_rw [e]
  rw [Finset.sum_sub_distrib, ← Finset.sum_mul, sum_drawsProb w h1, Finset.sum_comm]
  simp_rw [fun i : Fin N => sum_drawsProb_mul w h1 i (fun k => Real.log (f θ k (x i)))]
  ring

/-- C139, observed: the expected loss is at least the loss with the likelihood of the mixture, and more as soon as two components
with positive weights have different densities at a data point. -/
theorem C139_observed_fails (h0 : ∀ k, 0 ≤ w k) (h1 : ∑ k, w k = 1) (θ : W) (hf : ∀ k a, 0 < f θ k a) (reg : ℝ) :
    (-((latents.map fun z => logPrior z θ).sum + ∑ i, Real.log (Spec.mixtureDensity w (f θ) (x i))) + reg ≤
      ∑ c : Fin N → Fin K, Spec.drawsProb w c *
        mapLoss (observedMixtureVi latents logPrior logQ (fun θ k a => Real.log (f θ k a)) x) (θ, c) reg) ∧
    ((∃ i k, w k ≠ 0 ∧ f θ k (x i) ≠ Spec.mixtureDensity w (f θ) (x i)) →
      -((latents.map fun z => logPrior z θ).sum + ∑ i, Real.log (Spec.mixtureDensity w (f θ) (x i))) + reg <
      ∑ c : Fin N → Fin K, Spec.drawsProb w c *
        mapLoss (observedMixtureVi latents logPrior logQ (fun θ k a => Real.log (f θ k a)) x) (θ, c) reg) := by
  rw [C139_observed_partial w latents logPrior logQ f x h1 θ reg]
  have hm : ∀ a, 0 < Spec.mixtureDensity w (f θ) a := by
    intro a
    have hn : ∀ k ∈ Finset.univ, 0 ≤ w k * f θ k a := fun k _ => mul_nonneg (h0 k) (hf k a).le
    refine (Finset.sum_nonneg hn).lt_of_ne fun e => ?_
    have hz := (Finset.sum_eq_zero_iff_of_nonneg hn).mp e.symm
    have : ∑ k, w k = 0 := Finset.sum_eq_zero fun k hk => (mul_eq_zero.mp (hz k hk)).resolve_right (hf k a).ne'
    linarith
  have hrw : ∀ a, ∑ k, w k * (Real.log (f θ k a) - Real.log (Spec.mixtureDensity w (f θ) a)) =
      ∑ k, w k * Real.log (f θ k a) - Real.log (Spec.mixtureDensity w (f θ) a) := by
    intro a
    simp_rw [mul_sub]
    rw [Finset.sum_sub_distrib, ← Finset.sum_mul, h1, one_mul]
  have hzero : ∀ a, ∑ k, w k * (f θ k a / Spec.mixtureDensity w (f θ) a - 1) = 0 := by
    intro a
    have : ∀ k, w k * (f θ k a / Spec.mixtureDensity w (f θ) a - 1) = w k * f θ k a / Spec.mixtureDensity w (f θ) a - w k := by
      intro k; ring
    simp_rw [this]
    rw [Finset.sum_sub_distrib, ← Finset.sum_div, h1]
    show Spec.mixtureDensity w (f θ) a / _ - 1 = 0
    rw [div_self (hm a).ne', sub_self]
  have hterm : ∀ k a, w k * (Real.log (f θ k a) - Real.log (Spec.mixtureDensity w (f θ) a)) ≤
      w k * (f θ k a / Spec.mixtureDensity w (f θ) a - 1) := by
    intro k a
    refine mul_le_mul_of_nonneg_left ?_ (h0 k)
    rw [← Real.log_div (hf k a).ne' (hm a).ne']
    exact Real.log_le_sub_one_of_pos (div_pos (hf k a) (hm a))
  have hpt : ∀ a, ∑ k, w k * Real.log (f θ k a) ≤ Real.log (Spec.mixtureDensity w (f θ) a) := by
    intro a
    have := Finset.sum_le_sum fun k (_ : k ∈ Finset.univ) => hterm k a
    rw [hzero, hrw] at this
    linarith
  have hsum := Finset.sum_le_sum fun i (_ : i ∈ Finset.univ) => hpt (x i)
  refine ⟨by linarith, ?_⟩
  rintro ⟨i, k, hk, hne⟩
  have hlt : ∑ k, w k * Real.log (f θ k (x i)) < Real.log (Spec.mixtureDensity w (f θ) (x i)) := by
    have hkpos : 0 < w k := (h0 k).lt_of_ne (Ne.symm hk)
    have hs : w k * (Real.log (f θ k (x i)) - Real.log (Spec.mixtureDensity w (f θ) (x i))) <
        w k * (f θ k (x i) / Spec.mixtureDensity w (f θ) (x i) - 1) := by
      refine mul_lt_mul_of_pos_left ?_ hkpos
      rw [← Real.log_div (hf k (x i)).ne' (hm (x i)).ne']
      exact Real.log_lt_sub_one_of_pos (div_pos (hf k (x i)) (hm (x i))) fun h' => hne ((div_eq_one_iff_eq (hm (x i)).ne').mp h')
    have := Finset.sum_lt_sum (fun k (_ : k ∈ Finset.univ) => hterm k (x i)) ⟨k, Finset.mem_univ k, hs⟩
    rw [hzero, hrw] at this
    linarith
  have := Finset.sum_lt_sum (fun i (_ : i ∈ Finset.univ) => hpt (x i)) ⟨i, Finset.mem_univ i, hlt⟩
  linarith

/-- C139, observed: MAP of the means of a mixture of Normals with unit variance and positive weights, flat prior: the expected loss
is least iff every mean is the mean of all data. -/
theorem C139_collapse_fails (hw : ∀ k, 0 < w k) (h1 : ∑ k, w k = 1) (hN : 0 < N) (y : Fin N → ℝ) (m : Fin K → ℝ) :
    (∀ m' : Fin K → ℝ,
      ∑ c : Fin N → Fin K, Spec.drawsProb w c * mapLoss (observedMixtureVi [] (fun (_ : Empty) _ => 0) (fun _ _ => 0)
        (fun m k a => Real.log (ProbabilityTheory.gaussianPDFReal (m k) 1 a)) y) (m, c) 0 ≤
      ∑ c : Fin N → Fin K, Spec.drawsProb w c * mapLoss (observedMixtureVi [] (fun (_ : Empty) _ => 0) (fun _ _ => 0)
        (fun m k a => Real.log (ProbabilityTheory.gaussianPDFReal (m k) 1 a)) y) (m', c) 0) ↔
    ∀ k, m k = Spec.average y := by
  have hN' : (0 : ℝ) < N := by exact_mod_cast hN
  have hlog : ∀ a b : ℝ, Real.log (ProbabilityTheory.gaussianPDFReal a 1 b) =
      Real.log (√(2 * Real.pi))⁻¹ - (b - a) ^ 2 / 2 := by
    intro a b
    rw [ProbabilityTheory.gaussianPDFReal]
    simp only [NNReal.coe_one, mul_one]
    rw [Real.log_mul (by positivity) (Real.exp_pos _).ne', Real.log_exp]
    ring
  set C := Real.log (√(2 * Real.pi))⁻¹
  set av := Spec.average y with hav
  have hsumy : ∑ i, y i = N * av := by
    rw [hav, Spec.average]; field_simp
  have key : ∀ m : Fin K → ℝ, ∑ c : Fin N → Fin K, Spec.drawsProb w c *
      mapLoss (observedMixtureVi [] (fun (_ : Empty) _ => 0) (fun _ _ => 0)
        (fun m k a => Real.log (ProbabilityTheory.gaussianPDFReal (m k) 1 a)) y) (m, c) 0 =
      (∑ i, ((y i - av) ^ 2 / 2 - C)) + N / 2 * ∑ k, w k * (m k - av) ^ 2 := by
    intro m
    rw [C139_observed_partial w [] (fun (_ : Empty) _ => 0) (fun _ _ => 0)
      (fun m k a => ProbabilityTheory.gaussianPDFReal (m k) 1 a) y h1 m 0]
    simp only [List.map_nil, List.sum_nil, zero_add, hlog, add_zero]
    have e : ∀ i, ∑ k, w k * (C - (y i - m k) ^ 2 / 2) =
        C - (y i - av) ^ 2 / 2 + (y i - av) * (∑ k, w k * (m k - av)) - (∑ k, w k * (m k - av) ^ 2) / 2 := by
      intro i
      have : ∀ k, w k * (C - (y i - m k) ^ 2 / 2) =
          w k * (C - (y i - av) ^ 2 / 2) + (y i - av) * (w k * (m k - av)) - w k * (m k - av) ^ 2 / 2 := by
        intro k; ring
      simp_rw [this]
      rw [Finset.sum_sub_distrib, Finset.sum_add_distrib, ← Finset.sum_mul, h1, ← Finset.mul_sum, ← Finset.sum_div, one_mul]
    simp_rw [e]
    rw [Finset.sum_sub_distrib, Finset.sum_add_distrib, ← Finset.sum_mul]
    have hz : ∑ i, (y i - av) = 0 := by
      rw [Finset.sum_sub_distrib, hsumy]; simp
    rw [hz, zero_mul, add_zero]
    simp only [Finset.sum_const, Finset.card_univ, Fintype.card_fin, nsmul_eq_mul, Finset.sum_sub_distrib]
    ring
  simp_rw [key]
  constructor
  · intro h k
    have := h fun _ => av
    simp only [sub_self, ne_eq, OfNat.ofNat_ne_zero, not_false_eq_true, zero_pow, mul_zero, Finset.sum_const_zero] at this
    have hn : ∀ k ∈ Finset.univ, 0 ≤ w k * (m k - av) ^ 2 := fun k _ => mul_nonneg (hw k).le (sq_nonneg _)
    have h0 : ∑ k, w k * (m k - av) ^ 2 = 0 := by
      refine le_antisymm ?_ (Finset.sum_nonneg hn)
      by_contra hc
      push Not at hc
      have := mul_pos (half_pos hN') hc
      linarith
    have := (Finset.sum_eq_zero_iff_of_nonneg hn).mp h0 k (Finset.mem_univ k)
    have := (mul_eq_zero.mp this).resolve_left (hw k).ne'
    have := pow_eq_zero_iff (two_ne_zero) |>.mp this
    linarith
  · intro h m'
    have hn : 0 ≤ ∑ k, w k * (m' k - av) ^ 2 := Finset.sum_nonneg fun k _ => mul_nonneg (hw k).le (sq_nonneg _)
    simp only [h, sub_self, ne_eq, OfNat.ofNat_ne_zero, not_false_eq_true, zero_pow, mul_zero, Finset.sum_const_zero]
    have := mul_nonneg (half_pos hN').le hn
    linarith

example : ∃ w : Fin 2 → ℝ, (∀ k, 0 < w k) ∧ ∑ k, w k = 1 ∧ ∃ (f : Fin 2 → ℝ → ℝ) (x : Fin 1 → ℝ), (∀ k a, 0 < f k a) ∧
    ∃ i k, w k ≠ 0 ∧ f k (x i) ≠ Spec.mixtureDensity w f (x i) :=
  ⟨fun _ => 1 / 2, fun _ => by norm_num, by norm_num, twoPoint, fun _ => 0, twoPoint_ok.pos, 0, 0, by norm_num,
    by norm_num [twoPoint, Spec.mixtureDensity, Fin.sum_univ_two]⟩

end observed
end Edward
