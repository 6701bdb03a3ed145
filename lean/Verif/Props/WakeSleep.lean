/-
C87: the objective of the sleep phase of `WakeSleep`.
-/
import Verif.Model.WakeSleep
import Verif.Props.Elbo
import Verif.Props.Variational

namespace Edward
open MeasureTheory InformationTheory

variable {Z X I D W : Type} [Fintype I] [MeasurableSpace D] [MeasurableSpace W]

/-- The documented objective: `log q(z | x)` is maximised at "fantasy" samples `(x, z)` from the model `P`. -/
noncomputable def Spec.sleepObjective (P : Measure (D × W)) (logq : D × W → ℝ) : ℝ := ∫ ω, -logq ω ∂P

omit [MeasurableSpace D] [MeasurableSpace W] in
/-- The values of `loss_q` at given samples, when the scale factors are one. -/
theorem sleepLoss_eq (v : ViProblem Z X I (D × W)) (h1 : ∀ z i, v.scaleZ z i = 1) (n : ℕ) (x₀ : D)
    (qDraws : Fin n → D × W) (zs : Fin n → W) (reg : ℝ) :
    sleepLoss v n x₀ qDraws zs reg = -Spec.average (fun s => Spec.logApprox v (x₀, zs s)) + reg := by
  simp only [sleepLoss, wakeSleepLosses]
  congr 2
  cases hl : v.latents.getLast? with
  | some z₀ =>
    rw [C56_sleep_partial v n _ _ z₀ hl, listMean_ofFn]
    simp only [h1, Spec.logApprox, sleepDraw]
  | none =>
    have : v.latents = [] := by simpa using hl
    simp only [wakeSleepQ, this, if_true]
    rw [accumulate_eq, listMean_ofFn]
    simp [Spec.logApprox, this]

omit [MeasurableSpace D] in
/-- What the sleep phase minimises: the expected loss is `-E log q(z | x₀)` over samples `z` of the prior. -/
theorem integral_sleepLoss (v : ViProblem Z X I (D × W)) (h1 : ∀ z i, v.scaleZ z i = 1) {n : ℕ} (hn : 0 < n) (x₀ : D)
    (qDraws : Fin n → D × W) (reg : ℝ) (π : Measure W) [IsProbabilityMeasure π]
    (hi : Integrable (fun z => Spec.logApprox v (x₀, z)) π) :
    ∫ zs, sleepLoss v n x₀ qDraws zs reg ∂Measure.pi (fun _ => π) = -∫ z, Spec.logApprox v (x₀, z) ∂π + reg := by
  simp only [sleepLoss_eq v h1]
  have key := integral_average π hn (fun z => -Spec.logApprox v (x₀, z) + reg) (hi.neg.add (integrable_const _))
  have hn' : (n : ℝ) ≠ 0 := by positivity
  have e : ∫ z, (-Spec.logApprox v (x₀, z) + reg) ∂π = -∫ z, Spec.logApprox v (x₀, z) ∂π + reg := by
    rw [integral_add (f := fun z => -Spec.logApprox v (x₀, z)) hi.neg (integrable_const _), integral_neg]
    simp
  rw [e] at key
  rw [← key]
  congr 1
  funext zs
  simp only [Spec.average, Finset.sum_add_distrib, Finset.sum_neg_distrib]
  simp
  field_simp

/-- C87, what holds: if the approximation does not depend on the data, the expectation of the sleep phase's loss is
the documented objective, for every model `P`. -/
theorem C87_partial (v : ViProblem Z X I (D × W)) (h1 : ∀ z i, v.scaleZ z i = 1) {n : ℕ} (hn : 0 < n) (x₀ : D)
    (qDraws : Fin n → D × W) (reg : ℝ) (P : Measure (D × W)) [IsProbabilityMeasure P]
    (hi : Integrable (fun z => Spec.logApprox v (x₀, z)) (P.map Prod.snd))
    (hx : ∀ x z, Spec.logApprox v (x, z) = Spec.logApprox v (x₀, z)) :
    ∫ zs, sleepLoss v n x₀ qDraws zs reg ∂Measure.pi (fun _ => P.map Prod.snd) =
      Spec.sleepObjective P (Spec.logApprox v) + reg := by
  have : IsProbabilityMeasure (P.map Prod.snd) := Measure.isProbabilityMeasure_map measurable_snd.aemeasurable
  rw [integral_sleepLoss v h1 hn x₀ qDraws reg _ hi, Spec.sleepObjective, integral_neg,
    integral_map measurable_snd.aemeasurable hi.aestronglyMeasurable]
  congr 3
  funext ω
  exact (hx ω.1 ω.2).symm

/-- The documented objective is right: among the densities `q(z | x)` it is least at the model's conditional density
`r(z | x)`. `m` is the density of the data. -/
theorem sleepObjective_least (μ : Measure D) (ν : Measure W) [SigmaFinite μ] [SigmaFinite ν] (m : D → ℝ)
    (r q : D × W → ℝ) (hm : ∀ x, 0 < m x) (hmm : Measurable m) (hr : ∀ ω, 0 < r ω) (hrm : Measurable r)
    (hq : ∀ ω, 0 < q ω) (hqm : Measurable q)
    (hm1 : ∫⁻ x, ENNReal.ofReal (m x) ∂μ = 1) (hr1 : ∀ x, ∫⁻ z, ENNReal.ofReal (r (x, z)) ∂ν = 1)
    (hq1 : ∀ x, ∫⁻ z, ENNReal.ofReal (q (x, z)) ∂ν = 1)
    (hir : Integrable (fun ω => Real.log (r ω)) (Spec.lawOf (μ.prod ν) fun ω => m ω.1 * r ω))
    (hiq : Integrable (fun ω => Real.log (q ω)) (Spec.lawOf (μ.prod ν) fun ω => m ω.1 * r ω)) :
    Spec.sleepObjective (Spec.lawOf (μ.prod ν) fun ω => m ω.1 * r ω) (fun ω => Real.log (r ω)) ≤
      Spec.sleepObjective (Spec.lawOf (μ.prod ν) fun ω => m ω.1 * r ω) (fun ω => Real.log (q ω)) := by
  have one : ∀ g : D × W → ℝ, Measurable g → (∀ x, ∫⁻ z, ENNReal.ofReal (g (x, z)) ∂ν = 1) →
      ∫⁻ ω, ENNReal.ofReal (m ω.1 * g ω) ∂μ.prod ν = 1 := by
    intro g hg h
    rw [lintegral_prod _ (by fun_prop)]
    simp only [ENNReal.ofReal_mul (hm _).le]
    have : ∀ x, ∫⁻ z, ENNReal.ofReal (m x) * ENNReal.ofReal (g (x, z)) ∂ν = ENNReal.ofReal (m x) := by
      intro x
      rw [lintegral_const_mul _ (by fun_prop), h, mul_one]
    simp only [this, hm1]
  have hd : ∀ ω, Real.log (m ω.1 * r ω) - Real.log (m ω.1 * q ω) = Real.log (r ω) - Real.log (q ω) := by
    intro ω
    rw [Real.log_mul (hm _).ne' (hr _).ne', Real.log_mul (hm _).ne' (hq _).ne']
    ring
  have key := (klDiv_posterior (μ.prod ν) (fun ω => m ω.1 * r ω) (fun ω => m ω.1 * q ω)
    (fun ω => (mul_pos (hm _) (hr ω)).le) (by fun_prop) (one r hrm hr1) (fun ω => mul_pos (hm _) (hq ω)) (by fun_prop)
    (by rw [one q hqm hq1]; simp) (by simp only [hd]; exact hir.sub hiq)).1
  simp only [hd] at key
  rw [integral_sub hir hiq, Spec.evidence, one q hqm hq1, ENNReal.toReal_one, Real.log_one, add_zero] at key
  have h0 : (0 : ℝ) ≤ (klDiv (Spec.lawOf (μ.prod ν) fun ω => m ω.1 * r ω)
      (Spec.posterior (μ.prod ν) fun ω => m ω.1 * q ω)).toReal := ENNReal.toReal_nonneg
  rw [key] at h0
  simp only [Spec.sleepObjective, integral_neg]
  linarith

omit [MeasurableSpace D] in
/-- C87 fails, for every model and all data: whenever the prior (density `p`) and the posterior given the data
(density `r`) differ, the approximation whose law given the data is the prior has smaller expected loss than one
whose law is the posterior; among all approximations the prior is the only minimum. -/
theorem C87_fails (μ : Measure W) [SigmaFinite μ] (p r : W → ℝ) (hp : ∀ z, 0 < p z) (hpm : Measurable p)
    (hp1 : ∫⁻ z, ENNReal.ofReal (p z) ∂μ = 1) (hr : ∀ z, 0 < r z) (hrm : Measurable r)
    (hr1 : ∫⁻ z, ENNReal.ofReal (r z) ∂μ = 1) (hne : Spec.lawOf μ p ≠ Spec.lawOf μ r)
    (hip : Integrable (fun z => Real.log (p z)) (Spec.lawOf μ p))
    (hir : Integrable (fun z => Real.log (r z)) (Spec.lawOf μ p))
    (vp vr : ViProblem Z X I (D × W)) (hsp : ∀ z i, vp.scaleZ z i = 1) (hsr : ∀ z i, vr.scaleZ z i = 1) (x₀ : D)
    (hvp : ∀ z, Spec.logApprox vp (x₀, z) = Real.log (p z)) (hvr : ∀ z, Spec.logApprox vr (x₀, z) = Real.log (r z))
    {n : ℕ} (hn : 0 < n) (qDraws : Fin n → D × W) (reg : ℝ) :
    ∫ zs, sleepLoss vp n x₀ qDraws zs reg ∂Measure.pi (fun _ => Spec.lawOf μ p) <
      ∫ zs, sleepLoss vr n x₀ qDraws zs reg ∂Measure.pi (fun _ => Spec.lawOf μ p) := by
  have hP : IsProbabilityMeasure (Spec.lawOf μ p) := ⟨by
    rw [Spec.lawOf, withDensity_apply _ MeasurableSet.univ, Measure.restrict_univ, hp1]⟩
  have hR : IsProbabilityMeasure (Spec.lawOf μ r) := ⟨by
    rw [Spec.lawOf, withDensity_apply _ MeasurableSet.univ, Measure.restrict_univ, hr1]⟩
  rw [integral_sleepLoss vp hsp hn x₀ qDraws reg _ (by simpa only [hvp] using hip),
    integral_sleepLoss vr hsr hn x₀ qDraws reg _ (by simpa only [hvr] using hir)]
  simp only [hvp, hvr]
  obtain ⟨h1, h2⟩ := klDiv_posterior μ p r (fun z => (hp z).le) hpm hp1 hr hrm (by rw [hr1]; simp) (hip.sub hir)
  have hev : Spec.evidence μ r = 1 := by rw [Spec.evidence, hr1, ENNReal.toReal_one]
  have hpost : Spec.posterior μ r = Spec.lawOf μ r := by simp [Spec.posterior, hev]
  rw [hpost] at h1 h2
  rw [integral_sub hip hir, hev, Real.log_one, add_zero] at h1
  have hpos : 0 < (klDiv (Spec.lawOf μ p) (Spec.lawOf μ r)).toReal := by
    refine ENNReal.toReal_pos (fun h => hne ?_) h2
    exact klDiv_eq_zero_iff.mp h
  linarith

/-- One latent variable with an approximation of log density `l x z` given data `x`. -/
def oneLatent {D W : Type} (l : D → W → ℝ) : ViProblem Unit Unit Unit (D × W) :=
  { latents := [()], observed := [()], scaleZ := fun _ _ => 1, scaleX := fun _ _ => 1, logQ := fun _ ω _ => l ω.1 ω.2,
    logP := fun _ _ _ => 0, logLik := fun _ _ _ => 0 }

/-- A fair coin as latent variable, whose posterior given the data is 3/4 and 1/4. -/
example : ∫ zs, sleepLoss (oneLatent fun (_ : Unit) (_ : Bool) => Real.log (1 / 2)) 3 () (fun _ => ((), true)) zs 0
      ∂Measure.pi (fun _ => Spec.lawOf Measure.count fun _ => 1 / 2) <
    ∫ zs, sleepLoss (oneLatent fun (_ : Unit) z => Real.log (if z then 3 / 4 else 1 / 4)) 3 () (fun _ => ((), true)) zs 0
      ∂Measure.pi (fun _ => Spec.lawOf Measure.count fun _ => 1 / 2) := by
  have hfin : IsFiniteMeasure (Spec.lawOf (Measure.count : Measure Bool) fun _ => (1 / 2 : ℝ)) := by
    refine ⟨?_⟩
    rw [Spec.lawOf, withDensity_apply _ MeasurableSet.univ, Measure.restrict_univ]
    rw [lintegral_count, tsum_bool]
    simp
  refine C87_fails Measure.count (fun _ => 1 / 2) (fun z => if z then 3 / 4 else 1 / 4) (by norm_num) (by fun_prop) ?_
    (by intro z; split <;> norm_num) (measurable_of_finite _) ?_ ?_ .of_finite .of_finite
    _ _ (fun _ _ => rfl) (fun _ _ => rfl) () (by simp [Spec.logApprox, oneLatent]) (by simp [Spec.logApprox, oneLatent])
    (by norm_num) _ _
  · rw [lintegral_count, tsum_bool, ← ENNReal.ofReal_add] <;> norm_num
  · rw [lintegral_count, tsum_bool, ← ENNReal.ofReal_add] <;> norm_num
  · intro h
    have := congrArg (fun m => m {true}) h
    simp [Spec.lawOf, withDensity_apply _ (measurableSet_singleton true)] at this
    rw [← ENNReal.ofReal_ofNat, ← ENNReal.ofReal_inv_of_pos (by norm_num), ENNReal.ofReal_eq_ofReal_iff] at this <;>
      norm_num at this

/-- An approximation that ignores the data. -/
example (P : Measure (Bool × Bool)) [IsProbabilityMeasure P] (l : Bool → ℝ) :
    ∫ zs, sleepLoss (oneLatent fun (_ : Bool) z => l z) 2 true (fun _ => (true, true)) zs 0
      ∂Measure.pi (fun _ => P.map Prod.snd) = Spec.sleepObjective P (fun ω => l ω.2) := by
  have : IsProbabilityMeasure (P.map Prod.snd) := Measure.isProbabilityMeasure_map measurable_snd.aemeasurable
  have h := C87_partial (oneLatent fun (_ : Bool) z => l z) (fun _ _ => rfl) (by norm_num : 0 < 2) true
    (fun _ => (true, true)) 0 P .of_finite (by simp [Spec.logApprox, oneLatent])
  have e : Spec.logApprox (oneLatent fun (_ : Bool) z => l z) = fun ω => l ω.2 := by
    funext ω; simp [Spec.logApprox, oneLatent]
  rw [h, e, add_zero]

end Edward
