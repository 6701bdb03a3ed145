/-
C51: the Rao-Blackwellised score-function gradient is unbiased for factorised approximations with any densities
(continuous, discrete or mixed).
-/
import Mathlib.MeasureTheory.Integral.Pi
import Verif.Props.ScoreGradientGeneral

namespace Edward
open MeasureTheory Filter Topology
variable {Z X I : Type} [Fintype I] {V : Z → Type} [Fintype Z] [∀ z, MeasurableSpace (V z)]
variable {E : Type} [NormedAddCommGroup E] [NormedSpace ℝ E]

/-- The mean of a function that does not depend on the variables in `D` does not change with their densities. -/
theorem integral_prod_eq_of_indep (ν : ∀ z, Measure (V z)) [∀ z, SigmaFinite (ν z)] (D : Finset Z) (a b : ∀ z, V z → ℝ)
    (ha : ∀ z, ∫ x, a z x ∂ν z = 1) (hb : ∀ z, ∫ x, b z x ∂ν z = 1) (hab : ∀ z, z ∉ D → a z = b z) (R : (∀ z, V z) → ℝ)
    (hR : ∀ ω ω' : ∀ z, V z, (∀ z, z ∉ D → ω z = ω' z) → R ω = R ω') :
    ∫ ω, (∏ z, a z (ω z)) * R ω ∂Measure.pi ν = ∫ ω, (∏ z, b z (ω z)) * R ω ∂Measure.pi ν := by
  classical
  rcases isEmpty_or_nonempty (∀ z, V z) with he | ⟨⟨ω₀⟩⟩
  · simp [integral_of_isEmpty]
  obtain ⟨p, hp⟩ : ∃ p : Z → Prop, ∀ z, p z ↔ z ∈ D := ⟨fun z => z ∈ D, fun _ => Iff.rfl⟩
  have key : ∀ c : ∀ z, V z → ℝ, (∀ z, ∫ x, c z x ∂ν z = 1) →
      ∫ ω, (∏ z, c z (ω z)) * R ω ∂Measure.pi ν =
        ∫ y : ∀ z : {z // ¬p z}, V z, (∏ z : {z // ¬p z}, c z (y z)) * R (fun z => if h : p z then ω₀ z else y ⟨z, h⟩)
          ∂Measure.pi fun z : {z // ¬p z} => ν z := by
    intro c hc
    have hmp := measurePreserving_piEquivPiSubtypeProd ν p
    have h1 := hmp.integral_comp' (g := fun u => (∏ z : {z // p z}, c z (u.1 z)) *
      ((∏ z : {z // ¬p z}, c z (u.2 z)) * R (fun z => if h : p z then ω₀ z else u.2 ⟨z, h⟩)))
    rw [integral_prod_mul (fun x : ∀ z : {z // p z}, V z => ∏ z : {z // p z}, c z (x z))
      (fun y : ∀ z : {z // ¬p z}, V z => (∏ z : {z // ¬p z}, c z (y z)) * R (fun z => if h : p z then ω₀ z else y ⟨z, h⟩)),
      integral_fintype_prod_eq_prod (fun (z : {z // p z}) (x : V z) => c z x)] at h1
    simp only [hc, Finset.prod_const_one, one_mul] at h1
    rw [← h1]
    refine integral_congr_ae (Eventually.of_forall fun ω => ?_)
    show (∏ z, c z (ω z)) * R ω = (∏ z : {z // p z}, c z (ω z)) * ((∏ z : {z // ¬p z}, c z (ω z)) * R (fun z => if h : p z then ω₀ z else ω z))
    rw [← mul_assoc, Fintype.prod_subtype_mul_prod_subtype p (fun z => c z (ω z))]
    congr 1
    exact hR _ _ fun z hz => by rw [dif_neg fun h => hz ((hp z).mp h)]
  rw [key a ha, key b hb]
  refine integral_congr_ae (Eventually.of_forall fun y => ?_)
  show (∏ z : {z // ¬p z}, a z (y z)) * _ = (∏ z : {z // ¬p z}, b z (y z)) * _
  congr 1
  exact Finset.prod_congr rfl fun z _ => by rw [hab z fun h => z.2 ((hp z).mpr h)]

variable {v : E → ViProblem Z X I (∀ z, V z)} {qf : E → ∀ z, V z → ℝ} {l₀ : E} {D : Finset Z} {varP : List (Z ⊕ X)} {varQ : List Z}
  {lat : List Z} {obs : List X}

/-- C51 (`build_score_rb_loss_and_gradients`), general draws, for factorised approximations; `varP` and `varQ` are Markov
blankets in the code. The expectation of the gradient is the gradient of the expected loss, for any `n_samples` (all terms use
the last draw, see C52). -/
theorem C51_rb_general_partial [DecidableEq Z] [DecidableEq X] (ν : ∀ z, Measure (V z)) [∀ z, SigmaFinite (ν z)]
    (hrb : RbOk v qf l₀ D varP varQ lat obs) {q' : E → (∀ z, V z) → E →L[ℝ] ℝ} {s : Set E}
    (h : ScoreOk (Measure.pi ν) (fun l ω => ∏ z, qf l z (ω z)) q' l₀ s) (hone : ∀ l ∈ s, ∀ z, ∫ x, qf l z x ∂ν z = 1)
    (hjm : Measurable (Spec.logJoint (v l₀)))
    (hi : Integrable (fun ω => (∏ z, qf l₀ z (ω z)) * (Real.log (∏ z, qf l₀ z (ω z)) - Spec.logJoint (v l₀) ω)) (Measure.pi ν))
    {b : (∀ z, V z) → ℝ} (hb : Integrable b (Measure.pi ν))
    (hbound : ∀ᵐ ω ∂Measure.pi ν, ∀ l ∈ s, ‖(Real.log (∏ z, qf l z (ω z)) - Spec.logJoint (v l₀) ω) • q' l ω‖ ≤ b ω)
    (hom : Measurable (Spec.outside (v l₀) (qf l₀) obs varP varQ))
    (hoi : Integrable (fun ω => (∏ z, qf l₀ z (ω z)) * Spec.outside (v l₀) (qf l₀) obs varP varQ ω) (Measure.pi ν))
    {b' : (∀ z, V z) → ℝ} (hb' : Integrable b' (Measure.pi ν))
    (hbound' : ∀ᵐ ω ∂Measure.pi ν, ∀ l ∈ s, ‖Spec.outside (v l₀) (qf l₀) obs varP varQ ω • q' l ω‖ ≤ b' ω)
    {reg : E → ℝ} (hreg : DifferentiableAt ℝ reg l₀) (m : ℕ) :
    ∃ G : (Fin (m + 1) → ∀ z, V z) → E →L[ℝ] ℝ,
      (∀ d, HasFDerivAt (fun l => rbSurrogate (v l) (v l₀) (m + 1) d varP varQ (reg l)) (G d) l₀) ∧
      HasFDerivAt (fun l => ∫ d, rbLoss (v l) (m + 1) d (reg l)
          ∂Measure.pi (fun _ : Fin (m + 1) => Spec.lawOf (Measure.pi ν) (fun ω => ∏ z, qf l z (ω z))))
        (∫ d, G d ∂Measure.pi (fun _ : Fin (m + 1) => Spec.lawOf (Measure.pi ν) (fun ω => ∏ z, qf l₀ z (ω z)))) l₀ := by
  set q : E → (∀ z, V z) → ℝ := fun l ω => ∏ z, qf l z (ω z) with hqdef
  set μ := Measure.pi ν with hμ
  set F := Spec.inside (v l₀) (qf l₀) varP varQ with hF
  set R := Spec.outside (v l₀) (qf l₀) obs varP varQ with hR
  set S := Spec.score qf l₀ with hS
  obtain ⟨h1, h2, h3⟩ := hasFDerivAt_elbo h hjm hi hb hbound
  obtain ⟨k1, k2, k3⟩ := hasFDerivAt_expect h hom hoi hb' hbound'
  -- the part outside has no gradient
  have hRzero : ∫ ω, R ω • q' l₀ ω ∂μ = 0 := by
    refine k1.unique ((hasFDerivAt_const (∫ ω, q l₀ ω * R ω ∂μ) l₀).congr_of_eventuallyEq ?_)
    filter_upwards [h.nhds, hrb.only] with l hl hl'
    exact integral_prod_eq_of_indep ν D (qf l) (qf l₀) (hone l hl) (hone l₀ h.mem) hl' R hrb.outside_indep
  have hq' : ∀ᵐ ω ∂μ, q' l₀ ω = q l₀ ω • S ω := by
    filter_upwards [h.diff] with ω hω
    exact (hω l₀ h.mem).unique (hrb.hasFDerivAt_prod ω)
  have hp0 := h.prob h.mem
  have hFS : (fun ω => q l₀ ω • (F ω • S ω)) =ᵐ[μ] fun ω => (Spec.logJoint (v l₀) ω - Real.log (q l₀ ω)) • q' l₀ ω - R ω • q' l₀ ω := by
    filter_upwards [hq'] with ω hω
    have e : Spec.logJoint (v l₀) ω - Real.log (q l₀ ω) = F ω + R ω := hrb.split ω
    rw [e, hω]
    module
  have hFi : Integrable (fun ω => F ω • S ω) (Spec.lawOf μ (q l₀)) := by
    rw [h.integrable_law h.mem]
    exact (integrable_congr hFS).mpr (h2.sub k2)
  have hFv : ∫ ω, F ω • S ω ∂Spec.lawOf μ (q l₀) = ∫ ω, (Spec.logJoint (v l₀) ω - Real.log (q l₀ ω)) • q' l₀ ω ∂μ := by
    rw [h.integral_law h.mem, integral_congr_ae hFS, integral_sub h2 k2, hRzero, sub_zero]
  refine ⟨fun d => -(F (d (Fin.last m)) • S (d (Fin.last m))) + fderiv ℝ reg l₀, fun d => hrb.gradient hreg m d, ?_⟩
  have hev := measurePreserving_eval (fun _ : Fin (m + 1) => Spec.lawOf μ (q l₀)) (Fin.last m)
  have hexp : ∫ d, (-(F (d (Fin.last m)) • S (d (Fin.last m))) + fderiv ℝ reg l₀)
      ∂Measure.pi (fun _ : Fin (m + 1) => Spec.lawOf μ (q l₀)) =
      -∫ ω, (Spec.logJoint (v l₀) ω - Real.log (q l₀ ω)) • q' l₀ ω ∂μ + fderiv ℝ reg l₀ := by
    have hi' : Integrable (fun d : Fin (m + 1) → ∀ z, V z => F (d (Fin.last m)) • S (d (Fin.last m)))
        (Measure.pi fun _ => Spec.lawOf μ (q l₀)) := hev.integrable_comp_of_integrable hFi
    have hn : Integrable (fun d : Fin (m + 1) → ∀ z, V z => -(F (d (Fin.last m)) • S (d (Fin.last m))))
        (Measure.pi fun _ => Spec.lawOf μ (q l₀)) := hi'.neg
    rw [integral_add hn (integrable_const _), integral_neg,
      integral_comp_eval (μ := fun _ : Fin (m + 1) => Spec.lawOf μ (q l₀)) (i := Fin.last m) (f := fun ω => F ω • S ω)
        hFi.aestronglyMeasurable, hFv]
    simp
  rw [hexp]
  refine (h1.add hreg.hasFDerivAt).congr_of_eventuallyEq ?_
  filter_upwards [hrb.approx, hrb.model, h3, h.nhds, hrb.pos] with l hl hp hil hls hpl
  have hap : ∀ ω, Spec.logApprox (v l) ω = Real.log (q l ω) := hrb.logApprox hpl hl
  have hprob := h.prob hls
  have hAi : Integrable (fun ω => Real.log (q l ω) - Spec.logJoint (v l₀) ω) (Spec.lawOf μ (q l)) :=
    (h.integrable_law hls _).mpr hil
  have hAi' : Integrable (fun d : Fin (m + 1) → ∀ z, V z => Real.log (q l (d (Fin.last m))) - Spec.logJoint (v l₀) (d (Fin.last m)))
      (Measure.pi fun _ => Spec.lawOf μ (q l)) :=
    (measurePreserving_eval (fun _ : Fin (m + 1) => Spec.lawOf μ (q l)) (Fin.last m)).integrable_comp_of_integrable hAi
  simp_rw [C52_rb_partial, hp, hap]
  rw [integral_add hAi' (integrable_const _),
    integral_comp_eval (μ := fun _ : Fin (m + 1) => Spec.lawOf μ (q l)) (i := Fin.last m)
      (f := fun ω => Real.log (q l ω) - Spec.logJoint (v l₀) ω) hAi.aestronglyMeasurable, h.integral_law hls]
  simp

section gaussian
open ProbabilityTheory

/-- The densities of two Normal factors; the first one has mean `l`. -/
noncomputable def twoQ (l : ℝ) (z : Bool) (x : ℝ) : ℝ := normalQ (if z then l else 0) x

/-- A model with two independent variables, `-ω² / 2` and `-(ω - 1)² / 2`. -/
noncomputable def twoVi (l : ℝ) : ViProblem Bool Empty Unit (Bool → ℝ) where
  latents := [true, false]
  observed := []
  scaleZ := fun _ _ => 1
  scaleX := fun _ _ => 1
  logQ := fun z ω _ => Real.log (twoQ l z (ω z))
  logP := fun z ω _ => if z then -ω true ^ 2 / 2 else -(ω false - 1) ^ 2 / 2
  logLik := fun _ _ _ => 0

noncomputable def twoQ' (l : ℝ) (ω : Bool → ℝ) : ℝ →L[ℝ] ℝ := normalQ 0 (ω false) • normalQ' l (ω true)

theorem prod_twoQ (l : ℝ) (ω : Bool → ℝ) : ∏ z, twoQ l z (ω z) = normalQ l (ω true) * normalQ 0 (ω false) := by
  simp [twoQ]

theorem twoQ_pos (l : ℝ) (z : Bool) (x : ℝ) : 0 < twoQ l z x := gaussianPDFReal_pos _ _ _ one_ne_zero

theorem integral_twoQ (l : ℝ) (z : Bool) : ∫ x, twoQ l z x = 1 := integral_gaussianPDFReal_eq_one _ one_ne_zero

/-- The two variables are not in each other's blankets. -/
theorem rbOk_two : RbOk twoVi twoQ 0 {true} [Sum.inl true] [true] [true, false] [] where
  lat_eq := fun _ => rfl
  obs_eq := fun _ => rfl
  lat_nodup := by simp
  lat_all := by simp
  obs_nodup := List.nodup_nil
  varP_nodup := by simp
  varP_obs := by simp
  varQ_nodup := by simp
  varQ_all := by simp
  prior_blanket := by
    intro z hz ω ω' h
    cases z with
    | true => simp at hz
    | false => simp [twoVi, h false (by simp)]
  lik_blanket := by simp
  diff := by
    intro z x
    cases z with
    | true => simpa [twoQ] using (hasFDerivAt_normalQ 0 x).differentiableAt
    | false => simp [twoQ]
  pos := Eventually.of_forall fun l z x => twoQ_pos l z x
  only := Eventually.of_forall fun l z hz => by
    cases z with
    | true => simp at hz
    | false => rfl
  approx := Eventually.of_forall fun l z ω => by simp [twoVi]
  model := Eventually.of_forall fun l ω => rfl

noncomputable def twoBound (ω : Bool → ℝ) : ℝ := ∏ z : Bool, normalBound (ω z)

theorem integrable_twoBound : Integrable twoBound (Measure.pi fun _ : Bool => (volume : Measure ℝ)) :=
  Integrable.fintype_prod fun _ => integrable_normalBound

theorem normalQ_mul_le (ω c : ℝ) (hc : |c| ≤ (|ω| + 4) ^ 2) : |c| * normalQ 0 ω ≤ normalBound ω := by
  calc |c| * normalQ 0 ω ≤ (|ω| + 4) ^ 2 * (Real.exp (1 / 2) * Real.exp (-(1 / 4) * ω ^ 2)) := by
        gcongr
        · exact (gaussianPDFReal_pos _ _ _ one_ne_zero).le
        · exact normalQ_le (by simp) ω
    _ = Real.exp (1 / 2) * ((|ω| + 4) ^ 2 * Real.exp (-(1 / 4) * ω ^ 2)) := by ring
    _ ≤ Real.exp (1 / 2) * (32 * Real.exp (-(3 / 16) * ω ^ 2)) :=
        mul_le_mul_of_nonneg_left (poly_le ω) (Real.exp_pos _).le
    _ = normalBound ω := by rw [normalBound]; ring

theorem two_term_le {l : ℝ} (hl : |l| < 1) (ω : Bool → ℝ) (c : ℝ) (hc : |c| ≤ (|ω true| + 4) * (|ω false| + 4)) :
    ‖c • twoQ' l ω‖ ≤ twoBound ω := by
  have h0 : ∀ x : ℝ, 0 < |x| + 4 := fun x => by positivity
  have e : c • twoQ' l ω = ((c / ((|ω true| + 4) * (|ω false| + 4))) * ((|ω false| + 4) * normalQ 0 (ω false))) •
      ((|ω true| + 4) • normalQ' l (ω true)) := by
    rw [twoQ', smul_smul, smul_smul]
    congr 1
    have := (h0 (ω true)).ne'
    have := (h0 (ω false)).ne'
    field_simp
  have h1 := normal_term_le hl (ω true) (|ω true| + 4) (by rw [abs_of_pos (h0 _)])
  have h2 : |ω false| + 4 ≤ (|ω false| + 4) ^ 2 := by nlinarith [abs_nonneg (ω false)]
  have h3 := normalQ_mul_le (ω false) (|ω false| + 4) (by rw [abs_of_pos (h0 _)]; exact h2)
  rw [abs_of_pos (h0 _)] at h3
  have h4 : ‖c / ((|ω true| + 4) * (|ω false| + 4))‖ ≤ 1 := by
    have hp := mul_pos (h0 (ω true)) (h0 (ω false))
    rw [Real.norm_eq_abs, abs_div, abs_of_pos hp, div_le_one hp]
    exact hc
  have hq : 0 < normalQ 0 (ω false) := gaussianPDFReal_pos _ _ _ one_ne_zero
  have h5 : 0 ≤ (|ω false| + 4) * normalQ 0 (ω false) := (mul_pos (h0 _) hq).le
  rw [e, norm_smul, norm_mul, Real.norm_of_nonneg h5]
  have hb : twoBound ω = normalBound (ω false) * normalBound (ω true) := by simp [twoBound, mul_comm]
  rw [hb]
  refine mul_le_mul ?_ h1 (norm_nonneg _) (h5.trans h3)
  calc _ ≤ 1 * ((|ω false| + 4) * normalQ 0 (ω false)) := mul_le_mul_of_nonneg_right h4 h5
    _ ≤ _ := by rw [one_mul]; exact h3

theorem measurable_twoQ (l : ℝ) : Measurable fun ω : Bool → ℝ => ∏ z, twoQ l z (ω z) := by
  refine Finset.measurable_prod _ fun z _ => ?_
  have h : Measurable (twoQ l z) := measurable_gaussianPDFReal _ 1
  exact h.comp (measurable_pi_apply z)

theorem scoreOk_two : ScoreOk (Measure.pi fun _ : Bool => (volume : Measure ℝ)) (fun l ω => ∏ z, twoQ l z (ω z)) twoQ' 0
    (Metric.ball (0 : ℝ) 1) where
  nhds := Metric.ball_mem_nhds _ one_pos
  meas := fun l _ => measurable_twoQ l
  pos := fun l _ ω => Finset.prod_pos fun z _ => twoQ_pos l z _
  one := fun l _ => by
    have hi : Integrable (fun ω : Bool → ℝ => ∏ z, twoQ l z (ω z)) (Measure.pi fun _ : Bool => (volume : Measure ℝ)) :=
      Integrable.fintype_prod fun z => integrable_gaussianPDFReal _ 1
    rw [← ofReal_integral_eq_lintegral_ofReal hi (Eventually.of_forall fun ω => Finset.prod_nonneg fun z _ => (twoQ_pos l z _).le),
      integral_fintype_prod_eq_prod (fun z x => twoQ l z x)]
    simp [integral_twoQ]
  diff := Eventually.of_forall fun ω l _ => by
    simp_rw [prod_twoQ]
    refine ((hasFDerivAt_normalQ l (ω true)).mul_const (normalQ 0 (ω false))).congr_fderiv ?_
    rfl
  meas' := by
    refine Measurable.aestronglyMeasurable ?_
    have h1 : Measurable fun ω : Bool → ℝ => (ω true - 0) * normalQ 0 (ω true) :=
      ((measurable_pi_apply true).sub_const 0).mul ((measurable_gaussianPDFReal 0 1).comp (measurable_pi_apply true))
    have h2 : Measurable fun ω : Bool → ℝ => normalQ 0 (ω false) := (measurable_gaussianPDFReal 0 1).comp (measurable_pi_apply false)
    exact h2.smul (h1.smul_const _)
  bound := ⟨twoBound, integrable_twoBound, Eventually.of_forall fun ω l hl => by
    have := two_term_le (by simpa using hl : |l| < 1) ω 1 (by rw [abs_one]; nlinarith [abs_nonneg (ω true), abs_nonneg (ω false), mul_nonneg (abs_nonneg (ω true)) (abs_nonneg (ω false))])
    simpa using this⟩

/-- The hypotheses of `C51_rb_general_partial` hold for it. -/
example (m : ℕ) :
    ∃ G : (Fin (m + 1) → Bool → ℝ) → ℝ →L[ℝ] ℝ,
      (∀ d, HasFDerivAt (fun l => rbSurrogate (twoVi l) (twoVi 0) (m + 1) d [Sum.inl true] [true] (l ^ 2)) (G d) 0) ∧
      HasFDerivAt (fun l => ∫ d, rbLoss (twoVi l) (m + 1) d (l ^ 2)
          ∂Measure.pi (fun _ : Fin (m + 1) => Spec.lawOf (Measure.pi fun _ : Bool => (volume : Measure ℝ)) (fun ω => ∏ z, twoQ l z (ω z))))
        (∫ d, G d ∂Measure.pi (fun _ : Fin (m + 1) =>
          Spec.lawOf (Measure.pi fun _ : Bool => (volume : Measure ℝ)) (fun ω => ∏ z, twoQ 0 z (ω z)))) 0 := by
  have hJ : ∀ l, Spec.logJoint (twoVi l) = fun ω => -ω true ^ 2 / 2 + -(ω false - 1) ^ 2 / 2 := by
    intro l; funext ω; simp [Spec.logJoint, twoVi]
  classical
  have hO : Spec.outside (twoVi 0) (twoQ 0) [] [Sum.inl true] [true] = fun ω => ω false - 1 / 2 + Real.log (√(2 * Real.pi)) := by
    funext ω
    have h1 : (Finset.univ.filter fun z : Bool => (Sum.inl z : Bool ⊕ Empty) ∉ [(Sum.inl true : Bool ⊕ Empty)]) = {false} := by
      ext z; cases z <;> simp
    have h2 : (Finset.univ.filter fun z : Bool => z ∉ [true]) = {false} := by
      ext z; cases z <;> simp
    have e1 := Finset.sum_congr h1 fun (z : Bool) _ => (rfl : ∑ i, (twoVi 0).scaleZ z i * (twoVi 0).logP z ω i = _)
    have e2 : ∀ t : Bool → ℝ, ∑ z ∈ Finset.univ.filter (fun z : Bool => z ∉ [true]), t z = t false := fun t => by
      rw [h2, Finset.sum_singleton]
    have e3 : Spec.outside (twoVi 0) (twoQ 0) [] [Sum.inl true] [true] ω =
        (∑ i, (twoVi 0).scaleZ false i * (twoVi 0).logP false ω i) + 0 - Real.log (twoQ 0 false (ω false)) := by
      rw [Spec.outside, ← e2 (fun z => Real.log (twoQ 0 z (ω z)))]
      congr 1
      · rw [e1, Finset.sum_singleton]; simp
      · exact Finset.sum_congr (by ext z; simp) fun _ _ => rfl
    rw [e3]
    simp [twoVi, twoQ, log_normalQ]
    ring
  have hlog : Real.log (√(2 * Real.pi)) ≤ 3 ∧ 0 ≤ Real.log (√(2 * Real.pi)) := by
    have h1 : 1 ≤ √(2 * Real.pi) := by rw [Real.one_le_sqrt]; linarith [Real.two_le_pi]
    have h2 : √(2 * Real.pi) ≤ 3 := by
      rw [Real.sqrt_le_left (by norm_num)]
      nlinarith [Real.pi_le_four]
    exact ⟨(Real.log_le_self (by linarith)).trans h2, Real.log_nonneg h1⟩
  have hterm : ∀ l : ℝ, |l| < 1 → ∀ ω : Bool → ℝ,
      |Real.log (∏ z, twoQ l z (ω z)) - (-ω true ^ 2 / 2 + -(ω false - 1) ^ 2 / 2)| ≤ (|ω true| + 4) * (|ω false| + 4) := by
    intro l hl ω
    have hp : ∀ a x : ℝ, normalQ a x ≠ 0 := fun a x => (gaussianPDFReal_pos _ _ _ one_ne_zero).ne'
    rw [prod_twoQ, Real.log_mul (hp _ _) (hp _ _), log_normalQ, log_normalQ]
    have hl' := abs_lt.mp hl
    have e : -Real.log (√(2 * Real.pi)) - (ω true - l) ^ 2 / 2 + (-Real.log (√(2 * Real.pi)) - (ω false - 0) ^ 2 / 2) -
        (-ω true ^ 2 / 2 + -(ω false - 1) ^ 2 / 2) =
        -2 * Real.log (√(2 * Real.pi)) + (ω true * l - l ^ 2 / 2) - ω false + 1 / 2 := by ring
    rw [e]
    have h1 : |ω true * l| ≤ |ω true| := by
      rw [abs_mul]
      nlinarith [abs_nonneg (ω true)]
    have h1' := abs_le.mp h1
    have h1'' := abs_le.mp (le_refl |ω false|)
    have h2 : l ^ 2 ≤ 1 := by nlinarith
    have h3 : 0 ≤ l ^ 2 := sq_nonneg l
    have h4 := mul_nonneg (abs_nonneg (ω true)) (abs_nonneg (ω false))
    have h5 := abs_nonneg (ω true)
    have h6 := abs_nonneg (ω false)
    rw [abs_le]
    constructor <;> nlinarith [hlog.1, hlog.2]
  have hterm' : ∀ ω : Bool → ℝ, |ω false - 1 / 2 + Real.log (√(2 * Real.pi))| ≤ (|ω true| + 4) * (|ω false| + 4) := by
    intro ω
    have h1'' := abs_le.mp (le_refl |ω false|)
    have h4 := mul_nonneg (abs_nonneg (ω true)) (abs_nonneg (ω false))
    have h5 := abs_nonneg (ω true)
    have h6 := abs_nonneg (ω false)
    rw [abs_le]
    constructor <;> nlinarith [hlog.1, hlog.2]
  have hint : ∀ c : (Bool → ℝ) → ℝ, Measurable c → (∀ ω, |c ω| ≤ (|ω true| + 4) * (|ω false| + 4)) →
      Integrable (fun ω => (∏ z, twoQ 0 z (ω z)) * c ω) (Measure.pi fun _ : Bool => (volume : Measure ℝ)) := by
    intro c hcm hc
    refine integrable_twoBound.mono' ((measurable_twoQ 0).mul hcm).aestronglyMeasurable (Eventually.of_forall fun ω => ?_)
    have hq : ∀ x, 0 < normalQ 0 x := fun x => gaussianPDFReal_pos _ _ _ one_ne_zero
    have h0 : ∀ x : ℝ, 4 ≤ |x| + 4 := fun x => by linarith [abs_nonneg x]
    have hk : ∀ x : ℝ, (|x| + 4) * normalQ 0 x ≤ normalBound x := fun x => by
      have := normalQ_mul_le x (|x| + 4) (by rw [abs_of_pos (by linarith [h0 x])]; nlinarith [h0 x])
      rwa [abs_of_pos (by linarith [h0 x])] at this
    have hb : twoBound ω = normalBound (ω true) * normalBound (ω false) := by simp [twoBound]
    rw [prod_twoQ, hb, Real.norm_eq_abs, abs_mul, abs_of_pos (mul_pos (hq _) (hq _))]
    calc normalQ 0 (ω true) * normalQ 0 (ω false) * |c ω| ≤
          normalQ 0 (ω true) * normalQ 0 (ω false) * ((|ω true| + 4) * (|ω false| + 4)) :=
          mul_le_mul_of_nonneg_left (hc ω) (mul_pos (hq _) (hq _)).le
      _ = ((|ω true| + 4) * normalQ 0 (ω true)) * ((|ω false| + 4) * normalQ 0 (ω false)) := by ring
      _ ≤ _ := mul_le_mul (hk _) (hk _) (mul_pos (by linarith [h0 (ω false)]) (hq _)).le
          ((mul_pos (by linarith [h0 (ω true)]) (hq _)).le.trans (hk _))
  have hJm : Measurable fun ω : Bool → ℝ => -ω true ^ 2 / 2 + -(ω false - 1) ^ 2 / 2 := by fun_prop
  have hOm : Measurable fun ω : Bool → ℝ => ω false - 1 / 2 + Real.log (√(2 * Real.pi)) := by fun_prop
  refine C51_rb_general_partial (fun _ : Bool => (volume : Measure ℝ)) rbOk_two scoreOk_two (fun l _ z => integral_twoQ l z)
    (by rw [hJ]; exact hJm) ?_ integrable_twoBound ?_ (by rw [hO]; exact hOm) ?_ integrable_twoBound ?_ (reg := fun l => l ^ 2) (by fun_prop) m
  · rw [hJ]
    exact hint (fun ω => Real.log (∏ z, twoQ 0 z (ω z)) - (-ω true ^ 2 / 2 + -(ω false - 1) ^ 2 / 2))
      ((measurable_twoQ 0).log.sub hJm) (hterm 0 (by simp))
  · refine Eventually.of_forall fun ω l hl => ?_
    have hl' : |l| < 1 := by simpa using hl
    rw [hJ]
    exact two_term_le hl' ω _ (hterm l hl' ω)
  · rw [hO]
    exact hint _ hOm hterm'
  · refine Eventually.of_forall fun ω l hl => ?_
    rw [hO]
    exact two_term_le (by simpa using hl) ω _ (hterm' ω)

end gaussian

end Edward
