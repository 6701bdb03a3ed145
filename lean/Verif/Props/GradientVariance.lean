/-
C137: how much the losses and gradients of KLqp vary between runs: with `n_samples`, and with Rao-Blackwellisation.
-/
import Mathlib.Probability.Moments.Variance
import Mathlib.Probability.Independence.Integration
import Verif.Props.ScoreGradientRb

namespace Edward
open MeasureTheory Filter Topology ProbabilityTheory
variable {Z X I Ω : Type} [Fintype I]

section average
variable [MeasurableSpace Ω] (P : Measure Ω) [IsProbabilityMeasure P]

theorem memLp_eval {n : ℕ} {f : Ω → ℝ} (hf : MemLp f 2 P) (t : Fin n) :
    MemLp (fun d : Fin n → Ω => f (d t)) 2 (Measure.pi fun _ => P) :=
  hf.comp_measurePreserving (measurePreserving_eval (fun _ : Fin n => P) t)

theorem variance_eval {n : ℕ} {f : Ω → ℝ} (hf : AEMeasurable f P) (t : Fin n) :
    Var[fun d : Fin n → Ω => f (d t); Measure.pi fun _ => P] = Var[f; P] := by
  have h := measurePreserving_eval (fun _ : Fin n => P) t
  have e : (Measure.pi fun _ : Fin n => P).map (Function.eval t) = P := h.map_eq
  have := variance_map (X := f) (Y := Function.eval t) (μ := Measure.pi fun _ : Fin n => P) (by rw [e]; exact hf)
    h.measurable.aemeasurable
  rw [e] at this
  exact this.symm

/-- The variance of an average of independent draws. -/
theorem variance_average {n : ℕ} (hn : 0 < n) {f : Ω → ℝ} (hf : MemLp f 2 P) :
    Var[fun d : Fin n → Ω => Spec.average (fun t => f (d t)); Measure.pi fun _ => P] = Var[f; P] / n := by
  have hind : iIndepFun (fun (t : Fin n) (d : Fin n → Ω) => f (d t)) (Measure.pi fun _ => P) :=
    iIndepFun_pi (X := fun _ => f) fun _ => hf.aestronglyMeasurable.aemeasurable
  have h1 := IndepFun.variance_sum (μ := Measure.pi fun _ : Fin n => P) (X := fun (t : Fin n) (d : Fin n → Ω) => f (d t))
    (s := Finset.univ) (fun t _ => memLp_eval P hf t) (fun a _ b _ hab => hind.indepFun hab)
  simp only [variance_eval P hf.aestronglyMeasurable.aemeasurable, Finset.sum_const, Finset.card_univ, Fintype.card_fin,
    nsmul_eq_mul] at h1
  have e : (fun d : Fin n → Ω => Spec.average (fun t => f (d t))) =
      fun d => (n : ℝ)⁻¹ * (∑ t : Fin n, fun d : Fin n → Ω => f (d t)) d := by
    funext d
    simp [Spec.average, div_eq_inv_mul, Finset.sum_apply]
  have hn' : (n : ℝ) ≠ 0 := by positivity
  rw [e, variance_const_mul, h1]
  field_simp

theorem memLp_average {n : ℕ} {f : Ω → ℝ} (hf : MemLp f 2 P) :
    MemLp (fun d : Fin n → Ω => Spec.average (fun t => f (d t))) 2 (Measure.pi fun _ => P) := by
  have h : MemLp (fun d : Fin n → Ω => ∑ t, f (d t)) 2 (Measure.pi fun _ => P) :=
    memLp_finsetSum _ fun t _ => memLp_eval P hf t
  have e : (fun d : Fin n → Ω => Spec.average (fun t => f (d t))) = fun d => (n : ℝ)⁻¹ * ∑ t, f (d t) := by
    funext d; simp [Spec.average, div_eq_inv_mul]
  rw [e]
  exact h.const_mul _

/-- C137, losses: with `n_samples` draws the loss of each variant other than the Rao-Blackwellised one varies `n_samples`
times less than with one draw. -/
theorem C137_losses (v : ViProblem Z X I Ω) {n : ℕ} (hn : 0 < n) (reg : ℝ) (ks kl h : Z → I → ℝ)
    (hj : MemLp (Spec.logJoint v) 2 P) (hq : MemLp (Spec.logApprox v) 2 P) (hl : MemLp (Spec.logLik v) 2 P) :
    Var[fun d => reparamLoss v n d reg; Measure.pi fun _ => P] = Var[fun ω => Spec.logApprox v ω - Spec.logJoint v ω; P] / n ∧
    Var[fun d => scoreLoss v n d reg; Measure.pi fun _ => P] = Var[fun ω => Spec.logApprox v ω - Spec.logJoint v ω; P] / n ∧
    Var[fun d => reparamKlLoss v n d ks kl reg; Measure.pi fun _ => P] = Var[Spec.logLik v; P] / n ∧
    Var[fun d => reparamEntropyLoss v n d h reg; Measure.pi fun _ => P] = Var[Spec.logJoint v; P] / n := by
  have hd : MemLp (fun ω => Spec.logApprox v ω - Spec.logJoint v ω) 2 P := hq.sub hj
  have key : ∀ (f : Ω → ℝ) (c : ℝ), MemLp f 2 P →
      Var[fun d : Fin n → Ω => Spec.average (fun t => f (d t)) + c; Measure.pi fun _ => P] = Var[f; P] / n := by
    intro f c hf
    rw [variance_add_const (memLp_average P hf).aestronglyMeasurable, variance_average P hn hf]
  have hneg : ∀ (f : Ω → ℝ) (c : ℝ), MemLp f 2 P → Var[fun ω => -f ω + c; P] = Var[f; P] := by
    intro f c hf
    have hm : AEStronglyMeasurable (fun ω => -f ω) P := hf.neg.aestronglyMeasurable
    rw [variance_add_const hm, variance_fun_neg]
  have hml : ∀ (f : Ω → ℝ) (c : ℝ), MemLp f 2 P → MemLp (fun ω => -f ω + c) 2 P := fun f c hf => hf.neg.add (memLp_const c)
  refine ⟨?_, ?_, ?_, ?_⟩
  · rw [funext fun d => C52_reparam v n d reg]; exact key (fun ω => Spec.logApprox v ω - Spec.logJoint v ω) reg hd
  · rw [funext fun d => C52_score v n d reg]; exact key (fun ω => Spec.logApprox v ω - Spec.logJoint v ω) reg hd
  · have e : (fun d => reparamKlLoss v n d ks kl reg) = fun d => Spec.average fun t =>
        (fun ω => -Spec.logLik v ω + ((v.latents.map fun z => ∑ i, ks z i * kl z i).sum + reg)) (d t) := by
      funext d
      rw [C52_kl v n hn]
      simp only [add_assoc]
    rw [e, variance_average P hn (hml _ _ hl), hneg _ _ hl]
  · have e : (fun d => reparamEntropyLoss v n d h reg) = fun d => Spec.average fun t =>
        (fun ω => -Spec.logJoint v ω + (reg - (v.latents.map fun z => ∑ i, h z i).sum)) (d t) := by
      funext d
      rw [C52_entropy v n hn]
      congr 1
      funext t
      ring
    rw [e, variance_average P hn (hml _ _ hj), hneg _ _ hj]

/-- C137, the Rao-Blackwellised loss varies as much with any number of draws as with one. -/
theorem C137_rb_loss_fails [DecidableEq Z] [DecidableEq X] (v : ViProblem Z X I Ω) (m : ℕ) (reg : ℝ)
    (hj : MemLp (Spec.logJoint v) 2 P) (hq : MemLp (Spec.logApprox v) 2 P) :
    Var[fun d => rbLoss v (m + 1) d reg; Measure.pi fun _ => P] = Var[fun ω => Spec.logApprox v ω - Spec.logJoint v ω; P] := by
  have hd : MemLp (fun ω => Spec.logApprox v ω - Spec.logJoint v ω) 2 P := hq.sub hj
  rw [funext fun d => C52_rb_partial v m d reg]
  rw [variance_add_const (memLp_eval P hd (Fin.last m)).aestronglyMeasurable]
  exact variance_eval P hd.aestronglyMeasurable.aemeasurable (Fin.last m)

end average

section gradients
variable {V : Z → Type} [Fintype Z] [∀ z, MeasurableSpace (V z)]
variable {E : Type} [NormedAddCommGroup E] [NormedSpace ℝ E]
variable {v : E → ViProblem Z X I (∀ z, V z)} {qf : E → ∀ z, V z → ℝ} {l₀ : E} {D : Finset Z} {varP : List (Z ⊕ X)} {varQ : List Z}
  {lat : List Z} {obs : List X}

/-- The log density ratio of model and approximation. -/
noncomputable def Spec.ratio (v : ViProblem Z X I (∀ z, V z)) (qf : ∀ z, V z → ℝ) (ω : ∀ z, V z) : ℝ :=
  Spec.logJoint v ω - Real.log (∏ z, qf z (ω z))

omit [∀ z, MeasurableSpace (V z)] in
/-- The gradient of the score function estimator at given draws. -/
theorem RbOk.scoreGradient (h : RbOk v qf l₀ D varP varQ lat obs) {reg : E → ℝ} (hreg : DifferentiableAt ℝ reg l₀) (n : ℕ)
    (d : Fin n → ∀ z, V z) (u : E) :
    fderiv ℝ (fun l => scoreSurrogate (v l) (v l₀) n d (reg l)) l₀ u =
      Spec.average (fun t => -(Spec.ratio (v l₀) (qf l₀) (d t) * Spec.score qf l₀ (d t) u)) + fderiv ℝ reg l₀ u := by
  set f := Spec.ratio (v l₀) (qf l₀) with hf
  have hpos := h.pos₀
  have hpp : ∀ ω : ∀ z, V z, (∏ z, qf l₀ z (ω z)) ≠ 0 := fun ω => (Finset.prod_pos fun z _ => hpos z (ω z)).ne'
  have h1 : HasFDerivAt (fun l => ∑ t, Real.log (∏ z, qf l z (d t z)) * f (d t))
      (∑ t, f (d t) • Spec.score qf l₀ (d t)) l₀ := by
    refine HasFDerivAt.fun_sum fun t _ => ?_
    have h0 := ((h.hasFDerivAt_prod (d t)).log (hpp (d t))).mul_const (f (d t))
    rwa [smul_smul _ _ (Spec.score qf l₀ (d t)), inv_mul_cancel₀ (hpp _), one_smul] at h0
  have h2 := ((h1.const_mul (n : ℝ)⁻¹).neg).add hreg.hasFDerivAt
  have h3 : HasFDerivAt (fun l => scoreSurrogate (v l) (v l₀) n d (reg l))
      (-((n : ℝ)⁻¹ • ∑ t, f (d t) • Spec.score qf l₀ (d t)) + fderiv ℝ reg l₀) l₀ := by
    refine h2.congr_of_eventuallyEq ?_
    filter_upwards [h.approx, h.pos] with l hl hp
    have e0 : ∀ ω, Spec.logApprox (v l₀) ω = Real.log (∏ z, qf l₀ z (ω z)) := h.logApprox hpos h.approx.self_of_nhds
    have e1 : ∀ ω, Spec.logApprox (v l) ω = Real.log (∏ z, qf l z (ω z)) := h.logApprox hp hl
    rw [scoreSurrogate, pLogProb_eq, qLogProb_eq, qLogProb_eq, zipWith_ofFn, zipWith_ofFn, listMean_ofFn]
    simp only [e0, e1, Spec.average, Pi.add_apply, Pi.neg_apply, hf, Spec.ratio, div_eq_inv_mul]
    ring
  rw [h3.fderiv]
  simp [Spec.average, div_eq_inv_mul, Finset.sum_neg_distrib]

variable (P : Measure (∀ z, V z)) [IsProbabilityMeasure P]

/-- C137, score function gradient: in every direction the gradient from `n_samples` draws varies `n_samples` times less than
that from one draw. -/
theorem C137_score_partial (h : RbOk v qf l₀ D varP varQ lat obs) {reg : E → ℝ} (hreg : DifferentiableAt ℝ reg l₀) {n : ℕ}
    (hn : 0 < n) (u : E) (hf : MemLp (fun ω => Spec.ratio (v l₀) (qf l₀) ω * Spec.score qf l₀ ω u) 2 P) :
    Var[fun d => fderiv ℝ (fun l => scoreSurrogate (v l) (v l₀) n d (reg l)) l₀ u; Measure.pi fun _ => P] =
      Var[fun ω => Spec.ratio (v l₀) (qf l₀) ω * Spec.score qf l₀ ω u; P] / n := by
  simp_rw [h.scoreGradient hreg n]
  have hg : MemLp (fun ω => -(Spec.ratio (v l₀) (qf l₀) ω * Spec.score qf l₀ ω u)) 2 P := hf.neg
  rw [variance_add_const (memLp_average P hg).aestronglyMeasurable]
  have := variance_average P hn (f := fun ω => -(Spec.ratio (v l₀) (qf l₀) ω * Spec.score qf l₀ ω u)) hg
  rw [this, variance_fun_neg]

/-- C137, Rao-Blackwellised gradient: the variance is that of one draw, whatever `n_samples`. -/
theorem C137_rb_partial [DecidableEq Z] [DecidableEq X] (h : RbOk v qf l₀ D varP varQ lat obs) {reg : E → ℝ}
    (hreg : DifferentiableAt ℝ reg l₀) (m : ℕ) (u : E)
    (hf : MemLp (fun ω => Spec.inside (v l₀) (qf l₀) varP varQ ω * Spec.score qf l₀ ω u) 2 P) :
    Var[fun d => fderiv ℝ (fun l => rbSurrogate (v l) (v l₀) (m + 1) d varP varQ (reg l)) l₀ u; Measure.pi fun _ => P] =
      Var[fun ω => Spec.inside (v l₀) (qf l₀) varP varQ ω * Spec.score qf l₀ ω u; P] := by
  have e : ∀ d, fderiv ℝ (fun l => rbSurrogate (v l) (v l₀) (m + 1) d varP varQ (reg l)) l₀ u =
      -(Spec.inside (v l₀) (qf l₀) varP varQ (d (Fin.last m)) * Spec.score qf l₀ (d (Fin.last m)) u) + fderiv ℝ reg l₀ u := by
    intro d
    rw [(h.gradient hreg m d).fderiv]
    simp
  simp_rw [e]
  have hg : MemLp (fun ω => -(Spec.inside (v l₀) (qf l₀) varP varQ ω * Spec.score qf l₀ ω u)) 2 P := hf.neg
  rw [variance_add_const (memLp_eval P hg (Fin.last m)).aestronglyMeasurable]
  have := variance_eval P (f := fun ω => -(Spec.inside (v l₀) (qf l₀) varP varQ ω * Spec.score qf l₀ ω u))
    hg.aestronglyMeasurable.aemeasurable (Fin.last m)
  rw [this, variance_fun_neg]

/-- C137: with enough draws the Rao-Blackwellised gradient, if it varies at all, varies more than the plain one. -/
theorem C137_samples_fails [DecidableEq Z] [DecidableEq X] (h : RbOk v qf l₀ D varP varQ lat obs) {reg : E → ℝ}
    (hreg : DifferentiableAt ℝ reg l₀) (u : E)
    (hf : MemLp (fun ω => Spec.ratio (v l₀) (qf l₀) ω * Spec.score qf l₀ ω u) 2 P)
    (hF : MemLp (fun ω => Spec.inside (v l₀) (qf l₀) varP varQ ω * Spec.score qf l₀ ω u) 2 P)
    (hpos : 0 < Var[fun ω => Spec.inside (v l₀) (qf l₀) varP varQ ω * Spec.score qf l₀ ω u; P]) :
    ∃ N, ∀ m ≥ N,
      Var[fun d => fderiv ℝ (fun l => scoreSurrogate (v l) (v l₀) (m + 1) d (reg l)) l₀ u; Measure.pi fun _ => P] <
      Var[fun d => fderiv ℝ (fun l => rbSurrogate (v l) (v l₀) (m + 1) d varP varQ (reg l)) l₀ u; Measure.pi fun _ => P] := by
  set a := Var[fun ω => Spec.ratio (v l₀) (qf l₀) ω * Spec.score qf l₀ ω u; P]
  set b := Var[fun ω => Spec.inside (v l₀) (qf l₀) varP varQ ω * Spec.score qf l₀ ω u; P]
  obtain ⟨N, hN⟩ := exists_nat_gt (a / b)
  refine ⟨N, fun m hm => ?_⟩
  rw [C137_score_partial P h hreg (Nat.succ_pos m) u hf, C137_rb_partial P h hreg m u hF]
  have hm' : (N : ℝ) ≤ m := by exact_mod_cast hm
  rw [div_lt_iff₀ (by positivity)]
  rw [div_lt_iff₀ hpos] at hN
  push_cast
  nlinarith

omit [IsProbabilityMeasure P] in
/-- Functions of the variables in `D` and of the others are independent under a product law. -/
theorem indepFun_split [DecidableEq Z] (ρ : ∀ z, Measure (V z)) [∀ z, IsProbabilityMeasure (ρ z)] {α β : Type} [MeasurableSpace α]
    [MeasurableSpace β] (D : Finset Z) {f : (∀ z, V z) → α} {g : (∀ z, V z) → β} (hf : Measurable f) (hg : Measurable g)
    (hfD : ∀ ω ω' : ∀ z, V z, (∀ z ∈ D, ω z = ω' z) → f ω = f ω')
    (hgD : ∀ ω ω' : ∀ z, V z, (∀ z, z ∉ D → ω z = ω' z) → g ω = g ω') : IndepFun f g (Measure.pi ρ) := by
  rcases isEmpty_or_nonempty (∀ z, V z) with he | ⟨⟨ω₀⟩⟩
  · rw [Measure.eq_zero_of_isEmpty (Measure.pi ρ)]
    rw [indepFun_iff_measure_inter_preimage_eq_mul]
    simp
  have hi : iIndepFun (fun (z : Z) (ω : ∀ z, V z) => ω z) (Measure.pi ρ) :=
    iIndepFun_pi (X := fun _ => id) fun _ => aemeasurable_id
  have h := hi.indepFun_finset D Dᶜ disjoint_compl_right fun z => measurable_pi_apply z
  have m1 : Measurable fun (y : ∀ z : D, V z) (z : Z) => if hz : z ∈ D then y ⟨z, hz⟩ else ω₀ z := by
    refine measurable_pi_lambda _ fun z => ?_
    by_cases hz : z ∈ D
    · simpa [hz] using measurable_pi_apply (⟨z, hz⟩ : D)
    · simp [hz]
  have m2 : Measurable fun (y : ∀ z : (Dᶜ : Finset Z), V z) (z : Z) =>
      if hz : z ∈ Dᶜ then y ⟨z, hz⟩ else ω₀ z := by
    refine measurable_pi_lambda _ fun z => ?_
    by_cases hz : z ∈ Dᶜ
    · simpa only [hz, dite_true] using measurable_pi_apply (⟨z, hz⟩ : (Dᶜ : Finset Z))
    · simp only [hz, dite_false]; exact measurable_const
  have h2 := h.comp (hf.comp m1) (hg.comp m2)
  refine h2.congr (Eventually.of_forall fun ω => ?_) (Eventually.of_forall fun ω => ?_)
  · refine hfD _ _ fun z hz => ?_
    simp [hz]
  · refine hgD _ _ fun z hz => ?_
    simp [hz]

omit [∀ z, MeasurableSpace (V z)] in
/-- The score depends only on the variables whose factors have the parameter. -/
theorem RbOk.score_only (h : RbOk v qf l₀ D varP varQ lat obs) (ω ω' : ∀ z, V z) (hω : ∀ z ∈ D, ω z = ω' z) :
    Spec.score qf l₀ ω = Spec.score qf l₀ ω' := by
  have hzero : ∀ z, z ∉ D → ∀ x, fderiv ℝ (fun l => qf l z x) l₀ = 0 := by
    intro z hz x
    refine ((h.diff z x).hasFDerivAt).unique ((hasFDerivAt_const (qf l₀ z x) l₀).congr_of_eventuallyEq ?_)
    filter_upwards [h.only] with l hl
    rw [hl z hz]
  unfold Spec.score
  refine Finset.sum_congr rfl fun z _ => ?_
  by_cases hz : z ∈ D
  · rw [hω z hz]
  · rw [hzero z hz, hzero z hz, smul_zero, smul_zero]

/-- The variance of a product with a sum, the second term being independent of the rest. -/
theorem variance_mul_add {Ω : Type} [MeasurableSpace Ω] (P : Measure Ω) [IsProbabilityMeasure P] {F R S : Ω → ℝ}
    (hFS : MemLp (fun ω => F ω * S ω) 2 P) (hS : MemLp S 2 P) (hR : MemLp R 2 P) (hS0 : ∫ ω, S ω ∂P = 0)
    (hind : IndepFun (fun ω => (F ω, S ω)) R P) :
    MemLp (fun ω => (F ω + R ω) * S ω) 2 P ∧
    Var[fun ω => (F ω + R ω) * S ω; P] = Var[fun ω => F ω * S ω; P] +
      (2 * (∫ ω, R ω ∂P) * ∫ ω, F ω * S ω ^ 2 ∂P) + (∫ ω, R ω ^ 2 ∂P) * ∫ ω, S ω ^ 2 ∂P := by
  have hSR : IndepFun S R P := hind.comp measurable_snd measurable_id
  have hSR2 : IndepFun (fun ω => S ω ^ 2) (fun ω => R ω ^ 2) P :=
    hSR.comp (φ := fun x : ℝ => x ^ 2) (ψ := fun x : ℝ => x ^ 2) (by fun_prop) (by fun_prop)
  have hFSR : IndepFun (fun ω => F ω * S ω ^ 2) R P :=
    hind.comp (φ := fun p : ℝ × ℝ => p.1 * p.2 ^ 2) (by fun_prop) measurable_id
  have iS2 : Integrable (fun ω => S ω ^ 2) P := hS.integrable_sq
  have iR2 : Integrable (fun ω => R ω ^ 2) P := hR.integrable_sq
  have iFS2 : Integrable (fun ω => F ω * S ω ^ 2) P := by
    have : Integrable (fun ω => (F ω * S ω) * S ω) P := hFS.integrable_mul hS
    refine this.congr (Eventually.of_forall fun ω => ?_)
    show F ω * S ω * S ω = F ω * S ω ^ 2
    ring
  have iSR2 : Integrable (fun ω => S ω ^ 2 * R ω ^ 2) P := hSR2.integrable_mul iS2 iR2
  have iFSR : Integrable (fun ω => F ω * S ω ^ 2 * R ω) P := hFSR.integrable_mul iFS2 (hR.integrable (by norm_num))
  have iSR : Integrable (fun ω => S ω * R ω) P := hSR.integrable_mul (hS.integrable (by norm_num)) (hR.integrable (by norm_num))
  have hRS : MemLp (fun ω => S ω * R ω) 2 P := by
    rw [memLp_two_iff_integrable_sq iSR.aestronglyMeasurable]
    refine iSR2.congr (Eventually.of_forall fun ω => ?_)
    show S ω ^ 2 * R ω ^ 2 = (S ω * R ω) ^ 2
    ring
  have hsum : MemLp (fun ω => (F ω + R ω) * S ω) 2 P := by
    refine (hFS.add hRS).ae_eq (Eventually.of_forall fun ω => ?_)
    show F ω * S ω + S ω * R ω = (F ω + R ω) * S ω
    ring
  have eSR : ∫ ω, S ω * R ω ∂P = 0 := by
    rw [hSR.integral_fun_mul_eq_mul_integral hS.aestronglyMeasurable hR.aestronglyMeasurable, hS0, zero_mul]
  have e1 : ∫ ω, (F ω + R ω) * S ω ∂P = ∫ ω, F ω * S ω ∂P := by
    have i1 : Integrable (fun ω => F ω * S ω) P := hFS.integrable (by norm_num)
    have : ∀ ω, (F ω + R ω) * S ω = F ω * S ω + S ω * R ω := fun ω => by ring
    simp_rw [this]
    rw [integral_add i1 iSR, eSR, add_zero]
  have e2 : ∫ ω, ((F ω + R ω) * S ω) ^ 2 ∂P = ∫ ω, (F ω * S ω) ^ 2 ∂P +
      (2 * (∫ ω, R ω ∂P) * ∫ ω, F ω * S ω ^ 2 ∂P) + (∫ ω, R ω ^ 2 ∂P) * ∫ ω, S ω ^ 2 ∂P := by
    have i1 : Integrable (fun ω => (F ω * S ω) ^ 2) P := hFS.integrable_sq
    have i2 : Integrable (fun ω => 2 * (F ω * S ω ^ 2 * R ω)) P := iFSR.const_mul 2
    have i12 : Integrable (fun ω => (F ω * S ω) ^ 2 + 2 * (F ω * S ω ^ 2 * R ω)) P := i1.add i2
    have : ∀ ω, ((F ω + R ω) * S ω) ^ 2 = (F ω * S ω) ^ 2 + 2 * (F ω * S ω ^ 2 * R ω) + S ω ^ 2 * R ω ^ 2 := fun ω => by ring
    simp_rw [this]
    rw [integral_add i12 iSR2, integral_add i1 i2, integral_const_mul,
      hFSR.integral_fun_mul_eq_mul_integral iFS2.aestronglyMeasurable hR.aestronglyMeasurable,
      hSR2.integral_fun_mul_eq_mul_integral iS2.aestronglyMeasurable iR2.aestronglyMeasurable]
    ring
  refine ⟨hsum, ?_⟩
  rw [variance_eq_sub hsum, variance_eq_sub hFS]
  simp only [Pi.pow_apply]
  rw [e1, e2]
  ring

/-- C137, one draw from a factorised approximation, when the terms in the blankets depend on the variables of the parameter
only (`hF`): the exact difference of the two variances. `R` denotes the terms left out. If `E R = 0` the Rao-Blackwellised gradient
does not vary more; if `E R` is subtracted from them (which keeps the expectation) it never would. -/
theorem C137_difference_partial [DecidableEq Z] (ρ : ∀ z, Measure (V z)) [∀ z, IsProbabilityMeasure (ρ z)]
    (h : RbOk v qf l₀ D varP varQ lat obs) (u : E)
    (hF : ∀ ω ω' : ∀ z, V z, (∀ z ∈ D, ω z = ω' z) →
      Spec.inside (v l₀) (qf l₀) varP varQ ω = Spec.inside (v l₀) (qf l₀) varP varQ ω')
    (mF : Measurable (Spec.inside (v l₀) (qf l₀) varP varQ)) (mR : Measurable (Spec.outside (v l₀) (qf l₀) obs varP varQ))
    (mS : Measurable fun ω => Spec.score qf l₀ ω u)
    (hFS : MemLp (fun ω => Spec.inside (v l₀) (qf l₀) varP varQ ω * Spec.score qf l₀ ω u) 2 (Measure.pi ρ))
    (hS : MemLp (fun ω => Spec.score qf l₀ ω u) 2 (Measure.pi ρ))
    (hR : MemLp (Spec.outside (v l₀) (qf l₀) obs varP varQ) 2 (Measure.pi ρ))
    (hS0 : ∫ ω, Spec.score qf l₀ ω u ∂Measure.pi ρ = 0) :
    let F := Spec.inside (v l₀) (qf l₀) varP varQ
    let R := Spec.outside (v l₀) (qf l₀) obs varP varQ
    let S := fun ω => Spec.score qf l₀ ω u
    let c := ∫ ω, R ω ∂Measure.pi ρ
    Var[fun ω => Spec.ratio (v l₀) (qf l₀) ω * S ω; Measure.pi ρ] = Var[fun ω => F ω * S ω; Measure.pi ρ] +
      (2 * c * ∫ ω, F ω * S ω ^ 2 ∂Measure.pi ρ) + (∫ ω, R ω ^ 2 ∂Measure.pi ρ) * ∫ ω, S ω ^ 2 ∂Measure.pi ρ ∧
    (c = 0 → Var[fun ω => F ω * S ω; Measure.pi ρ] ≤ Var[fun ω => Spec.ratio (v l₀) (qf l₀) ω * S ω; Measure.pi ρ]) ∧
    Var[fun ω => (F ω + c) * S ω; Measure.pi ρ] ≤ Var[fun ω => Spec.ratio (v l₀) (qf l₀) ω * S ω; Measure.pi ρ] := by
  intro F R S c
  have hind : IndepFun (fun ω => (F ω, S ω)) R (Measure.pi ρ) := by
    refine indepFun_split ρ D (mF.prodMk mS) mR (fun ω ω' hω => ?_) h.outside_indep
    show (F ω, Spec.score qf l₀ ω u) = (F ω', Spec.score qf l₀ ω' u)
    rw [h.score_only ω ω' hω, show F ω = F ω' from hF ω ω' hω]
  have er : (fun ω => Spec.ratio (v l₀) (qf l₀) ω * S ω) = fun ω => (F ω + R ω) * S ω := by
    funext ω
    rw [Spec.ratio, h.split ω]
  have h1 := (variance_mul_add (Measure.pi ρ) hFS hS hR hS0 hind).2
  rw [er]
  have hS2 : 0 ≤ ∫ ω, S ω ^ 2 ∂Measure.pi ρ := integral_nonneg fun ω => sq_nonneg _
  have hR2 : 0 ≤ ∫ ω, R ω ^ 2 ∂Measure.pi ρ := integral_nonneg fun ω => sq_nonneg _
  refine ⟨h1, fun hc => ?_, ?_⟩
  · have hc' : ∫ ω, R ω ∂Measure.pi ρ = 0 := hc
    rw [h1, hc']
    nlinarith [mul_nonneg hR2 hS2]
  · have hind0 : IndepFun (fun ω => (F ω, S ω)) (fun _ : ∀ z, V z => c) (Measure.pi ρ) := indepFun_const_right _ c
    have h2 := (variance_mul_add (Measure.pi ρ) (R := fun _ => c) hFS hS (memLp_const c) hS0 hind0).2
    rw [h1, h2]
    have hv : c ^ 2 ≤ ∫ ω, R ω ^ 2 ∂Measure.pi ρ := by
      have := variance_nonneg R (Measure.pi ρ)
      rw [variance_eq_sub hR] at this
      simp only [Pi.pow_apply] at this
      linarith
    simp only [integral_const, probReal_univ, one_smul]
    have := mul_le_mul_of_nonneg_right hv hS2
    show _ ≤ Var[fun ω => F ω * S ω; Measure.pi ρ] + 2 * c * _ + _
    linarith

end gradients

section witness

/-- The mass function of Bernoulli(l). -/
noncomputable def headsQ (l : ℝ) (_ : Unit) (b : Bool) : ℝ := if b then l else 1 - l

/-- z ~ Bernoulli(1/2); x | z ~ Bernoulli(1/3 if z else 1/4), observed to be 1; y ~ Uniform(0, 1/2), observed, with density 2.
`x` is `true` and `y` is `false`. -/
noncomputable def coinVi (l : ℝ) : ViProblem Unit Bool Unit (Unit → Bool) where
  latents := [()]
  observed := [true, false]
  scaleZ := fun _ _ => 1
  scaleX := fun _ _ => 1
  logQ := fun z ω _ => Real.log (headsQ l z (ω z))
  logP := fun _ _ _ => Real.log (1 / 2)
  logLik := fun x ω _ => if x then Real.log (if ω () then 1 / 3 else 1 / 4) else Real.log 2

theorem rbOk_coin : RbOk coinVi headsQ (1 / 2) {()} [Sum.inl (), Sum.inr true] [()] [()] [true, false] where
  lat_eq := fun _ => rfl
  obs_eq := fun _ => rfl
  lat_nodup := by simp
  lat_all := fun z => by simp
  obs_nodup := by simp
  varP_nodup := by simp
  varP_obs := fun x hx => by simp at hx; simp [hx]
  varQ_nodup := by simp
  varQ_all := fun z _ => by simp
  prior_blanket := fun z hz => by simp at hz
  lik_blanket := fun x _ hx ω ω' _ => by
    have : x = false := by simpa using hx
    subst this
    simp [coinVi]
  diff := fun z x => by
    cases x <;> simp only [headsQ] <;> (simp; try fun_prop)
  pos := by
    filter_upwards [Ioo_mem_nhds (show (0 : ℝ) < 1 / 2 by norm_num) (show (1 / 2 : ℝ) < 1 by norm_num)] with l hl z x
    cases x
    · simp only [headsQ]; simpa using hl.2
    · simp only [headsQ]; simpa using hl.1
  only := Eventually.of_forall fun l z hz => absurd (Finset.mem_singleton.mpr rfl) hz
  approx := Eventually.of_forall fun l z ω => by simp [coinVi]
  model := Eventually.of_forall fun l ω => rfl

/-- The law of the approximation at 1/2. -/
noncomputable def coinLaw : Measure (Unit → Bool) := Spec.lawOf Measure.count fun ω => ∏ z, headsQ (1 / 2) z (ω z)

theorem coinLaw_singleton (ω : Unit → Bool) : coinLaw {ω} = ENNReal.ofReal (1 / 2) := by
  rw [coinLaw, Spec.lawOf, withDensity_apply _ (MeasurableSet.singleton ω)]
  simp only [Measure.restrict_singleton, Measure.count_singleton, one_smul, lintegral_dirac]
  congr 1
  simp only [headsQ, Finset.univ_unique, Finset.prod_singleton]
  split_ifs <;> norm_num

theorem univ_coin : (Finset.univ : Finset (Unit → Bool)) = {fun _ => true, fun _ => false} := by decide

theorem integral_coin (f : (Unit → Bool) → ℝ) : ∫ ω, f ω ∂coinLaw = (f (fun _ => true) + f (fun _ => false)) / 2 := by
  have hfin : IsFiniteMeasure coinLaw := ⟨by
    rw [← Finset.coe_univ, univ_coin, Finset.coe_pair, Set.insert_eq]
    refine (measure_union_le _ _).trans_lt ?_
    rw [coinLaw_singleton, coinLaw_singleton]
    exact ENNReal.add_lt_top.mpr ⟨ENNReal.ofReal_lt_top, ENNReal.ofReal_lt_top⟩⟩
  rw [integral_fintype .of_finite, univ_coin, Finset.sum_pair (by
    intro h; simpa using congrFun h ())]
  simp only [Measure.real, coinLaw_singleton]
  rw [ENNReal.toReal_ofReal (by norm_num)]
  simp only [smul_eq_mul]
  ring

instance : IsProbabilityMeasure coinLaw := ⟨by
  rw [← Finset.coe_univ, univ_coin, Finset.coe_pair, Set.insert_eq, measure_union (by
      rw [Set.disjoint_singleton]; intro h; simpa using congrFun h ()) (MeasurableSet.singleton _),
    coinLaw_singleton, coinLaw_singleton, ← ENNReal.ofReal_add (by norm_num) (by norm_num)]
  norm_num⟩

theorem variance_coin (f : (Unit → Bool) → ℝ) : Var[f; coinLaw] = ((f (fun _ => true) - f (fun _ => false)) / 2) ^ 2 := by
  rw [variance_eq_integral (measurable_of_finite f).aemeasurable, integral_coin, integral_coin]
  ring

theorem score_coin (ω : Unit → Bool) : Spec.score headsQ (1 / 2) ω 1 = if ω () then 2 else -2 := by
  have h1 : HasDerivAt (fun l : ℝ => headsQ l () (ω ())) (if ω () then 1 else -1) (1 / 2) := by
    cases ω ()
    · simpa [headsQ] using (hasDerivAt_id' (1 / 2 : ℝ)).const_sub 1
    · simpa [headsQ] using hasDerivAt_id' (1 / 2 : ℝ)
  simp only [Spec.score, Finset.univ_unique, Finset.sum_singleton, smul_apply, fderiv_eq_smul_deriv, smul_eq_mul]
  rw [show (default : Unit) = () from rfl, h1.deriv]
  cases ω () <;> norm_num [headsQ]

/-- C137: Rao-Blackwellisation can raise the variance, already with one draw. For the model above with the approximation
Bernoulli(1/2) the variance of the plain gradient is (log 3)² / n_samples, that of the Rao-Blackwellised one (log 12)². -/
theorem C137_fails (m : ℕ) :
    Var[fun d => fderiv ℝ (fun l => scoreSurrogate (coinVi l) (coinVi (1 / 2)) (m + 1) d 0) (1 / 2) 1; Measure.pi fun _ => coinLaw] =
      Real.log 3 ^ 2 / (m + 1) ∧
    Var[fun d => fderiv ℝ (fun l => rbSurrogate (coinVi l) (coinVi (1 / 2)) (m + 1) d [Sum.inl (), Sum.inr true] [()] 0) (1 / 2) 1;
      Measure.pi fun _ => coinLaw] = Real.log 12 ^ 2 ∧
    Real.log 3 ^ 2 / (m + 1) < Real.log 12 ^ 2 := by
  have hd : DifferentiableAt ℝ (fun _ : ℝ => (0 : ℝ)) (1 / 2) := differentiableAt_const 0
  have l12 : Real.log 12 = Real.log 3 + 2 * Real.log 2 := by
    rw [show (12 : ℝ) = 3 * 2 ^ 2 by norm_num, Real.log_mul (by norm_num) (by norm_num), Real.log_pow]; norm_num
  have l4 : Real.log 4 = 2 * Real.log 2 := by
    rw [show (4 : ℝ) = 2 ^ 2 by norm_num, Real.log_pow]; norm_num
  have lh' : Real.log (1 - 2⁻¹) = -Real.log 2 := by rw [show (1 : ℝ) - 2⁻¹ = 2⁻¹ by norm_num, Real.log_inv]
  have l2 : 0 < Real.log 2 := Real.log_pos (by norm_num)
  have l3 : 0 < Real.log 3 := Real.log_pos (by norm_num)
  refine ⟨?_, ?_, ?_⟩
  · have := C137_score_partial coinLaw rbOk_coin hd (Nat.succ_pos m) 1 (MemLp.of_discrete)
    rw [this, variance_coin, score_coin, score_coin]
    push_cast
    congr 1
    simp [Spec.ratio, Spec.logJoint, coinVi, headsQ, l4]
    simp only [lh']
    ring
  · have := C137_rb_partial coinLaw rbOk_coin hd m 1 (MemLp.of_discrete)
    rw [this, variance_coin, score_coin, score_coin, l12]
    simp [Spec.inside, coinVi, headsQ, l4]
    simp only [lh']
    ring
  · rw [div_lt_iff₀ (by positivity), l12]
    have : (0 : ℝ) ≤ m := Nat.cast_nonneg m
    nlinarith [mul_pos l2 l3, sq_nonneg (Real.log 3 + 2 * Real.log 2), mul_nonneg this (sq_nonneg (Real.log 3 + 2 * Real.log 2))]

/-- The hypotheses of `C137_difference_partial` hold for the model above. -/
example : ∃ μ : Measure Bool, ∃ _ : IsProbabilityMeasure μ,
    (∀ ω ω' : Unit → Bool, (∀ z ∈ ({()} : Finset Unit), ω z = ω' z) →
      Spec.inside (coinVi (1 / 2)) (headsQ (1 / 2)) [Sum.inl (), Sum.inr true] [()] ω =
        Spec.inside (coinVi (1 / 2)) (headsQ (1 / 2)) [Sum.inl (), Sum.inr true] [()] ω') ∧
    MemLp (fun ω => Spec.score headsQ (1 / 2) ω 1) 2 (Measure.pi fun _ : Unit => μ) ∧
    MemLp (Spec.outside (coinVi (1 / 2)) (headsQ (1 / 2)) [true, false] [Sum.inl (), Sum.inr true] [()]) 2 (Measure.pi fun _ : Unit => μ) ∧
    ∫ ω, Spec.score headsQ (1 / 2) ω 1 ∂Measure.pi (fun _ : Unit => μ) = 0 := by
  have hp : IsProbabilityMeasure (coinLaw.map fun ω : Unit → Bool => ω ()) :=
    Measure.isProbabilityMeasure_map (measurable_pi_apply ()).aemeasurable
  refine ⟨coinLaw.map fun ω => ω (), hp, fun ω ω' h => ?_, MemLp.of_discrete, MemLp.of_discrete, ?_⟩
  · have : ω = ω' := funext fun z => h z (by simp)
    rw [this]
  · simp_rw [score_coin]
    have h1 := integral_comp_eval (μ := fun _ : Unit => coinLaw.map fun ω : Unit → Bool => ω ()) (i := ())
      (f := fun b : Bool => if b then (2 : ℝ) else -2) (measurable_of_finite _).aestronglyMeasurable
    rw [h1, integral_map (measurable_pi_apply ()).aemeasurable (measurable_of_finite _).aestronglyMeasurable, integral_coin]
    norm_num

/-- The hypotheses of `C137_losses` and `C137_rb_loss_fails` hold, with losses that vary. -/
example : MemLp (Spec.logJoint (coinVi (1 / 2))) 2 coinLaw ∧ MemLp (Spec.logApprox (coinVi (1 / 2))) 2 coinLaw ∧
    MemLp (Spec.logLik (coinVi (1 / 2))) 2 coinLaw ∧
    0 < Var[fun ω => Spec.logApprox (coinVi (1 / 2)) ω - Spec.logJoint (coinVi (1 / 2)) ω; coinLaw] := by
  refine ⟨MemLp.of_discrete, MemLp.of_discrete, MemLp.of_discrete, ?_⟩
  rw [variance_coin]
  have h : Real.log 3 < Real.log 4 := Real.log_lt_log (by norm_num) (by norm_num)
  have lh : Real.log (1 - 2⁻¹) = Real.log 2⁻¹ := by rw [show (1 : ℝ) - 2⁻¹ = 2⁻¹ by norm_num]
  have e : (Spec.logApprox (coinVi (1 / 2)) (fun _ => true) - Spec.logJoint (coinVi (1 / 2)) (fun _ => true)) -
      (Spec.logApprox (coinVi (1 / 2)) (fun _ => false) - Spec.logJoint (coinVi (1 / 2)) fun _ => false) = Real.log 3 - Real.log 4 := by
    simp [Spec.logApprox, Spec.logJoint, coinVi, headsQ]
    rw [lh, Real.log_inv]
    ring
  rw [e]
  have : Real.log 3 - Real.log 4 ≠ 0 := by linarith
  positivity

end witness
end Edward
