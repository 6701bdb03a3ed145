/-
C51: the score-function gradient is unbiased. The draws take finitely many values; the
parameters are any normed space, so the statements are about the whole gradient.
-/
import Mathlib.Analysis.Calculus.FDeriv.Mul
import Mathlib.Analysis.Calculus.FDeriv.Add
import Mathlib.Analysis.Calculus.Deriv.Add
import Mathlib.Analysis.Calculus.Deriv.Mul
import Mathlib.Analysis.SpecialFunctions.Log.Deriv
import Mathlib.Logic.Equiv.Basic
import Verif.Props.Variational

namespace Edward
set_option linter.unusedSectionVars false
open Filter Topology
variable {Z X I Ω : Type} [Fintype I]
variable {E : Type} [NormedAddCommGroup E] [NormedSpace ℝ E]

section core
variable [Fintype Ω]

theorem expect_average_clm {n : ℕ} (hn : 0 < n) (q : Ω → ℝ) (hq : ∑ ω, q ω = 1) (g : Ω → E →L[ℝ] ℝ) :
    ∑ d : Fin n → Ω, Spec.drawsProb q d • ((n : ℝ)⁻¹ • ∑ s, g (d s)) = ∑ ω, q ω • g ω := by
  ext x
  have h := expect_average hn q hq (fun ω => g ω x)
  simp only [Spec.average, div_eq_inv_mul] at h
  simpa [sum_apply] using h

/-- The score of the draws times a factor. -/
theorem hasFDerivAt_score {n : ℕ} {q : E → Ω → ℝ} {q' : Ω → E →L[ℝ] ℝ} {l₀ : E}
    (hq : ∀ ω, HasFDerivAt (fun l => q l ω) (q' ω) l₀) (hpos : ∀ ω, 0 < q l₀ ω) (f : Ω → ℝ) (d : Fin n → Ω) :
    HasFDerivAt (fun l => Spec.average fun s => Real.log (q l (d s)) * f (d s))
      ((n : ℝ)⁻¹ • ∑ s, f (d s) • (q l₀ (d s))⁻¹ • q' (d s)) l₀ := by
  have h : HasFDerivAt (fun l => ∑ s, Real.log (q l (d s)) * f (d s))
      (∑ s, f (d s) • (q l₀ (d s))⁻¹ • q' (d s)) l₀ :=
    HasFDerivAt.fun_sum fun s _ => ((hq (d s)).log (hpos _).ne').mul_const (f (d s))
  have := h.const_mul (n : ℝ)⁻¹
  simpa only [Spec.average, div_eq_inv_mul] using this

theorem sum_deriv_eq_zero {q : E → Ω → ℝ} {q' : Ω → E →L[ℝ] ℝ} {l₀ : E}
    (hq : ∀ ω, HasFDerivAt (fun l => q l ω) (q' ω) l₀) (hsum : ∀ᶠ l in 𝓝 l₀, ∑ ω, q l ω = 1) :
    ∑ ω, q' ω = 0 := by
  have h : HasFDerivAt (fun l => ∑ ω, q l ω) (∑ ω, q' ω) l₀ := HasFDerivAt.fun_sum fun ω _ => hq ω
  have h' : HasFDerivAt (fun l => ∑ ω, q l ω) (0 : E →L[ℝ] ℝ) l₀ :=
    (hasFDerivAt_const (1 : ℝ) l₀).congr_of_eventuallyEq (hsum.mono fun l hl => hl)
  exact h.unique h'

theorem sum_score {n : ℕ} (hn : 0 < n) {q : E → Ω → ℝ} {q' : Ω → E →L[ℝ] ℝ} {l₀ : E}
    (hpos : ∀ ω, 0 < q l₀ ω) (hsum : ∑ ω, q l₀ ω = 1) (f : Ω → ℝ) :
    ∑ d : Fin n → Ω, Spec.drawsProb (q l₀) d • ((n : ℝ)⁻¹ • ∑ s, f (d s) • (q l₀ (d s))⁻¹ • q' (d s)) =
      ∑ ω, f ω • q' ω := by
  rw [expect_average_clm hn (q l₀) hsum (fun ω => f ω • (q l₀ ω)⁻¹ • q' ω)]
  refine Finset.sum_congr rfl fun ω _ => ?_
  rw [smul_smul, smul_smul]
  congr 1
  have := (hpos ω).ne'
  field_simp

/-- Derivative of `E_q[log q - f]`. -/
theorem hasFDerivAt_negElbo {q : E → Ω → ℝ} {q' : Ω → E →L[ℝ] ℝ} {l₀ : E}
    (hq : ∀ ω, HasFDerivAt (fun l => q l ω) (q' ω) l₀) (hpos : ∀ ω, 0 < q l₀ ω)
    (hsum : ∀ᶠ l in 𝓝 l₀, ∑ ω, q l ω = 1) (f : Ω → ℝ) :
    HasFDerivAt (fun l => ∑ ω, q l ω * (Real.log (q l ω) - f ω)) (-∑ ω, (f ω - Real.log (q l₀ ω)) • q' ω) l₀ := by
  have h : HasFDerivAt (fun l => ∑ ω, q l ω * (Real.log (q l ω) - f ω))
      (∑ ω, (q l₀ ω • ((q l₀ ω)⁻¹ • q' ω) + (Real.log (q l₀ ω) - f ω) • q' ω)) l₀ :=
    HasFDerivAt.fun_sum fun ω _ => (hq ω).mul (((hq ω).log (hpos ω).ne').sub_const (f ω))
  convert h using 1
  have : ∀ ω, q l₀ ω • ((q l₀ ω)⁻¹ • q' ω) + (Real.log (q l₀ ω) - f ω) • q' ω =
      q' ω - (f ω - Real.log (q l₀ ω)) • q' ω := by
    intro ω
    rw [smul_smul, mul_inv_cancel₀ (hpos ω).ne']
    module
  simp_rw [this]
  rw [Finset.sum_sub_distrib, sum_deriv_eq_zero hq hsum, zero_sub]

theorem weighted_add {n : ℕ} (w : (Fin n → Ω) → ℝ) (hw : ∑ d, w d = 1) (A : (Fin n → Ω) → E →L[ℝ] ℝ)
    (B : E →L[ℝ] ℝ) : ∑ d, w d • (-A d + B) = -∑ d, w d • A d + B := by
  simp_rw [smul_add, smul_neg]
  rw [Finset.sum_add_distrib, Finset.sum_neg_distrib, ← Finset.sum_smul, hw, one_smul]

end core

/-- C51 (`build_score_loss_and_gradients`): for every `n_samples` and every draw the
function differentiated has a gradient, and the expectation of the gradient over the
draws is the gradient of the expected loss. -/
theorem C51_score [Fintype Ω] (v : E → ViProblem Z X I Ω) (q : E → Ω → ℝ) (reg : E → ℝ) (l₀ : E) {n : ℕ} (hn : 0 < n)
    (hq : ∀ ω, DifferentiableAt ℝ (fun l => q l ω) l₀) (hpos : ∀ ω, 0 < q l₀ ω)
    (hsum : ∀ᶠ l in 𝓝 l₀, ∑ ω, q l ω = 1)
    (hQ : ∀ᶠ l in 𝓝 l₀, ∀ ω, Spec.logApprox (v l) ω = Real.log (q l ω))
    (hP : ∀ᶠ l in 𝓝 l₀, ∀ ω, Spec.logJoint (v l) ω = Spec.logJoint (v l₀) ω)
    (hreg : DifferentiableAt ℝ reg l₀) :
    ∃ G : (Fin n → Ω) → E →L[ℝ] ℝ,
      (∀ d, HasFDerivAt (fun l => scoreSurrogate (v l) (v l₀) n d (reg l)) (G d) l₀) ∧
      HasFDerivAt (fun l => ∑ d, Spec.drawsProb (q l) d * scoreLoss (v l) n d (reg l))
        (∑ d, Spec.drawsProb (q l₀) d • G d) l₀ := by
  have hq' := fun ω => (hq ω).hasFDerivAt
  set q' := fun ω => fderiv ℝ (fun l => q l ω) l₀
  have hQ0 := hQ.self_of_nhds
  have hs0 := hsum.self_of_nhds
  set f : Ω → ℝ := fun ω => Spec.logJoint (v l₀) ω - Real.log (q l₀ ω) with hf
  refine ⟨fun d => -((n : ℝ)⁻¹ • ∑ s, f (d s) • (q l₀ (d s))⁻¹ • q' (d s)) + fderiv ℝ reg l₀, fun d => ?_, ?_⟩
  · refine (((hasFDerivAt_score hq' hpos f d).neg).add hreg.hasFDerivAt).congr_of_eventuallyEq ?_
    filter_upwards [hQ] with l hl
    rw [scoreSurrogate, pLogProb_eq, qLogProb_eq, qLogProb_eq, zipWith_ofFn, zipWith_ofFn, listMean_ofFn]
    simp only [hl, hQ0, Pi.add_apply, Pi.neg_apply, hf]
    ring
  · rw [weighted_add _ (sum_drawsProb _ hs0), sum_score hn hpos hs0]
    refine ((hasFDerivAt_negElbo hq' hpos hsum (Spec.logJoint (v l₀))).add hreg.hasFDerivAt).congr_of_eventuallyEq ?_
    filter_upwards [hQ, hP, hsum] with l hl hp h1
    simp_rw [C52_score, mul_add]
    rw [Finset.sum_add_distrib, ← Finset.sum_mul, sum_drawsProb _ h1,
      expect_average hn (q l) h1 (fun ω => Spec.logApprox (v l) ω - Spec.logJoint (v l) ω)]
    simp only [hl, hp, Pi.add_apply, one_mul]

/-- C51 (`build_score_kl_loss_and_gradients`). -/
theorem C51_score_kl [Fintype Ω] (v : E → ViProblem Z X I Ω) (q : E → Ω → ℝ) (reg : E → ℝ) (ks : Z → I → ℝ)
    (kl : E → Z → I → ℝ) (l₀ : E) {n : ℕ} (hn : 0 < n)
    (hq : ∀ ω, DifferentiableAt ℝ (fun l => q l ω) l₀) (hpos : ∀ ω, 0 < q l₀ ω)
    (hsum : ∀ᶠ l in 𝓝 l₀, ∑ ω, q l ω = 1)
    (hQ : ∀ᶠ l in 𝓝 l₀, ∀ ω, Spec.logApprox (v l) ω = Real.log (q l ω))
    (hL : ∀ᶠ l in 𝓝 l₀, ∀ ω, Spec.logLik (v l) ω = Spec.logLik (v l₀) ω)
    (hkl : DifferentiableAt ℝ (fun l => klPenalty (v l) ks (kl l)) l₀)
    (hreg : DifferentiableAt ℝ reg l₀) :
    ∃ G : (Fin n → Ω) → E →L[ℝ] ℝ,
      (∀ d, HasFDerivAt (fun l => scoreKlSurrogate (v l) (v l₀) n d ks (kl l) (reg l)) (G d) l₀) ∧
      HasFDerivAt (fun l => ∑ d, Spec.drawsProb (q l) d * reparamKlLoss (v l) n d ks (kl l) (reg l))
        (∑ d, Spec.drawsProb (q l₀) d • G d) l₀ := by
  have hq' := fun ω => (hq ω).hasFDerivAt
  set q' := fun ω => fderiv ℝ (fun l => q l ω) l₀
  have hs0 := hsum.self_of_nhds
  set f : Ω → ℝ := fun ω => Spec.logLik (v l₀) ω with hf
  have hB := hkl.hasFDerivAt.add hreg.hasFDerivAt
  set B := fderiv ℝ (fun l => klPenalty (v l) ks (kl l)) l₀ + fderiv ℝ reg l₀
  refine ⟨fun d => -((n : ℝ)⁻¹ • ∑ s, f (d s) • (q l₀ (d s))⁻¹ • q' (d s)) + B, fun d => ?_, ?_⟩
  · refine (((hasFDerivAt_score hq' hpos f d).neg).add hB).congr_of_eventuallyEq ?_
    filter_upwards [hQ] with l hl
    rw [scoreKlSurrogate, pLogLik_eq, qLogProb_eq, zipWith_ofFn, listMean_ofFn]
    simp only [hl, Pi.add_apply, Pi.neg_apply, hf]
    ring
  · rw [weighted_add _ (sum_drawsProb _ hs0), sum_score hn hpos hs0]
    have hlin : HasFDerivAt (fun l => ∑ ω, q l ω * f ω) (∑ ω, f ω • q' ω) l₀ :=
      HasFDerivAt.fun_sum fun ω _ => (hq' ω).mul_const (f ω)
    refine ((hlin.neg).add hB).congr_of_eventuallyEq ?_
    filter_upwards [hL, hsum] with l hl h1
    have : ∀ d : Fin n → Ω, reparamKlLoss (v l) n d ks (kl l) (reg l) =
        -Spec.average (fun s => f (d s)) + (klPenalty (v l) ks (kl l) + reg l) := by
      intro d
      rw [reparamKlLoss, pLogLik_eq, listMean_ofFn]
      simp only [hl, hf]; ring
    have e : ∀ d : Fin n → Ω, Spec.drawsProb (q l) d * reparamKlLoss (v l) n d ks (kl l) (reg l) =
        -(Spec.drawsProb (q l) d * Spec.average (fun s => f (d s))) +
          Spec.drawsProb (q l) d * (klPenalty (v l) ks (kl l) + reg l) := by
      intro d; rw [this]; ring
    simp_rw [e]
    rw [Finset.sum_add_distrib, Finset.sum_neg_distrib, expect_average hn (q l) h1 f, ← Finset.sum_mul,
      sum_drawsProb _ h1]
    simp

/-- C51 (`build_score_entropy_loss_and_gradients`). -/
theorem C51_score_entropy [Fintype Ω] (v : E → ViProblem Z X I Ω) (q : E → Ω → ℝ) (reg : E → ℝ)
    (h : E → Z → I → ℝ) (l₀ : E) {n : ℕ} (hn : 0 < n)
    (hq : ∀ ω, DifferentiableAt ℝ (fun l => q l ω) l₀) (hpos : ∀ ω, 0 < q l₀ ω)
    (hsum : ∀ᶠ l in 𝓝 l₀, ∑ ω, q l ω = 1)
    (hQ : ∀ᶠ l in 𝓝 l₀, ∀ ω, Spec.logApprox (v l) ω = Real.log (q l ω))
    (hP : ∀ᶠ l in 𝓝 l₀, ∀ ω, Spec.logJoint (v l) ω = Spec.logJoint (v l₀) ω)
    (hh : DifferentiableAt ℝ (fun l => qEntropy (v l) (h l)) l₀)
    (hreg : DifferentiableAt ℝ reg l₀) :
    ∃ G : (Fin n → Ω) → E →L[ℝ] ℝ,
      (∀ d, HasFDerivAt (fun l => scoreEntropySurrogate (v l) (v l₀) n d (h l) (reg l)) (G d) l₀) ∧
      HasFDerivAt (fun l => ∑ d, Spec.drawsProb (q l) d * reparamEntropyLoss (v l) n d (h l) (reg l))
        (∑ d, Spec.drawsProb (q l₀) d • G d) l₀ := by
  have hq' := fun ω => (hq ω).hasFDerivAt
  set q' := fun ω => fderiv ℝ (fun l => q l ω) l₀
  have hs0 := hsum.self_of_nhds
  set f : Ω → ℝ := fun ω => Spec.logJoint (v l₀) ω with hf
  have hB := hreg.hasFDerivAt.sub hh.hasFDerivAt
  set B := fderiv ℝ reg l₀ - fderiv ℝ (fun l => qEntropy (v l) (h l)) l₀
  refine ⟨fun d => -((n : ℝ)⁻¹ • ∑ s, f (d s) • (q l₀ (d s))⁻¹ • q' (d s)) + B, fun d => ?_, ?_⟩
  · refine (((hasFDerivAt_score hq' hpos f d).neg).add hB).congr_of_eventuallyEq ?_
    filter_upwards [hQ] with l hl
    rw [scoreEntropySurrogate, pLogProb_eq, qLogProb_eq, zipWith_ofFn, listMean_ofFn]
    simp only [hl, Pi.add_apply, Pi.neg_apply, Pi.sub_apply, hf]
    ring
  · rw [weighted_add _ (sum_drawsProb _ hs0), sum_score hn hpos hs0]
    have hlin : HasFDerivAt (fun l => ∑ ω, q l ω * f ω) (∑ ω, f ω • q' ω) l₀ :=
      HasFDerivAt.fun_sum fun ω _ => (hq' ω).mul_const (f ω)
    refine ((hlin.neg).add hB).congr_of_eventuallyEq ?_
    filter_upwards [hP, hsum] with l hl h1
    have : ∀ d : Fin n → Ω, reparamEntropyLoss (v l) n d (h l) (reg l) =
        -Spec.average (fun s => f (d s)) + (reg l - qEntropy (v l) (h l)) := by
      intro d
      rw [reparamEntropyLoss, pLogProb_eq, listMean_ofFn]
      simp only [hl, hf]; ring
    simp_rw [this, mul_add, mul_neg]
    rw [Finset.sum_add_distrib, Finset.sum_neg_distrib, expect_average hn (q l) h1 f, ← Finset.sum_mul,
      sum_drawsProb _ h1]
    simp

/-- C51, model parameters (`p_grads`): the gradient of the loss at the draws has the
gradient of the expected loss as expectation. -/
theorem C51_model [Fintype Ω] (v : E → ViProblem Z X I Ω) (q : Ω → ℝ) (reg : E → ℝ) (l₀ : E) {n : ℕ}
    (hv : ∀ d : Fin n → Ω, DifferentiableAt ℝ (fun l => scoreLoss (v l) n d (reg l)) l₀) :
    HasFDerivAt (fun l => ∑ d, Spec.drawsProb q d * scoreLoss (v l) n d (reg l))
      (∑ d, Spec.drawsProb q d • fderiv ℝ (fun l => scoreLoss (v l) n d (reg l)) l₀) l₀ :=
  HasFDerivAt.fun_sum fun d _ => ((hv d).hasFDerivAt.const_mul _)

/-! ### Rao-Blackwellised gradient -/

section rb
variable {V : Z → Type} [Fintype Z] [DecidableEq Z] [∀ z, Fintype (V z)]

/-- The mean of a function that does not depend on the coordinates in `D` does not
depend on the factors in `D`. -/
theorem sum_prod_eq_of_indep (D : Finset Z) (a b : ∀ z, V z → ℝ) (ha : ∀ z, ∑ x, a z x = 1)
    (hb : ∀ z, ∑ x, b z x = 1) (hab : ∀ z, z ∉ D → a z = b z) (R : (∀ z, V z) → ℝ)
    (hR : ∀ ω ω', (∀ z, z ∉ D → ω z = ω' z) → R ω = R ω') :
    ∑ ω : ∀ z, V z, (∏ z, a z (ω z)) * R ω = ∑ ω : ∀ z, V z, (∏ z, b z (ω z)) * R ω := by
  classical
  have hsplit : ∀ c : ∀ z, V z → ℝ, (∀ z, ∑ x, c z x = 1) →
      ∑ ω : ∀ z, V z, (∏ z, c z (ω z)) * R ω =
        ∑ y : ∀ z : {z // ¬ z ∈ D}, V z, ∑ x : ∀ z : {z // z ∈ D}, V z,
          (∏ z, c z.1 (x z)) * ((∏ z, c z.1 (y z)) * R ((Equiv.piEquivPiSubtypeProd (· ∈ D) V).symm (x, y))) := by
    intro c _
    rw [← (Equiv.piEquivPiSubtypeProd (· ∈ D) V).symm.sum_comp, Fintype.sum_prod_type_right]
    refine Finset.sum_congr rfl fun y _ => Finset.sum_congr rfl fun x _ => ?_
    rw [← mul_assoc]
    congr 1
    rw [← Fintype.prod_subtype_mul_prod_subtype (fun z => z ∈ D)]
    congr 1
    · refine Finset.prod_congr (by ext; simp) fun z _ => ?_
      simp [Equiv.piEquivPiSubtypeProd, z.2]
    · refine Finset.prod_congr (by ext; simp) fun z _ => ?_
      simp [Equiv.piEquivPiSubtypeProd, z.2]
  rw [hsplit a ha, hsplit b hb]
  refine Finset.sum_congr rfl fun y _ => ?_
  have hone : ∀ c : ∀ z, V z → ℝ, (∀ z, ∑ x, c z x = 1) →
      ∑ x : ∀ z : {z // z ∈ D}, V z, ∏ z, c z.1 (x z) = 1 := by
    intro c hc
    have := Finset.prod_univ_sum (fun z : {z // z ∈ D} => (Finset.univ : Finset (V z))) (fun z x => c z.1 x)
    rw [Fintype.piFinset_univ] at this
    rw [← this]
    simp [hc]
  rcases isEmpty_or_nonempty (∀ z : {z // z ∈ D}, V z) with he | ⟨⟨x₀⟩⟩
  · rw [Finset.univ_eq_empty, Finset.sum_empty, Finset.sum_empty]
  have hconst : ∀ x, R ((Equiv.piEquivPiSubtypeProd (· ∈ D) V).symm (x, y)) =
      R ((Equiv.piEquivPiSubtypeProd (· ∈ D) V).symm (x₀, y)) := by
    intro x
    apply hR
    intro z hz
    simp [Equiv.piEquivPiSubtypeProd, hz]
  simp_rw [hconst, ← Finset.sum_mul]
  rw [hone a ha, hone b hb]
  congr 2
  exact Finset.prod_congr rfl fun z _ => by rw [hab z.1 z.2]

end rb

section rb
variable {V : Z → Type} [Fintype Z]

/-- The terms of the log density ratio in the blankets: what the Rao-Blackwellised gradient multiplies the score with. -/
noncomputable def Spec.inside (v : ViProblem Z X I (∀ z, V z)) (qf : ∀ z, V z → ℝ) (varP : List (Z ⊕ X)) (varQ : List Z) (ω : ∀ z, V z) : ℝ :=
  (varP.map fun rv => Sum.elim (fun z => ∑ i, v.scaleZ z i * v.logP z ω i) (fun x => ∑ i, v.scaleX x i * v.logLik x ω i) rv).sum -
    (varQ.map fun z => Real.log (qf z (ω z))).sum

open scoped Classical in
/-- The other terms. -/
noncomputable def Spec.outside (v : ViProblem Z X I (∀ z, V z)) (qf : ∀ z, V z → ℝ) (obs : List X) (varP : List (Z ⊕ X)) (varQ : List Z) (ω : ∀ z, V z) : ℝ :=
  ∑ z ∈ Finset.univ.filter (fun z => Sum.inl z ∉ varP), (∑ i, v.scaleZ z i * v.logP z ω i) +
    ∑ x ∈ obs.toFinset.filter (fun x => Sum.inr x ∉ varP), (∑ i, v.scaleX x i * v.logLik x ω i) -
    ∑ z ∈ Finset.univ.filter (fun z => z ∉ varQ), Real.log (qf z (ω z))

/-- What is assumed of the approximation, the model and the blankets: the approximation has independent factors, those in `D`
depend on the parameter; `varP` contains every factor of the model that depends on a variable of `D`, `varQ` contains `D`. -/
structure RbOk (v : E → ViProblem Z X I (∀ z, V z)) (qf : E → ∀ z, V z → ℝ) (l₀ : E) (D : Finset Z) (varP : List (Z ⊕ X)) (varQ : List Z)
    (lat : List Z) (obs : List X) : Prop where
  lat_eq : ∀ l, (v l).latents = lat
  obs_eq : ∀ l, (v l).observed = obs
  lat_nodup : lat.Nodup
  lat_all : ∀ z, z ∈ lat
  obs_nodup : obs.Nodup
  varP_nodup : varP.Nodup
  varP_obs : ∀ x, Sum.inr x ∈ varP → x ∈ obs
  varQ_nodup : varQ.Nodup
  varQ_all : ∀ z ∈ D, z ∈ varQ
  prior_blanket : ∀ z, Sum.inl z ∉ varP → ∀ ω ω' : ∀ z, V z, (∀ z, z ∉ D → ω z = ω' z) →
    ∑ i, (v l₀).scaleZ z i * (v l₀).logP z ω i = ∑ i, (v l₀).scaleZ z i * (v l₀).logP z ω' i
  lik_blanket : ∀ x ∈ obs, Sum.inr x ∉ varP → ∀ ω ω' : ∀ z, V z, (∀ z, z ∉ D → ω z = ω' z) →
    ∑ i, (v l₀).scaleX x i * (v l₀).logLik x ω i = ∑ i, (v l₀).scaleX x i * (v l₀).logLik x ω' i
  diff : ∀ z x, DifferentiableAt ℝ (fun l => qf l z x) l₀
  pos : ∀ᶠ l in 𝓝 l₀, ∀ z x, 0 < qf l z x
  only : ∀ᶠ l in 𝓝 l₀, ∀ z, z ∉ D → qf l z = qf l₀ z
  approx : ∀ᶠ l in 𝓝 l₀, ∀ z ω, ∑ i, (v l).scaleZ z i * (v l).logQ z ω i = Real.log (qf l z (ω z))
  model : ∀ᶠ l in 𝓝 l₀, ∀ ω, Spec.logJoint (v l) ω = Spec.logJoint (v l₀) ω

variable {v : E → ViProblem Z X I (∀ z, V z)} {qf : E → ∀ z, V z → ℝ} {l₀ : E} {D : Finset Z} {varP : List (Z ⊕ X)} {varQ : List Z}
  {lat : List Z} {obs : List X}

/-- The score of all factors. -/
noncomputable def Spec.score (qf : E → ∀ z, V z → ℝ) (l₀ : E) (ω : ∀ z, V z) : E →L[ℝ] ℝ :=
  ∑ z, (qf l₀ z (ω z))⁻¹ • fderiv ℝ (fun l => qf l z (ω z)) l₀

theorem RbOk.pos₀ (h : RbOk v qf l₀ D varP varQ lat obs) : ∀ z x, 0 < qf l₀ z x := h.pos.self_of_nhds

theorem RbOk.hasFDerivAt_prod (h : RbOk v qf l₀ D varP varQ lat obs) (ω : ∀ z, V z) :
    HasFDerivAt (fun l => ∏ z, qf l z (ω z)) ((∏ z, qf l₀ z (ω z)) • Spec.score qf l₀ ω) l₀ := by
  classical
  have hd := HasFDerivAt.finsetProd (u := Finset.univ) (g := fun z l => qf l z (ω z)) (fun z _ => (h.diff z (ω z)).hasFDerivAt)
  refine hd.congr_fderiv ?_
  rw [Spec.score, Finset.smul_sum]
  symm
  refine Finset.sum_congr rfl fun z _ => ?_
  have hne := (h.pos₀ z (ω z)).ne'
  have e : ∏ z, qf l₀ z (ω z) = qf l₀ z (ω z) * ∏ j ∈ Finset.univ.erase z, qf l₀ j (ω j) :=
    (Finset.mul_prod_erase Finset.univ (fun z => qf l₀ z (ω z)) (Finset.mem_univ z)).symm
  rw [smul_smul, e]
  congr 1
  field_simp

theorem RbOk.score_varQ (h : RbOk v qf l₀ D varP varQ lat obs) (ω : ∀ z, V z) :
    (varQ.map fun z => (qf l₀ z (ω z))⁻¹ • fderiv ℝ (fun l => qf l z (ω z)) l₀).sum = Spec.score qf l₀ ω := by
  classical
  have hzero : ∀ z, z ∉ D → ∀ x, fderiv ℝ (fun l => qf l z x) l₀ = 0 := by
    intro z hz x
    refine ((h.diff z x).hasFDerivAt).unique ((hasFDerivAt_const (qf l₀ z x) l₀).congr_of_eventuallyEq ?_)
    filter_upwards [h.only] with l hl
    rw [hl z hz]
  rw [← List.sum_toFinset _ h.varQ_nodup, Spec.score]
  refine Finset.sum_subset (Finset.subset_univ _) fun z _ hz => ?_
  rw [hzero z (fun hz' => hz (List.mem_toFinset.mpr (h.varQ_all z hz'))), smul_zero]

theorem RbOk.sum_lat (h : RbOk v qf l₀ D varP varQ lat obs) (t : Z → ℝ) : (lat.map t).sum = ∑ z, t z := by
  classical
  rw [← List.sum_toFinset _ h.lat_nodup]
  congr 1
  ext z; simp [h.lat_all z]

theorem RbOk.logApprox (h : RbOk v qf l₀ D varP varQ lat obs) {l : E} (hpos : ∀ z x, 0 < qf l z x)
    (hQ : ∀ z ω, ∑ i, (v l).scaleZ z i * (v l).logQ z ω i = Real.log (qf l z (ω z))) (ω : ∀ z, V z) :
    Spec.logApprox (v l) ω = Real.log (∏ z, qf l z (ω z)) := by
  rw [Spec.logApprox, h.lat_eq, h.sum_lat, Real.log_prod fun z _ => (hpos z _).ne']
  exact Finset.sum_congr rfl fun z _ => hQ z ω

/-- All terms are inside or outside the blankets. -/
theorem RbOk.split (h : RbOk v qf l₀ D varP varQ lat obs) (ω : ∀ z, V z) :
    Spec.logJoint (v l₀) ω - Real.log (∏ z, qf l₀ z (ω z)) =
      Spec.inside (v l₀) (qf l₀) varP varQ ω + Spec.outside (v l₀) (qf l₀) obs varP varQ ω := by
  classical
  have e1 : (varP.map fun rv => Sum.elim (fun z => (v l₀).termP z ω) (fun x => (v l₀).termX x ω) rv).sum =
      ∑ z ∈ Finset.univ.filter (fun z => Sum.inl z ∈ varP), (v l₀).termP z ω +
      ∑ x ∈ obs.toFinset.filter (fun x => Sum.inr x ∈ varP), (v l₀).termX x ω := by
    rw [← List.sum_toFinset _ h.varP_nodup, ← Finset.toLeft_disjSum_toRight (u := varP.toFinset), Finset.sum_disjSum]
    congr 1
    · refine Finset.sum_congr ?_ fun _ _ => rfl
      ext z; simp
    · refine Finset.sum_congr ?_ fun _ _ => rfl
      ext x; simp; exact fun hx => h.varP_obs x hx
  have e2 : (varQ.map fun z => Real.log (qf l₀ z (ω z))).sum =
      ∑ z ∈ Finset.univ.filter (fun z => z ∈ varQ), Real.log (qf l₀ z (ω z)) := by
    rw [← List.sum_toFinset _ h.varQ_nodup]
    refine Finset.sum_congr ?_ fun _ _ => rfl
    ext z; simp
  have e3 : Spec.logJoint (v l₀) ω = ∑ z, (v l₀).termP z ω + ∑ x ∈ obs.toFinset, (v l₀).termX x ω := by
    rw [Spec.logJoint, h.lat_eq, h.obs_eq, h.sum_lat, List.sum_toFinset _ h.obs_nodup]
    rfl
  show _ = ((varP.map fun rv => Sum.elim (fun z => (v l₀).termP z ω) (fun x => (v l₀).termX x ω) rv).sum - _) +
    (∑ z ∈ Finset.univ.filter (fun z => Sum.inl z ∉ varP), (v l₀).termP z ω +
      ∑ x ∈ obs.toFinset.filter (fun x => Sum.inr x ∉ varP), (v l₀).termX x ω - _)
  rw [e1, e2, e3, Real.log_prod fun z _ => (h.pos₀ z _).ne',
    ← Finset.sum_filter_add_sum_filter_not Finset.univ (fun z => Sum.inl z ∈ varP) (fun z => (v l₀).termP z ω),
    ← Finset.sum_filter_add_sum_filter_not obs.toFinset (fun x => Sum.inr x ∈ varP) (fun x => (v l₀).termX x ω),
    ← Finset.sum_filter_add_sum_filter_not Finset.univ (fun z => z ∈ varQ) (fun z => Real.log (qf l₀ z (ω z)))]
  ring

/-- The terms outside do not depend on the variables in `D`. -/
theorem RbOk.outside_indep (h : RbOk v qf l₀ D varP varQ lat obs) (ω ω' : ∀ z, V z) (hω : ∀ z, z ∉ D → ω z = ω' z) :
    Spec.outside (v l₀) (qf l₀) obs varP varQ ω = Spec.outside (v l₀) (qf l₀) obs varP varQ ω' := by
  classical
  unfold Spec.outside
  congr 1
  · congr 1
    · exact Finset.sum_congr rfl fun z hz => h.prior_blanket z (Finset.mem_filter.mp hz).2 ω ω' hω
    · refine Finset.sum_congr rfl fun x hx => ?_
      obtain ⟨h1, h2⟩ := Finset.mem_filter.mp hx
      exact h.lik_blanket x (List.mem_toFinset.mp h1) h2 ω ω' hω
  · refine Finset.sum_congr rfl fun z hz => ?_
    rw [hω z fun hz' => (Finset.mem_filter.mp hz).2 (h.varQ_all z hz')]

/-- The gradient computed, at given draws. -/
theorem RbOk.gradient [DecidableEq Z] [DecidableEq X] (h : RbOk v qf l₀ D varP varQ lat obs) {reg : E → ℝ} (hreg : DifferentiableAt ℝ reg l₀) (m : ℕ) (d : Fin (m + 1) → ∀ z, V z) :
    HasFDerivAt (fun l => rbSurrogate (v l) (v l₀) (m + 1) d varP varQ (reg l))
      (-(Spec.inside (v l₀) (qf l₀) varP varQ (d (Fin.last m)) • Spec.score qf l₀ (d (Fin.last m))) + fderiv ℝ reg l₀) l₀ := by
  set ω := d (Fin.last m) with hωd
  set F := Spec.inside (v l₀) (qf l₀) varP varQ with hF
  have hQ0 := h.approx.self_of_nhds
  have hvalP : ∀ (s : Fin (m + 1)) rv, rv ∈ varP → (rbTables (v l₀) (m + 1) d).1.getItem s rv =
        Sum.elim (fun z => (v l₀).termP z ω) (fun x => (v l₀).termX x ω) rv := by
    intro s rv hrv
    obtain ⟨h1, h2, _⟩ := rbTables_getItem (v l₀) m d s
    cases rv with
    | inl z => exact h1 z (by rw [h.lat_eq]; exact h.lat_all z)
    | inr x => exact h2 x (by rw [h.obs_eq]; exact h.varP_obs x hrv)
  have hvalQ : ∀ (l : E) (s : Fin (m + 1)) z, (rbTables (v l) (m + 1) d).2.getItem s z = (v l).termQ z ω := by
    intro l s z
    exact (rbTables_getItem (v l) m d s).2.2 z (by rw [h.lat_eq]; exact h.lat_all z)
  have hlog : HasFDerivAt (fun l => (varQ.map fun z => Real.log (qf l z (ω z))).sum * F ω) (F ω • Spec.score qf l₀ ω) l₀ := by
    have h1 : HasFDerivAt (fun l => ∑ z ∈ varQ.toFinset, Real.log (qf l z (ω z)))
        (∑ z ∈ varQ.toFinset, (qf l₀ z (ω z))⁻¹ • fderiv ℝ (fun l => qf l z (ω z)) l₀) l₀ :=
      HasFDerivAt.fun_sum fun z _ => (h.diff z (ω z)).hasFDerivAt.log (h.pos₀ z _).ne'
    rw [List.sum_toFinset _ h.varQ_nodup, h.score_varQ ω] at h1
    have h2 := h1.mul_const (F ω)
    refine h2.congr_of_eventuallyEq (Eventually.of_forall fun l => ?_)
    simp only [List.sum_toFinset _ h.varQ_nodup]
  refine ((hlog.neg).add hreg.hasFDerivAt).congr_of_eventuallyEq ?_
  filter_upwards [h.approx] with l hl
  have hc : ∀ c : ℝ, listMean ((List.finRange (m + 1)).map fun _ : Fin (m + 1) => c) = c := fun c => by
    rw [← List.ofFn_eq_map, listMean_ofFn, average_const (Nat.succ_pos m)]
  rw [rbSurrogate]
  have e1 : ∀ s : Fin (m + 1), (varP.map fun rv => (rbTables (v l₀) (m + 1) d).1.getItem s rv).sum =
      (varP.map fun rv => Sum.elim (fun z => (v l₀).termP z ω) (fun x => (v l₀).termX x ω) rv).sum := by
    intro s
    rw [List.map_congr_left fun rv hrv => hvalP s rv hrv]
  have e2 : ∀ s : Fin (m + 1), (varQ.map fun z => (rbTables (v l₀) (m + 1) d).2.getItem s z).sum =
      (varQ.map fun z => Real.log (qf l₀ z (ω z))).sum := by
    intro s
    rw [List.map_congr_left fun z _ => (hvalQ l₀ s z).trans (hQ0 z ω)]
  have e3 : ∀ s : Fin (m + 1), (varQ.map fun z => (rbTables (v l) (m + 1) d).2.getItem s z).sum =
      (varQ.map fun z => Real.log (qf l z (ω z))).sum := by
    intro s
    rw [List.map_congr_left fun z _ => (hvalQ l s z).trans (hl z ω)]
  rw [List.map_congr_left fun s _ => e1 s, List.map_congr_left fun s _ => e2 s, List.map_congr_left fun s _ => e3 s,
    List.zipWith_map, List.zipWith_self, List.zipWith_map, List.zipWith_self, hc]
  rfl

/-- C51 (`build_score_rb_loss_and_gradients`) for factorised approximations with finitely many values; `varP` and `varQ` are
Markov blankets in the code. The expectation of the gradient is the gradient of the expected loss, for any `n_samples` (all
terms use the last draw, see C52). -/
theorem C51_rb_partial [DecidableEq Z] [DecidableEq X] [∀ z, Fintype (V z)] (h : RbOk v qf l₀ D varP varQ lat obs) (hsum : ∀ᶠ l in 𝓝 l₀, ∀ z, ∑ x, qf l z x = 1)
    {reg : E → ℝ} (hreg : DifferentiableAt ℝ reg l₀) (m : ℕ) :
    ∃ G : (Fin (m + 1) → ∀ z, V z) → E →L[ℝ] ℝ,
      (∀ d, HasFDerivAt (fun l => rbSurrogate (v l) (v l₀) (m + 1) d varP varQ (reg l)) (G d) l₀) ∧
      HasFDerivAt (fun l => ∑ d, Spec.drawsProb (fun ω => ∏ z, qf l z (ω z)) d * rbLoss (v l) (m + 1) d (reg l))
        (∑ d, Spec.drawsProb (fun ω => ∏ z, qf l₀ z (ω z)) d • G d) l₀ := by
  classical
  have hs0 := hsum.self_of_nhds
  set q : E → (∀ z, V z) → ℝ := fun l ω => ∏ z, qf l z (ω z) with hqdef
  have hqpos : ∀ ω, 0 < q l₀ ω := fun ω => Finset.prod_pos fun z _ => h.pos₀ z _
  have hprod1 : ∀ l, (∀ z, ∑ x, qf l z x = 1) → ∑ ω, q l ω = 1 := by
    intro l hl
    have := Finset.prod_univ_sum (fun z : Z => (Finset.univ : Finset (V z))) (fun z x => qf l z x)
    rw [Fintype.piFinset_univ] at this
    rw [hqdef, ← this]
    simp [hl]
  have hqsum : ∀ᶠ l in 𝓝 l₀, ∑ ω, q l ω = 1 := hsum.mono fun l hl => hprod1 l hl
  have hq1 := hqsum.self_of_nhds
  set S := Spec.score qf l₀ with hS
  have hqd : ∀ ω, HasFDerivAt (fun l => q l ω) (q l₀ ω • S ω) l₀ := h.hasFDerivAt_prod
  set F := Spec.inside (v l₀) (qf l₀) varP varQ with hF
  set R := Spec.outside (v l₀) (qf l₀) obs varP varQ with hR
  set f : (∀ z, V z) → ℝ := fun ω => Spec.logJoint (v l₀) ω - Real.log (q l₀ ω) with hf
  have hfFR : ∀ ω, f ω = F ω + R ω := h.split
  -- the part outside has no gradient
  have hRzero : ∑ ω, R ω • (q l₀ ω • S ω) = 0 := by
    have h1 : HasFDerivAt (fun l => ∑ ω, q l ω * R ω) (∑ ω, R ω • (q l₀ ω • S ω)) l₀ :=
      HasFDerivAt.fun_sum fun ω _ => (hqd ω).mul_const (R ω)
    refine h1.unique ((hasFDerivAt_const (∑ ω, q l₀ ω * R ω) l₀).congr_of_eventuallyEq ?_)
    filter_upwards [hsum, h.only] with l hl hl'
    exact sum_prod_eq_of_indep D (qf l) (qf l₀) hl hs0 hl' _ h.outside_indep
  refine ⟨fun d => -(F (d (Fin.last m)) • S (d (Fin.last m))) + fderiv ℝ reg l₀, fun d => h.gradient hreg m d, ?_⟩
  have hexp : ∑ d : Fin (m + 1) → ∀ z, V z, Spec.drawsProb (q l₀) d •
      (-(F (d (Fin.last m)) • S (d (Fin.last m))) + fderiv ℝ reg l₀) =
      -∑ ω, f ω • (q l₀ ω • S ω) + fderiv ℝ reg l₀ := by
    rw [weighted_add _ (sum_drawsProb _ hq1)]
    congr 2
    have h1 : ∑ d : Fin (m + 1) → ∀ z, V z, Spec.drawsProb (q l₀) d • (F (d (Fin.last m)) • S (d (Fin.last m))) =
        ∑ ω, q l₀ ω • (F ω • S ω) := by
      ext x
      have := sum_drawsProb_mul (q l₀) hq1 (Fin.last m) (fun ω => (F ω • S ω) x)
      simpa [sum_apply] using this
    rw [h1, ← sub_eq_zero, ← Finset.sum_sub_distrib, ← neg_eq_zero, ← hRzero, ← Finset.sum_neg_distrib]
    refine Finset.sum_congr rfl fun ω _ => ?_
    rw [hfFR]
    module
  rw [hexp]
  refine ((hasFDerivAt_negElbo hqd hqpos hqsum (Spec.logJoint (v l₀))).add hreg.hasFDerivAt).congr_of_eventuallyEq ?_
  filter_upwards [h.approx, h.model, hqsum, h.pos] with l hl hp h1 hpl
  have hap : ∀ ω, Spec.logApprox (v l) ω = Real.log (q l ω) := h.logApprox hpl hl
  simp_rw [C52_rb_partial, hp, hap, mul_add]
  rw [Finset.sum_add_distrib, ← Finset.sum_mul, sum_drawsProb _ h1,
    sum_drawsProb_mul (q l) h1 (Fin.last m) (fun ω => Real.log (q l ω) - Spec.logJoint (v l₀) ω)]
  simp

end rb

/-! ### A Bernoulli approximation -/

/-- A Bernoulli approximation with parameter `l`, its log probabilities multiplied by `c`. -/
noncomputable def bernoulliVi (c l : ℝ) : ViProblem Unit Empty Unit Bool where
  latents := [()]
  observed := []
  scaleZ := fun _ _ => c
  scaleX := fun _ _ => 1
  logQ := fun _ b _ => Real.log (if b then l else 1 - l)
  logP := fun _ b _ => if b then 1 else 0
  logLik := fun _ _ _ => 0

/-- The hypotheses of `C51_score` hold for it with unit scale. -/
example : (∀ b : Bool, DifferentiableAt ℝ (fun l : ℝ => if b then l else 1 - l) (1 / 2)) ∧
    (∀ᶠ l in 𝓝 (1 / 2 : ℝ), ∑ b : Bool, (if b then l else 1 - l) = 1) ∧
    (∀ᶠ l in 𝓝 (1 / 2 : ℝ), ∀ b, Spec.logApprox (bernoulliVi 1 l) b = Real.log (if b then l else 1 - l)) ∧
    (∀ᶠ l in 𝓝 (1 / 2 : ℝ), ∀ b, Spec.logJoint (bernoulliVi 1 l) b = Spec.logJoint (bernoulliVi 1 (1 / 2)) b) := by
  refine ⟨fun b => ?_, Eventually.of_forall fun l => ?_, Eventually.of_forall fun l b => ?_,
    Eventually.of_forall fun l b => rfl⟩
  · cases b
    · simp only [Bool.false_eq_true, if_false]; fun_prop
    · simp only [if_true]; fun_prop
  · simp
  · simp [Spec.logApprox, bernoulliVi]

/-- C51 fails when `scale` is not one: with the factor 2 the expectation of the gradient is
twice the gradient of the expected loss. -/
theorem C51_scale_fails :
    ∃ g : Bool → ℝ,
      (∀ b, HasDerivAt (fun l => scoreSurrogate (bernoulliVi 2 l) (bernoulliVi 2 (1 / 2)) 1 (fun _ => b) 0) (g b)
        (1 / 2)) ∧
      ∑ b : Bool, (if b then (1 / 2 : ℝ) else 1 - 1 / 2) * g b = -4 ∧
      HasDerivAt (fun l : ℝ => ∑ b : Bool, (if b then l else 1 - l) * scoreLoss (bernoulliVi 2 l) 1 (fun _ => b) 0)
        (-2) (1 / 2) := by
  have hl : HasDerivAt (fun l : ℝ => Real.log l) 2 (1 / 2) := by
    have := (hasDerivAt_id (1 / 2 : ℝ)).log (by norm_num)
    norm_num at this; exact this
  have hm : HasDerivAt (fun l : ℝ => 1 - l) (-1) (1 / 2) := by
    simpa using (hasDerivAt_id (1 / 2 : ℝ)).const_sub 1
  have hl' : HasDerivAt (fun l : ℝ => Real.log (1 - l)) (-2) (1 / 2) := by
    have := hm.log (by norm_num)
    norm_num at this; exact this
  refine ⟨fun b => if b then -(4 * (2 - 2 * Real.log (1 / 2))) else -(-4 * (-2 * Real.log (1 / 2))), fun b => ?_, ?_, ?_⟩
  · simp only [scoreSurrogate, pLogProb_eq, qLogProb_eq, zipWith_ofFn, listMean_ofFn]
    cases b
    · have h := ((hl'.const_mul 2).mul_const (-2 * Real.log (1 / 2))).neg
      refine (h.congr_of_eventuallyEq (Eventually.of_forall fun l => ?_)).congr_deriv ?_
      · have : Real.log (1 / 2) = -Real.log 2 := by rw [one_div, Real.log_inv]
        simp [Spec.average, Spec.logApprox, Spec.logJoint, bernoulliVi]
        norm_num [this]
      · simp only [Bool.false_eq_true, if_false]; ring
    · have h := ((hl.const_mul 2).mul_const (2 - 2 * Real.log (1 / 2))).neg
      refine (h.congr_of_eventuallyEq (Eventually.of_forall fun l => ?_)).congr_deriv ?_
      · simp [Spec.average, Spec.logApprox, Spec.logJoint, bernoulliVi]
      · simp only [if_true]; ring
  · simp; ring
  · have h := ((hasDerivAt_id (1 / 2 : ℝ)).mul ((hl.const_mul 2).sub_const 2)).add (hm.mul (hl'.const_mul 2))
    refine (h.congr_of_eventuallyEq (Eventually.of_forall fun l => ?_)).congr_deriv ?_
    · simp only [C52_score]
      simp [Spec.average, Spec.logApprox, Spec.logJoint, bernoulliVi]
    · norm_num

/-- A coin whose parameter is also a parameter of the model. -/
noncomputable def sharedVi (l : ℝ) : ViProblem Unit Empty Unit Bool where
  latents := [()]
  observed := []
  scaleZ := fun _ _ => 1
  scaleX := fun _ _ => 1
  logQ := fun _ b _ => Real.log (if b then l else 1 - l)
  logP := fun _ _ _ => l
  logLik := fun _ _ _ => 0

/-- C51 fails for a parameter that the approximation and the model share: it counts as one of the approximation, and
the gradient through the log joint density is left out. Here the expectation of the gradient is 0 and the gradient of
the expected loss is -1. -/
theorem C51_shared_fails :
    ∃ g : Bool → ℝ,
      (∀ b, HasDerivAt (fun l => scoreSurrogate (sharedVi l) (sharedVi (1 / 2)) 1 (fun _ => b) 0) (g b) (1 / 2)) ∧
      ∑ b : Bool, (if b then (1 / 2 : ℝ) else 1 - 1 / 2) * g b = 0 ∧
      HasDerivAt (fun l : ℝ => ∑ b : Bool, (if b then l else 1 - l) * scoreLoss (sharedVi l) 1 (fun _ => b) 0)
        (-1) (1 / 2) := by
  have hl : HasDerivAt (fun l : ℝ => Real.log l) 2 (1 / 2) := by
    have := (hasDerivAt_id (1 / 2 : ℝ)).log (by norm_num)
    norm_num at this; exact this
  have hm : HasDerivAt (fun l : ℝ => 1 - l) (-1) (1 / 2) := by
    simpa using (hasDerivAt_id (1 / 2 : ℝ)).const_sub 1
  have hl' : HasDerivAt (fun l : ℝ => Real.log (1 - l)) (-2) (1 / 2) := by
    have := hm.log (by norm_num)
    norm_num at this; exact this
  have e : Real.log (1 / 2) = -Real.log 2 := by rw [one_div, Real.log_inv]
  refine ⟨fun b => if b then -(2 * (1 / 2 - Real.log (1 / 2))) else -(-2 * (1 / 2 - Real.log (1 / 2))), fun b => ?_, ?_, ?_⟩
  · simp only [scoreSurrogate, pLogProb_eq, qLogProb_eq, zipWith_ofFn, listMean_ofFn]
    cases b
    · have h := (hl'.mul_const (1 / 2 - Real.log (1 / 2))).neg
      refine (h.congr_of_eventuallyEq (Eventually.of_forall fun l => ?_)).congr_deriv ?_
      · simp [Spec.average, Spec.logApprox, Spec.logJoint, sharedVi]
        norm_num [e]
      · simp
    · have h := (hl.mul_const (1 / 2 - Real.log (1 / 2))).neg
      refine (h.congr_of_eventuallyEq (Eventually.of_forall fun l => ?_)).congr_deriv ?_
      · simp [Spec.average, Spec.logApprox, Spec.logJoint, sharedVi]
      · simp
  · simp; ring
  · have hid := hasDerivAt_id (1 / 2 : ℝ)
    have h := (hid.mul (hl.sub hid)).add (hm.mul (hl'.sub hid))
    refine (h.congr_of_eventuallyEq (Eventually.of_forall fun l => ?_)).congr_deriv ?_
    · simp only [C52_score]
      simp [Spec.average, Spec.logApprox, Spec.logJoint, sharedVi]
    · norm_num
      rw [e]; ring

/-- Two Bernoulli factors, one of which depends on the parameter. -/
noncomputable def flipQ (l : ℝ) (z b : Bool) : ℝ := if z then (if b then l else 1 - l) else 1 / 2

/-- A model with two independent variables. -/
noncomputable def flipVi (l : ℝ) : ViProblem Bool Empty Unit (Bool → Bool) where
  latents := [true, false]
  observed := []
  scaleZ := fun _ _ => 1
  scaleX := fun _ _ => 1
  logQ := fun z ω _ => Real.log (flipQ l z (ω z))
  logP := fun z ω _ => if ω z then 1 else 0
  logLik := fun _ _ _ => 0

theorem flipQ_pos {l : ℝ} (hl : l ∈ Set.Ioo (0 : ℝ) 1) (z b : Bool) : 0 < flipQ l z b := by
  cases z <;> cases b <;> simp [flipQ, hl.1, hl.2]

/-- The hypotheses of `C51_rb_partial` hold for them. -/
example : RbOk (V := fun _ => Bool) flipVi flipQ (1 / 2) {true} [Sum.inl true] [true] [true, false] [] ∧
    ∀ᶠ l in 𝓝 (1 / 2 : ℝ), ∀ z, ∑ x, flipQ l z x = 1 := by
  have hn : Set.Ioo (0 : ℝ) 1 ∈ 𝓝 (1 / 2 : ℝ) := Ioo_mem_nhds (by norm_num) (by norm_num)
  refine ⟨⟨fun _ => rfl, fun _ => rfl, by simp, by simp, List.nodup_nil, by simp, by simp, by simp, by simp, ?_, by simp, ?_, ?_, ?_,
    ?_, ?_⟩, Eventually.of_forall fun l z => ?_⟩
  · intro z hz ω ω' h
    cases z with
    | true => simp at hz
    | false => simp [flipVi, h false (by simp)]
  · intro z x
    cases z <;> cases x <;> simp [flipQ] <;> fun_prop
  · filter_upwards [hn] with l hl z x using flipQ_pos hl z x
  · refine Eventually.of_forall fun l z hz => ?_
    cases z with
    | true => simp at hz
    | false => rfl
  · exact Eventually.of_forall fun l z ω => by simp [flipVi]
  · exact Eventually.of_forall fun l ω => rfl
  · cases z <;> norm_num [flipQ]

end Edward
