/-
C141: every class of klqp.py follows the gradient of the objective or refuses the approximation.
-/
import Verif.Props.ScoreGradient
import Verif.Spec.KlqpVariants

namespace Edward
open Filter Topology
variable {Z X I Ω : Type} [Fintype I]
variable {E : Type} [NormedAddCommGroup E] [NormedSpace ℝ E]

/-- C141: `KLqp` never differentiates through samples of approximations that are not reparameterizable, and all classes refuse
`n_samples` that are not positive. -/
theorem C141_klqp (cls : KlqpClass) (n : ℤ) (ks : Bool) (pairs : List LatentPair) :
    (n ≤ 0 → klqpBuild cls n ks pairs = .error .valueError) ∧
    ∀ b, klqpBuild .klqp n ks pairs = .ok b → Spec.needsReparam b = true → ∀ p ∈ pairs, p.qReparam = true := by
  constructor
  · intro hn
    cases cls <;> simp [klqpBuild, klqpDispatch, hn]
  · intro b hb hr
    have hd := C53_dispatch n ks pairs
    simp only [klqpBuild] at hb
    split at hb
    · cases hb
    · next h => exact (hd.2.2.1.mp h).2.1
    · next h => exact (hd.2.2.2.1.mp h).2.2.1
    · cases hb; simp [Spec.needsReparam] at hr

/-- C141: the other classes do so for any approximations. -/
theorem C141_unchecked_fails (n : ℤ) (hn : 0 < n) (ks : Bool) (pairs : List LatentPair) :
    klqpBuild .reparam n ks pairs = .ok .reparam ∧ klqpBuild .reparamKl n ks pairs = .ok .reparamKl ∧
    klqpBuild .reparamEntropy n ks pairs = .ok .reparamEntropy ∧
    klqpBuild .score n ks pairs = .ok .score ∧ klqpBuild .scoreKl n ks pairs = .ok .scoreKl ∧
    klqpBuild .scoreEntropy n ks pairs = .ok .scoreEntropy ∧ klqpBuild .scoreRb n ks pairs = .ok .scoreRb := by
  simp [klqpBuild, not_le.mpr hn]

section
variable (v : E → ViProblem Z X I Ω) (q : E → Ω → ℝ) (reg : E → ℝ) (l₀ : E) {n : ℕ}

/-- C141, `ReparameterizationKLqp` with samples that are constants: the gradient of the loss has expectation zero (up to the penalty),
while that of the objective is `-∑ (logJoint - log q) q'`. -/
theorem C141_reparam_fails [Fintype Ω] (hn : 0 < n) (ks kl h : Z → I → ℝ)
    (hq : ∀ ω, DifferentiableAt ℝ (fun l => q l ω) l₀) (hpos : ∀ ω, 0 < q l₀ ω)
    (hsum : ∀ᶠ l in 𝓝 l₀, ∑ ω, q l ω = 1)
    (hQ : ∀ᶠ l in 𝓝 l₀, ∀ ω, Spec.logApprox (v l) ω = Real.log (q l ω))
    (hP : ∀ᶠ l in 𝓝 l₀, ∀ ω, Spec.logJoint (v l) ω = Spec.logJoint (v l₀) ω)
    (hreg : DifferentiableAt ℝ reg l₀) :
    (∃ G : (Fin n → Ω) → E →L[ℝ] ℝ,
      (∀ d, ∃ f : E → ℝ, (∀ l, builderLoss .reparam (v l) n d ks kl h (reg l) = some (f l)) ∧ HasFDerivAt f (G d) l₀) ∧
      ∑ d, Spec.drawsProb (q l₀) d • G d = fderiv ℝ reg l₀) ∧
    HasFDerivAt (fun l => Spec.finiteObjective (q l) (Spec.logJoint (v l₀)) + reg l)
      (-∑ ω, (Spec.logJoint (v l₀) ω - Real.log (q l₀ ω)) • fderiv ℝ (fun l => q l ω) l₀ + fderiv ℝ reg l₀) l₀ := by
  have hq' := fun ω => (hq ω).hasFDerivAt
  set q' := fun ω => fderiv ℝ (fun l => q l ω) l₀
  have hs0 := hsum.self_of_nhds
  refine ⟨⟨fun d => -((n : ℝ)⁻¹ • ∑ s, (-1 : ℝ) • (q l₀ (d s))⁻¹ • q' (d s)) + fderiv ℝ reg l₀, fun d => ?_, ?_⟩, ?_⟩
  · refine ⟨_, fun l => rfl, ?_⟩
    have h1 := ((hasFDerivAt_score hq' hpos (fun _ => (-1 : ℝ)) d).neg).add hreg.hasFDerivAt
    have h2 := h1.sub_const (Spec.average fun s => Spec.logJoint (v l₀) (d s))
    refine h2.congr_of_eventuallyEq ?_
    filter_upwards [hQ, hP] with l hl hp
    simp only [C52_reparam, hl, hp, Pi.add_apply, Pi.neg_apply, Spec.average, Finset.sum_sub_distrib, sub_div, mul_neg, mul_one,
      Finset.sum_neg_distrib, neg_div, neg_neg]
    ring
  · rw [weighted_add _ (sum_drawsProb _ hs0), sum_score hn hpos hs0 (fun _ => (-1 : ℝ)), ← Finset.smul_sum, sum_deriv_eq_zero hq' hsum]
    simp
  · exact (hasFDerivAt_negElbo hq' hpos hsum (Spec.logJoint (v l₀))).add hreg.hasFDerivAt

/-- C141, `ReparameterizationKLKLqp` with samples that are constants: the gradient is that of the divergence from the prior, whatever
the data and the draws. -/
theorem C141_reparam_kl_fails (ks h : Z → I → ℝ) (kl : E → Z → I → ℝ)
    (hL : ∀ᶠ l in 𝓝 l₀, ∀ ω, Spec.logLik (v l) ω = Spec.logLik (v l₀) ω)
    (hkl : DifferentiableAt ℝ (fun l => ((v l).latents.map fun z => ∑ i, ks z i * kl l z i).sum) l₀)
    (hreg : DifferentiableAt ℝ reg l₀) (d : Fin n → Ω) :
    ∃ f : E → ℝ, (∀ l, builderLoss .reparamKl (v l) n d ks (kl l) h (reg l) = some (f l)) ∧
      HasFDerivAt f (fderiv ℝ (fun l => ((v l).latents.map fun z => ∑ i, ks z i * kl l z i).sum) l₀ + fderiv ℝ reg l₀) l₀ := by
  refine ⟨_, fun l => rfl, ?_⟩
  refine ((hkl.hasFDerivAt.add hreg.hasFDerivAt).sub_const (Spec.average fun s => Spec.logLik (v l₀) (d s))).congr_of_eventuallyEq ?_
  filter_upwards [hL] with l hl
  simp only [reparamKlLoss, pLogLik_eq, listMean_ofFn, hl, klPenalty, Pi.add_apply]
  ring

/-- C141, `ReparameterizationEntropyKLqp` with samples that are constants: the gradient is minus that of the entropy, whatever the model,
the data and the draws. -/
theorem C141_reparam_entropy_fails (ks kl : Z → I → ℝ) (h : E → Z → I → ℝ)
    (hP : ∀ᶠ l in 𝓝 l₀, ∀ ω, Spec.logJoint (v l) ω = Spec.logJoint (v l₀) ω)
    (hh : DifferentiableAt ℝ (fun l => ((v l).latents.map fun z => ∑ i, h l z i).sum) l₀)
    (hreg : DifferentiableAt ℝ reg l₀) (d : Fin n → Ω) :
    ∃ f : E → ℝ, (∀ l, builderLoss .reparamEntropy (v l) n d ks kl (h l) (reg l) = some (f l)) ∧
      HasFDerivAt f (fderiv ℝ reg l₀ - fderiv ℝ (fun l => ((v l).latents.map fun z => ∑ i, h l z i).sum) l₀) l₀ := by
  refine ⟨_, fun l => rfl, ?_⟩
  refine ((hreg.hasFDerivAt.sub hh.hasFDerivAt).sub_const (Spec.average fun s => Spec.logJoint (v l₀) (d s))).congr_of_eventuallyEq ?_
  filter_upwards [hP] with l hl
  simp only [reparamEntropyLoss, pLogProb_eq, listMean_ofFn, hl, qEntropy, Pi.sub_apply]
  ring

end

/-- A Bernoulli approximation of a Bernoulli variable with log odds `c`. -/
noncomputable def oddsVi (c : ℝ) (l : ℝ) : ViProblem Unit Empty Unit Bool where
  latents := [()]
  observed := []
  scaleZ := fun _ _ => 1
  scaleX := fun _ _ => 1
  logQ := fun _ b _ => Real.log (if b then l else 1 - l)
  logP := fun _ b _ => if b then c else 0
  logLik := fun _ _ _ => 0

/-- C141: at probability 1/2 the expected gradient is zero for every model, while the objective has derivative `-c`. -/
theorem C141_fails (c : ℝ) {n : ℕ} (hn : 0 < n) :
    (∃ G : (Fin n → Bool) → ℝ →L[ℝ] ℝ,
      (∀ d, ∃ f : ℝ → ℝ, (∀ l, builderLoss .reparam (oddsVi c l) n d (fun _ _ => 1) (fun _ _ => 0) (fun _ _ => 0) 0 = some (f l)) ∧
        HasFDerivAt f (G d) (1 / 2)) ∧
      ∑ d, Spec.drawsProb (fun _ : Bool => (1 / 2 : ℝ)) d • G d = 0) ∧
    HasDerivAt (fun l : ℝ => Spec.finiteObjective (fun b : Bool => if b then l else 1 - l) fun b => if b then c else 0) (-c) (1 / 2) := by
  have hd : ∀ b : Bool, HasDerivAt (fun l : ℝ => if b then l else 1 - l) (if b then 1 else -1) (1 / 2) := by
    intro b
    cases b
    · simpa using (hasDerivAt_id' (1 / 2 : ℝ)).const_sub 1
    · simpa using hasDerivAt_id' (1 / 2 : ℝ)
  have hJ : ∀ l, Spec.logJoint (oddsVi c l) = fun b => if b then c else 0 := by
    intro l; funext b; simp [Spec.logJoint, oddsVi]
  have hhalf : (fun b : Bool => if b then (1 / 2 : ℝ) else 1 - 1 / 2) = fun _ => 1 / 2 := by
    funext b; split <;> norm_num
  obtain ⟨⟨G, hG, hE⟩, hO⟩ := C141_reparam_fails (oddsVi c) (fun (l : ℝ) (b : Bool) => if b then l else 1 - l) (fun _ => 0) (1 / 2) hn
    (fun _ _ => 1) (fun _ _ => 0) (fun _ _ => 0) (fun b => (hd b).differentiableAt) (fun b => by cases b <;> norm_num)
    (Eventually.of_forall fun l => by simp) (Eventually.of_forall fun l b => by simp [Spec.logApprox, oddsVi])
    (Eventually.of_forall fun l b => by rw [hJ, hJ]) (differentiableAt_const _)
  refine ⟨⟨G, hG, ?_⟩, ?_⟩
  · rw [hhalf] at hE
    rw [hE]; simp
  · have := hO.hasDerivAt
    simp only [hJ, add_zero, Fintype.sum_bool, fun b => (hd b).hasFDerivAt.fderiv] at this
    convert this using 1
    norm_num
    ring

example : ∃ c : ℝ, -c ≠ 0 := ⟨1, by norm_num⟩

end Edward
