/-
C102: KLpq with two or more samples.
-/
import Verif.Props.Klpq

namespace Edward
open Filter Topology
variable {Z X I Ω : Type} [Fintype I] {E : Type} [NormedAddCommGroup E] [NormedSpace ℝ E]

/-- How much the expected update raises the probability of `ω` with `k + 1` samples: the mean normalised weight of a draw of `ω`, for the ratios `r`
of joint density and approximation. -/
noncomputable def Spec.pull [Fintype Ω] (k : ℕ) (q r : Ω → ℝ) (ω : Ω) : ℝ :=
  (k + 1) * ∑ d : Fin k → Ω, (∏ t, q (d t)) * (r ω / (r ω + ∑ t, r (d t)))

variable [Fintype Ω]

/-- The mean of a weighted sum over draws. -/
theorem sum_weighted_draws (k : ℕ) (q r : Ω → ℝ) (φ : Ω → E) :
    ∑ d : Fin (k + 1) → Ω, Spec.drawsProb q d • ∑ s, (r (d s) / ∑ t, r (d t)) • φ (d s) = ∑ ω, (Spec.pull k q r ω * q ω) • φ ω := by
  have key : ∀ s : Fin (k + 1), ∑ d : Fin (k + 1) → Ω, (∏ t, q (d t)) • (r (d s) / ∑ t, r (d t)) • φ (d s) =
      ∑ ω, ((∑ d : Fin k → Ω, (∏ t, q (d t)) * (r ω / (r ω + ∑ t, r (d t)))) * q ω) • φ ω := by
    intro s
    rw [← (Fin.insertNthEquiv (fun _ => Ω) s).sum_comp, Fintype.sum_prod_type]
    refine Finset.sum_congr rfl fun ω _ => ?_
    rw [Finset.sum_mul, Finset.sum_smul]
    refine Finset.sum_congr rfl fun d _ => ?_
    simp only [Fin.insertNthEquiv_apply, Fin.prod_univ_succAbove _ s, Fin.sum_univ_succAbove _ s, Fin.insertNth_apply_same, Fin.insertNth_apply_succAbove]
    rw [smul_smul]
    congr 1
    ring
  simp_rw [Spec.drawsProb, Finset.smul_sum]
  rw [Finset.sum_comm]
  simp_rw [key]
  rw [Finset.sum_const, Finset.card_univ, Fintype.card_fin, Finset.smul_sum]
  refine Finset.sum_congr rfl fun ω _ => ?_
  rw [← Nat.cast_smul_eq_nsmul ℝ, smul_smul, Spec.pull]
  push_cast
  rw [mul_assoc]

variable {q r : Ω → ℝ}

/-- With two or more samples the weight increases with the ratio. -/
theorem pull_lt_iff {k : ℕ} (hk : 0 < k) (hq : ∀ ω, 0 < q ω) (hr : ∀ ω, 0 < r ω) (a b : Ω) :
    Spec.pull k q r a < Spec.pull k q r b ↔ r a < r b := by
  have : Nonempty Ω := ⟨a⟩
  have : Nonempty (Fin k) := ⟨⟨0, hk⟩⟩
  have mono : ∀ a b, r a < r b → Spec.pull k q r a < Spec.pull k q r b := by
    intro a b h
    refine mul_lt_mul_of_pos_left (Finset.sum_lt_sum_of_nonempty Finset.univ_nonempty fun d _ => ?_) (by positivity)
    have hS : 0 < ∑ t, r (d t) := Finset.sum_pos (fun t _ => hr _) Finset.univ_nonempty
    refine mul_lt_mul_of_pos_left ?_ (Finset.prod_pos fun t _ => hq _)
    rw [div_lt_div_iff₀ (by linarith [hr a]) (by linarith [hr b])]
    nlinarith
  refine ⟨fun h => ?_, mono a b⟩
  by_contra hn
  rcases (not_lt.mp hn).lt_or_eq with h' | h'
  · exact absurd (mono b a h') h.le.not_gt
  · have : Spec.pull k q r a = Spec.pull k q r b := by rw [Spec.pull, Spec.pull, h']
    exact absurd this h.ne

/-- **C102**, two or more samples. The expected update moves along `∑ ω, pull ω • q' ω`: it raises the probability of a value the more, the larger the ratio
of the joint density to the approximation. At the posterior the expected update vanishes, and if the family can change probabilities in every direction it
vanishes nowhere else. -/
theorem C102_more_samples (v : E → ViProblem Z X I Ω) (q : E → Ω → ℝ) (q' : Ω → E →L[ℝ] ℝ) (j : Ω → ℝ) (reg : E → ℝ) (l₀ : E) {k : ℕ} (hk : 0 < k)
    (hq : ∀ ω, HasFDerivAt (fun l => q l ω) (q' ω) l₀) (hpos : ∀ ω, 0 < q l₀ ω) (hj : ∀ ω, 0 < j ω) (hsum : ∀ᶠ l in 𝓝 l₀, ∑ ω, q l ω = 1)
    (hQ : ∀ᶠ l in 𝓝 l₀, ∀ ω, Spec.logApprox (Spec.unscaled (v l)) ω = Real.log (q l ω))
    (hP : ∀ ω, Spec.logJoint (Spec.unscaled (v l₀)) ω = Real.log (j ω)) (hreg : DifferentiableAt ℝ reg l₀) :
    ∃ G : (Fin (k + 1) → Ω) → E →L[ℝ] ℝ,
      (∀ d, HasFDerivAt (fun l => klpqSurrogate (v l) (v l₀) (k + 1) d (reg l)) (G d) l₀) ∧
      ∑ d, Spec.drawsProb (q l₀) d • G d = -(∑ ω, Spec.pull k (q l₀) (fun ω => j ω / q l₀ ω) ω • q' ω) + fderiv ℝ reg l₀ ∧
      (∀ a b, Spec.pull k (q l₀) (fun ω => j ω / q l₀ ω) a < Spec.pull k (q l₀) (fun ω => j ω / q l₀ ω) b ↔ j a / q l₀ a < j b / q l₀ b) ∧
      ((∀ ω, q l₀ ω = j ω / ∑ ω, j ω) → ∑ d, Spec.drawsProb (q l₀) d • G d = fderiv ℝ reg l₀) ∧
      ((∀ u : Ω → ℝ, ∑ ω, u ω = 0 → ∃ e, ∀ ω, q' ω e = u ω) → ∑ d, Spec.drawsProb (q l₀) d • G d = fderiv ℝ reg l₀ → ∀ ω, q l₀ ω = j ω / ∑ ω, j ω) := by
  classical
  have hQ0 := hQ.self_of_nhds
  have hs0 := hsum.self_of_nhds
  set r : Ω → ℝ := fun ω => j ω / q l₀ ω with hr
  have hrpos : ∀ ω, 0 < r ω := fun ω => div_pos (hj ω) (hpos ω)
  have hexp : ∀ ω, Real.exp (Spec.logJoint (Spec.unscaled (v l₀)) ω - Spec.logApprox (Spec.unscaled (v l₀)) ω) = r ω := by
    intro ω
    rw [hP, hQ0, ← Real.log_div (hj ω).ne' (hpos ω).ne', Real.exp_log (hrpos ω)]
  -- probabilities sum to one, so the scores cancel
  have hzero : ∑ ω, q' ω = 0 := by
    have h1 : HasFDerivAt (fun l => ∑ ω, q l ω) (∑ ω, q' ω) l₀ := HasFDerivAt.fun_sum fun ω _ => hq ω
    exact h1.unique ((hasFDerivAt_const (1 : ℝ) l₀).congr_of_eventuallyEq hsum)
  have hpair := pull_lt_iff (q := q l₀) hk hpos hrpos
  have hG : ∑ d : Fin (k + 1) → Ω, Spec.drawsProb (q l₀) d • (-(∑ s, (r (d s) / ∑ t, r (d t)) • (q l₀ (d s))⁻¹ • q' (d s)) + fderiv ℝ reg l₀) =
      -(∑ ω, Spec.pull k (q l₀) r ω • q' ω) + fderiv ℝ reg l₀ := by
    simp_rw [smul_add, smul_neg]
    rw [Finset.sum_add_distrib, Finset.sum_neg_distrib, sum_weighted_draws k (q l₀) r fun ω => (q l₀ ω)⁻¹ • q' ω, ← Finset.sum_smul,
      sum_drawsProb _ hs0, one_smul]
    congr 2
    refine Finset.sum_congr rfl fun ω _ => ?_
    rw [smul_smul, mul_assoc, mul_inv_cancel₀ (hpos ω).ne', mul_one]
  refine ⟨fun d => -(∑ s, (r (d s) / ∑ t, r (d t)) • (q l₀ (d s))⁻¹ • q' (d s)) + fderiv ℝ reg l₀, fun d => ?_, hG, hpair, fun hpost => ?_, fun hfull hst => ?_⟩
  · have h1 : HasFDerivAt (fun l => -(∑ s, Real.log (q l (d s)) * (r (d s) / ∑ t, r (d t))) + reg l)
        (-(∑ s, (r (d s) / ∑ t, r (d t)) • (q l₀ (d s))⁻¹ • q' (d s)) + fderiv ℝ reg l₀) l₀ :=
      (HasFDerivAt.fun_sum fun s _ => ((hq (d s)).log (hpos _).ne').mul_const _).neg.add hreg.hasFDerivAt
    refine h1.congr_of_eventuallyEq ?_
    filter_upwards [hQ] with l hl
    rw [klpqSurrogate_eq (v l) (v l₀) k.succ_pos d (reg l) _ fun _ => rfl]
    simp only [hexp, hl]
  · rw [hG]
    have hZ : ∀ ω, r ω = ∑ ω, j ω := by
      intro ω
      have hZ : 0 < ∑ ω, j ω := Finset.sum_pos (fun ω _ => hj ω) ⟨ω, Finset.mem_univ _⟩
      simp only [hr, hpost ω]
      rw [div_div_eq_mul_div, mul_div_assoc, mul_div_cancel₀ _ (hj ω).ne']
    have hp : ∀ ω, Spec.pull k (q l₀) r ω = (k + 1) * ∑ d : Fin k → Ω, (∏ t, q l₀ (d t)) * ((∑ ω, j ω) / (∑ ω, j ω + ∑ t, r (d t))) := by
      intro ω
      rw [Spec.pull, hZ ω]
    simp_rw [hp]
    rw [← Finset.smul_sum, hzero, smul_zero, neg_zero, zero_add]
  · rw [hG] at hst
    have h0 : ∑ ω, Spec.pull k (q l₀) r ω • q' ω = 0 := by simpa using hst
    have heq : ∀ a b, Spec.pull k (q l₀) r a = Spec.pull k (q l₀) r b := by
      intro a b
      obtain ⟨e, he⟩ := hfull (Pi.single a 1 - Pi.single b 1) (by simp)
      have h1 := congrArg (fun f : E →L[ℝ] ℝ => f e) h0
      simp only [sum_apply, smul_apply, he, Pi.sub_apply, smul_eq_mul, mul_sub, Finset.sum_sub_distrib,
        Pi.single_apply, mul_ite, mul_one, mul_zero, Finset.sum_ite_eq', Finset.mem_univ, if_true, zero_apply] at h1
      linarith
    have hreq : ∀ a b, r a = r b := fun a b =>
      le_antisymm (not_lt.mp fun h => (heq b a).not_lt ((hpair b a).mpr h)) (not_lt.mp fun h => (heq a b).not_lt ((hpair a b).mpr h))
    intro ω
    have hjw : ∀ a, j a = r ω * q l₀ a := by
      intro a
      rw [← hreq a ω]
      exact (div_mul_cancel₀ _ (hpos a).ne').symm
    have hZ : ∑ a, j a = r ω := by
      simp_rw [hjw]
      rw [← Finset.mul_sum, hs0, mul_one]
    rw [hZ, hjw ω, mul_div_cancel_left₀ _ (hrpos ω).ne']

/-- The hypotheses hold for a coin, whose family has all directions. At the fair coin the expected update with two samples moves towards the posterior. -/
example : ∃ G : (Fin 2 → Bool) → ℝ →L[ℝ] ℝ,
    (∀ d, HasFDerivAt (fun l => klpqSurrogate (coinProblem l) (coinProblem 0) 2 d 0) (G d) 0) ∧
    (∀ u : Bool → ℝ, ∑ b, u b = 0 → ∃ e : ℝ, ∀ b, coinQ' 0 b e = u b) ∧ ∑ d, Spec.drawsProb (coinQ 0) d • G d ≠ 0 := by
  have hfull : ∀ u : Bool → ℝ, ∑ b, u b = 0 → ∃ e : ℝ, ∀ b, coinQ' 0 b e = u b := by
    intro u hu
    rw [Fintype.sum_bool] at hu
    refine ⟨u true, fun b => ?_⟩
    cases b
    · simp [coinQ']; linarith
    · simp [coinQ']
  obtain ⟨-, h2, h3, -⟩ := coin_hypotheses
  obtain ⟨G, h, -, -, -, hlast⟩ := C102_more_samples coinProblem coinQ (coinQ' 0) coinJ (fun _ => 0) 0 Nat.one_pos (fun b => hasFDerivAt_coinQ b 0)
    (fun b => lt_trans (by norm_num) (coinQ_pos (by simp) b)) coinJ_pos (Eventually.of_forall fun l => by rw [Fintype.sum_bool, coinQ, coinQ]; norm_num)
    (Eventually.of_forall h2) h3 (differentiableAt_const _)
  refine ⟨G, h, hfull, fun h0 => ?_⟩
  have := hlast hfull (by rw [h0]; simp) true
  norm_num [coinQ, coinJ] at this

end Edward
