/-
C24: the reformulated log probabilities are the log densities.
-/
import Verif.Model.ConjugateLogProbs
import Verif.Spec.Densities

namespace Edward

open Spec ProbabilityTheory

theorem lgamma_pos {x : ℝ} (hx : 0 < x) : lgamma x = Real.log (Real.Gamma x) := by
  rw [lgamma, abs_of_pos (Real.Gamma_pos_of_pos hx)]

theorem lgamma_nat (n : ℕ) : lgamma (n + 1) = Real.log (n.factorial : ℝ) := by
  rw [lgamma_pos (by positivity), Real.Gamma_nat_eq_factorial]

/-- C24, Bernoulli made from probabilities. -/
theorem C24_bernoulli (p : ℝ) (_hp : 0 < p) (_hp' : p < 1) (b : Bool) :
    bernoulliLogProb (some p) (if b then 1 else 0) = .ok (Real.log (bernoulliMass p b)) := by
  cases b <;> simp [bernoulliLogProb, requireProbs, bernoulliMass, bind, Except.bind, pure, Except.pure]

/-- C24, Categorical made from probabilities. -/
theorem C24_categorical {K : ℕ} (p : Fin K → ℝ) (_hp : ∀ i, 0 < p i) (k : Fin K) :
    categoricalLogProb (some p) (k : ℤ) = .ok (Real.log (p k)) := by
  simp only [categoricalLogProb, requireProbs, bind, Except.bind, pure, Except.pure, Except.ok.injEq]
  rw [Finset.sum_eq_single k]
  · simp
  · intro j _ hj
    have : ¬ ((k : ℤ) = (j : ℤ)) := by
      intro h; exact hj (Fin.ext (by exact_mod_cast h.symm))
    rw [if_neg this, mul_zero]
  · simp

/-- C24, Binomial made from probabilities. -/
theorem C24_binomial (n : ℕ) (p : ℝ) (hp : 0 < p) (hp' : p < 1) (k : ℕ) (hk : k ≤ n) :
    binomialLogProb n (some p) k = .ok (Real.log (binomialMass n p k)) := by
  have h1 : (0 : ℝ) < 1 - p := by linarith
  have hnk : (n : ℝ) - k + 1 = ((n - k : ℕ) : ℝ) + 1 := by rw [Nat.cast_sub hk]
  simp only [binomialLogProb, requireProbs, bind, Except.bind, pure, Except.pure, Except.ok.injEq, binomialMass]
  rw [hnk, lgamma_nat, lgamma_nat, lgamma_nat, Nat.choose_eq_factorial_div_factorial hk,
    Nat.cast_div (Nat.factorial_mul_factorial_dvd_factorial hk) (by positivity)]
  push_cast
  rw [Real.log_mul (by positivity) (by positivity), Real.log_mul (by positivity) (by positivity), Real.log_div (by positivity) (by positivity),
    Real.log_mul (by positivity) (by positivity), Real.log_pow, Real.log_pow, Nat.cast_sub hk]
  ring

/-- C24, Multinomial made from probabilities. -/
theorem C24_multinomial {K : ℕ} (p : Fin K → ℝ) (hp : ∀ i, 0 < p i) (k : Fin K → ℕ) :
    multinomialLogProb (∑ i, k i : ℕ) (some p) (fun i => (k i : ℝ)) = .ok (Real.log (multinomialMass p k)) := by
  have hm : (Nat.multinomial Finset.univ k : ℝ) = (∑ i, k i).factorial / ∏ i, ((k i).factorial : ℝ) := by
    have hne : (∏ i, ((k i).factorial : ℝ)) ≠ 0 := Finset.prod_ne_zero_iff.mpr fun i _ => by positivity
    rw [eq_div_iff hne, mul_comm]
    exact_mod_cast Nat.multinomial_spec Finset.univ k
  have hf : (∏ i, ((k i).factorial : ℝ)) ≠ 0 := Finset.prod_ne_zero_iff.mpr fun i _ => by positivity
  have hq : (∏ i, p i ^ k i) ≠ 0 := Finset.prod_ne_zero_iff.mpr fun i _ => by have := hp i; positivity
  simp only [multinomialLogProb, requireProbs, bind, Except.bind, pure, Except.pure, Except.ok.injEq, multinomialMass]
  rw [hm, Real.log_mul (div_ne_zero (by positivity) hf) hq, Real.log_div (by positivity) hf,
    Real.log_prod (fun i _ => by positivity), Real.log_prod (fun i _ => by have := hp i; positivity), lgamma_nat]
  simp only [lgamma_nat, Real.log_pow]
  rw [add_comm]
  congr 1
  exact Finset.sum_congr rfl fun i _ => mul_comm _ _

/-- C24, Poisson. -/
theorem C24_poisson (r : ℝ) (hr : 0 < r) (n : ℕ) : poissonLogProb r n = Real.log (poissonMass r n) := by
  rw [poissonMass, poissonMeasure_real_singleton, Real.coe_toNNReal _ hr.le, Real.log_div (by positivity) (by positivity),
    Real.log_mul (by positivity) (by positivity), Real.log_exp, Real.log_pow]
  simp only [poissonLogProb, lgamma_nat]
  ring

/-- C24, Normal. -/
theorem C24_normal (μ σ : ℝ) (hσ : 0 < σ) (x : ℝ) : normalLogProb μ σ x = Real.log (normalDensity μ σ x) := by
  have h2 : (0 : ℝ) < √(2 * Real.pi * σ ^ 2) := Real.sqrt_pos.mpr (by positivity)
  rw [normalDensity, gaussianPDFReal_def, Real.coe_toNNReal _ (sq_nonneg σ)]
  rw [Real.log_mul (by positivity) (by positivity), Real.log_exp, Real.log_inv, Real.log_sqrt (by positivity),
    Real.log_mul (by positivity) (by positivity), Real.log_pow]
  simp only [normalLogProb]
  push_cast
  field_simp
  ring

/-- C24, MultivariateNormalDiag: the entries add up to the log density. -/
theorem C24_mvnDiag_partial {K : ℕ} (μ σ : Fin K → ℝ) (hσ : ∀ i, 0 < σ i) (x : Fin K → ℝ) :
    ∑ i, mvnDiagLogProb μ σ x i = Real.log (mvnDiagDensity μ σ x) := by
  rw [mvnDiagDensity, Real.log_prod]
  · exact Finset.sum_congr rfl fun i _ => C24_normal (μ i) (σ i) (hσ i) (x i)
  · intro i _
    rw [normalDensity]
    refine (gaussianPDFReal_pos _ _ _ ?_).ne'
    exact (Real.toNNReal_pos.mpr (pow_pos (hσ i) 2)).ne'

/-- C24 fails for MultivariateNormalDiag as stated: what is returned is not the log density
but one number per coordinate, and no coordinate need be it. -/
theorem C24_mvnDiag_fails : ∃ (μ σ x : Fin 2 → ℝ), (∀ i, 0 < σ i) ∧
    ∀ i, mvnDiagLogProb μ σ x i ≠ Real.log (mvnDiagDensity μ σ x) := by
  refine ⟨fun _ => 0, fun _ => 1, fun _ => 0, fun _ => one_pos, fun i h => ?_⟩
  rw [← C24_mvnDiag_partial _ _ (fun _ => one_pos), Fin.sum_univ_two] at h
  have hlog : 0 < Real.log (2 * Real.pi) := Real.log_pos (by linarith [Real.two_le_pi])
  simp only [mvnDiagLogProb, Real.log_one] at h
  norm_num at h
  rw [Real.log_mul (by norm_num) Real.pi_ne_zero] at hlog
  rcases h with h | h <;> linarith [Real.two_le_pi]

/-- C24, Beta. -/
theorem C24_beta (α β : ℝ) (hα : 0 < α) (hβ : 0 < β) (x : ℝ) (hx : 0 < x) (hx1 : x < 1) :
    betaLogProb β α x = Real.log (betaPDFReal α β x) := by
  have h1 : (0 : ℝ) < 1 - x := by linarith
  have hb := beta_pos hα hβ
  rw [betaPDFReal, if_pos ⟨hx, hx1⟩, Real.log_mul (by positivity) (by positivity), Real.log_mul (by positivity) (by positivity),
    Real.log_rpow hx, Real.log_rpow h1, one_div, Real.log_inv, beta, Real.log_div, Real.log_mul]
  · simp only [betaLogProb, lgamma_pos hα, lgamma_pos hβ, lgamma_pos (add_pos hα hβ)]
    ring
  all_goals first
    | exact (Real.Gamma_pos_of_pos hα).ne'
    | exact (Real.Gamma_pos_of_pos hβ).ne'
    | exact (Real.Gamma_pos_of_pos (add_pos hα hβ)).ne'
    | exact (mul_pos (Real.Gamma_pos_of_pos hα) (Real.Gamma_pos_of_pos hβ)).ne'

/-- C24, Dirichlet. -/
theorem C24_dirichlet {K : ℕ} (hK : 0 < K) (α : Fin K → ℝ) (hα : ∀ i, 0 < α i) (x : Fin K → ℝ) (hx : ∀ i, 0 < x i) :
    dirichletLogProb α x = Real.log (dirichletDensity α x) := by
  have hs : 0 < ∑ i, α i := Finset.sum_pos (fun i _ => hα i) ⟨⟨0, hK⟩, Finset.mem_univ _⟩
  have hg : ∀ i, Real.Gamma (α i) ≠ 0 := fun i => (Real.Gamma_pos_of_pos (hα i)).ne'
  have hxp : ∀ i, x i ^ (α i - 1) ≠ 0 := fun i => (Real.rpow_pos_of_pos (hx i) _).ne'
  have hgp : (∏ i, Real.Gamma (α i)) ≠ 0 := Finset.prod_ne_zero_iff.mpr fun i _ => hg i
  rw [dirichletDensity, Real.log_mul (div_ne_zero (Real.Gamma_pos_of_pos hs).ne' hgp) (Finset.prod_ne_zero_iff.mpr fun i _ => hxp i),
    Real.log_div (Real.Gamma_pos_of_pos hs).ne' hgp, Real.log_prod (fun i _ => hg i), Real.log_prod (fun i _ => hxp i)]
  simp only [dirichletLogProb, lgamma_pos hs, fun i => lgamma_pos (hα i), fun i => Real.log_rpow (hx i), Finset.sum_neg_distrib]
  ring

/-- C24, Gamma. -/
theorem C24_gamma (a r : ℝ) (ha : 0 < a) (hr : 0 < r) (x : ℝ) (hx : 0 < x) :
    gammaLogProb a r x = Real.log (gammaPDFReal a r x) := by
  have hG := Real.Gamma_pos_of_pos ha
  have h1 := Real.rpow_pos_of_pos hr a
  have h2 := Real.rpow_pos_of_pos hx (a - 1)
  rw [gammaPDFReal, if_pos hx.le, Real.log_mul (by positivity) (by positivity), Real.log_mul (by positivity) (by positivity),
    Real.log_div (by positivity) (by positivity), Real.log_rpow hr, Real.log_rpow hx, Real.log_exp]
  simp only [gammaLogProb, lgamma_pos ha]
  ring

/-- C24, InverseGamma. -/
theorem C24_inverseGamma (a r : ℝ) (ha : 0 < a) (hr : 0 < r) (x : ℝ) (hx : 0 < x) :
    inverseGammaLogProb a r x = Real.log (inverseGammaDensity a r x) := by
  have hxi : 0 < x⁻¹ := inv_pos.mpr hx
  rw [inverseGammaDensity, Real.log_mul (gammaPDFReal_pos ha hr hxi).ne' (by positivity), ← C24_gamma a r ha hr _ hxi,
    Real.log_inv, Real.log_pow]
  simp only [inverseGammaLogProb, gammaLogProb, Real.log_inv]
  push_cast
  ring

/-- C24, Exponential. -/
theorem C24_exponential (r : ℝ) (hr : 0 < r) (x : ℝ) (hx : 0 ≤ x) :
    exponentialLogProb r x = Real.log (exponentialPDFReal r x) := by
  have : exponentialPDFReal r x = r * Real.exp (-(r * x)) := by
    rw [exponentialPDFReal, gammaPDFReal, if_pos hx, Real.rpow_one, Real.Gamma_one, div_one, sub_self, Real.rpow_zero, mul_one]
  rw [this, Real.log_mul hr.ne' (Real.exp_pos _).ne', Real.log_exp]
  simp only [exponentialLogProb]
  ring

/-- C24, Laplace. -/
theorem C24_laplace (μ b : ℝ) (hb : 0 < b) (x : ℝ) : laplaceLogProb μ b x = Real.log (laplaceDensity μ b x) := by
  rw [laplaceDensity, Real.log_div (Real.exp_pos _).ne' (by positivity), Real.log_exp]
  simp only [laplaceLogProb]
  ring

/-- C24 fails for Chi2 on a batch of any positive size: `exp(-x/2)` is added where `-x/2`
is meant, so the value is too large by more than the whole term everywhere the other
entries do not interfere. -/
theorem C24_chi2_fails (df x : ℝ) (hd : 0 < df) (hx : 0 < x) :
    chi2LogProb (n := 1) (fun _ => df) (fun _ => x) 0 = Real.log (chi2Density df x) + Real.exp (-x / 2) + x / 2 ∧
    chi2LogProb (n := 1) (fun _ => df) (fun _ => x) 0 ≠ Real.log (chi2Density df x) := by
  have h : chi2LogProb (n := 1) (fun _ => df) (fun _ => x) 0 = Real.log (chi2Density df x) + Real.exp (-x / 2) + x / 2 := by
    rw [chi2Density, ← C24_gamma (df / 2) (1 / 2) (by positivity) (by norm_num) x hx]
    simp only [chi2LogProb, gammaLogProb, Finset.univ_unique, Finset.sum_singleton]
    rw [show (0.5 * df - 1 + 1 : ℝ) = df / 2 by ring, show (-0.5 * x : ℝ) = -x / 2 by ring, one_div, Real.log_inv]
    ring
  refine ⟨h, ?_⟩
  rw [h]
  have := Real.exp_pos (-x / 2)
  intro hc
  linarith

/-- The last batch axis of Chi2 is summed over: the log probability reported for the second
entry depends on the first. -/
theorem C24_chi2_fails_batch : ∃ (df x x' : Fin 2 → ℝ), x 1 = x' 1 ∧ chi2LogProb df x 1 ≠ chi2LogProb df x' 1 := by
  refine ⟨fun _ => 4, ![1, 1], ![2, 1], rfl, ?_⟩
  simp only [chi2LogProb, Fin.sum_univ_two]
  simp only [Matrix.cons_val_zero, Matrix.cons_val_one, Real.log_one]
  intro h
  have := Real.log_pos (show (1 : ℝ) < 2 by norm_num)
  norm_num at h

/-- A scalar Chi2 raises. -/
theorem C24_chi2_fails_scalar (df x : ℝ) : chi2LogProbScalar df x = .error .valueError := rfl

theorem xnum_sum_nan (l : List XNum) (h : .nan ∈ l) : XNum.sum l = .nan := by
  have key : ∀ (l : List XNum) (a : XNum), a = .nan ∨ .nan ∈ l → l.foldl XNum.add a = .nan := by
    intro l
    induction l with
    | nil => intro a h; simpa using h
    | cons b l ih =>
      intro a h
      rw [List.foldl_cons]
      refine ih _ ?_
      rcases h with rfl | h
      · left; rfl
      · rcases List.mem_cons.mp h with rfl | h
        · left; cases a <;> rfl
        · exact .inr h
  exact key l _ (.inr h)

/-- A Bernoulli variable that is certain to be one has a log probability that is not a
number at its only value, and so has one that is certain to be zero. -/
theorem C24_certain_fails : bernoulliLogProbX 1 true = .nan ∧ bernoulliLogProbX 0 false = .nan := by
  have h0 : ENNReal.log 0 = ⊥ := ENNReal.log_zero
  constructor
  · have h1 : (1 : EReal) - 1 = 0 := by
      rw [show (1 : EReal) = ((1 : ℝ) : EReal) from rfl, ← EReal.coe_sub]; simp
    have h2 : (1 : EReal) ≠ ⊤ := EReal.coe_ne_top 1
    have h3 : (1 : EReal) ≠ ⊥ := EReal.coe_ne_bot 1
    simp [bernoulliLogProbX, xlog, XNum.mul, XNum.add, h0, h1, h2, h3]
  · simp [bernoulliLogProbX, xlog, XNum.mul, XNum.add, h0]

/-- A Categorical variable one of whose classes has probability zero has a log probability
that is not a number at every other class. -/
theorem C24_zero_class_fails (probs : List ENNReal) (j : ℕ) (hj : probs[j]? = some 0) (val : ℕ) (hv : val ≠ j) :
    categoricalLogProbX probs val = .nan := by
  refine xnum_sum_nan _ (List.mem_mapIdx.mpr ?_)
  obtain ⟨hlt, he⟩ := List.getElem?_eq_some_iff.mp hj
  refine ⟨j, hlt, ?_⟩
  rw [he, if_neg hv]
  simp [xlog, XNum.mul]

example : categoricalLogProbX [1, 0] 0 = .nan := C24_zero_class_fails _ 1 rfl 0 (by norm_num)

/-- The discrete families raise when they were made from logits. -/
theorem C24_logits_fails {K : ℕ} (n v : ℝ) (i : ℤ) (w : Fin K → ℝ) :
    bernoulliLogProb none v = .error .valueError ∧ binomialLogProb n none v = .error .valueError ∧
    categoricalLogProb (K := K) none i = .error .valueError ∧ multinomialLogProb (K := K) n none w = .error .valueError :=
  ⟨rfl, rfl, rfl, rfl⟩

/-- The hypotheses on parameters and points are met by ordinary values, for which the
families take distinct values. -/
example : gammaLogProb 2 3 (1 / 2) = Real.log (ProbabilityTheory.gammaPDFReal 2 3 (1 / 2)) ∧
    betaLogProb 3 2 (1 / 4) = Real.log (ProbabilityTheory.betaPDFReal 2 3 (1 / 4)) ∧
    dirichletLogProb ![1, 2, 3] ![1 / 2, 1 / 4, 1 / 4] =
      Real.log (dirichletDensity ![1, 2, 3] ![1 / 2, 1 / 4, 1 / 4]) :=
  ⟨C24_gamma 2 3 (by norm_num) (by norm_num) _ (by norm_num),
   C24_beta 2 3 (by norm_num) (by norm_num) _ (by norm_num) (by norm_num),
   C24_dirichlet (by norm_num) _ (by intro i; fin_cases i <;> norm_num) _ (by intro i; fin_cases i <;> norm_num)⟩

end Edward
