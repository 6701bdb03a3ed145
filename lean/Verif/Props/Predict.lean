/-
Properties C111 (predictions of `ed.evaluate` are most probable values), C112 (the squared
error metric), C113 (the divergence metric), C114 (formats of the observations) and the
Poisson metric of C62.
-/
import Mathlib.Probability.Moments.Variance
import Mathlib.Probability.Independence.Basic
import Mathlib.Data.Nat.Choose.Basic
import Mathlib.Tactic.IntervalCases
import Verif.Model.Predict
import Verif.Props.Metrics
import Verif.Props.MultinomialMode

namespace Edward

open MeasureTheory ProbabilityTheory Finset

/-! ### Specification -/

/-- The Binomial(`N`, `p`) probability of `k`. -/
noncomputable def binomialPmf (N : ℕ) (p : ℝ) (k : ℕ) : ℝ := N.choose k * p ^ k * (1 - p) ^ (N - k)

/-- `y` is a most probable value of Binomial(`N`, `p`). -/
def IsBinomialMode (N : ℕ) (p y : ℝ) : Prop :=
  ∃ k : ℕ, (k : ℝ) = y ∧ k ≤ N ∧ ∀ j ≤ N, binomialPmf N p j ≤ binomialPmf N p k

/-- `k` is a most probable class. -/
def IsCategoricalMode {K : ℕ} (p : Fin K → ℝ) (k : Fin K) : Prop := ∀ i, p i ≤ p k

/-- The negative logarithm of the Poisson probability of `y`, without the term free of the
rate. -/
noncomputable def poissonLoss (y rate : ℝ) : ℝ := rate - y * Real.log rate

/-! ### C111 -/

theorem binomialPmf_nonneg {N : ℕ} {p : ℝ} (h0 : 0 ≤ p) (h1 : p ≤ 1) (k : ℕ) : 0 ≤ binomialPmf N p k := by
  have : 0 ≤ 1 - p := by linarith
  unfold binomialPmf; positivity

theorem binomialPmf_succ {N k : ℕ} (h : k < N) (p : ℝ) :
    binomialPmf N p (k + 1) * ((k + 1) * (1 - p)) = binomialPmf N p k * ((N - k) * p) := by
  have e : N - k = N - (k + 1) + 1 := by omega
  have c : (N.choose (k + 1) : ℝ) * (k + 1) = N.choose k * (N - k) := by
    have := Nat.choose_succ_right_eq N k
    have h2 : ((N.choose (k + 1) * (k + 1) : ℕ) : ℝ) = (N.choose k * (N - k) : ℕ) := by rw [this]
    push_cast [Nat.cast_sub h.le] at h2
    exact h2
  unfold binomialPmf
  rw [e, pow_succ, pow_succ (1 - p)]
  calc (N.choose (k + 1) : ℝ) * (p ^ k * p) * (1 - p) ^ (N - (k + 1)) * ((k + 1) * (1 - p))
      = (N.choose (k + 1) * (k + 1)) * (p ^ k * p) * (1 - p) ^ (N - (k + 1)) * (1 - p) := by ring
    _ = _ := by rw [c]; ring

theorem roundPrediction_cases (p r : ℝ) : roundPrediction p r = 0 ∨ roundPrediction p r = 1 := by
  unfold roundPrediction
  dsimp only
  split_ifs <;> simp

theorem roundPrediction_low {p : ℝ} (h : p < 1 / 2) (r : ℝ) : roundPrediction p r = 0 := by
  unfold roundPrediction
  dsimp only
  have h' : p ≠ 0.5 := fun e => by norm_num [e] at h
  rw [if_neg h', if_pos (by norm_num; linarith)]

theorem roundPrediction_high {p : ℝ} (h : 1 / 2 < p) (r : ℝ) : roundPrediction p r = 1 := by
  unfold roundPrediction
  dsimp only
  have h' : p ≠ 0.5 := fun e => by norm_num [e] at h
  rw [if_neg h', if_neg (by norm_num; linarith)]

/-- C111: at an average probability of exactly one half the prediction is that of a fair coin:
one for draws above one half, otherwise zero (`tf.round` takes one half to zero). -/
theorem C111_tie (r : ℝ) : roundPrediction (1 / 2) r = if 1 / 2 < r then 1 else 0 := by
  have h2 : (1 / 2 : ℝ) = 0.5 := by norm_num
  unfold roundPrediction
  dsimp only
  rw [h2, if_pos rfl]
  by_cases h : (0.5 : ℝ) < r
  · rw [if_pos h, if_neg (not_le.mpr h)]
  · rw [if_neg h, if_pos (not_lt.mp h)]

/-- C111 (part), exactly when the prediction for a Bernoulli (`N = 1`) or Binomial output is
a most probable value: always for one trial; for more, only if the average probability is
small, at most `1 / (N + 1)`, or between one half and `2 / (N + 1)`. -/
theorem C111_binomial_partial {A : Type} {n : ℕ} (probs : Fin n → A → ℝ) (random : A → ℝ) (a : A) (N : ℕ)
    (hN : 0 < N) (h0 : 0 ≤ runMean probs a) (h1 : runMean probs a ≤ 1) :
    (N = 1 → IsBinomialMode N (runMean probs a) (binaryPrediction probs random a)) ∧
    (runMean probs a ≠ 1 / 2 → (IsBinomialMode N (runMean probs a) (binaryPrediction probs random a) ↔
      if runMean probs a < 1 / 2 then (N + 1) * runMean probs a ≤ 1 else (N + 1) * runMean probs a ≤ 2)) := by
  unfold binaryPrediction
  generalize runMean probs a = p at *
  generalize random a = r
  constructor
  · rintro rfl
    rcases lt_trichotomy p (1 / 2) with h | h | h
    · rw [roundPrediction_low h]
      refine ⟨0, by simp, by simp, fun j hj => ?_⟩
      interval_cases j <;> simp [binomialPmf]; linarith
    · rcases roundPrediction_cases p r with e | e <;> rw [e]
      · refine ⟨0, by simp, by simp, fun j hj => ?_⟩
        interval_cases j <;> simp [binomialPmf]; linarith
      · refine ⟨1, by simp, by simp, fun j hj => ?_⟩
        interval_cases j <;> simp [binomialPmf]; linarith
    · rw [roundPrediction_high h]
      refine ⟨1, by simp, by simp, fun j hj => ?_⟩
      interval_cases j <;> simp [binomialPmf]; linarith
  · intro hne
    have hN' : (1 : ℝ) ≤ N := by exact_mod_cast hN
    split_ifs with hlow
    · rw [roundPrediction_low hlow]
      have s0 := binomialPmf_succ hN p
      have pos0 : 0 < binomialPmf N p 0 := by
        simp only [binomialPmf, Nat.choose_zero_right, Nat.cast_one, pow_zero, one_mul, Nat.sub_zero]
        exact pow_pos (by linarith) _
      constructor
      · rintro ⟨k, hk, -, hmax⟩
        have hk0 : k = 0 := by exact_mod_cast hk
        subst hk0
        have := hmax 1 hN
        by_contra hcon
        push Not at hcon
        simp only [Nat.cast_zero, zero_add, one_mul, sub_zero] at s0
        nlinarith [mul_le_mul_of_nonneg_right this (by linarith : (0 : ℝ) ≤ 1 - p)]
      · intro hp
        refine ⟨0, by simp, Nat.zero_le _, fun j hj => ?_⟩
        induction j with
        | zero => exact le_rfl
        | succ j ih =>
          refine le_trans ?_ (ih (by omega))
          have s := binomialPmf_succ (show j < N by omega) p
          have hb := binomialPmf_nonneg (N := N) h0 h1 j
          have hb' := binomialPmf_nonneg (N := N) h0 h1 (j + 1)
          have hj' : (0 : ℝ) ≤ j := by positivity
          have hq : 0 < 1 - p := by linarith
          have hle : (N - j : ℝ) * p ≤ (j + 1) * (1 - p) := by nlinarith
          have hpos : 0 < ((j : ℝ) + 1) * (1 - p) := by positivity
          have := mul_le_mul_of_nonneg_left hle hb
          rw [← s] at this
          exact le_of_mul_le_mul_right this hpos
    · have hhigh : 1 / 2 < p := lt_of_le_of_ne (not_lt.mp hlow) (Ne.symm hne)
      rw [roundPrediction_high hhigh]
      constructor
      · rintro ⟨k, hk, -, hmax⟩
        have hk1 : k = 1 := by exact_mod_cast hk
        subst hk1
        by_contra hcon
        push Not at hcon
        have hN2 : 2 ≤ N := by
          by_contra h
          have : N = 1 := by omega
          subst this; norm_num at hcon; linarith
        have s := binomialPmf_succ (show 1 < N by omega) p
        have hm := hmax 2 hN2
        have hN2' : (2 : ℝ) ≤ N := by exact_mod_cast hN2
        norm_num at s
        rcases eq_or_lt_of_le h1 with e | e
        · have hmN := hmax N le_rfl
          subst e
          have z : binomialPmf N 1 1 = 0 := by
            simp only [binomialPmf, sub_self]
            rw [zero_pow (by omega)]; simp
          rw [z] at hmN
          simp [binomialPmf] at hmN
          linarith
        · have pos1 : 0 < binomialPmf N p 1 := by
            have : 0 < 1 - p := by linarith
            simp only [binomialPmf, Nat.choose_one_right, pow_one]
            have : 0 < p := by linarith
            positivity
          nlinarith [mul_le_mul_of_nonneg_right hm (by linarith : (0 : ℝ) ≤ 2 * (1 - p))]
      · intro hp
        have : N ≤ 2 := by
          by_contra h
          have : (3 : ℝ) ≤ N := by exact_mod_cast (by omega : 3 ≤ N)
          nlinarith
        refine ⟨1, by simp, hN, fun j hj => ?_⟩
        interval_cases N
        · interval_cases j <;> simp [binomialPmf]; linarith
        · norm_num at hp
          interval_cases j <;> simp [binomialPmf] <;> nlinarith

/-- C111 fails: for a Binomial output with several trials, whose average probability exceeds
`2 / (N + 1)`, the prediction (zero or one) is not a most probable value. -/
theorem C111_fails {A : Type} {n : ℕ} (probs : Fin n → A → ℝ) (random : A → ℝ) (a : A) (N : ℕ)
    (hN : 2 ≤ N) (h2 : 2 / ((N : ℝ) + 1) < runMean probs a) (hne : runMean probs a ≠ 1 / 2)
    (h1 : runMean probs a ≤ 1) :
    ¬ IsBinomialMode N (runMean probs a) (binaryPrediction probs random a) := by
  have hN' : (0 : ℝ) < (N : ℝ) + 1 := by positivity
  have h0 : 0 < runMean probs a := lt_trans (by positivity) h2
  rw [div_lt_iff₀ hN'] at h2
  rw [(C111_binomial_partial probs random a N (by omega) h0.le h1).2 hne]
  split_ifs <;> linarith

/-- C111 fails, what the accuracy reports: it is zero for a Binomial output whose observations
are all at least two, whatever the model predicts. -/
theorem C111_accuracy_fails {A : Type} [Fintype A] {n : ℕ} (probs : Fin n → A → ℝ) (random : A → ℝ) (yt : A → ℝ)
    (hy : ∀ a, 2 ≤ yt a) : accuracy yt (binaryPrediction probs random) = 0 := by
  unfold accuracy reduceMean
  rw [Finset.sum_eq_zero, zero_div]
  intro a _
  rw [if_neg]
  intro h
  have := hy a
  rcases roundPrediction_cases (runMean probs a) (random a) with e | e <;>
  · unfold binaryPrediction at h
    rw [h, e] at this
    norm_num at this

/-- C111, categorical outputs: the predicted class has the largest average probability. -/
theorem C111_categorical {k : ℕ} (probs : Fin (k + 1) → ℝ) (total : ℕ) (ht : total ≤ 1) (am : Fin (k + 1))
    (cold : ℕ → Choice (k + 1)) (pred : CatPrediction (k + 1)) (left : Fin (k + 1) → ℝ)
    (h : CatPredicts probs total am cold pred left) : ∃ c, pred = .label c ∧ IsCategoricalMode probs c := by
  unfold CatPredicts at h
  rw [if_neg (by omega)] at h
  exact ⟨_, h.1, fun i => argmax_spec probs i⟩

/-- C111 (part), multinomial outputs: the predicted counts are a mode if the expected counts
are whole numbers. -/
theorem C111_multinomial_partial {k : ℕ} (probs : Fin (k + 1) → ℝ) (hp : IsProb probs) (total : ℕ)
    (ht : 1 < total) (am : Fin (k + 1)) (ham : IsArgmax probs am) (cold : ℕ → Choice (k + 1)) (hc : ValidChoice cold)
    (hw : ∀ i, ∃ c : ℕ, probs i = c / total) (pred : CatPrediction (k + 1)) (left : Fin (k + 1) → ℝ)
    (h : CatPredicts probs total am cold pred left) :
    ∃ m, pred = .counts m ∧ IsMultinomialMode total probs m := by
  unfold CatPredicts at h
  rw [if_pos ht] at h
  obtain ⟨m, rfl, hm⟩ := h
  exact ⟨m, rfl, C29_mode_partial (by omega) hc hp ham hm (Or.inr hw)⟩

example : ¬ IsBinomialMode 10 (runMean (fun (_ : Fin 1) (_ : Unit) => (4 / 5 : ℝ)) ())
    (binaryPrediction (fun (_ : Fin 1) (_ : Unit) => (4 / 5 : ℝ)) (fun _ => 0) ()) := by
  apply C111_fails _ _ _ _ (by norm_num) <;> norm_num [runMean]

example : ∃ pred left, CatPredicts ![(1 / 4 : ℝ), 3 / 4] 1 0 (fun _ S _ => S) pred left :=
  ⟨_, _, by unfold CatPredicts; rw [if_neg (by norm_num)]; exact ⟨rfl, rfl⟩⟩

/-! ### C113 -/

theorem caller_eq_probs {K n : ℕ} {cold : ℕ → Choice K} {p : Fin K → ℝ} (k : ℕ)
    (h : (modeLoop n cold k (modeInit n p)).own = false) :
    (modeLoop n cold k (modeInit n p)).caller = (modeLoop n cold k (modeInit n p)).probs := by
  induction k with
  | zero => rfl
  | succ k ih =>
    simp only [modeLoop] at h ⊢
    split
    · rename_i hr
      rw [if_pos hr] at h
      have hown : (modeRescale n (modeLoop n cold k (modeInit n p))).own = false := h
      have : (modeBody n (cold k) (modeLoop n cold k (modeInit n p))).caller =
          (modeBody n (cold k) (modeLoop n cold k (modeInit n p))).probs := by
        unfold modeBody modeApply
        simp [hown]
      exact this
    · rename_i hr
      rw [if_neg hr] at h
      exact ih h

/-- What is left of the probabilities when the expected counts are whole: nothing. -/
theorem left_zero {k : ℕ} {probs : Fin (k + 1) → ℝ} (hp : IsProb probs) {total : ℕ} (ht : 1 < total)
    {am : Fin (k + 1)} {cold : ℕ → Choice (k + 1)} (hc : ValidChoice cold)
    (hw : ∀ i, ∃ c : ℕ, probs i = c / total) {pred : CatPrediction (k + 1)} {left : Fin (k + 1) → ℝ}
    (h : CatPredicts probs total am cold pred left) : left = fun _ => 0 := by
  unfold CatPredicts at h
  rw [if_pos ht] at h
  obtain ⟨m, -, hm⟩ := h
  unfold ModeReturns at hm
  rw [if_neg (by omega)] at hm
  obtain ⟨j, hj, -, rfl⟩ := hm
  have hf := (fresh_of_multiples (by omega) hc hp hw j).1
  rw [caller_eq_probs j hf.1]
  funext i
  have e := fresh_end (by omega) hc hp hf hj i
  rw [(hf.2 i).1, ← e, sub_self]

/-- C113 (part): the `kl_divergence` metric is the divergence from the predicted
probabilities for one trial, and when no class is expected to occur once. -/
theorem C113_unchanged_partial {k : ℕ} (probs : Fin (k + 1) → ℝ) (total : ℕ) (hT : 0 < total)
    (hs : total = 1 ∨ ∀ i, probs i < 1 / (total : ℝ)) (am : Fin (k + 1))
    (cold : ℕ → Choice (k + 1)) (hc : ValidChoice cold) (pred : CatPrediction (k + 1)) (left : Fin (k + 1) → ℝ)
    (h : CatPredicts probs total am cold pred left) (y : Fin (k + 1) → ℕ) :
    klMetric total y left = klDivergence (fun (_ : Unit) i => (y i : ℝ) / total) (fun _ i => probs i) := by
  unfold klMetric
  unfold CatPredicts at h
  split_ifs at h with h1
  · obtain ⟨m, -, hm⟩ := h
    rw [(C28_caller_unchanged_iff hT hc hm).2 hs]
  · rw [h.2]

/-- C113 fails: computing the prediction uses up the probabilities. For several trials and
whole expected counts the metric is infinite, even when the observed proportions are exactly
the predicted probabilities. -/
theorem C113_fails {k : ℕ} (probs : Fin (k + 1) → ℝ) (hp : IsProb probs) (total : ℕ) (ht : 1 < total)
    (hw : ∀ i, ∃ c : ℕ, probs i = c / total) (am : Fin (k + 1)) (cold : ℕ → Choice (k + 1))
    (hc : ValidChoice cold) (pred : CatPrediction (k + 1)) (left : Fin (k + 1) → ℝ)
    (h : CatPredicts probs total am cold pred left) :
    (∀ y : Fin (k + 1) → ℕ, ∑ i, y i = total → klMetric total y left = ⊤) ∧
    klDivergence (fun (_ : Unit) i => probs i) (fun _ i => probs i) = 0 := by
  refine ⟨fun y hy => ?_, ((C62_kl _ _ (fun _ i => hp.1 i) (fun _ i => hp.1 i) (fun _ => hp.2)
    (fun _ => hp.2)).2).2 rfl⟩
  rw [left_zero hp ht hc hw h]
  have hT : (0 : ℝ) < total := by exact_mod_cast (by omega : 0 < total)
  unfold klMetric klDivergence
  have key : ∀ i, (if (y i : ℝ) / total = 0 then (0 : EReal) else ((y i / total : ℝ) : EReal) *
      (ENNReal.log (ENNReal.ofReal (y i / total)) - ENNReal.log (ENNReal.ofReal 0))) = if y i = 0 then 0 else ⊤ := by
    intro i
    by_cases h0 : y i = 0
    · simp [h0]
    · have hpos : (0 : ℝ) < y i / total := div_pos (by exact_mod_cast Nat.pos_of_ne_zero h0) hT
      rw [if_neg hpos.ne', if_neg h0, ENNReal.log_ofReal_of_pos hpos, ENNReal.ofReal_zero, ENNReal.log_zero,
        EReal.coe_sub_bot, EReal.coe_mul_top_of_pos hpos]
  simp only [Fintype.univ_unit, sum_singleton]
  obtain ⟨i, hi⟩ : ∃ i, y i ≠ 0 := by
    by_contra hcon
    push Not at hcon
    simp [hcon] at hy
    omega
  refine ereal_sum_eq_top _ _ (fun j _ => ?_) i (mem_univ i) ?_
  · have := key j
    simp only [this]
    split_ifs <;> simp
  · have := key i
    simp only [this, if_neg hi]

/-- Two fair trials with two classes: the prediction exists, and the case applies. -/
example : ∃ (cold : ℕ → Choice 2) (pred : CatPrediction 2) (left : Fin 2 → ℝ),
    CatPredicts ![(1 / 2 : ℝ), 1 / 2] 2 0 cold pred left ∧ klMetric 2 ![1, 1] left = ⊤ := by
  obtain ⟨cold, hc⟩ := exists_validChoice 2
  have hp : IsProb ![(1 / 2 : ℝ), 1 / 2] := by
    refine ⟨fun i => by fin_cases i <;> norm_num, by rw [Fin.sum_univ_two]; norm_num⟩
  have hw : ∀ i, ∃ c : ℕ, ![(1 / 2 : ℝ), 1 / 2] i = c / (2 : ℕ) := fun i => ⟨1, by fin_cases i <;> norm_num⟩
  obtain ⟨m, left, hm⟩ := (C26_returns_iff (by norm_num) hc hp 0).2 (Or.inr (Or.inl le_rfl))
  have h : CatPredicts ![(1 / 2 : ℝ), 1 / 2] 2 0 cold (.counts m) left := by
    unfold CatPredicts
    rw [if_pos (by norm_num)]
    exact ⟨m, rfl, hm⟩
  exact ⟨cold, _, left, h, (C113_fails _ hp 2 (by norm_num) hw 0 cold hc _ left h).1 _ (by simp)⟩

/-! ### C112 -/

section
variable {Ω A : Type} [MeasurableSpace Ω] {μ : Measure Ω} [IsProbabilityMeasure μ] [Fintype A] {n : ℕ}

/-- The squared error of the predictive mean `m`. -/
noncomputable def meanError (yt m : A → ℝ) : ℝ := (∑ a, (yt a - m a) ^ 2) / Fintype.card A

theorem expected_sq (X : Ω → ℝ) (hX : MemLp X 2 μ) (c : ℝ) :
    ∫ ω, (X ω - c) ^ 2 ∂μ = Var[X; μ] + (c - ∫ ω, X ω ∂μ) ^ 2 := by
  have hi : Integrable X μ := hX.integrable (by norm_num)
  have hs : Integrable (fun ω => X ω ^ 2) μ := hX.integrable_sq
  rw [variance_eq_sub hX]
  have e : ∀ ω, (X ω - c) ^ 2 = X ω ^ 2 - 2 * c * X ω + c ^ 2 := fun ω => by ring
  simp only [e]
  have h1 : Integrable (fun ω => X ω ^ 2 - 2 * c * X ω) μ := hs.sub (hi.const_mul (2 * c))
  rw [integral_add h1 (integrable_const _), integral_sub hs (hi.const_mul (2 * c)), integral_const_mul]
  simp only [integral_const, probReal_univ, one_smul, Pi.pow_apply]
  ring

/-- C112 (part), exactly: with independent draws the expected `mse` metric is the squared
error of the predictive mean plus the average predictive variance over `n_samples`. -/
theorem C112_formula_partial (hn : 0 < n) (y : Fin n → Ω → A → ℝ) (yt m v : A → ℝ)
    (hL : ∀ s a, MemLp (fun ω => y s ω a) 2 μ) (hm : ∀ s a, ∫ ω, y s ω a ∂μ = m a)
    (hv : ∀ s a, Var[fun ω => y s ω a; μ] = v a)
    (hi : ∀ a, Pairwise fun s t => IndepFun (fun ω => y s ω a) (fun ω => y t ω a) μ) :
    ∫ ω, mseMetric yt (fun s => y s ω) ∂μ = meanError yt m + (∑ a, v a) / Fintype.card A / n := by
  have hn' : (n : ℝ) ≠ 0 := by exact_mod_cast hn.ne'
  have hR : ∀ a, MemLp (fun ω => runMean (fun s => y s ω) a) 2 μ := by
    intro a
    have := (memLp_finsetSum (p := 2) (μ := μ) univ fun s _ => hL s a).mul_const ((n : ℝ)⁻¹)
    simpa [runMean, div_eq_mul_inv] using this
  have hmean : ∀ a, ∫ ω, runMean (fun s => y s ω) a ∂μ = m a := by
    intro a
    unfold runMean
    rw [integral_div, integral_finsetSum _ fun s _ => (hL s a).integrable (by norm_num)]
    simp only [hm, sum_const, card_univ, Fintype.card_fin, nsmul_eq_mul]
    field_simp
  have hvar : ∀ a, Var[fun ω => runMean (fun s => y s ω) a; μ] = v a / n := by
    intro a
    have e : (fun ω => runMean (fun s => y s ω) a) = fun ω => (n : ℝ)⁻¹ * (∑ s, fun ω => y s ω a) ω := by
      funext ω
      simp only [runMean, Finset.sum_apply]
      rw [div_eq_inv_mul]
    rw [e, variance_const_mul, IndepFun.variance_sum (fun s _ => hL s a) (fun s _ t _ hst => hi a hst)]
    simp only [hv, sum_const, card_univ, Fintype.card_fin, nsmul_eq_mul]
    field_simp
  have hint : ∀ a, Integrable (fun ω => (runMean (fun s => y s ω) a - yt a) ^ 2) μ := fun a =>
    ((hR a).sub (memLp_const (yt a))).integrable_sq
  unfold mseMetric reduceMean meanError
  rw [integral_div, integral_finsetSum _ fun a _ => hint a]
  simp only [expected_sq _ (hR _), hmean, hvar, sum_add_distrib, ← Finset.sum_div]
  ring

/-- C112: the bias vanishes as the number of draws grows. -/
theorem C112_limit (yt m v : A → ℝ) :
    Filter.Tendsto (fun n : ℕ => meanError yt m + (∑ a, v a) / Fintype.card A / (n : ℝ)) Filter.atTop
      (nhds (meanError yt m)) := by
  have h := tendsto_const_div_atTop_nhds_zero_nat ((∑ a, v a) / (Fintype.card A : ℝ))
  simpa using tendsto_const_nhds.add h

/-- C112 fails: for every number of draws, the expected metric exceeds the squared error of
the predictive mean as soon as one prediction varies. -/
theorem C112_fails (hn : 0 < n) (y : Fin n → Ω → A → ℝ) (yt m v : A → ℝ)
    (hL : ∀ s a, MemLp (fun ω => y s ω a) 2 μ) (hm : ∀ s a, ∫ ω, y s ω a ∂μ = m a)
    (hv : ∀ s a, Var[fun ω => y s ω a; μ] = v a)
    (hi : ∀ a, Pairwise fun s t => IndepFun (fun ω => y s ω a) (fun ω => y t ω a) μ) (a : A) (ha : v a ≠ 0) :
    meanError yt m < ∫ ω, mseMetric yt (fun s => y s ω) ∂μ := by
  rw [C112_formula_partial hn y yt m v hL hm hv hi]
  have hpos : ∀ b, 0 ≤ v b := fun b => by rw [← hv ⟨0, hn⟩ b]; exact variance_nonneg _ _
  have : 0 < ∑ b, v b := sum_pos' (fun b _ => hpos b) ⟨a, mem_univ a, lt_of_le_of_ne (hpos a) (Ne.symm ha)⟩
  have hA : (0 : ℝ) < Fintype.card A := by exact_mod_cast Fintype.card_pos_iff.mpr ⟨a⟩
  have hn' : (0 : ℝ) < n := by exact_mod_cast hn
  linarith [div_pos (div_pos this hA) hn']

end

/-- Two independent fair draws of zero or one satisfy the hypotheses, and the expected
metric of a prediction whose mean is right is positive. -/
example : ∃ (Ω : Type) (_ : MeasurableSpace Ω) (μ : Measure Ω) (_ : IsProbabilityMeasure μ)
    (y : Fin 2 → Ω → Unit → ℝ), meanError (fun _ => 1 / 2) (fun _ : Unit => 1 / 2) = 0 ∧
      0 < ∫ ω, mseMetric (fun _ => 1 / 2) (fun s => y s ω) ∂μ := by
  let ν : Measure ℝ := (1 / 2 : ENNReal) • Measure.dirac 0 + (1 / 2 : ENNReal) • Measure.dirac 1
  have hν : IsProbabilityMeasure ν := ⟨by simp [ν, ENNReal.inv_two_add_inv_two]⟩
  have hint : ∀ f : ℝ → ℝ, ∫ x, f x ∂ν = (f 0 + f 1) / 2 := by
    intro f
    rw [integral_add_measure ((integrable_dirac (by simp)).smul_measure (by simp))
      ((integrable_dirac (by simp)).smul_measure (by simp)), integral_smul_measure, integral_smul_measure,
      integral_dirac, integral_dirac]
    simp; ring
  have hLν : MemLp (fun x : ℝ => x) 2 ν := by
    refine MemLp.of_bound (C := 1) measurable_id.aestronglyMeasurable ?_
    rw [ae_add_measure_iff]
    refine ⟨Measure.ae_smul_measure ?_ _, Measure.ae_smul_measure ?_ _⟩ <;>
      · rw [ae_dirac_eq]; simp
  let μ := Measure.pi fun _ : Fin 2 => ν
  have hmp : ∀ s : Fin 2, MeasurePreserving (fun ω : Fin 2 → ℝ => ω s) μ ν := fun s => measurePreserving_eval _ s
  have hL : ∀ (s : Fin 2) (_ : Unit), MemLp (fun ω : Fin 2 → ℝ => ω s) 2 μ := fun s _ =>
    hLν.comp_measurePreserving (hmp s)
  have hm : ∀ (s : Fin 2) (_ : Unit), ∫ ω, ω s ∂μ = (1 / 2 : ℝ) := by
    intro s _
    have e := integral_map (μ := μ) (hmp s).measurable.aemeasurable (f := fun x : ℝ => x) (by fun_prop)
    rw [(hmp s).map_eq, hint] at e
    rw [← e]; norm_num
  refine ⟨Fin 2 → ℝ, inferInstance, μ, inferInstance, fun s ω _ => ω s, by simp [meanError], ?_⟩
  have hv : ∀ (s : Fin 2) (_ : Unit), Var[fun ω : Fin 2 → ℝ => ω s; μ] = 1 / 4 := by
    intro s _
    rw [variance_eq_sub (hL s ()), hm s ()]
    have : ∫ ω, ω s ^ 2 ∂μ = (1 / 2 : ℝ) := by
      have e := integral_map (μ := μ) (hmp s).measurable.aemeasurable (f := fun x : ℝ => x ^ 2) (by fun_prop)
      rw [(hmp s).map_eq, hint] at e
      rw [← e]; norm_num
    simp only [Pi.pow_apply, this]
    norm_num
  have hi : ∀ _ : Unit, Pairwise fun s t : Fin 2 => IndepFun (fun ω : Fin 2 → ℝ => ω s) (fun ω => ω t) μ := by
    intro _ s t hst
    exact (iIndepFun_pi (μ := fun _ : Fin 2 => ν) (X := fun _ x => x) fun _ => aemeasurable_id).indepFun hst
  have := C112_fails (μ := μ) (by norm_num) (fun s ω (_ : Unit) => ω s) (fun _ => 1 / 2) (fun _ => 1 / 2)
    (fun _ => 1 / 4) hL hm hv hi () (by norm_num)
  simpa [meanError] using this

/-! ### C114 -/

/-- C114 (part): tensors and random variables of known rank and NumPy arrays are accepted, with their rank; it is not asked for if the only metric is the
log-likelihood. -/
theorem C114_arrays_partial (only : Bool) (dt : DType) (l : List Dim) (s : List ℕ) (ok : Bool) :
    outputRank only (.tensor ⟨some l, dt⟩) = .ok (if only then none else some l.length) ∧
    outputRank only (.rv ⟨some l, dt⟩) = .ok (if only then none else some l.length) ∧
    outputRank only (.np s ok) = .ok (if only then none else some s.length) := by
  cases only <;> simp [outputRank]

/-- C114 fails: for any metric but the log-likelihood, a list or a Python number which
`check_data` accepts raises AttributeError. -/
theorem C114_fails (i : NodeInfo) (s : List ℕ) (h : shapeCompat i.shape (hostShape s) = true) :
    checkData (some [(.rv i, .host s)]) = .ok () ∧ outputRank false (.host s) = .error .attributeError ∧
    outputRank true (.host s) = .ok none := by
  refine ⟨?_, rfl, rfl⟩
  simp [checkData, checkData.go, checkPair, checkPair.checkNode, h]

example : checkData (some [(.rv ⟨hostShape [2], .float32⟩, .host [2])]) = .ok () :=
  (C114_fails ⟨hostShape [2], .float32⟩ [2] (by decide)).1

/-! ### C62, the Poisson metric -/

/-- C62: the Poisson metric is the negative Poisson log-likelihood, up to terms free of the
prediction, at rates `1e-8` above the predictions; among predictions above `-1e-8` it is
smallest, and only there, where every prediction is `1e-8` below its positive target. -/
theorem C62_poisson {A : Type} [Fintype A] (yt yp : A → ℝ) (ht : ∀ a, 0 < yt a) (hp : ∀ a, -1e-8 < yp a) :
    poissonMetric yt yp = (∑ a, poissonLoss (yt a) (yp a + 1e-8)) - Fintype.card A * 1e-8 ∧
    poissonMetric yt (fun a => yt a - 1e-8) ≤ poissonMetric yt yp ∧
    (poissonMetric yt yp = poissonMetric yt (fun a => yt a - 1e-8) ↔ ∀ a, yp a = yt a - 1e-8) := by
  have e : ∀ z : A → ℝ, poissonMetric yt z = (∑ a, poissonLoss (yt a) (z a + 1e-8)) - Fintype.card A * 1e-8 := by
    intro z
    unfold poissonMetric poissonLoss
    rw [← nsmul_eq_mul, ← card_univ, ← sum_const, ← sum_sub_distrib]
    exact sum_congr rfl fun a _ => by ring
  have key : ∀ a, poissonLoss (yt a) (yt a) ≤ poissonLoss (yt a) (yp a + 1e-8) ∧
      (poissonLoss (yt a) (yp a + 1e-8) = poissonLoss (yt a) (yt a) ↔ yp a + 1e-8 = yt a) := by
    intro a
    have hr : 0 < yp a + 1e-8 := by linarith [hp a]
    obtain ⟨h1, h2⟩ := kl_term (ht a) hr
    unfold poissonLoss
    refine ⟨by nlinarith, ⟨fun h => (h2.1 (by nlinarith)).symm, fun h => by rw [h]⟩⟩
  refine ⟨e yp, ?_, ?_⟩
  · rw [e, e]
    simp only [sub_add_cancel]
    linarith [sum_le_sum fun a (_ : a ∈ univ) => (key a).1]
  · rw [e, e]
    simp only [sub_add_cancel, sub_left_inj]
    rw [eq_comm, sum_eq_sum_iff_of_le fun a _ => (key a).1]
    exact ⟨fun h a => by linarith [(key a).2.1 (h a (mem_univ a)).symm], fun h a _ =>
      ((key a).2.2 (by linarith [h a])).symm⟩

example : poissonMetric (fun _ : Unit => 2) (fun _ => 2 - 1e-8) ≤ poissonMetric (fun _ : Unit => 2) (fun _ => 5) :=
  (C62_poisson (fun _ : Unit => 2) (fun _ => 5) (by norm_num) (by norm_num)).2.1

end Edward
