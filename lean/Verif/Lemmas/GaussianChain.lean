/-
Linear chains driven by independent standard normal draws: every linear functional of the
state has a normal law, with mean and variance given by recursions.
-/
import Verif.Lemmas.Ergodic
import Mathlib.Probability.Distributions.Gaussian.Real

namespace Edward

open MeasureTheory ProbabilityTheory Filter Topology NNReal

/-- A weighted sum of independent standard normal variables. -/
theorem normal_sum {J : Type} [Fintype J] (c : J → ℝ) :
    (Measure.pi (fun _ : J => gaussianReal 0 1)).map (fun x => ∑ j, x j * c j) = gaussianReal 0 (Real.toNNReal (∑ j, c j ^ 2)) := by
  classical
  have hind : iIndepFun (fun (j : J) (x : J → ℝ) => x j * c j) (Measure.pi (fun _ : J => gaussianReal 0 1)) :=
    iIndepFun_pi (μ := fun _ : J => gaussianReal 0 1) (X := fun j x => x * c j) (fun j => by fun_prop)
  have hone : ∀ j, (Measure.pi (fun _ : J => gaussianReal 0 1)).map (fun x : J → ℝ => x j * c j) = gaussianReal 0 (Real.toNNReal (c j ^ 2)) := by
    intro j
    have h1 : (Measure.pi (fun _ : J => gaussianReal 0 1)).map (fun x : J → ℝ => x j) = gaussianReal 0 1 :=
      (measurePreserving_eval (fun _ : J => gaussianReal 0 1) j).map_eq
    have h2 := gaussianReal_map_mul_const (μ := 0) (v := 1) (c j)
    rw [← h1, Measure.map_map (by fun_prop) (by fun_prop)] at h2
    rw [show (fun x : J → ℝ => x j * c j) = (fun x => x * c j) ∘ fun x : J → ℝ => x j from rfl, h2]
    congr 1
    · simp
    · rw [mul_one]; ext; simp [Real.coe_toNNReal _ (sq_nonneg (c j))]
  have : ∀ s : Finset J, (Measure.pi (fun _ : J => gaussianReal 0 1)).map (∑ j ∈ s, fun x : J → ℝ => x j * c j) =
      gaussianReal 0 (Real.toNNReal (∑ j ∈ s, c j ^ 2)) := by
    intro s
    induction s using Finset.induction_on with
    | empty =>
      simp only [Finset.sum_empty, Real.toNNReal_zero, gaussianReal_zero_var]
      refine (Measure.map_const (Measure.pi (fun _ : J => gaussianReal 0 1)) (0 : ℝ)).trans ?_
      simp
    | insert a s ha ih =>
      rw [Finset.sum_insert ha, Finset.sum_insert ha]
      have h := hind.indepFun_finsetSum_of_notMem (fun j => by fun_prop) ha
      have h2 := gaussianReal_add_gaussianReal_of_indepFun h.symm (hone a) ih
      rw [h2, Real.toNNReal_add (sq_nonneg _) (Finset.sum_nonneg fun _ _ => sq_nonneg _), add_zero]
  have h := this Finset.univ
  rw [← h]
  congr 1
  funext x
  simp

section
variable {S J Ω : Type} [AddCommGroup S] [Module ℝ S] [Fintype J] [MeasurableSpace Ω]

/-- The chain `s ↦ T n s + ∑ j, ξ n j • b n j`. -/
def linChain (T : ℕ → S →ₗ[ℝ] S) (b : ℕ → J → S) (s0 : S) (ξ : ℕ → J → ℝ) : ℕ → S
  | 0 => s0
  | n + 1 => T n (linChain T b s0 ξ n) + ∑ j, ξ n j • b n j

/-- Its mean. -/
def linMean (T : ℕ → S →ₗ[ℝ] S) (s0 : S) : ℕ → S
  | 0 => s0
  | n + 1 => T n (linMean T s0 n)

/-- The variance of a functional of its state. -/
def linVar (T : ℕ → S →ₗ[ℝ] S) (b : ℕ → J → S) : ℕ → (S →ₗ[ℝ] ℝ) → ℝ
  | 0, _ => 0
  | n + 1, φ => linVar T b n (φ ∘ₗ T n) + ∑ j, φ (b n j) ^ 2

theorem linVar_nonneg (T : ℕ → S →ₗ[ℝ] S) (b : ℕ → J → S) (n : ℕ) (φ : S →ₗ[ℝ] ℝ) : 0 ≤ linVar T b n φ := by
  induction n generalizing φ with
  | zero => exact le_rfl
  | succ n ih => exact add_nonneg (ih _) (Finset.sum_nonneg fun _ _ => sq_nonneg _)

theorem linChain_functional (T : ℕ → S →ₗ[ℝ] S) (b : ℕ → J → S) (s0 : S) (ξ : ℕ → J → ℝ) (n : ℕ) (φ : S →ₗ[ℝ] ℝ) :
    φ (linChain T b s0 ξ (n + 1)) = (φ ∘ₗ T n) (linChain T b s0 ξ n) + ∑ j, ξ n j * φ (b n j) := by
  simp [linChain, map_add, map_sum]

theorem linChain_past (T : ℕ → S →ₗ[ℝ] S) (b : ℕ → J → S) (s0 : S) {d : ℕ → Ω → (J → ℝ)} (n : ℕ) (φ : S →ₗ[ℝ] ℝ) :
    Measurable[past d n] (fun ω => φ (linChain T b s0 (fun i => d i ω) n)) := by
  induction n generalizing φ with
  | zero => simp only [linChain]; exact measurable_const
  | succ n ih =>
    simp only [linChain_functional]
    have h1 : Measurable[past d (n + 1)] (fun ω => (φ ∘ₗ T n) (linChain T b s0 (fun i => d i ω) n)) :=
      Measurable.mono (ih _) (past_mono (by omega)) le_rfl
    have h2 : Measurable[past d (n + 1)] (d n) := by
      refine Measurable.mono (comap_measurable (d n)) ?_ le_rfl
      exact le_iSup₂_of_le (f := fun i (_ : i ∈ {i | i < n + 1}) => MeasurableSpace.comap (d i) inferInstance) n
        (Nat.lt_succ_self n) le_rfl
    have h3 : Measurable (fun x : J → ℝ => ∑ j, x j * φ (b n j)) := by fun_prop
    exact h1.add (h3.comp h2)

/-- Every functional of the state has a normal law. -/
theorem linChain_law (T : ℕ → S →ₗ[ℝ] S) (b : ℕ → J → S) (s0 : S) {Pr : Measure Ω} [IsProbabilityMeasure Pr] {d : ℕ → Ω → (J → ℝ)}
    (hd : ∀ i, Measurable (d i)) (hlaw : ∀ i, Pr.map (d i) = Measure.pi (fun _ => gaussianReal 0 1)) (hind : iIndepFun d Pr) (n : ℕ) (φ : S →ₗ[ℝ] ℝ) :
    Pr.map (fun ω => φ (linChain T b s0 (fun i => d i ω) n)) = gaussianReal (φ (linMean T s0 n)) (Real.toNNReal (linVar T b n φ)) := by
  induction n generalizing φ with
  | zero =>
    simp only [linChain, linMean, linVar, Real.toNNReal_zero, gaussianReal_zero_var]
    exact Measure.map_const _ _ |>.trans (by simp)
  | succ n ih =>
    simp only [linChain_functional]
    have h3 : Measurable (fun x : J → ℝ => ∑ j, x j * φ (b n j)) := by fun_prop
    have hI : IndepFun (fun ω => (φ ∘ₗ T n) (linChain T b s0 (fun i => d i ω) n)) (fun ω => ∑ j, d n ω j * φ (b n j)) Pr :=
      (indep_past hd hind (linChain_past T b s0 n (φ ∘ₗ T n))).comp measurable_id h3
    have hN : Pr.map (fun ω => ∑ j, d n ω j * φ (b n j)) = gaussianReal 0 (Real.toNNReal (∑ j, φ (b n j) ^ 2)) := by
      rw [← normal_sum, ← hlaw n, Measure.map_map h3 (hd n)]
      rfl
    have h := gaussianReal_add_gaussianReal_of_indepFun hI (ih (φ ∘ₗ T n)) hN
    rw [add_zero, ← Real.toNNReal_add (linVar_nonneg _ _ _ _) (Finset.sum_nonneg fun _ _ => sq_nonneg _)] at h
    exact h

end

/-- Normal laws depend continuously on mean and variance. -/
theorem gaussian_tendsto {f : ℝ → ℝ} (hf : Continuous f) {M : ℝ} (hM : ∀ x, |f x| ≤ M) {m : ℕ → ℝ} {v : ℕ → ℝ} {m₀ v₀ : ℝ}
    (hm : Tendsto m atTop (𝓝 m₀)) (hv : Tendsto v atTop (𝓝 v₀)) :
    Tendsto (fun n => ∫ x, f x ∂gaussianReal (m n) (Real.toNNReal (v n))) atTop (𝓝 (∫ x, f x ∂gaussianReal m₀ (Real.toNNReal v₀))) := by
  have e : ∀ (a c : ℝ), ∫ x, f x ∂gaussianReal a (Real.toNNReal c) = ∫ x, f (a + Real.sqrt c * x) ∂gaussianReal 0 1 := by
    intro a c
    have h1 : (gaussianReal 0 1).map (fun x => a + Real.sqrt c * x) = gaussianReal a (Real.toNNReal c) := by
      have h2 := gaussianReal_map_const_mul (μ := 0) (v := 1) (Real.sqrt c)
      have h3 := gaussianReal_map_const_add (μ := Real.sqrt c * 0) (v := .mk (Real.sqrt c ^ 2) (sq_nonneg _) * 1) a
      rw [← h2, Measure.map_map (by fun_prop) (by fun_prop)] at h3
      refine h3.trans ?_
      congr 1
      · simp
      · rw [mul_one]
        rcases le_total 0 c with hc | hc
        · ext; simp [Real.sq_sqrt hc, Real.coe_toNNReal _ hc]
        · ext; simp [Real.sqrt_eq_zero_of_nonpos hc, Real.toNNReal_of_nonpos hc]
    rw [← h1, integral_map (by fun_prop) hf.aestronglyMeasurable]
  simp only [e]
  refine tendsto_integral_of_dominated_convergence (fun _ => M) (fun n => by fun_prop) (integrable_const M)
    (fun n => ae_of_all _ fun x => by simpa using hM _) (ae_of_all _ fun x => ?_)
  refine (hf.tendsto _).comp (hm.add (Tendsto.mul_const x ?_))
  exact (Real.continuous_sqrt.tendsto _).comp hv

/-- Recursions with vanishing perturbations and contractions whose product vanishes. -/
theorem robbins_monro_zero {u γ δ : ℕ → ℝ} (hu : ∀ n, 0 ≤ u n) {N : ℕ} (hγ0 : ∀ n, 0 ≤ γ n) (hγ1 : ∀ n, N ≤ n → γ n ≤ 1)
    (hγ : ¬ Summable γ) (hδ : Tendsto δ atTop (𝓝 0)) (h : ∀ n, N ≤ n → u (n + 1) ≤ (1 - γ n) * u n + γ n * δ n) :
    Tendsto u atTop (𝓝 0) := by
  have hdiv := (not_summable_iff_tendsto_nat_atTop_of_nonneg hγ0).mp hγ
  rw [Metric.tendsto_atTop] at hδ ⊢
  intro η hη
  obtain ⟨N1, hN1⟩ := hδ (η / 2) (by linarith)
  set K := max N N1 with hK
  have hstep : ∀ k, u (K + k) - η / 2 ≤ Real.exp (-(∑ i ∈ Finset.range k, γ (K + i))) * max (u K - η / 2) 0 := by
    intro k
    induction k with
    | zero => simp
    | succ k ih =>
      have h1 := h (K + k) (by omega)
      have hd := hN1 (K + k) (by omega)
      rw [Real.dist_eq, sub_zero, abs_lt] at hd
      have hg0 := hγ0 (K + k)
      have hg1 := hγ1 (K + k) (by omega)
      have h2 : u (K + (k + 1)) - η / 2 ≤ (1 - γ (K + k)) * (u (K + k) - η / 2) := by
        rw [show K + (k + 1) = K + k + 1 by ring]
        nlinarith
      have h3 : 1 - γ (K + k) ≤ Real.exp (-γ (K + k)) := by have := Real.add_one_le_exp (-γ (K + k)); linarith
      have hE : 0 ≤ Real.exp (-(∑ i ∈ Finset.range k, γ (K + i))) * max (u K - η / 2) 0 := by positivity
      calc u (K + (k + 1)) - η / 2 ≤ (1 - γ (K + k)) * (u (K + k) - η / 2) := h2
        _ ≤ (1 - γ (K + k)) * (Real.exp (-(∑ i ∈ Finset.range k, γ (K + i))) * max (u K - η / 2) 0) := mul_le_mul_of_nonneg_left ih (by linarith)
        _ ≤ Real.exp (-γ (K + k)) * (Real.exp (-(∑ i ∈ Finset.range k, γ (K + i))) * max (u K - η / 2) 0) := mul_le_mul_of_nonneg_right h3 hE
        _ = _ := by rw [Finset.sum_range_succ, neg_add, Real.exp_add]; ring
  have hdiv' : Tendsto (fun k => ∑ i ∈ Finset.range k, γ (K + i)) atTop atTop := by
    have h1 : Tendsto (fun k => (∑ i ∈ Finset.range (K + k), γ i) + -(∑ i ∈ Finset.range K, γ i)) atTop atTop := by
      refine tendsto_atTop_add_const_right _ _ ?_
      exact hdiv.comp (tendsto_add_atTop_nat K |>.congr fun k => add_comm k K)
    refine h1.congr fun k => ?_
    rw [Finset.sum_range_add]; ring
  have hlim : Tendsto (fun k => Real.exp (-(∑ i ∈ Finset.range k, γ (K + i))) * max (u K - η / 2) 0) atTop (𝓝 (0 * max (u K - η / 2) 0)) :=
    (Real.tendsto_exp_atBot.comp (tendsto_neg_atTop_atBot.comp hdiv')).mul_const _
  rw [zero_mul, Metric.tendsto_atTop] at hlim
  obtain ⟨k0, hk0⟩ := hlim (η / 2) (by linarith)
  refine ⟨K + k0, fun n hn => ?_⟩
  obtain ⟨k, rfl⟩ := Nat.exists_eq_add_of_le (show K ≤ n by omega)
  have h1 := hk0 k (by omega)
  rw [Real.dist_eq, sub_zero, abs_lt] at h1
  rw [Real.dist_eq, sub_zero, abs_of_nonneg (hu _)]
  linarith [hstep k]

end Edward
