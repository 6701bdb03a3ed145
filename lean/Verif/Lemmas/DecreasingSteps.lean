/-
Linear chains with symmetric drift and decreasing step sizes, driven by normal draws: limits
of their laws, and of averages along them.
-/
import Verif.Lemmas.GaussianPosterior
import Mathlib.Analysis.Asymptotics.SpecificAsymptotics

namespace Edward

open MeasureTheory ProbabilityTheory Filter Topology NNReal ENNReal Matrix

/-! ### One coordinate -/

/-- Step sizes that vanish, but slower than `1/n`, with infinite sum. -/
structure StepSizes (ε : ℕ → ℝ) : Prop where
  pos : ∀ n, 0 < ε n
  zero : Tendsto ε atTop (𝓝 0)
  sum : ¬ Summable ε
  slow : Tendsto (fun n : ℕ => 1 / ((n + 2 : ℝ) * ε n)) atTop (𝓝 0)

/-- Variance along an eigenvector with eigenvalue `l`. -/
noncomputable def arVar (ε : ℕ → ℝ) (l : ℝ) : ℕ → ℝ
  | 0 => 0
  | n + 1 => (1 - ε n / 2 * l) ^ 2 * arVar ε l n + ε n

/-- Influence of the state at step `k` on the state at step `n`. -/
noncomputable def arDecay (ε : ℕ → ℝ) (l : ℝ) (k n : ℕ) : ℝ := ∏ j ∈ Finset.Ico k n, (1 - ε j / 2 * l)

theorem arVar_nonneg {ε : ℕ → ℝ} (h : ∀ n, 0 < ε n) (l : ℝ) (n : ℕ) : 0 ≤ arVar ε l n := by
  induction n with
  | zero => exact le_rfl
  | succ n ih => exact add_nonneg (mul_nonneg (sq_nonneg _) ih) (h n).le

section
variable {ε : ℕ → ℝ} (h : StepSizes ε) {l : ℝ} (hl : 0 < l)
include h hl

omit hl in
theorem StepSizes.small : ∃ N, ∀ n, N ≤ n → ε n / 2 * l ≤ 1 := by
  have h1 : Tendsto (fun n => ε n / 2 * l) atTop (𝓝 (0 / 2 * l)) := (h.zero.div_const 2).mul_const l
  rw [zero_div, zero_mul] at h1
  obtain ⟨N, hN⟩ := eventually_atTop.mp (h1.eventually (ge_mem_nhds (show (0 : ℝ) < 1 by norm_num)))
  exact ⟨N, hN⟩

theorem StepSizes.gamma_pos (n : ℕ) : 0 < ε n / 2 * l := mul_pos (half_pos (h.pos n)) hl

theorem StepSizes.gamma_sum : ¬ Summable (fun n => ε n / 2 * l) := by
  intro hs
  refine h.sum ((hs.mul_right (2 / l)).congr fun n => ?_)
  have := hl.ne'
  field_simp

theorem arVar_tendsto : Tendsto (arVar ε l) atTop (𝓝 (1 / l)) := by
  obtain ⟨N, hN⟩ := h.small (l := l)
  have h1 : Tendsto (fun n => |arVar ε l n - 1 / l|) atTop (𝓝 0) := by
    refine robbins_monro_zero (γ := fun n => ε n / 2 * l) (δ := fun n => ε n / 2 * l / l) (fun n => abs_nonneg _)
      (fun n => (h.gamma_pos hl n).le) hN (h.gamma_sum hl) ?_ fun n hn => ?_
    · have h2 : Tendsto (fun n => ε n / 2 * l / l) atTop (𝓝 (0 / 2 * l / l)) := ((h.zero.div_const 2).mul_const l).div_const l
      simpa using h2
    · have hg0 := h.gamma_pos hl n
      have hg1 := hN n hn
      have e : arVar ε l (n + 1) - 1 / l = (1 - ε n / 2 * l) ^ 2 * (arVar ε l n - 1 / l) + (ε n / 2 * l) * (ε n / 2 * l / l) := by
        simp only [arVar]
        have := hl.ne'
        field_simp
        ring
      rw [e]
      refine (abs_add_le _ _).trans (add_le_add ?_ (abs_of_nonneg (by positivity)).le)
      rw [abs_mul, abs_of_nonneg (sq_nonneg _)]
      refine mul_le_mul_of_nonneg_right ?_ (abs_nonneg _)
      nlinarith
  have h2 := (tendsto_zero_iff_abs_tendsto_zero _).mpr h1
  have h3 := h2.add_const (1 / l)
  simpa using h3

omit h hl in
theorem arDecay_succ {k n : ℕ} (hk : k ≤ n) : arDecay ε l k (n + 1) = (1 - ε n / 2 * l) * arDecay ε l k n := by
  unfold arDecay
  rw [Finset.prod_Ico_succ_top hk, mul_comm]

omit h hl in
theorem arDecay_self (n : ℕ) : arDecay ε l n n = 1 := by simp [arDecay]

theorem arDecay_tendsto : Tendsto (arDecay ε l 0) atTop (𝓝 0) := by
  obtain ⟨N, hN⟩ := h.small (l := l)
  have h1 : Tendsto (fun n => |arDecay ε l 0 n|) atTop (𝓝 0) := by
    refine robbins_monro_zero (γ := fun n => ε n / 2 * l) (δ := fun _ => 0) (fun n => abs_nonneg _)
      (fun n => (h.gamma_pos hl n).le) hN (h.gamma_sum hl) tendsto_const_nhds fun n hn => ?_
    rw [arDecay_succ (Nat.zero_le n), abs_mul, mul_zero, add_zero, abs_of_nonneg (by linarith [hN n hn])]
  exact (tendsto_zero_iff_abs_tendsto_zero _).mpr h1

theorem arDecay_bounded : ∃ K, ∀ k n, |arDecay ε l k n| ≤ K := by
  obtain ⟨N, hN⟩ := h.small (l := l)
  obtain ⟨M, hM⟩ : ∃ M, ∀ j, |1 - ε j / 2 * l| ≤ M := by
    have h1 : Tendsto (fun n => 1 - ε n / 2 * l) atTop (𝓝 (1 - 0 / 2 * l)) := ((h.zero.div_const 2).mul_const l).const_sub 1
    obtain ⟨M, hM⟩ := (Metric.isBounded_range_of_tendsto _ h1).exists_norm_le
    exact ⟨M, fun j => hM _ ⟨j, rfl⟩⟩
  refine ⟨(max M 1) ^ N, fun k n => ?_⟩
  unfold arDecay
  rw [Finset.abs_prod]
  calc ∏ j ∈ Finset.Ico k n, |1 - ε j / 2 * l| ≤ ∏ j ∈ Finset.Ico k n, (if j < N then max M 1 else 1) := by
        refine Finset.prod_le_prod (fun _ _ => abs_nonneg _) fun j _ => ?_
        split
        · exact (hM j).trans (le_max_left _ _)
        · have h1 := h.gamma_pos hl j
          have h2 := hN j (by omega)
          rw [abs_le]; constructor <;> linarith
    _ = (max M 1) ^ ((Finset.Ico k n).filter (· < N)).card := by
        rw [Finset.prod_ite, Finset.prod_const, Finset.prod_const_one, mul_one]
    _ ≤ (max M 1) ^ N := by
        refine pow_le_pow_right₀ (le_max_right _ _) ?_
        calc ((Finset.Ico k n).filter (· < N)).card ≤ (Finset.range N).card := Finset.card_le_card fun j hj => by
              simpa using (Finset.mem_filter.mp hj).2
          _ = N := Finset.card_range N

theorem arDecay_sum : Tendsto (fun n : ℕ => (∑ k ∈ Finset.range (n + 1), |arDecay ε l k n|) / (n + 1 : ℝ)) atTop (𝓝 0) := by
  obtain ⟨N, hN⟩ := h.small (l := l)
  refine robbins_monro_zero (γ := fun n => ε n / 2 * l) (δ := fun n => 2 / l * (1 / ((n + 2 : ℝ) * ε n))) (fun n => by positivity)
    (fun n => (h.gamma_pos hl n).le) hN (h.gamma_sum hl) ?_ fun n hn => ?_
  · have := h.slow.const_mul (2 / l)
    simpa using this
  · have hg0 := h.gamma_pos hl n
    have hg1 := hN n hn
    have hε := h.pos n
    set S := ∑ k ∈ Finset.range (n + 1), |arDecay ε l k n| with hS
    have hS0 : 0 ≤ S := Finset.sum_nonneg fun _ _ => abs_nonneg _
    have e : ∑ k ∈ Finset.range (n + 1 + 1), |arDecay ε l k (n + 1)| = (1 - ε n / 2 * l) * S + 1 := by
      rw [Finset.sum_range_succ, arDecay_self, abs_one, hS, Finset.mul_sum]
      congr 1
      refine Finset.sum_congr rfl fun k hk => ?_
      rw [arDecay_succ (by simpa [Nat.lt_succ_iff] using hk), abs_mul, abs_of_nonneg (by linarith)]
    rw [e]
    have e2 : ε n / 2 * l * (2 / l * (1 / ((n + 2 : ℝ) * ε n))) = 1 / (n + 2 : ℝ) := by
      have h1 := hl.ne'
      have h2 := hε.ne'
      field_simp
    rw [e2]
    push_cast
    rw [show (n : ℝ) + 1 + 1 = n + 2 by ring, add_div]
    have : (1 - ε n / 2 * l) * S / (n + 2 : ℝ) ≤ (1 - ε n / 2 * l) * (S / (n + 1)) := by
      rw [mul_div_assoc]
      refine mul_le_mul_of_nonneg_left ?_ (by linarith)
      exact div_le_div_of_nonneg_left hS0 (by positivity) (by linarith)
    linarith

end

/-! ### Averages -/

/-- Averages of weakly correlated quantities converge in mean square. -/
theorem l2_average {Ω : Type} [MeasurableSpace Ω] {Pr : Measure Ω} [IsProbabilityMeasure Pr] {F : ℕ → Ω → ℝ} (hF : ∀ n, MemLp (F n) 2 Pr) {a : ℝ}
    (hmean : Tendsto (fun n => ∫ ω, F n ω ∂Pr) atTop (𝓝 a)) {ρ : ℕ → ℕ → ℝ}
    (hcov : ∀ k n, k ≤ n → |∫ ω, (F k ω - ∫ ω, F k ω ∂Pr) * (F n ω - ∫ ω, F n ω ∂Pr) ∂Pr| ≤ ρ k n)
    (hρ : Tendsto (fun n : ℕ => (∑ k ∈ Finset.range (n + 1), ρ k n) / (n + 1 : ℝ)) atTop (𝓝 0)) :
    Tendsto (fun N : ℕ => ∫ ω, ((∑ i ∈ Finset.range N, F i ω) / N - a) ^ 2 ∂Pr) atTop (𝓝 0) := by
  set c : ℕ → ℝ := fun n => ∫ ω, F n ω ∂Pr with hc
  set D : ℕ → Ω → ℝ := fun n ω => F n ω - c n with hD
  have hD2 : ∀ n, MemLp (D n) 2 Pr := fun n => (hF n).sub (memLp_const _)
  have hSm : ∀ N, MemLp (fun ω => ∑ i ∈ Finset.range N, D i ω) 2 Pr := fun N => memLp_finsetSum _ fun i _ => hD2 i
  set r : ℕ → ℝ := fun n => ∑ k ∈ Finset.range (n + 1), ρ k n with hr
  have hρ0 : ∀ k n, k ≤ n → 0 ≤ ρ k n := fun k n hk => (abs_nonneg _).trans (hcov k n hk)
  have hr0 : ∀ n, 0 ≤ r n := fun n => Finset.sum_nonneg fun k hk => hρ0 k n (by simpa [Nat.lt_succ_iff] using hk)
  have hS : ∀ N, ∫ ω, (∑ i ∈ Finset.range N, D i ω) ^ 2 ∂Pr ≤ 2 * ∑ n ∈ Finset.range N, r n := by
    intro N
    induction N with
    | zero => simp
    | succ N ih =>
      have hint : ∀ k, Integrable (fun ω => D k ω * D N ω) Pr := fun k => (hD2 k).integrable_mul (hD2 N)
      have hcross : ∫ ω, (∑ i ∈ Finset.range N, D i ω) * D N ω ∂Pr ≤ ∑ i ∈ Finset.range N, ρ i N := by
        simp only [Finset.sum_mul]
        rw [integral_finsetSum _ fun i _ => hint i]
        refine Finset.sum_le_sum fun i hi => (le_abs_self _).trans (hcov i N ?_)
        exact (Finset.mem_range.mp hi).le
      have hself : ∫ ω, D N ω * D N ω ∂Pr ≤ ρ N N := (le_abs_self _).trans (hcov N N le_rfl)
      have e : ∀ ω, (∑ i ∈ Finset.range (N + 1), D i ω) ^ 2 =
          ((∑ i ∈ Finset.range N, D i ω) ^ 2 + 2 * ((∑ i ∈ Finset.range N, D i ω) * D N ω)) + D N ω * D N ω := by
        intro ω; rw [Finset.sum_range_succ]; ring
      have hi1 : Integrable (fun ω => (∑ i ∈ Finset.range N, D i ω) ^ 2) Pr := (hSm N).integrable_sq
      have hi2 : Integrable (fun ω => 2 * ((∑ i ∈ Finset.range N, D i ω) * D N ω)) Pr := ((hSm N).integrable_mul (hD2 N)).const_mul 2
      have hi3 : Integrable (fun ω => (∑ i ∈ Finset.range N, D i ω) ^ 2 + 2 * ((∑ i ∈ Finset.range N, D i ω) * D N ω)) Pr := hi1.add hi2
      simp only [e]
      rw [integral_add hi3 (hint N), integral_add hi1 hi2, integral_const_mul, Finset.sum_range_succ]
      have : r N = (∑ i ∈ Finset.range N, ρ i N) + ρ N N := Finset.sum_range_succ _ _
      have h0 := hρ0 N N le_rfl
      linarith
  have hces : Tendsto (fun N : ℕ => (∑ n ∈ Finset.range N, c n) / N) atTop (𝓝 a) := by
    have := hmean.cesaro
    refine this.congr fun N => ?_
    rw [div_eq_inv_mul]
  have hces2 : Tendsto (fun N : ℕ => 4 * ((∑ n ∈ Finset.range N, r n / (n + 1 : ℝ)) / N) + 2 * ((∑ n ∈ Finset.range N, c n) / N - a) ^ 2) atTop (𝓝 (4 * 0 + 2 * (a - a) ^ 2)) := by
    refine Tendsto.add (Tendsto.const_mul _ ?_) (((hces.sub_const a).pow 2).const_mul 2)
    exact hρ.cesaro.congr fun N => by rw [div_eq_inv_mul]
  rw [sub_self, zero_pow two_ne_zero, mul_zero, mul_zero, add_zero] at hces2
  refine squeeze_zero' (Eventually.of_forall fun N => integral_nonneg fun ω => sq_nonneg _) ?_ hces2
  filter_upwards [eventually_gt_atTop 0] with N hN
  have hNr : (0 : ℝ) < N := by exact_mod_cast hN
  have hb : ∀ ω, ((∑ i ∈ Finset.range N, F i ω) / N - a) ^ 2 ≤
      2 / (N : ℝ) ^ 2 * (∑ i ∈ Finset.range N, D i ω) ^ 2 + 2 * ((∑ n ∈ Finset.range N, c n) / N - a) ^ 2 := by
    intro ω
    have e : (∑ i ∈ Finset.range N, F i ω) / N - a = (∑ i ∈ Finset.range N, D i ω) / N + ((∑ n ∈ Finset.range N, c n) / N - a) := by
      simp only [hD, Finset.sum_sub_distrib]; ring
    rw [e, div_mul_eq_mul_div, mul_div_assoc, ← div_pow]
    nlinarith [sq_nonneg ((∑ i ∈ Finset.range N, D i ω) / N - ((∑ n ∈ Finset.range N, c n) / N - a))]
  have hi1 : Integrable (fun ω => 2 / (N : ℝ) ^ 2 * (∑ i ∈ Finset.range N, D i ω) ^ 2) Pr := (hSm N).integrable_sq.const_mul _
  have hi2 : Integrable (fun ω => 2 / (N : ℝ) ^ 2 * (∑ i ∈ Finset.range N, D i ω) ^ 2 + 2 * ((∑ n ∈ Finset.range N, c n) / N - a) ^ 2) Pr :=
    hi1.add (integrable_const _)
  refine (integral_mono_of_nonneg (ae_of_all _ fun ω => sq_nonneg _) hi2 (ae_of_all _ hb)).trans ?_
  rw [integral_add hi1 (integrable_const _), integral_const_mul]
  simp only [integral_const, probReal_univ, one_smul]
  have hs := hS N
  have hs2 : (∑ n ∈ Finset.range N, r n) / N ≤ ∑ n ∈ Finset.range N, r n / (n + 1 : ℝ) := by
    rw [Finset.sum_div]
    refine Finset.sum_le_sum fun n hn => div_le_div_of_nonneg_left (hr0 n) (by positivity) ?_
    have : n + 1 ≤ N := Finset.mem_range.mp hn
    exact_mod_cast this
  have h1 : 2 / (N : ℝ) ^ 2 * ∫ ω, (∑ i ∈ Finset.range N, D i ω) ^ 2 ∂Pr ≤ 4 * ((∑ n ∈ Finset.range N, r n / (n + 1 : ℝ)) / N) := by
    calc 2 / (N : ℝ) ^ 2 * ∫ ω, (∑ i ∈ Finset.range N, D i ω) ^ 2 ∂Pr ≤ 2 / (N : ℝ) ^ 2 * (2 * ∑ n ∈ Finset.range N, r n) := by gcongr
      _ = 4 * (((∑ n ∈ Finset.range N, r n) / N) / N) := by field_simp; ring
      _ ≤ _ := by gcongr
  linarith

/-! ### The chain -/

section
variable {ι : Type} [Fintype ι] [DecidableEq ι]

/-- `s ↦ s - (ε/2) H s`. -/
noncomputable def symStep (ε : ℕ → ℝ) (H : Matrix ι ι ℝ) (n : ℕ) : (ι → ℝ) →ₗ[ℝ] (ι → ℝ) := LinearMap.id - (ε n / 2) • Matrix.mulVecLin H

/-- Independent noise of variance `ε` in every coordinate. -/
noncomputable def symNoise (ε : ℕ → ℝ) (n : ℕ) (j : ι) : ι → ℝ := Real.sqrt (ε n) • Pi.single j 1

/-- The functional `w ⬝ᵥ ·`. -/
def dotL (w : ι → ℝ) : (ι → ℝ) →ₗ[ℝ] ℝ := ∑ i, w i • LinearMap.proj i

omit [DecidableEq ι] in
theorem dotL_apply (w s : ι → ℝ) : dotL w s = w ⬝ᵥ s := by simp [dotL, dotProduct]

/-- Propagation of the state at step `k` to step `n`. -/
noncomputable def symProp (ε : ℕ → ℝ) (U : Matrix ι ι ℝ) (l : ι → ℝ) (k n : ℕ) (s : ι → ℝ) : ι → ℝ :=
  U *ᵥ (fun i => arDecay ε (l i) k n * (Uᵀ *ᵥ s) i)

variable {ε : ℕ → ℝ} {H U : Matrix ι ι ℝ} {l : ι → ℝ}

theorem eigen_coord (hU : Uᵀ * U = 1) (hH : H = U * diagonal l * Uᵀ) (s : ι → ℝ) (i : ι) :
    (Uᵀ *ᵥ (H *ᵥ s)) i = l i * (Uᵀ *ᵥ s) i := by
  rw [hH, mulVec_mulVec, ← Matrix.mul_assoc, ← Matrix.mul_assoc, hU, Matrix.one_mul, ← mulVec_mulVec, mulVec_diagonal]

theorem eigen_sq (hU' : U * Uᵀ = 1) (w : ι → ℝ) : ∑ i, (Uᵀ *ᵥ w) i ^ 2 = ∑ i, w i ^ 2 := by
  have h : (Uᵀ *ᵥ w) ⬝ᵥ (Uᵀ *ᵥ w) = w ⬝ᵥ w := by
    rw [dotProduct_mulVec, vecMul_transpose, mulVec_mulVec, hU', one_mulVec]
  simpa [dotProduct, sq] using h

theorem eigen_symm (hH : H = U * diagonal l * Uᵀ) (w s : ι → ℝ) : w ⬝ᵥ (H *ᵥ s) = (H *ᵥ w) ⬝ᵥ s := by
  have h : Hᵀ = H := by
    rw [hH, transpose_mul, transpose_mul, transpose_transpose, diagonal_transpose, Matrix.mul_assoc]
  rw [dotProduct_mulVec, ← mulVec_transpose, h]

theorem symStep_symProp (hU : Uᵀ * U = 1) (hH : H = U * diagonal l * Uᵀ) {k n : ℕ} (hk : k ≤ n) (s : ι → ℝ) :
    symStep ε H n (symProp ε U l k n s) = symProp ε U l k (n + 1) s := by
  have e : ∀ z : ι → ℝ, H *ᵥ (U *ᵥ z) = U *ᵥ (fun i => l i * z i) := by
    intro z
    rw [hH, mulVec_mulVec, Matrix.mul_assoc, hU, Matrix.mul_one, ← mulVec_mulVec]
    congr 1
    funext i
    rw [mulVec_diagonal]
  simp only [symStep, symProp, LinearMap.sub_apply, LinearMap.id_apply, LinearMap.smul_apply, mulVecLin_apply]
  rw [e, ← mulVec_smul, ← mulVec_sub]
  congr 1
  funext i
  simp only [Pi.sub_apply, Pi.smul_apply, smul_eq_mul]
  rw [arDecay_succ hk]; ring

theorem symProp_self (hU' : U * Uᵀ = 1) (n : ℕ) (s : ι → ℝ) : symProp ε U l n n s = s := by
  simp only [symProp, arDecay_self, one_mul]
  change U *ᵥ (Uᵀ *ᵥ s) = s
  rw [mulVec_mulVec, hU', one_mulVec]

theorem symMean (hU : Uᵀ * U = 1) (hU' : U * Uᵀ = 1) (hH : H = U * diagonal l * Uᵀ) (s0 : ι → ℝ) (n : ℕ) :
    linMean (symStep ε H) s0 n = symProp ε U l 0 n s0 := by
  induction n with
  | zero => exact (symProp_self hU' 0 s0).symm
  | succ n ih => rw [linMean, ih, symStep_symProp hU hH (Nat.zero_le n)]

theorem symVar (hε : ∀ n, 0 < ε n) (hU : Uᵀ * U = 1) (hU' : U * Uᵀ = 1) (hH : H = U * diagonal l * Uᵀ) (n : ℕ) (w : ι → ℝ) :
    linVar (symStep ε H) (symNoise ε) n (dotL w) = ∑ i, (Uᵀ *ᵥ w) i ^ 2 * arVar ε (l i) n := by
  induction n generalizing w with
  | zero => simp [linVar, arVar]
  | succ n ih =>
    have e1 : dotL w ∘ₗ symStep ε H n = dotL (symStep ε H n w) := by
      refine LinearMap.ext fun s => ?_
      rw [LinearMap.comp_apply, dotL_apply, dotL_apply]
      simp only [symStep, LinearMap.sub_apply, LinearMap.id_apply, LinearMap.smul_apply, mulVecLin_apply]
      rw [dotProduct_sub, sub_dotProduct, dotProduct_smul, smul_dotProduct, eigen_symm hH]
    have e2 : ∀ i, (Uᵀ *ᵥ (symStep ε H n w)) i = (1 - ε n / 2 * l i) * (Uᵀ *ᵥ w) i := by
      intro i
      simp only [symStep, LinearMap.sub_apply, LinearMap.id_apply, LinearMap.smul_apply, mulVecLin_apply]
      rw [mulVec_sub, mulVec_smul, Pi.sub_apply, Pi.smul_apply, eigen_coord hU hH, smul_eq_mul]; ring
    have e3 : ∑ j, dotL w (symNoise ε n j) ^ 2 = ε n * ∑ i, (Uᵀ *ᵥ w) i ^ 2 := by
      rw [eigen_sq hU', Finset.mul_sum]
      refine Finset.sum_congr rfl fun j _ => ?_
      rw [dotL_apply, symNoise, dotProduct_smul, smul_eq_mul, dotProduct_single, mul_one, mul_pow, Real.sq_sqrt (hε n).le]
    rw [linVar, e1, ih, e3, Finset.mul_sum, ← Finset.sum_add_distrib]
    refine Finset.sum_congr rfl fun i _ => ?_
    rw [e2, arVar]; ring

/-- The state at step `k + j` from the state at step `k` and the later draws. -/
theorem symChain_split (hU : Uᵀ * U = 1) (hU' : U * Uᵀ = 1) (hH : H = U * diagonal l * Uᵀ) (s0 : ι → ℝ) (ξ : ℕ → ι → ℝ) (k j : ℕ) :
    linChain (symStep ε H) (symNoise ε) s0 ξ (k + j) = symProp ε U l k (k + j) (linChain (symStep ε H) (symNoise ε) s0 ξ k) +
      linChain (fun i => symStep ε H (k + i)) (fun i => symNoise ε (k + i)) 0 (fun i => ξ (k + i)) j := by
  induction j with
  | zero => simp only [linChain, add_zero]; rw [symProp_self hU']
  | succ j ih =>
    rw [← add_assoc, linChain, ih, map_add, symStep_symProp hU hH (by omega), linChain, add_assoc]

/-! ### Its law -/

variable {Ω : Type} [MeasurableSpace Ω]

/-- Independent draws of standard normal vectors. -/
structure NormalDraws (Pr : Measure Ω) (d : ℕ → Ω → (ι → ℝ)) : Prop where
  meas : ∀ i, Measurable (d i)
  law : ∀ i, Pr.map (d i) = Measure.pi (fun _ => gaussianReal 0 1)
  indep : iIndepFun d Pr

omit [DecidableEq ι] [MeasurableSpace Ω] in
theorem measurable_of_dotL {m : MeasurableSpace Ω} {g : Ω → ι → ℝ} (h : ∀ w, Measurable (fun ω => dotL w (g ω))) : Measurable g := by
  classical
  refine measurable_pi_iff.mpr fun i => ?_
  have := h (Pi.single i 1)
  simpa [dotL_apply] using this

theorem symChain_past (s0 : ι → ℝ) (d : ℕ → Ω → (ι → ℝ)) (n : ℕ) :
    Measurable[past d n] (fun ω => linChain (symStep ε H) (symNoise ε) s0 (fun i => d i ω) n) := by
  refine measurable_of_dotL (m := past d n) fun w => ?_
  exact linChain_past _ _ _ n _

variable {Pr : Measure Ω} [IsProbabilityMeasure Pr] {d : ℕ → Ω → (ι → ℝ)}

omit [IsProbabilityMeasure Pr] in
theorem symChain_measurable (hd : NormalDraws Pr d) (s0 : ι → ℝ) (n : ℕ) :
    Measurable (fun ω => linChain (symStep ε H) (symNoise ε) s0 (fun i => d i ω) n) :=
  (symChain_past s0 d n).mono (past_le hd.meas n) le_rfl

theorem symChain_law (hε : ∀ n, 0 < ε n) (hU : Uᵀ * U = 1) (hU' : U * Uᵀ = 1) (hH : H = U * diagonal l * Uᵀ) (hd : NormalDraws Pr d)
    (m s0 : ι → ℝ) (n : ℕ) :
    Pr.map (fun ω => m + linChain (symStep ε H) (symNoise ε) s0 (fun i => d i ω) n) =
      (Measure.pi (fun _ : ι => gaussianReal 0 1)).map
        (fun y => (m + symProp ε U l 0 n s0) + U *ᵥ (fun i => Real.sqrt (arVar ε (l i) n) * y i)) := by
  have hX : Measurable (fun ω => m + linChain (symStep ε H) (symNoise ε) s0 (fun i => d i ω) n) :=
    (symChain_measurable hd s0 n).const_add m
  have hY : Measurable (fun y : ι → ℝ => (m + symProp ε U l 0 n s0) + U *ᵥ (fun i => Real.sqrt (arVar ε (l i) n) * y i)) :=
    (continuous_const.add (Continuous.matrix_mulVec continuous_const (by fun_prop))).measurable
  have hp1 : IsProbabilityMeasure (Pr.map (fun ω => m + linChain (symStep ε H) (symNoise ε) s0 (fun i => d i ω) n)) :=
    Measure.isProbabilityMeasure_map hX.aemeasurable
  have hp2 : IsProbabilityMeasure ((Measure.pi (fun _ : ι => gaussianReal 0 1)).map
      (fun y => (m + symProp ε U l 0 n s0) + U *ᵥ (fun i => Real.sqrt (arVar ε (l i) n) * y i))) :=
    Measure.isProbabilityMeasure_map hY.aemeasurable
  refine law_ext fun w => ?_
  have hw : Measurable (fun x : ι → ℝ => w ⬝ᵥ x) := (Continuous.dotProduct continuous_const continuous_id).measurable
  rw [Measure.map_map hw hX, Measure.map_map hw hY]
  have h1 := affine_functional (m + symProp ε U l 0 n s0) U (fun i => Real.sqrt (arVar ε (l i) n)) w
  refine Eq.trans ?_ h1.symm
  have h2 := linChain_law (symStep ε H) (symNoise ε) s0 hd.meas hd.law hd.indep n (dotL w)
  have h3 := gaussianReal_map_const_add (μ := dotL w (linMean (symStep ε H) s0 n)) (v := Real.toNNReal (linVar (symStep ε H) (symNoise ε) n (dotL w))) (w ⬝ᵥ m)
  rw [← h2, Measure.map_map (by fun_prop) ((linChain_past _ _ _ n _).mono (past_le hd.meas n) le_rfl), symMean hU hU' hH, symVar hε hU hU' hH, dotL_apply] at h3
  rw [dotProduct_add, add_comm (w ⬝ᵥ m)]
  simp only [mul_pow, Real.sq_sqrt (arVar_nonneg hε _ _)]
  rw [← h3]
  congr 1
  funext ω
  simp only [Function.comp_apply, dotProduct_add, dotL_apply]

/-- Expectations of continuous functions of polynomial growth converge to those under the
law with quadratic log density. -/
theorem symChain_tendsto (h : StepSizes ε) (hl : ∀ i, 0 < l i) (hU : Uᵀ * U = 1) (hU' : U * Uᵀ = 1) (hH : H = U * diagonal l * Uᵀ)
    (hd : NormalDraws Pr d) (c : ℝ) (m s0 : ι → ℝ) {f : (ι → ℝ) → ℝ} (hf : Continuous f) {A : ℝ} {p : ℕ} (hA : ∀ x, |f x| ≤ A * (1 + ‖x‖) ^ p) :
    (∀ n, Integrable (fun ω => f (m + linChain (symStep ε H) (symNoise ε) s0 (fun i => d i ω) n)) Pr) ∧
    Tendsto (fun n => ∫ ω, f (m + linChain (symStep ε H) (symNoise ε) s0 (fun i => d i ω) n) ∂Pr) atTop
      (𝓝 (∫ x, f x ∂fromLogDensity (fun x => c - (1 / 2) * ((x - m) ⬝ᵥ (H *ᵥ (x - m)))))) := by
  have hX : ∀ n, Measurable (fun ω => m + linChain (symStep ε H) (symNoise ε) s0 (fun i => d i ω) n) := fun n =>
    (symChain_measurable hd s0 n).const_add m
  have hY : ∀ (a σ : ι → ℝ), Measurable (fun y : ι → ℝ => a + U *ᵥ (fun i => σ i * y i)) := fun a σ =>
    (continuous_const.add (Continuous.matrix_mulVec continuous_const (by fun_prop))).measurable
  have ha : Tendsto (fun n => m + symProp ε U l 0 n s0) atTop (𝓝 (m + U *ᵥ (fun i => 0 * (Uᵀ *ᵥ s0) i))) := by
    refine tendsto_const_nhds.add ?_
    have h1 : Tendsto (fun n => fun i => arDecay ε (l i) 0 n * (Uᵀ *ᵥ s0) i) atTop (𝓝 (fun i => 0 * (Uᵀ *ᵥ s0) i)) :=
      tendsto_pi_nhds.mpr fun i => (arDecay_tendsto h (hl i)).mul_const _
    exact ((Continuous.matrix_mulVec continuous_const continuous_id : Continuous fun z : ι → ℝ => U *ᵥ z).tendsto _).comp h1
  have ha' : m + U *ᵥ (fun i => 0 * (Uᵀ *ᵥ s0) i) = m := by
    simp only [zero_mul]
    change m + U *ᵥ 0 = m
    rw [mulVec_zero, add_zero]
  rw [ha'] at ha
  have hσ : Tendsto (fun n => fun i => Real.sqrt (arVar ε (l i) n)) atTop (𝓝 (fun i => Real.sqrt (1 / l i))) :=
    tendsto_pi_nhds.mpr fun i => (Real.continuous_sqrt.tendsto _).comp (arVar_tendsto h (hl i))
  have h1 := affine_tendsto hf hA U ha hσ
  refine ⟨fun n => ?_, ?_⟩
  · have h2 := h1.1 n
    have h3 := symChain_law h.pos hU hU' hH hd m s0 n
    have h4 : Integrable f (Pr.map (fun ω => m + linChain (symStep ε H) (symNoise ε) s0 (fun i => d i ω) n)) := by
      rw [h3, integrable_map_measure hf.aestronglyMeasurable (hY _ _).aemeasurable]
      exact h2
    exact (integrable_map_measure hf.aestronglyMeasurable (hX n).aemeasurable).mp h4
  · rw [quadratic_law_std hl hU hH, integral_map (hY _ _).aemeasurable hf.aestronglyMeasurable]
    refine h1.2.congr fun n => ?_
    rw [← integral_map (hX n).aemeasurable hf.aestronglyMeasurable, symChain_law h.pos hU hU' hH hd m s0 n,
      integral_map (hY _ _).aemeasurable hf.aestronglyMeasurable]

/-! ### Averages along it -/

omit [Fintype ι] [DecidableEq ι] [IsProbabilityMeasure Pr] in
/-- What is known before step `k` is independent of the draws from step `k` on. -/
theorem indep_later (hd : ∀ i, Measurable (d i)) (hind : iIndepFun d Pr) {X Y : Type} [MeasurableSpace X] [MeasurableSpace Y] {k j : ℕ}
    {A : Ω → X} {B : Ω → Y} (hA : Measurable[past d k] A) (hB : Measurable[past (fun i => d (k + i)) j] B) : IndepFun A B Pr := by
  have h := indep_iSup_of_disjoint (μ := Pr) (m := fun i => MeasurableSpace.comap (d i) inferInstance)
    (fun i => (hd i).comap_le) hind (S := {i | i < k}) (T := {i | k ≤ i}) (by
      rw [Set.disjoint_left]; intro i h1 h2; simp only [Set.mem_ofPred_eq] at h1 h2; omega)
  have hle : past (fun i => d (k + i)) j ≤ ⨆ i ∈ {i | k ≤ i}, MeasurableSpace.comap (d i) inferInstance :=
    iSup₂_le fun i _ => le_iSup₂_of_le (f := fun i (_ : i ∈ {i | k ≤ i}) => MeasurableSpace.comap (d i) inferInstance) (k + i)
      (by simp) le_rfl
  exact indep_of_indep_of_le_left (indep_of_indep_of_le_right h (hB.comap_le.trans hle)) hA.comap_le

omit [DecidableEq ι] in
theorem symProp_norm : ∃ B, 0 ≤ B ∧ ∀ k n s, ‖symProp ε U l k n s‖ ≤ B * (∑ i, |arDecay ε (l i) k n|) * ‖s‖ := by
  set L := LinearMap.toContinuousLinearMap (Matrix.mulVecLin U)
  set L' := LinearMap.toContinuousLinearMap (Matrix.mulVecLin Uᵀ)
  refine ⟨‖L‖ * ‖L'‖, by positivity, fun k n s => ?_⟩
  have h1 : ‖symProp ε U l k n s‖ ≤ ‖L‖ * ‖(fun i => arDecay ε (l i) k n * (Uᵀ *ᵥ s) i)‖ := L.le_opNorm _
  have h2 : ‖(fun i => arDecay ε (l i) k n * (Uᵀ *ᵥ s) i)‖ ≤ (∑ i, |arDecay ε (l i) k n|) * (‖L'‖ * ‖s‖) := by
    have h0 : 0 ≤ ∑ i, |arDecay ε (l i) k n| := Finset.sum_nonneg fun _ _ => abs_nonneg _
    refine (pi_norm_le_iff_of_nonneg (by positivity)).mpr fun i => ?_
    rw [norm_mul]
    refine mul_le_mul ?_ ((norm_le_pi_norm (Uᵀ *ᵥ s) i).trans (L'.le_opNorm s)) (norm_nonneg _) h0
    exact Finset.single_le_sum (f := fun i => |arDecay ε (l i) k n|) (fun i _ => abs_nonneg _) (Finset.mem_univ i)
  calc _ ≤ ‖L‖ * ((∑ i, |arDecay ε (l i) k n|) * (‖L'‖ * ‖s‖)) := h1.trans (mul_le_mul_of_nonneg_left h2 (norm_nonneg _))
    _ = _ := by ring

/-- Functions that vary at most like a quadratic polynomial. -/
def QuadVar (f : (ι → ℝ) → ℝ) : Prop := ∃ L, ∀ x y, |f x - f y| ≤ L * ‖x - y‖ * (1 + ‖x‖ + ‖y‖)

omit [DecidableEq ι] in
theorem QuadVar.bounds {f : (ι → ℝ) → ℝ} (h : QuadVar f) : Continuous f ∧ ∃ A, 0 ≤ A ∧ ∀ x, |f x| ≤ A * (1 + ‖x‖) ^ 2 := by
  obtain ⟨L, hL⟩ := h
  have hL' : ∀ x y, |f x - f y| ≤ |L| * ‖x - y‖ * (1 + ‖x‖ + ‖y‖) := fun x y => (hL x y).trans (by gcongr; exact le_abs_self L)
  refine ⟨continuous_iff_continuousAt.mpr fun x => ?_, |f 0| + |L|, by positivity, fun x => ?_⟩
  · rw [ContinuousAt, tendsto_iff_norm_sub_tendsto_zero]
    have h1 : Tendsto (fun y => |L| * ‖y - x‖ * (1 + ‖y‖ + ‖x‖)) (𝓝 x) (𝓝 (|L| * ‖x - x‖ * (1 + ‖x‖ + ‖x‖))) :=
      Continuous.tendsto (by fun_prop) x
    rw [sub_self, norm_zero, mul_zero, zero_mul] at h1
    exact squeeze_zero (fun y => norm_nonneg _) (fun y => hL' y x) h1
  · have h1 := hL' x 0
    rw [sub_zero, norm_zero, add_zero] at h1
    have h2 : |f x| ≤ |f 0| + |f x - f 0| := by
      have := abs_add_le (f 0) (f x - f 0); rwa [add_sub_cancel] at this
    have hx := norm_nonneg x
    nlinarith [abs_nonneg (f 0), abs_nonneg L, mul_nonneg (abs_nonneg (f 0)) hx, mul_nonneg (abs_nonneg L) hx, mul_nonneg (abs_nonneg (f 0)) (sq_nonneg ‖x‖),
      mul_nonneg (abs_nonneg L) (sq_nonneg ‖x‖)]

theorem cubic_le {a b : ℝ} (ha : 0 ≤ a) (hb : 0 ≤ b) : a ^ 3 * (b + a) ≤ 2 * (a ^ 4 + b ^ 4) := by
  have h4 : 0 ≤ a ^ 4 := by positivity
  have h5 : 0 ≤ b ^ 4 := by positivity
  rcases le_total a b with hle | hle
  · have : a ^ 3 * b ≤ b ^ 3 * b := by gcongr
    nlinarith
  · have : a ^ 3 * b ≤ a ^ 3 * a := by gcongr
    nlinarith

set_option maxHeartbeats 1000000 in
/-- Averages along the chain converge in mean square. -/
theorem symChain_average (h : StepSizes ε) (hl : ∀ i, 0 < l i) (hU : Uᵀ * U = 1) (hU' : U * Uᵀ = 1) (hH : H = U * diagonal l * Uᵀ)
    (hd : NormalDraws Pr d) (c : ℝ) (m s0 : ι → ℝ) {f : (ι → ℝ) → ℝ} (hf : QuadVar f) :
    Tendsto (fun N : ℕ => ∫ ω, ((∑ i ∈ Finset.range N, f (m + linChain (symStep ε H) (symNoise ε) s0 (fun i => d i ω) (i + 1))) / N -
      ∫ x, f x ∂fromLogDensity (fun x => c - (1 / 2) * ((x - m) ⬝ᵥ (H *ᵥ (x - m))))) ^ 2 ∂Pr) atTop (𝓝 0) := by
  obtain ⟨hfc, A, hA0, hA⟩ := hf.bounds
  obtain ⟨L, hL⟩ := hf
  obtain ⟨B, hB0, hB⟩ := symProp_norm (ε := ε) (U := U) (l := l)
  choose K hK using fun i => arDecay_bounded h (hl i)
  set τ : ℕ → ℕ → ℝ := fun k n => ∑ i, |arDecay ε (l i) k n| with hτ
  have hτ0 : ∀ k n, 0 ≤ τ k n := fun k n => Finset.sum_nonneg fun _ _ => abs_nonneg _
  set T := ∑ i, K i with hT
  have hτT : ∀ k n, τ k n ≤ T := fun k n => Finset.sum_le_sum fun i _ => hK i k n
  have hT0 : 0 ≤ T := (hτ0 0 0).trans (hτT 0 0)
  set S : ℕ → Ω → (ι → ℝ) := fun n ω => linChain (symStep ε H) (symNoise ε) s0 (fun i => d i ω) n with hS
  have hSm : ∀ n, Measurable (S n) := fun n => symChain_measurable hd s0 n
  set W : ℕ → Ω → ℝ := fun n ω => 1 + ‖m + S n ω‖ with hW
  have hW1 : ∀ n ω, 1 ≤ W n ω := fun n ω => by simp [hW]
  have hWm : ∀ n, Measurable (W n) := fun n => (((hSm n).const_add m).norm).const_add 1
  have hW4 := symChain_tendsto h hl hU hU' hH hd c m s0 (f := fun x => (1 + ‖x‖) ^ 4) (by fun_prop) (A := 1) (p := 4)
    (fun x => by rw [abs_of_nonneg (by positivity), one_mul])
  have hWi : ∀ n, Integrable (fun ω => W n ω ^ 4) Pr := hW4.1
  obtain ⟨Q, hQ⟩ : ∃ Q, ∀ n, ∫ ω, W n ω ^ 4 ∂Pr ≤ Q := by
    obtain ⟨Q, hQ⟩ := (Metric.isBounded_range_of_tendsto _ hW4.2).exists_norm_le
    exact ⟨Q, fun n => (le_abs_self _).trans (hQ _ ⟨n, rfl⟩)⟩
  have hQ0 : 0 ≤ Q := (integral_nonneg fun ω => by positivity).trans (hQ 0)
  have hfm : ∀ n, Measurable (fun ω => f (m + S n ω)) := fun n => hfc.measurable.comp ((hSm n).const_add m)
  have hfW : ∀ n ω, |f (m + S n ω)| ≤ A * W n ω ^ 2 := fun n ω => hA _
  have hF2 : ∀ n, MemLp (fun ω => f (m + S n ω)) 2 Pr := fun n => by
    rw [memLp_two_iff_integrable_sq (hfm n).aestronglyMeasurable]
    refine ((hWi n).const_mul (A ^ 2)).mono' ((hfm n).pow_const 2).aestronglyMeasurable (ae_of_all _ fun ω => ?_)
    rw [Real.norm_of_nonneg (sq_nonneg _), ← sq_abs, show A ^ 2 * W n ω ^ 4 = (A * W n ω ^ 2) ^ 2 by ring]
    exact pow_le_pow_left₀ (abs_nonneg _) (hfW n ω) 2
  have hlim := (symChain_tendsto h hl hU hU' hH hd c m s0 hfc hA).2
  set C := A * (1 + Q) * (|L| * (B * (1 + ‖m‖))) * (2 + B * T * (1 + ‖m‖)) * (4 * Q) with hC
  have hC0 : 0 ≤ C := by positivity
  have hcov : ∀ k n, k ≤ n → |∫ ω, (f (m + S k ω) - ∫ ω, f (m + S k ω) ∂Pr) * (f (m + S n ω) - ∫ ω, f (m + S n ω) ∂Pr) ∂Pr| ≤ C * τ k n := by
    intro k n hk
    obtain ⟨j, rfl⟩ := Nat.exists_eq_add_of_le hk
    set R : Ω → (ι → ℝ) := fun ω => linChain (fun i => symStep ε H (k + i)) (fun i => symNoise ε (k + i)) 0 (fun i => d (k + i) ω) j with hR
    have hsplit : ∀ ω, S (k + j) ω = symProp ε U l k (k + j) (S k ω) + R ω := fun ω => symChain_split hU hU' hH s0 (fun i => d i ω) k j
    have hRp : Measurable[past (fun i => d (k + i)) j] R := by
      refine measurable_of_dotL (m := past (fun i => d (k + i)) j) fun w => ?_
      exact linChain_past (fun i => symStep ε H (k + i)) (fun i => symNoise ε (k + i)) 0 (d := fun i => d (k + i)) j (dotL w)
    have hRm : Measurable R := hRp.mono (past_le (fun i => hd.meas (k + i)) j) le_rfl
    have hind : IndepFun (S k) R Pr := indep_later hd.meas hd.indep (symChain_past s0 d k) hRp
    set ck := ∫ ω, f (m + S k ω) ∂Pr with hck
    set cn := ∫ ω, f (m + S (k + j) ω) ∂Pr with hcn
    set D : Ω → ℝ := fun ω => f (m + S k ω) - ck with hD
    have hDm : Measurable D := (hfm k).sub_const _
    have hD2 : MemLp D 2 Pr := (hF2 k).sub (memLp_const _)
    have hck' : |ck| ≤ A * Q := by
      refine (abs_integral_le_integral_abs).trans ?_
      have h1 : ∫ ω, |f (m + S k ω)| ∂Pr ≤ ∫ ω, A * W k ω ^ 4 ∂Pr := by
        refine integral_mono_of_nonneg (ae_of_all _ fun ω => abs_nonneg _) ((hWi k).const_mul A) (ae_of_all _ fun ω => ?_)
        exact (hfW k ω).trans (mul_le_mul_of_nonneg_left (pow_le_pow_right₀ (hW1 k ω) (by norm_num)) hA0)
      rw [integral_const_mul] at h1
      exact h1.trans (mul_le_mul_of_nonneg_left (hQ k) hA0)
    have hDW : ∀ ω, |D ω| ≤ A * (1 + Q) * W k ω ^ 2 := by
      intro ω
      have h1 : |D ω| ≤ |f (m + S k ω)| + |ck| := abs_sub _ _
      have h2 := hfW k ω
      have h3 : 1 ≤ W k ω ^ 2 := one_le_pow₀ (hW1 k ω)
      nlinarith [mul_nonneg hA0 hQ0]
    have hD0 : ∫ ω, D ω ∂Pr = 0 := by
      rw [hD, integral_sub ((hF2 k).integrable (by norm_num)) (integrable_const _)]
      simp [hck]
    have hsk : ∀ ω, ‖S k ω‖ ≤ (1 + ‖m‖) * W k ω := by
      intro ω
      have h1 : ‖S k ω‖ ≤ ‖m + S k ω‖ + ‖m‖ := by
        have := norm_sub_le (m + S k ω) m; rwa [add_sub_cancel_left] at this
      have h2 := hW1 k ω
      have h3 : ‖m + S k ω‖ = W k ω - 1 := by simp [hW]
      nlinarith [norm_nonneg m]
    have hprop : ∀ ω, ‖symProp ε U l k (k + j) (S k ω)‖ ≤ B * τ k (k + j) * ((1 + ‖m‖) * W k ω) := fun ω =>
      (hB k (k + j) (S k ω)).trans (mul_le_mul_of_nonneg_left (hsk ω) (mul_nonneg hB0 (hτ0 _ _)))
    have hmR : ∀ ω, ‖m + R ω‖ ≤ W (k + j) ω + B * T * ((1 + ‖m‖) * W k ω) := by
      intro ω
      have e : m + R ω = (m + S (k + j) ω) - symProp ε U l k (k + j) (S k ω) := by rw [hsplit]; abel
      have h1 : ‖m + S (k + j) ω‖ ≤ W (k + j) ω := by simp [hW]
      have h2 := (hprop ω).trans (mul_le_mul_of_nonneg_right (mul_le_mul_of_nonneg_left (hτT k (k + j)) hB0)
        (mul_nonneg (by positivity) (zero_le_one.trans (hW1 k ω))))
      rw [e]
      exact (norm_sub_le _ _).trans (add_le_add h1 h2)
    have hdiff : ∀ ω, |f (m + S (k + j) ω) - f (m + R ω)| ≤
        |L| * (B * τ k (k + j) * ((1 + ‖m‖) * W k ω)) * ((2 + B * T * (1 + ‖m‖)) * (W (k + j) ω + W k ω)) := by
      intro ω
      have e : (m + S (k + j) ω) - (m + R ω) = symProp ε U l k (k + j) (S k ω) := by rw [hsplit]; abel
      refine (hL _ _).trans ?_
      rw [e]
      have h1 : ‖m + S (k + j) ω‖ = W (k + j) ω - 1 := by simp [hW]
      have hw1 := hW1 k ω
      have hw2 := hW1 (k + j) ω
      have hBT : 0 ≤ B * T * (1 + ‖m‖) := by positivity
      refine mul_le_mul (mul_le_mul (le_abs_self L) (hprop ω) (norm_nonneg _) (abs_nonneg _)) ?_ (by positivity) (by
        have := hτ0 k (k + j); have : 0 ≤ W k ω := by linarith
        positivity)
      have := hmR ω
      rw [h1]
      nlinarith [mul_nonneg hBT (zero_le_one.trans hw2)]
    have hgm : Measurable (fun ω => f (m + R ω)) := hfc.measurable.comp (hRm.const_add m)
    have hWi2 : Integrable (fun ω => W k ω ^ 4 + W (k + j) ω ^ 4) Pr := (hWi k).add (hWi (k + j))
    have hbound : ∀ ω, |D ω * (f (m + S (k + j) ω) - f (m + R ω))| ≤
        A * (1 + Q) * (|L| * (B * (1 + ‖m‖))) * (2 + B * T * (1 + ‖m‖)) * τ k (k + j) * 2 * (W k ω ^ 4 + W (k + j) ω ^ 4) := by
      intro ω
      have hw1 := hW1 k ω
      have hw2 := hW1 (k + j) ω
      have h0 := hτ0 k (k + j)
      rw [abs_mul]
      have h1 := mul_le_mul (hDW ω) (hdiff ω) (abs_nonneg _) (by positivity)
      refine h1.trans ?_
      have h2 : W k ω ^ 3 * (W (k + j) ω + W k ω) ≤ 2 * (W k ω ^ 4 + W (k + j) ω ^ 4) := cubic_le (by linarith) (by linarith)
      have h5 : 0 ≤ A * (1 + Q) * (|L| * (B * (1 + ‖m‖))) * (2 + B * T * (1 + ‖m‖)) * τ k (k + j) := by positivity
      calc _ = A * (1 + Q) * (|L| * (B * (1 + ‖m‖))) * (2 + B * T * (1 + ‖m‖)) * τ k (k + j) * (W k ω ^ 3 * (W (k + j) ω + W k ω)) := by ring
        _ ≤ A * (1 + Q) * (|L| * (B * (1 + ‖m‖))) * (2 + B * T * (1 + ‖m‖)) * τ k (k + j) * (2 * (W k ω ^ 4 + W (k + j) ω ^ 4)) :=
          mul_le_mul_of_nonneg_left h2 h5
        _ = _ := by ring
    have hdm : Measurable (fun ω => D ω * (f (m + S (k + j) ω) - f (m + R ω))) := hDm.mul ((hfm (k + j)).sub hgm)
    have hdi : Integrable (fun ω => D ω * (f (m + S (k + j) ω) - f (m + R ω))) Pr :=
      (hWi2.const_mul _).mono' hdm.aestronglyMeasurable (ae_of_all _ hbound)
    have hDn : Integrable (fun ω => D ω * f (m + S (k + j) ω)) Pr := hD2.integrable_mul (hF2 (k + j))
    have hDg : Integrable (fun ω => D ω * f (m + R ω)) Pr := by
      have := hDn.sub hdi
      refine this.congr (ae_of_all _ fun ω => ?_)
      simp only [Pi.sub_apply]; ring
    have hDg0 : ∫ ω, D ω * f (m + R ω) ∂Pr = 0 := by
      have hi : IndepFun D (fun ω => f (m + R ω)) Pr :=
        hind.comp (φ := fun s => f (m + s) - ck) (ψ := fun r => f (m + r))
          ((hfc.measurable.comp (measurable_id.const_add m)).sub_const _) (hfc.measurable.comp (measurable_id.const_add m))
      rw [hi.integral_fun_mul_eq_mul_integral hDm.aestronglyMeasurable hgm.aestronglyMeasurable, hD0, zero_mul]
    have e1 : ∫ ω, D ω * (f (m + S (k + j) ω) - cn) ∂Pr = ∫ ω, D ω * (f (m + S (k + j) ω) - f (m + R ω)) ∂Pr := by
      have e2 : ∀ ω, D ω * (f (m + S (k + j) ω) - cn) = D ω * f (m + S (k + j) ω) - cn * D ω := fun ω => by ring
      have e3 : ∀ ω, D ω * (f (m + S (k + j) ω) - f (m + R ω)) = D ω * f (m + S (k + j) ω) - D ω * f (m + R ω) := fun ω => by ring
      simp only [e2, e3]
      rw [integral_sub hDn ((hD2.integrable (by norm_num)).const_mul cn), integral_sub hDn hDg, hDg0, integral_const_mul, hD0, mul_zero]
    rw [e1]
    refine (abs_integral_le_integral_abs).trans ?_
    refine (integral_mono_of_nonneg (ae_of_all _ fun ω => abs_nonneg _) (hWi2.const_mul _) (ae_of_all _ hbound)).trans ?_
    rw [integral_const_mul, integral_add (hWi k) (hWi (k + j))]
    have h1 := hQ k
    have h2 := hQ (k + j)
    have h0 := hτ0 k (k + j)
    have h5 : 0 ≤ A * (1 + Q) * (|L| * (B * (1 + ‖m‖))) * (2 + B * T * (1 + ‖m‖)) * τ k (k + j) * 2 := by positivity
    calc _ ≤ A * (1 + Q) * (|L| * (B * (1 + ‖m‖))) * (2 + B * T * (1 + ‖m‖)) * τ k (k + j) * 2 * (Q + Q) :=
          mul_le_mul_of_nonneg_left (add_le_add h1 h2) h5
      _ = C * τ k (k + j) := by rw [hC]; ring
  refine l2_average (F := fun n ω => f (m + S (n + 1) ω)) (fun n => hF2 (n + 1)) (hlim.comp (tendsto_add_atTop_nat 1))
    (ρ := fun k n => C * τ (k + 1) (n + 1)) (fun k n hk => hcov (k + 1) (n + 1) (by omega)) ?_
  have hsum : Tendsto (fun n : ℕ => C * ∑ i, 2 * ((∑ k ∈ Finset.range (n + 1 + 1), |arDecay ε (l i) k (n + 1)|) / ((n + 1 : ℕ) + 1 : ℝ))) atTop (𝓝 (C * ∑ i : ι, 2 * 0)) :=
    Tendsto.const_mul C (tendsto_finsetSum _ fun i _ => ((arDecay_sum h (hl i)).comp (tendsto_add_atTop_nat 1)).const_mul 2)
  simp only [mul_zero, Finset.sum_const_zero] at hsum
  refine squeeze_zero (fun n => div_nonneg (Finset.sum_nonneg fun k _ => mul_nonneg hC0 (hτ0 _ _)) (by positivity)) (fun n => ?_) hsum
  rw [← Finset.mul_sum, mul_div_assoc]
  refine mul_le_mul_of_nonneg_left ?_ hC0
  simp only [hτ]
  rw [Finset.sum_comm, Finset.sum_div]
  refine Finset.sum_le_sum fun i _ => ?_
  have h1 : ∑ k ∈ Finset.range (n + 1), |arDecay ε (l i) (k + 1) (n + 1)| ≤ ∑ k ∈ Finset.range (n + 1 + 1), |arDecay ε (l i) k (n + 1)| := by
    rw [Finset.sum_range_succ' _ (n + 1)]
    exact le_add_of_nonneg_right (abs_nonneg _)
  have h2 : 0 ≤ ∑ k ∈ Finset.range (n + 1 + 1), |arDecay ε (l i) k (n + 1)| := Finset.sum_nonneg fun _ _ => abs_nonneg _
  refine (div_le_div_of_nonneg_right h1 (by positivity)).trans ?_
  rw [← mul_div_assoc, div_le_div_iff₀ (by positivity) (by positivity)]
  push_cast
  nlinarith

end

end Edward
