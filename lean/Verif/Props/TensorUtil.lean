/-
Properties C66 (to_simplex), C67 (rbf), C68 (control variates).
-/
import Mathlib.Analysis.SpecialFunctions.Exponential
import Mathlib.Algebra.BigOperators.Ring.Finset
import Mathlib.Algebra.BigOperators.Field
import Mathlib.Algebra.Order.BigOperators.Ring.Finset
import Mathlib.Data.Fin.VecNotation
import Mathlib.Tactic.FieldSimp
import Mathlib.Tactic.LinearCombination
import Verif.Model.TensorUtil

set_option linter.unusedSectionVars false

namespace Edward

/-! ### C66 -/

theorem stickBreak_zero {n : ℕ} (z : Fin (n + 1) → ℝ) : stickBreak z 0 = z 0 := by
  unfold stickBreak cumprod
  have h1 : (Fin.snoc z 1 : Fin (n + 2) → ℝ) 0 = z 0 := by
    have := Fin.snoc_castSucc (α := fun _ => ℝ) (n := n + 1) (1 : ℝ) z 0
    exact this
  simp only [h1]
  rw [Fin.prod_univ_succ]
  simp

theorem stickBreak_succ {n : ℕ} (z : Fin (n + 1) → ℝ) (i : Fin (n + 1)) :
    stickBreak z i.succ = (1 - z 0) * stickBreak (fun j => z j.succ) i := by
  unfold stickBreak cumprod
  have h1 : (Fin.snoc z 1 : Fin (n + 2) → ℝ) i.succ = (Fin.snoc (fun j => z j.succ) 1 : Fin (n + 1) → ℝ) i := by
    refine Fin.lastCases ?_ (fun j => ?_) i
    · have : (Fin.last n).succ = Fin.last (n + 1) := rfl
      rw [this, Fin.snoc_last, Fin.snoc_last]
    · have : j.castSucc.succ = j.succ.castSucc := rfl
      rw [this, Fin.snoc_castSucc, Fin.snoc_castSucc]
  simp only [h1]
  rw [← mul_assoc]
  congr 1
  rw [Fin.prod_univ_succ, Fin.prod_univ_succ]
  conv_rhs => rw [Fin.prod_univ_succ]
  simp [Fin.succ_le_succ_iff]

theorem stickBreak_sum {n : ℕ} (z : Fin n → ℝ) : ∑ i, stickBreak z i = 1 := by
  induction n with
  | zero => simp [stickBreak, cumprod, Fin.snoc]
  | succ n ih =>
    rw [Fin.sum_univ_succ, stickBreak_zero]
    simp only [stickBreak_succ, ← Finset.mul_sum, ih]
    ring

theorem stickBreak_pos {n : ℕ} (z : Fin n → ℝ) (h : ∀ i, 0 < z i ∧ z i < 1) (i : Fin (n + 1)) : 0 < stickBreak z i := by
  induction n with
  | zero => have : i = 0 := Fin.eq_zero i
            subst this; simp [stickBreak, cumprod, Fin.snoc]
  | succ n ih =>
    refine Fin.cases ?_ (fun j => ?_) i
    · rw [stickBreak_zero]; exact (h 0).1
    · rw [stickBreak_succ]
      exact mul_pos (sub_pos.mpr (h 0).2) (ih _ (fun j => h j.succ) j)

theorem stickBreak_inj {n : ℕ} (z w : Fin n → ℝ) (h : ∀ i, z i < 1) (he : stickBreak z = stickBreak w) : z = w := by
  induction n with
  | zero => exact Subsingleton.elim _ _
  | succ n ih =>
    have h0 : z 0 = w 0 := by
      have := congrFun he 0
      rwa [stickBreak_zero, stickBreak_zero] at this
    have hs : (fun j : Fin n => z j.succ) = fun j => w j.succ := by
      refine ih _ _ (fun j => h j.succ) ?_
      funext i
      have := congrFun he i.succ
      rw [stickBreak_succ, stickBreak_succ, ← h0] at this
      exact mul_left_cancel₀ (sub_pos.mpr (h 0)).ne' this
    funext i
    refine Fin.cases h0 (fun j => congrFun hs j) i

theorem sigmoid_mem (x : ℝ) : 0 < sigmoid x ∧ sigmoid x < 1 := by
  unfold sigmoid
  have : 0 < Real.exp (-x) := Real.exp_pos _
  refine ⟨by positivity, ?_⟩
  rw [div_lt_one (by positivity)]; linarith

theorem sigmoid_inj {x y : ℝ} (h : sigmoid x = sigmoid y) : x = y := by
  unfold sigmoid at h
  have h1 : 1 + Real.exp (-x) = 1 + Real.exp (-y) := by
    have hx : 1 + Real.exp (-x) ≠ 0 := by positivity
    have hy : 1 + Real.exp (-y) ≠ 0 := by positivity
    field_simp at h; linarith
  have := Real.exp_injective (add_left_cancel h1)
  linarith

theorem stickBreak_uniform (n : ℕ) :
    stickBreak (fun i : Fin n => (1 : ℝ) / ((n : ℝ) - (i : ℕ) + 1)) = fun _ => 1 / ((n : ℝ) + 1) := by
  induction n with
  | zero => funext i; have : i = 0 := Fin.eq_zero i
            subst this; simp [stickBreak, cumprod, Fin.snoc]
  | succ n ih =>
    funext i
    refine Fin.cases ?_ (fun j => ?_) i
    · rw [stickBreak_zero]; simp
    · rw [stickBreak_succ]
      have e : (fun j : Fin n => (1 : ℝ) / (((n + 1 : ℕ) : ℝ) - ((j.succ : Fin (n + 1)) : ℕ) + 1)) =
          fun i : Fin n => (1 : ℝ) / ((n : ℝ) - (i : ℕ) + 1) := by
        funext j; congr 1; push_cast [Fin.val_succ]; ring
      rw [e, ih]
      have : (n : ℝ) + 1 ≠ 0 := by positivity
      have h2 : (n : ℝ) + 1 + 1 ≠ 0 := by positivity
      simp
      field_simp
      ring

/-- C66: `to_simplex` maps every vector of length `n = K - 1` to `K` positive numbers
summing to one, injectively, and the zero vector to the uniform distribution. -/
theorem C66_to_simplex (n : ℕ) :
    (∀ x : Fin n → ℝ, (∀ i, 0 < toSimplex x i) ∧ ∑ i, toSimplex x i = 1) ∧
    Function.Injective (toSimplex : (Fin n → ℝ) → Fin (n + 1) → ℝ) ∧
    toSimplex (fun _ : Fin n => 0) = fun _ => 1 / ((n : ℝ) + 1) := by
  refine ⟨fun x => ⟨stickBreak_pos _ (fun i => sigmoid_mem _), stickBreak_sum _⟩, fun x y h => ?_, ?_⟩
  · have := stickBreak_inj _ _ (fun i => (sigmoid_mem _).2) h
    funext i
    exact add_left_cancel (sigmoid_inj (congrFun this i))
  · have e : (fun i : Fin n => sigmoid (- Real.log ((n : ℝ) - (i : ℕ)) + 0)) =
        fun i : Fin n => (1 : ℝ) / ((n : ℝ) - (i : ℕ) + 1) := by
      funext i
      have hi : (0 : ℝ) < (n : ℝ) - (i : ℕ) := by
        have : ((i : ℕ) : ℝ) < n := by exact_mod_cast i.isLt
        linarith
      unfold sigmoid
      rw [add_zero, neg_neg, Real.exp_log hi, add_comm]
    unfold toSimplex
    exact (congrArg stickBreak e).trans (stickBreak_uniform n)

/-- C66: every point of the open simplex is reached. -/
theorem C66_surjective (n : ℕ) (p : Fin (n + 1) → ℝ) (hp : ∀ i, 0 < p i) (hs : ∑ i, p i = 1) :
    ∃ x : Fin n → ℝ, toSimplex x = p := by
  have key : ∀ (n : ℕ) (p : Fin (n + 1) → ℝ), (∀ i, 0 < p i) → ∑ i, p i = 1 →
      ∃ z : Fin n → ℝ, (∀ i, 0 < z i ∧ z i < 1) ∧ stickBreak z = p := by
    intro n
    induction n with
    | zero =>
      intro p hp hs
      refine ⟨fun i => i.elim0, fun i => i.elim0, ?_⟩
      funext i
      have : i = 0 := Fin.eq_zero i
      subst this
      simp at hs
      simp [stickBreak, cumprod, Fin.snoc, hs]
    | succ n ih =>
      intro p hp hs
      rw [Fin.sum_univ_succ] at hs
      have hrest : 0 < ∑ i : Fin (n + 1), p i.succ := Finset.sum_pos (fun i _ => hp _) Finset.univ_nonempty
      have h1 : 0 < 1 - p 0 := by linarith
      obtain ⟨z, hz, he⟩ := ih (fun i => p i.succ / (1 - p 0)) (fun i => div_pos (hp _) h1) (by
        rw [← Finset.sum_div, div_eq_one_iff_eq h1.ne']; linarith)
      refine ⟨Fin.cons (p 0) z, fun i => ?_, ?_⟩
      · refine Fin.cases ?_ (fun j => ?_) i
        · simp only [Fin.cons_zero]; exact ⟨hp 0, by linarith⟩
        · simp only [Fin.cons_succ]; exact hz j
      · funext i
        refine Fin.cases ?_ (fun j => ?_) i
        · rw [stickBreak_zero]; simp
        · rw [stickBreak_succ]
          simp only [Fin.cons_zero, Fin.cons_succ]
          rw [he]
          field_simp
  obtain ⟨z, hz, he⟩ := key n p hp hs
  refine ⟨fun i => - Real.log (1 / z i - 1) + Real.log ((n : ℝ) - (i : ℕ)), ?_⟩
  unfold toSimplex
  rw [← he]
  refine congrArg stickBreak (funext fun i => ?_)
  have h1 : 0 < 1 / z i - 1 := by
    rw [sub_pos, lt_div_iff₀ (hz i).1]; linarith [(hz i).2]
  unfold sigmoid
  have e : -(-Real.log ((n : ℝ) - (i : ℕ)) + (-Real.log (1 / z i - 1) + Real.log ((n : ℝ) - (i : ℕ)))) =
      Real.log (1 / z i - 1) := by ring
  rw [e, Real.exp_log h1]
  simp

/-! ### C67 -/

section
variable {N M D : Type} [Fintype D]

/-- The documented kernel. -/
noncomputable def rbfSpec (lengthscale : D → ℝ) (variance : ℝ) (x y : D → ℝ) : ℝ :=
  variance * Real.exp (-(1 / 2) * ∑ d, 1 / lengthscale d ^ 2 * (x d - y d) ^ 2)

theorem rbfScaled_eq (variance : ℝ) (l : D → ℝ) (X : N → D → ℝ) (X2 : M → D → ℝ) (i : N) (j : M) :
    rbfScaled variance (fun i d => X i d / l d) (fun i d => X2 i d / l d) (fun i => ∑ d, (X i d / l d) ^ 2)
      (fun i => ∑ d, (X2 i d / l d) ^ 2) i j = rbfSpec l variance (X i) (X2 j) := by
  unfold rbfScaled rbfSpec
  dsimp only
  congr 2
  rw [Finset.mul_sum, ← Finset.sum_add_distrib, ← Finset.sum_sub_distrib, neg_div, Finset.sum_div, Finset.mul_sum,
    ← Finset.sum_neg_distrib]
  refine Finset.sum_congr rfl fun d _ => ?_
  rcases eq_or_ne (l d) 0 with h | h
  · simp [h]
  · field_simp; ring

/-- C67: `rbf` is the documented kernel on all pairs of rows, with or without `X2`; it
raises unless lengthscale and variance are positive. -/
theorem C67_formula (l : D → ℝ) (v : ℝ) (X : N → D → ℝ) (X2 : M → D → ℝ) :
    ((∀ d, 0 < l d) → 0 < v →
      rbf X X2 l v = some (fun i j => rbfSpec l v (X i) (X2 j)) ∧
      rbfSelf X l v = some (fun i j => rbfSpec l v (X i) (X j))) ∧
    (¬ ((∀ d, 0 < l d) ∧ 0 < v) → rbf X X2 l v = none ∧ rbfSelf X l v = none) := by
  constructor
  · intro hl hv
    have h : (∀ d, 0 < l d) ∧ 0 < v := ⟨hl, hv⟩
    unfold rbf rbfSelf
    rw [if_pos h, if_pos h]
    exact ⟨congrArg some (funext fun i => funext fun j => rbfScaled_eq v l X X2 i j),
      congrArg some (funext fun i => funext fun j => rbfScaled_eq v l X X i j)⟩
  · intro h
    unfold rbf rbfSelf
    rw [if_neg h, if_neg h]
    exact ⟨rfl, rfl⟩

/-- `exp` of inner products is a positive semidefinite kernel. -/
theorem exp_inner_psd [Fintype N] (X : N → D → ℝ) (c : N → ℝ) :
    0 ≤ ∑ i, ∑ j, c i * c j * Real.exp (∑ d, X i d * X j d) := by
  have hpow : ∀ n : ℕ, 0 ≤ ∑ i, ∑ j, c i * c j * (∑ d, X i d * X j d) ^ n := by
    intro n
    have : ∑ i, ∑ j, c i * c j * (∑ d, X i d * X j d) ^ n =
        ∑ p : Fin n → D, (∑ i, c i * ∏ k, X i (p k)) ^ 2 := by
      have e : ∀ p : Fin n → D, (∑ i, c i * ∏ k, X i (p k)) ^ 2 =
          ∑ i, ∑ j, c i * c j * ∏ k, (X i (p k) * X j (p k)) := by
        intro p
        rw [sq, Finset.sum_mul_sum]
        refine Finset.sum_congr rfl fun i _ => Finset.sum_congr rfl fun j _ => ?_
        rw [Finset.prod_mul_distrib]; ring
      simp only [e]
      symm
      rw [Finset.sum_comm]
      refine Finset.sum_congr rfl (fun i _ => ?_)
      rw [Finset.sum_comm]
      refine Finset.sum_congr rfl (fun j _ => ?_)
      rw [Fintype.sum_pow, Finset.mul_sum]
    rw [this]
    exact Finset.sum_nonneg fun p _ => sq_nonneg _
  have hs : HasSum (fun n : ℕ => ∑ i, ∑ j, c i * c j * ((∑ d, X i d * X j d) ^ n / n.factorial))
      (∑ i, ∑ j, c i * c j * Real.exp (∑ d, X i d * X j d)) := by
    refine hasSum_sum (fun i _ => ?_)
    refine hasSum_sum (fun j _ => ?_)
    refine HasSum.mul_left (c i * c j) ?_
    rw [Real.exp_eq_exp_ℝ]
    exact NormedSpace.expSeries_div_hasSum_exp _
  refine hs.nonneg fun n => ?_
  have : ∑ i, ∑ j, c i * c j * ((∑ d, X i d * X j d) ^ n / n.factorial) =
      (∑ i, ∑ j, c i * c j * (∑ d, X i d * X j d) ^ n) / n.factorial := by
    rw [Finset.sum_div]
    refine Finset.sum_congr rfl fun i _ => ?_
    rw [Finset.sum_div]
    exact Finset.sum_congr rfl fun j _ => by ring
  rw [this]
  exact div_nonneg (hpow n) (by positivity)

/-- C67: the matrix `rbf(X)` is symmetric, has the variance on the diagonal, entries in
(0, variance], and is positive semidefinite. -/
theorem C67_kernel [Fintype N] (l : D → ℝ) (v : ℝ) (hl : ∀ d, 0 < l d) (hv : 0 < v) (X : N → D → ℝ) :
    ∃ K, rbfSelf X l v = some K ∧ (∀ i j, K i j = K j i) ∧ (∀ i, K i i = v) ∧ (∀ i j, 0 < K i j ∧ K i j ≤ v) ∧
      ∀ c : N → ℝ, 0 ≤ ∑ i, ∑ j, c i * c j * K i j := by
  refine ⟨_, ((C67_formula l v X X).1 hl hv).2, fun i j => ?_, fun i => ?_, fun i j => ⟨?_, ?_⟩, fun c => ?_⟩
  · unfold rbfSpec
    congr 3
    exact Finset.sum_congr rfl fun d _ => by ring
  · simp [rbfSpec]
  · exact mul_pos hv (Real.exp_pos _)
  · unfold rbfSpec
    refine mul_le_of_le_one_right hv.le ?_
    rw [Real.exp_le_one_iff]
    have : 0 ≤ ∑ d, 1 / l d ^ 2 * (X i d - X j d) ^ 2 := Finset.sum_nonneg fun d _ => by positivity
    linarith
  · let Y : N → D → ℝ := fun i d => X i d / l d
    have e : ∀ i j, c i * c j * rbfSpec l v (X i) (X j) =
        v * ((c i * Real.exp (-(1 / 2) * ∑ d, Y i d ^ 2)) * (c j * Real.exp (-(1 / 2) * ∑ d, Y j d ^ 2)) *
          Real.exp (∑ d, Y i d * Y j d)) := by
      intro i j
      have h1 : Real.exp (-(1 / 2) * ∑ d, 1 / l d ^ 2 * (X i d - X j d) ^ 2) =
          Real.exp (-(1 / 2) * ∑ d, Y i d ^ 2) * Real.exp (-(1 / 2) * ∑ d, Y j d ^ 2) *
            Real.exp (∑ d, Y i d * Y j d) := by
        rw [← Real.exp_add, ← Real.exp_add]
        congr 1
        rw [Finset.mul_sum, Finset.mul_sum, Finset.mul_sum, ← Finset.sum_add_distrib, ← Finset.sum_add_distrib]
        refine Finset.sum_congr rfl fun d _ => ?_
        have := (hl d).ne'
        simp only [Y]
        field_simp; ring
      unfold rbfSpec
      rw [h1]; ring
    simp only [e, ← Finset.mul_sum]
    exact mul_nonneg hv.le (exp_inner_psd Y _)

end

example : ∃ K, rbfSelf (fun (i : Fin 3) (d : Fin 2) => (i : ℝ) + d) (fun _ => 2) 3 = some K ∧ K 0 1 = K 1 0 ∧ K 2 2 = 3 := by
  obtain ⟨K, h1, h2, h3, -⟩ := C67_kernel (fun _ : Fin 2 => 2) 3 (fun _ => by norm_num) (by norm_num)
    (fun (i : Fin 3) (d : Fin 2) => (i : ℝ) + d)
  exact ⟨K, h1, h2 0 1, h3 2⟩

/-! ### C68 -/

/-- Sample variance. -/
noncomputable def sampleVar {n : ℕ} (x : Fin n → ℝ) : ℝ :=
  (∑ i, (x i - (∑ j, x j) / n) ^ 2) / ((n : ℝ) - 1)

/-- C68: the coefficient is the unique minimiser of the sample variance of `f - a h`,
for samples in which `h` is not constant. -/
theorem C68_optimal {n : ℕ} (f h : Fin n → ℝ) (hh : ∃ i j, h i ≠ h j) (a : ℝ) :
    sampleVar (fun i => f i - controlVariateCoef f h * h i) ≤ sampleVar (fun i => f i - a * h i) ∧
    (sampleVar (fun i => f i - a * h i) = sampleVar (fun i => f i - controlVariateCoef f h * h i) →
      a = controlVariateCoef f h) := by
  obtain ⟨i0, j0, hij⟩ := hh
  have hn2 : 2 ≤ n := by
    by_contra hlt
    have : n = 0 ∨ n = 1 := by omega
    rcases this with rfl | rfl
    · exact i0.elim0
    · exact hij (congrArg h (Subsingleton.elim _ _))
  have hn : (0 : ℝ) < n := by positivity
  have hn1 : (0 : ℝ) < (n : ℝ) - 1 := by
    have : (2 : ℝ) ≤ n := by exact_mod_cast hn2
    linarith
  let fm := reduceMean f
  let hm := reduceMean h
  let C := ∑ i, (f i - fm) * (h i - hm)
  let V := ∑ i, (h i - hm) ^ 2
  let S := ∑ i, (f i - fm) ^ 2
  have hV : 0 < V := by
    refine (Finset.sum_nonneg fun i _ => sq_nonneg _).lt_of_ne fun h0 => hij ?_
    have h1 := (Finset.sum_eq_zero_iff_of_nonneg fun i _ => sq_nonneg (h i - hm)).1 h0.symm
    have h2 := h1 i0 (Finset.mem_univ _)
    have h3 := h1 j0 (Finset.mem_univ _)
    rw [sq_eq_zero_iff, sub_eq_zero] at h2 h3
    rw [h2, h3]
  have hcoef : controlVariateCoef f h = C / V := by
    unfold controlVariateCoef
    change C / ((n : ℝ) - 1) / (V / ((n : ℝ) - 1)) = C / V
    field_simp
  have hvar : ∀ b : ℝ, sampleVar (fun i => f i - b * h i) = (S - 2 * b * C + b ^ 2 * V) / ((n : ℝ) - 1) := by
    intro b
    unfold sampleVar
    congr 1
    have hmean : (∑ j, (f j - b * h j)) / (n : ℝ) = fm - b * hm := by
      rw [Finset.sum_sub_distrib, ← Finset.mul_sum]
      simp only [fm, hm, reduceMean, Fintype.card_fin]
      ring
    rw [hmean]
    have e : ∀ i, (f i - b * h i - (fm - b * hm)) ^ 2 =
        (f i - fm) ^ 2 - 2 * b * ((f i - fm) * (h i - hm)) + b ^ 2 * (h i - hm) ^ 2 := fun i => by ring
    simp only [e, Finset.sum_add_distrib, Finset.sum_sub_distrib, ← Finset.mul_sum]
    rfl
  have hdiff : (S - 2 * a * C + a ^ 2 * V) - (S - 2 * (C / V) * C + (C / V) ^ 2 * V) = V * (a - C / V) ^ 2 := by
    field_simp; ring
  rw [hcoef, hvar, hvar]
  constructor
  · refine div_le_div_of_nonneg_right ?_ hn1.le
    have : 0 ≤ V * (a - C / V) ^ 2 := by positivity
    linarith
  · intro he
    have he' : S - 2 * a * C + a ^ 2 * V = S - 2 * (C / V) * C + (C / V) ^ 2 * V := by
      field_simp at he ⊢; linarith
    rw [he', sub_self] at hdiff
    have := (mul_eq_zero.mp hdiff.symm).resolve_left hV.ne'
    rw [sq_eq_zero_iff] at this
    linarith

example : sampleVar (fun i => ![1, 2, 4] i - controlVariateCoef ![1, 2, 4] ![0, 1, 1] * ![0, 1, 1] i) ≤
    sampleVar (fun i => ![1, 2, 4] i - 3 * ![0, 1, 1] i) :=
  (C68_optimal ![1, 2, 4] ![0, 1, 1] ⟨0, 1, by simp⟩ 3).1

end Edward
