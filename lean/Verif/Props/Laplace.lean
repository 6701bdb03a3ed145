/-
C57: Laplace covariance is the inverse Hessian.
-/
import Mathlib.Data.Fin.VecNotation
import Mathlib.LinearAlgebra.Matrix.Notation
import Mathlib.LinearAlgebra.Matrix.Determinant.Basic
import Mathlib.LinearAlgebra.Matrix.Block
import Mathlib.Algebra.Order.BigOperators.Ring.Finset
import Mathlib.Tactic.FieldSimp
import Mathlib.Tactic.Linarith
import Mathlib.Tactic.FinCases
import Verif.Model.Laplace

namespace Edward
variable {d : ℕ}

theorem IsCholesky.det_pos {H L : Matrix (Fin d) (Fin d) ℝ} (h : IsCholesky H L) : 0 < L.det := by
  rw [Matrix.det_of_lowerTriangular L (fun i j hij => h.lower i j hij)]
  exact Finset.prod_pos fun i _ => h.diag_pos i

theorem IsCholesky.isUnit_det {H L : Matrix (Fin d) (Fin d) ℝ} (h : IsCholesky H L) : IsUnit L.det :=
  isUnit_iff_ne_zero.mpr h.det_pos.ne'

/-- A lower triangular matrix that commutes with its transpose is diagonal. -/
theorem lower_normal_diagonal {L : Matrix (Fin d) (Fin d) ℝ} (hl : ∀ i j, i < j → L i j = 0)
    (hc : L * L.transpose = L.transpose * L) : ∀ i j, i ≠ j → L i j = 0 := by
  have key : ∀ m : ℕ, ∀ j : Fin d, j.val = m → ∀ k, j < k → L k j = 0 := by
    intro m
    induction m using Nat.strong_induction_on with
    | _ m ih =>
      intro j hj k hjk
      have hjj := congrFun (congrFun hc j) j
      simp only [Matrix.mul_apply, Matrix.transpose_apply] at hjj
      have hrow : ∑ x, L j x * L j x = L j j * L j j := by
        refine Finset.sum_eq_single j (fun x _ hx => ?_) (by simp)
        rcases lt_or_gt_of_ne hx with h | h
        · rw [ih x.val (by rw [← hj]; exact h) x rfl j h, zero_mul]
        · rw [hl j x h, zero_mul]
      rw [hrow, ← Finset.add_sum_erase _ _ (Finset.mem_univ j)] at hjj
      have hz : ∑ x ∈ Finset.univ.erase j, L x j * L x j = 0 := by linarith
      rw [Finset.sum_eq_zero_iff_of_nonneg fun x _ => mul_self_nonneg _] at hz
      exact mul_self_eq_zero.mp (hz k (Finset.mem_erase.mpr ⟨hjk.ne', Finset.mem_univ _⟩))
  intro i j hij
  rcases lt_or_gt_of_ne hij with h | h
  · exact hl i j h
  · exact key j.val j rfl i h

/-- C57, `MultivariateNormalTriL`: the covariance is the inverse Hessian exactly when the
Hessian is diagonal. -/
theorem C57_tril_partial (H L : Matrix (Fin d) (Fin d) ℝ) (h : IsCholesky H L) :
    laplaceCovTriL L = H⁻¹ ↔ ∀ i j, i ≠ j → H i j = 0 := by
  have hu := h.isUnit_det
  have hut : IsUnit L.transpose.det := by rw [Matrix.det_transpose]; exact hu
  have e1 : laplaceCovTriL L = (L.transpose * L)⁻¹ := by
    rw [laplaceCovTriL, laplaceScaleTriL, Matrix.transpose_nonsing_inv, Matrix.mul_inv_rev]
  rw [e1, ← h.eq]
  constructor
  · intro he
    have hdet1 : IsUnit (L.transpose * L).det := by rw [Matrix.det_mul]; exact hut.mul hu
    have hdet2 : IsUnit (L * L.transpose).det := by rw [Matrix.det_mul]; exact hu.mul hut
    have hc : L.transpose * L = L * L.transpose := by
      have := congrArg (fun M : Matrix (Fin d) (Fin d) ℝ => M⁻¹) he
      simpa [Matrix.nonsing_inv_nonsing_inv _ hdet1, Matrix.nonsing_inv_nonsing_inv _ hdet2] using this
    have hd := lower_normal_diagonal h.lower hc.symm
    intro i j hij
    rw [Matrix.mul_apply]
    refine Finset.sum_eq_zero fun x _ => ?_
    rw [Matrix.transpose_apply]
    by_cases hx : i = x
    · rw [hd j x (by rintro rfl; exact hij hx), mul_zero]
    · rw [hd i x hx, zero_mul]
  · intro hH
    -- the factor of a diagonal matrix is diagonal
    have hd : ∀ m : ℕ, ∀ j : Fin d, j.val = m → ∀ k, j < k → L k j = 0 := by
      intro m
      induction m using Nat.strong_induction_on with
      | _ m ih =>
        intro j hj k hjk
        have hkj := hH k j hjk.ne'
        rw [Matrix.mul_apply] at hkj
        have : ∑ x, L k x * L.transpose x j = L k j * L j j := by
          refine Finset.sum_eq_single j (fun x _ hx => ?_) (by simp)
          rw [Matrix.transpose_apply]
          rcases lt_or_gt_of_ne hx with h' | h'
          · rw [ih x.val (by rw [← hj]; exact h') x rfl j h', mul_zero]
          · rw [h.lower j x h', mul_zero]
        rw [this] at hkj
        rcases mul_eq_zero.mp hkj with h0 | h0
        · exact h0
        · exact absurd h0 (h.diag_pos j).ne'
    have hsym : L.transpose = L := by
      ext i j
      rw [Matrix.transpose_apply]
      rcases lt_trichotomy i j with h' | h' | h'
      · rw [hd i.val i rfl j h', h.lower i j h']
      · rw [h']
      · rw [hd j.val j rfl i h', h.lower j i h']
    rw [hsym]

/-- C57, `Normal` and `MultivariateNormalDiag` with the scale stored as such: the
covariance is the inverse of a diagonal Hessian with positive entries exactly when the
Hessian is the identity. -/
theorem C57_diag_partial (h : Fin d → ℝ) (hpos : ∀ i, 0 < h i) :
    laplaceCovDiag id (Matrix.diagonal h) = (Matrix.diagonal h)⁻¹ ↔ ∀ i, h i = 1 := by
  have hinv : (Matrix.diagonal h)⁻¹ = Matrix.diagonal fun i => (h i)⁻¹ := by
    refine Matrix.inv_eq_right_inv ?_
    rw [Matrix.diagonal_mul_diagonal, ← Matrix.diagonal_one]
    congr 1
    funext i
    exact mul_inv_cancel₀ (hpos i).ne'
  rw [hinv, laplaceCovDiag, Matrix.diagonal_injective.eq_iff, funext_iff]
  refine forall_congr' fun i => ?_
  simp only [laplaceScaleDiag, Matrix.diagonal_apply_eq, id]
  have := hpos i
  constructor
  · intro e
    field_simp at e
    exact e.symm
  · intro e
    rw [e]; norm_num

/-- The value that would be right: the square root. -/
theorem C57_diag_sqrt (h : Fin d → ℝ) (hpos : ∀ i, 0 < h i) (g : ℝ → ℝ) (hg : ∀ x, 0 < x → g x ^ 2 = x) :
    laplaceCovDiag g (Matrix.diagonal h) = (Matrix.diagonal h)⁻¹ := by
  have hinv : (Matrix.diagonal h)⁻¹ = Matrix.diagonal fun i => (h i)⁻¹ := by
    refine Matrix.inv_eq_right_inv ?_
    rw [Matrix.diagonal_mul_diagonal, ← Matrix.diagonal_one]
    congr 1
    funext i
    exact mul_inv_cancel₀ (hpos i).ne'
  rw [hinv, laplaceCovDiag]
  congr 1
  funext i
  have := hpos i
  rw [hg _ (by simp [laplaceScaleDiag]; exact this)]
  simp [laplaceScaleDiag]

/-- A positive definite matrix and its Cholesky factor. -/
theorem cholesky_example : IsCholesky !![1, 1; 1, 2] (!![1, 0; 1, 1] : Matrix (Fin 2) (Fin 2) ℝ) where
  lower := by
    intro i j h
    fin_cases i <;> fin_cases j <;> simp_all
  diag_pos := by intro i; fin_cases i <;> norm_num
  eq := by
    ext i j
    fin_cases i <;> fin_cases j <;> norm_num [Matrix.mul_apply, Fin.sum_univ_two]

/-- C57 fails for `MultivariateNormalTriL` with the Hessian `[[1, 1], [1, 2]]`. -/
theorem C57_tril_fails :
    ∃ H L : Matrix (Fin 2) (Fin 2) ℝ, IsCholesky H L ∧ laplaceCovTriL L ≠ H⁻¹ := by
  refine ⟨_, _, cholesky_example, fun h => ?_⟩
  have := (C57_tril_partial _ _ cholesky_example).mp h 0 1 (by decide)
  norm_num at this

/-- C57 fails for `Normal` with the Hessian 2: the variance is 1/4, not 1/2. -/
theorem C57_diag_fails :
    laplaceCovDiag id (Matrix.diagonal fun _ : Fin 1 => (2 : ℝ)) = Matrix.diagonal (fun _ => 1 / 4) ∧
    (Matrix.diagonal fun _ : Fin 1 => (2 : ℝ))⁻¹ = Matrix.diagonal fun _ => 1 / 2 := by
  constructor
  · rw [laplaceCovDiag]
    congr 1
    funext i
    norm_num [laplaceScaleDiag]
  · refine Matrix.inv_eq_right_inv ?_
    rw [Matrix.diagonal_mul_diagonal, ← Matrix.diagonal_one]
    norm_num

/-- The constructor accepts a dictionary iff every approximation is normal. -/
theorem C57_init (qs : List QClass) :
    (laplaceInit qs = .ok () ↔ ∀ q ∈ qs, q ≠ .other) ∧
    (laplaceInit qs = .error .typeError ↔ ∃ q ∈ qs, q = .other) := by
  induction qs with
  | nil => simp [laplaceInit]
  | cons q qs ih =>
    cases q <;> simp [laplaceInit, ih]

end Edward
