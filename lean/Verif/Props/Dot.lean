/-
C129: `dot` multiplies vectors and matrices.
-/
import Verif.Model.Dot
import Mathlib.Data.Fin.VecNotation

namespace Edward.Dot

/-- The tensor with these finite entries. -/
def ofVec {n : ℕ} (v : Fin n → ℝ) : Tensor := .vec n fun i => some (v i)

/-- The tensor with these finite entries. -/
def ofMat {m n : ℕ} (a : Fin m → Fin n → ℝ) : Tensor := .mat m n fun i j => some (a i j)

theorem vec_ext {n n' : ℕ} (h : n = n') {v : Fin n → Option ℝ} {w : Fin n' → Option ℝ} (hv : ∀ i, v i = w (Fin.cast h i)) :
    Tensor.vec n v = .vec n' w := by
  subst h
  exact congrArg _ (funext hv)

/-- **C129** (vector). A vector of length m times an m by n matrix is the vector of length n of the products with the columns. -/
theorem C129_vector {m n : ℕ} (v : Fin m → ℝ) (a : Fin m → Fin n → ℝ) :
    dot (ofVec v) (ofMat a) = .ok (ofVec fun j => ∑ i, v i * a i j) := by
  have hf : Finite (ofVec v) ∧ Finite (ofMat a) := ⟨fun i => nofun, fun i j => nofun⟩
  unfold ofVec ofMat at hf ⊢
  simp only [dot, row, matmul, dif_pos]
  rw [if_pos hf]
  refine congrArg Except.ok (vec_ext (Nat.one_mul n) fun i => ?_)
  simp only [Option.getD_some, Fin.cast_eq_self, Option.some.injEq]
  have : i.modNat = Fin.cast (Nat.one_mul n) i := by
    apply Fin.ext
    have := i.isLt
    simp only [Fin.modNat, Fin.val_cast]
    exact Nat.mod_eq_of_lt (by omega)
  rw [this]

example : dot (ofVec ![1, 2]) (ofMat ![![1, 2, 3], ![4, 5, 6]]) = .ok (ofVec fun j => ∑ i, ![1, 2] i * ![![1, 2, 3], ![4, 5, 6]] i j) :=
  C129_vector _ _

/-- **C129** (matrix, partial). An m by n matrix times a vector of length n is the vector of length m of the products with the rows. -/
theorem C129_matrix_partial {m n : ℕ} (a : Fin m → Fin n → ℝ) (v : Fin n → ℝ) :
    dot (ofMat a) (ofVec v) = .ok (ofVec fun i => ∑ j, a i j * v j) := by
  have hf : Finite (ofMat a) ∧ Finite (ofVec v) := ⟨fun i j => nofun, fun i => nofun⟩
  unfold ofVec ofMat at hf ⊢
  simp only [dot, column, matmul, dif_pos]
  rw [if_pos hf]
  refine congrArg Except.ok (vec_ext (Nat.mul_one m) fun i => ?_)
  simp only [Option.getD_some, Fin.cast_eq_self, Option.some.injEq]
  have : i.divNat = Fin.cast (Nat.mul_one m) i := by
    apply Fin.ext
    simp [Fin.divNat]
  rw [this]

example : dot (ofMat ![![1, 2, 3], ![4, 5, 6]]) (ofVec ![1, 0, 2]) = .ok (ofVec fun i => ∑ j, ![![1, 2, 3], ![4, 5, 6]] i j * ![1, 0, 2] j) :=
  C129_matrix_partial _ _

/-- **C129 fails** as documented for matrices: with an m by n matrix "y is an m-vector" and the result has length n; for every m other than n
that call raises ValueError. -/
theorem C129_documented_fails {m n : ℕ} (h : n ≠ m) (a : Fin m → Fin n → ℝ) (v : Fin m → ℝ) : dot (ofMat a) (ofVec v) = .error .valueError := by
  simp [dot, ofVec, ofMat, column, matmul, h]

example : dot (ofMat ![![1, 2, 3], ![4, 5, 6]]) (ofVec ![1, 2]) = .error .valueError := C129_documented_fails (by norm_num) _ _

/-- The shapes fit. -/
def Fits : Tensor → Tensor → Prop
  | .vec m _, .mat m' _ _ => m = m'
  | .mat _ n _, .vec n' _ => n = n'
  | _, _ => False

/-- **C129** (errors). ValueError exactly when the shapes do not fit; otherwise InvalidArgumentError exactly when an entry is Inf or NaN. -/
theorem C129_errors (x y : Tensor) :
    (dot x y = .error .valueError ↔ ¬ Fits x y) ∧ (dot x y = .error .invalidArgument ↔ Fits x y ∧ ¬ (Finite x ∧ Finite y)) := by
  cases x <;> cases y <;> simp only [dot, row, column, matmul, Fits, not_false_eq_true, false_and, reduceCtorEq, iff_self, and_self,
    Except.error.injEq]
  · rename_i n v m k a
    by_cases h : n = m
    · simp only [h, dif_pos, not_true, true_and]
      split_ifs with hf <;> simp [hf]
    · simp [h]
  · rename_i m k a n v
    by_cases h : k = n
    · simp only [h, dif_pos, not_true, true_and]
      split_ifs with hf <;> simp [hf]
    · simp [h]

example : dot (.vec 1 fun _ => none) (ofMat ![![1, 2]]) = .error .invalidArgument :=
  ((C129_errors _ _).2).mpr ⟨rfl, fun h => h.1 0 rfl⟩

end Edward.Dot
