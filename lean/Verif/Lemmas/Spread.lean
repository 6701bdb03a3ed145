/-
Maps with a Lipschitz inverse keep null sets; perturbations of a multiple of the identity;
how far two leapfrog trajectories with different momenta are apart.
-/
import Mathlib.MeasureTheory.Measure.Hausdorff
import Mathlib.MeasureTheory.Measure.Haar.Unique
import Mathlib.Analysis.Calculus.InverseFunctionTheorem.ApproximatesLinearOn
import Mathlib.Tactic.Linarith
import Mathlib.Tactic.FieldSimp

namespace Edward

open MeasureTheory Module Set

/-- A surjective map that is Lipschitz in both directions keeps null sets. -/
theorem null_iff_of_bilipschitz {E : Type} [NormedAddCommGroup E] [NormedSpace ℝ E] [FiniteDimensional ℝ E] [MeasurableSpace E] [BorelSpace E]
    (μ : Measure E) [μ.IsAddHaarMeasure] {f : E → E} {K K' : NNReal} (hf : LipschitzWith K f) (hf' : AntilipschitzWith K' f) (hs : Function.Surjective f)
    (A : Set E) : μ (f ⁻¹' A) = 0 ↔ μ A = 0 := by
  have h1 : μ ≪ (Measure.hausdorffMeasure (finrank ℝ E) : Measure E) := Measure.absolutelyContinuous_isAddHaarMeasure _ _
  have h2 : (Measure.hausdorffMeasure (finrank ℝ E) : Measure E) ≪ μ := Measure.absolutelyContinuous_isAddHaarMeasure _ _
  have hd : (0 : ℝ) ≤ finrank ℝ E := Nat.cast_nonneg _
  constructor
  · intro h0
    refine h1 (le_antisymm ?_ zero_le)
    have := hf.hausdorffMeasure_image_le hd (f ⁻¹' A)
    rw [image_preimage_eq A hs, h2 h0, mul_zero] at this
    exact this
  · intro h0
    refine h1 (le_antisymm ?_ zero_le)
    have := hf'.hausdorffMeasure_preimage_le hd A
    rw [h2 h0, mul_zero] at this
    exact this

/-- `a • r` plus a map with a Lipschitz constant less than `|a|`. -/
theorem perturbation {F : Type} [NormedAddCommGroup F] [NormedSpace ℝ F] [CompleteSpace F] {f : F → F} {a c : ℝ} (hc : c < |a|) (hc0 : 0 ≤ c)
    (h : ∀ r r', ‖f r - f r' - a • (r - r')‖ ≤ c * ‖r - r'‖) :
    (∃ K, LipschitzWith K f) ∧ (∃ K, AntilipschitzWith K f) ∧ Function.Surjective f := by
  have ha : a ≠ 0 := fun h0 => by rw [h0, abs_zero] at hc; exact absurd hc (not_lt.mpr hc0)
  set f' : F ≃L[ℝ] F := ContinuousLinearEquiv.smulLeft (Units.mk0 a ha) with hf'
  have hf'a : ∀ x, f' x = a • x := fun x => rfl
  have happ : ApproximatesLinearOn f (f' : F →L[ℝ] F) univ c.toNNReal := by
    intro x _ y _
    rw [Real.coe_toNNReal c hc0]
    exact h x y
  have hcN : Subsingleton F ∨ c.toNNReal < ‖(f'.symm : F →L[ℝ] F)‖₊⁻¹ := by
    rcases subsingleton_or_nontrivial F with hS | hN
    · exact Or.inl hS
    · right
      have hle : ‖(f'.symm : F →L[ℝ] F)‖ ≤ |a|⁻¹ := by
        refine ContinuousLinearMap.opNorm_le_bound _ (by positivity) fun x => ?_
        have : (f'.symm : F →L[ℝ] F) x = a⁻¹ • x := by
          show f'.symm x = a⁻¹ • x
          rw [ContinuousLinearEquiv.symm_apply_eq, hf'a, smul_smul, mul_inv_cancel₀ ha, one_smul]
        rw [this, norm_smul, Real.norm_eq_abs, abs_inv]
      have hpos : 0 < ‖(f'.symm : F →L[ℝ] F)‖ := f'.norm_symm_pos
      rw [← NNReal.coe_lt_coe, Real.coe_toNNReal c hc0]
      push_cast
      refine hc.trans_le ?_
      rw [← inv_inv |a|]
      exact inv_anti₀ hpos hle
  exact ⟨⟨_, fun x y => happ.lipschitz ⟨x, mem_univ x⟩ ⟨y, mem_univ y⟩⟩,
    ⟨_, fun x y => happ.antilipschitz hcN ⟨x, mem_univ x⟩ ⟨y, mem_univ y⟩⟩, happ.surjective hcN⟩

/-- Bounds for the distance, after `k` leapfrog steps, of positions and momenta from what they
would be without forces, in multiples of `|h|` times the distance of the initial momenta; `x` is
`h²` times the Lipschitz constant of the force. -/
noncomputable def lag (x : ℝ) : ℕ → ℝ × ℝ
  | 0 => (0, 0)
  | k + 1 =>
    let d := (lag x k).1 + (lag x k).2 + x / 2 * (k + (lag x k).1)
    (d, (lag x k).2 + x / 2 * (k + (lag x k).1) + x / 2 * (k + 1 + d))

theorem lag_nonneg {x : ℝ} (hx : 0 ≤ x) (k : ℕ) : 0 ≤ (lag x k).1 ∧ 0 ≤ (lag x k).2 := by
  induction k with
  | zero => simp [lag]
  | succ k ih =>
    obtain ⟨h1, h2⟩ := ih
    have hk : (0 : ℝ) ≤ k := Nat.cast_nonneg k
    simp only [lag]
    have hd : 0 ≤ (lag x k).1 + (lag x k).2 + x / 2 * (k + (lag x k).1) := by positivity
    exact ⟨hd, by positivity⟩

theorem lag_small {x : ℝ} (hx : 0 ≤ x) (n : ℕ) (hn : x * n ^ 2 ≤ 3) (k : ℕ) (hk : k ≤ n) :
    (lag x k).1 ≤ x * (k ^ 3 - k) / 3 ∧ (lag x k).2 ≤ x * k ^ 2 := by
  have hle : ∀ k : ℕ, k ≤ n → x * ((k : ℝ) ^ 3 - k) / 3 ≤ k := by
    intro k hk
    have h1 : (k : ℝ) ≤ n := by exact_mod_cast hk
    have h0 : (0 : ℝ) ≤ k := Nat.cast_nonneg k
    have h2 : x * (k : ℝ) ^ 2 ≤ 3 := le_trans (mul_le_mul_of_nonneg_left (pow_le_pow_left₀ h0 h1 2) hx) hn
    have h3 : x * (k : ℝ) ^ 2 * k ≤ 3 * k := mul_le_mul_of_nonneg_right h2 h0
    have h4 : 0 ≤ x * k := mul_nonneg hx h0
    nlinarith
  induction k with
  | zero => simp [lag]
  | succ k ih =>
    obtain ⟨h1, h2⟩ := ih (by omega)
    have h0 : (0 : ℝ) ≤ k := Nat.cast_nonneg k
    have hd := h1.trans (hle k (by omega))
    simp only [lag]
    have e1 : x / 2 * (k + (lag x k).1) ≤ x * k := by nlinarith
    have hd1 : (lag x k).1 + (lag x k).2 + x / 2 * (k + (lag x k).1) ≤ x * (((k + 1 : ℕ) : ℝ) ^ 3 - (k + 1 : ℕ)) / 3 := by
      push_cast
      nlinarith
    refine ⟨hd1, ?_⟩
    have hd2 := hd1.trans (hle (k + 1) hk)
    push_cast at hd2 ⊢
    have e2 : x / 2 * (k + 1 + ((lag x k).1 + (lag x k).2 + x / 2 * (k + (lag x k).1))) ≤ x * (k + 1) := by nlinarith
    nlinarith

/-- A condition on step size, number of steps and force under which momenta dominate. -/
theorem lag_lt {x : ℝ} (hx : 0 ≤ x) {n : ℕ} (hn0 : 0 < n) (hn : x * n ^ 2 ≤ 3) : (lag x n).1 < n := by
  have h := (lag_small hx n hn n le_rfl).1
  have h0 : (0 : ℝ) < n := by exact_mod_cast hn0
  rcases hx.lt_or_eq with hx | hx
  · refine h.trans_lt ?_
    have : x * (n : ℝ) ^ 2 * n ≤ 3 * n := mul_le_mul_of_nonneg_right hn h0.le
    nlinarith [mul_pos hx h0]
  · rw [← hx] at h ⊢
    simp only [zero_mul, zero_div] at h
    linarith

theorem lag_one (x : ℝ) : (lag x 1).1 = 0 := by simp [lag]

theorem lag_two (x : ℝ) : (lag x 2).1 = x := by
  simp [lag]

/-- Two solutions of the leapfrog recursion that start at the same position. -/
theorem verlet_bound {F : Type} [NormedAddCommGroup F] [NormedSpace ℝ F] {h L : ℝ} (hL : 0 ≤ L) {dz dr dg : ℕ → F} (h0 : dz 0 = 0)
    (hg : ∀ k, ‖dg k‖ ≤ L * ‖dz k‖) (hz : ∀ k, dz (k + 1) = dz k + h • (dr k + (h / 2) • dg k))
    (hr : ∀ k, dr (k + 1) = dr k + (h / 2) • dg k + (h / 2) • dg (k + 1)) (k : ℕ) :
    ‖dz k - (k * h) • dr 0‖ ≤ (lag (h ^ 2 * L) k).1 * |h| * ‖dr 0‖ ∧ |h| * ‖dr k - dr 0‖ ≤ (lag (h ^ 2 * L) k).2 * |h| * ‖dr 0‖ := by
  set x := h ^ 2 * L with hx
  have hpos : ∀ k, ‖dz k - ((k : ℝ) * h) • dr 0‖ ≤ (lag x k).1 * |h| * ‖dr 0‖ → h ^ 2 / 2 * ‖dg k‖ ≤ x / 2 * (k + (lag x k).1) * |h| * ‖dr 0‖ := by
    intro k hk
    have h1 : ‖dz k‖ ≤ (k + (lag x k).1) * |h| * ‖dr 0‖ := by
      calc ‖dz k‖ = ‖(dz k - ((k : ℝ) * h) • dr 0) + ((k : ℝ) * h) • dr 0‖ := by rw [sub_add_cancel]
        _ ≤ (lag x k).1 * |h| * ‖dr 0‖ + k * |h| * ‖dr 0‖ := by
            refine (norm_add_le _ _).trans (add_le_add hk ?_)
            rw [norm_smul, norm_mul, Real.norm_eq_abs, Real.norm_eq_abs, abs_of_nonneg (Nat.cast_nonneg k : (0 : ℝ) ≤ k)]
        _ = _ := by ring
    calc h ^ 2 / 2 * ‖dg k‖ ≤ h ^ 2 / 2 * (L * ((k + (lag x k).1) * |h| * ‖dr 0‖)) :=
          mul_le_mul_of_nonneg_left ((hg k).trans (mul_le_mul_of_nonneg_left h1 hL)) (by positivity)
      _ = _ := by rw [hx]; ring
  induction k with
  | zero => simp [lag, h0]
  | succ k ih =>
    obtain ⟨i1, i2⟩ := ih
    have i3 := hpos k i1
    have hh : |h| * |h / 2| = h ^ 2 / 2 := by
      rw [abs_div, abs_two, ← sq_abs h]; ring
    have j1 : ‖dz (k + 1) - (((k + 1 : ℕ) : ℝ) * h) • dr 0‖ ≤ (lag x (k + 1)).1 * |h| * ‖dr 0‖ := by
      have e : dz (k + 1) - (((k + 1 : ℕ) : ℝ) * h) • dr 0 = (dz k - ((k : ℝ) * h) • dr 0) + h • (dr k - dr 0) + (h * (h / 2)) • dg k := by
        rw [hz k]
        push_cast
        rw [add_mul, one_mul, add_smul, smul_add, smul_sub, smul_smul]
        abel
      rw [e]
      refine (norm_add_le _ _).trans ?_
      have n1 : ‖h • (dr k - dr 0)‖ = |h| * ‖dr k - dr 0‖ := by rw [norm_smul, Real.norm_eq_abs]
      have n2 : ‖(h * (h / 2)) • dg k‖ = h ^ 2 / 2 * ‖dg k‖ := by
        rw [norm_smul, Real.norm_eq_abs, abs_mul, hh]
      calc _ ≤ (lag x k).1 * |h| * ‖dr 0‖ + (lag x k).2 * |h| * ‖dr 0‖ + x / 2 * (k + (lag x k).1) * |h| * ‖dr 0‖ := by
            rw [n2]
            refine add_le_add ((norm_add_le _ _).trans ?_) i3
            rw [n1]
            exact add_le_add i1 i2
        _ = _ := by simp only [lag]; ring
    refine ⟨j1, ?_⟩
    have j3 := hpos (k + 1) j1
    have e : dr (k + 1) - dr 0 = (dr k - dr 0) + (h / 2) • dg k + (h / 2) • dg (k + 1) := by rw [hr k]; abel
    rw [e]
    calc |h| * ‖(dr k - dr 0) + (h / 2) • dg k + (h / 2) • dg (k + 1)‖
        ≤ |h| * (‖dr k - dr 0‖ + ‖(h / 2) • dg k‖ + ‖(h / 2) • dg (k + 1)‖) :=
          mul_le_mul_of_nonneg_left ((norm_add_le _ _).trans (add_le_add (norm_add_le _ _) le_rfl)) (abs_nonneg h)
      _ = |h| * ‖dr k - dr 0‖ + h ^ 2 / 2 * ‖dg k‖ + h ^ 2 / 2 * ‖dg (k + 1)‖ := by
          rw [norm_smul, norm_smul, Real.norm_eq_abs, ← hh]; ring
      _ ≤ (lag x k).2 * |h| * ‖dr 0‖ + x / 2 * (k + (lag x k).1) * |h| * ‖dr 0‖ + x / 2 * (((k + 1 : ℕ) : ℝ) + (lag x (k + 1)).1) * |h| * ‖dr 0‖ :=
          add_le_add (add_le_add i2 i3) j3
      _ = _ := by simp only [lag]; push_cast; ring

end Edward
