/-
Properties C61 (averaging), C62 (metrics are distances), C64 (log-likelihood metric).
-/
import Mathlib.Analysis.Convex.SpecificFunctions.Basic
import Mathlib.Analysis.Convex.Jensen
import Mathlib.Analysis.SpecialFunctions.Log.ENNRealLogExp
import Mathlib.Algebra.Order.Chebyshev
import Mathlib.Algebra.BigOperators.Field
import Mathlib.Algebra.Order.BigOperators.Ring.Finset
import Verif.Model.Metrics

set_option linter.unusedSectionVars false

namespace Edward

/-! ### Specification -/

/-- The averaged metrics. -/
inductive AvgMetric | mse | mae | mape | msle

/-- The code of each. -/
noncomputable def AvgMetric.fn : AvgMetric → ColMetric
  | .mse => meanSquaredError
  | .mae => meanAbsoluteError
  | .mape => meanAbsolutePercentageError
  | .msle => meanSquaredLogarithmicError

/-- The loss of one prediction. -/
noncomputable def AvgMetric.loss : AvgMetric → ℝ → ℝ → ℝ
  | .mse, t, p => (t - p) ^ 2
  | .mae, t, p => |t - p|
  | .mape, t, p => 100 * (|t - p| / max |t| 1e-8)
  | .msle, t, p => (Real.log (1 + max t 1e-8) - Real.log (1 + max p 1e-8)) ^ 2

section
variable {B I J : Type} [Fintype B] [Fintype I] [Fintype J]

/-- Sum of the losses over all entries, divided by their number. -/
noncomputable def overallMean (l : ℝ → ℝ → ℝ) (yt yp : Tens B I J) : ℝ :=
  (∑ b, ∑ i, ∑ j, l (yt b i j) (yp b i j)) / (Fintype.card B * Fintype.card I * Fintype.card J)

/-- Mean over the second-to-last index. -/
noncomputable def columnMean (l : ℝ → ℝ → ℝ) (yt yp : Tens B I J) (b : B) (j : J) : ℝ :=
  (∑ i, l (yt b i j) (yp b i j)) / Fintype.card I

/-! ### C61 -/

theorem AvgMetric.fn_eq (m : AvgMetric) {B I J : Type} [Fintype I] (yt yp : Tens B I J) (b : B) (j : J) :
    m.fn yt yp b j = (∑ i, m.loss (yt b i j) (yp b i j)) / Fintype.card I := by
  cases m
  · simp only [AvgMetric.fn, meanSquaredError, reduceMean, AvgMetric.loss]
    congr 1; exact Finset.sum_congr rfl fun i _ => by ring
  · simp only [AvgMetric.fn, meanAbsoluteError, reduceMean, AvgMetric.loss]
    congr 1; exact Finset.sum_congr rfl fun i _ => abs_sub_comm _ _
  · simp only [AvgMetric.fn, meanAbsolutePercentageError, reduceMean, AvgMetric.loss]
    rw [← mul_div_assoc, Finset.mul_sum]
    congr 1; refine Finset.sum_congr rfl fun i _ => ?_
    have : (0 : ℝ) ≤ clip (abs (yt b i j)) := le_trans (by norm_num) (le_max_right _ _)
    rw [abs_div, abs_of_nonneg this]; rfl
  · simp only [AvgMetric.fn, meanSquaredLogarithmicError, reduceMean, AvgMetric.loss, clip]
    congr 1; refine Finset.sum_congr rfl fun i _ => ?_
    rw [add_comm _ (1 : ℝ), add_comm _ (1 : ℝ)]; ring

/-- C61 (partial: the options): `'macro'` and `'micro'` give the overall mean of the
losses, `None` the column means. The error for other values is not the documented one:
`C61_fails`. -/
theorem C61_averaging_partial [Nonempty B] [Nonempty I] [Nonempty J] (m : AvgMetric) (yt yp : Tens B I J) :
    withBinaryAveraging m.fn .macro yt yp = .ok (.scalar (overallMean m.loss yt yp)) ∧
    withBinaryAveraging m.fn .micro yt yp = .ok (.scalar (overallMean m.loss yt yp)) ∧
    withBinaryAveraging m.fn .none yt yp = .ok (.columns (columnMean m.loss yt yp)) := by
  refine ⟨?_, ?_, ?_⟩
  · unfold withBinaryAveraging reduceMean overallMean
    simp only [AvgMetric.fn_eq, Fintype.sum_prod_type]
    congr 2
    rw [Fintype.card_prod, Nat.cast_mul]
    simp only [← Finset.sum_div]
    rw [div_div]
    congr 1
    · refine Finset.sum_congr rfl fun b _ => ?_
      rw [Finset.sum_comm]
    · ring
  · unfold withBinaryAveraging reduceMean overallMean
    simp only [AvgMetric.fn_eq, Fintype.sum_prod_type]
    congr 2
    simp [Fintype.card_prod, mul_assoc]
  · have : (m.fn yt yp : B → J → ℝ) = columnMean m.loss yt yp := by
      funext b j; exact AvgMetric.fn_eq m yt yp b j
    unfold withBinaryAveraging
    simp only [this]

/-- C61: vectors are treated as one-row matrices, so the default average is the mean. -/
theorem C61_vector [Nonempty J] (m : AvgMetric) (yt yp : J → ℝ) :
    withBinaryAveraging m.fn .macro (expandDims yt) (expandDims yp) =
      .ok (.scalar ((∑ j, m.loss (yt j) (yp j)) / Fintype.card J)) := by
  rw [(C61_averaging_partial m (expandDims yt) (expandDims yp)).1]
  simp [overallMean, expandDims]

/-- C61, the error branch: an invalid value of `average` always raises, though not the
promised ValueError. -/
theorem C61_invalid_partial (m : AvgMetric) (yt yp : Tens B I J) :
    withBinaryAveraging m.fn .other yt yp = .error .nameError := rfl

/-- C61 fails: an invalid value of `average` does not raise ValueError (the message
refers to an undefined name, so NameError is raised). -/
theorem C61_fails : ¬ ∀ (m : AvgMetric) (yt yp : Tens Unit (Fin 2) (Fin 2)),
    withBinaryAveraging m.fn .other yt yp = .error .valueError := by
  intro h
  have := h .mse (fun _ _ _ => 0) (fun _ _ _ => 0)
  simp [withBinaryAveraging] at this

end

example : withBinaryAveraging AvgMetric.mse.fn .micro (fun (_ : Unit) (i : Fin 2) (j : Fin 3) => (i + j : ℝ))
    (fun _ _ _ => 0) = .ok (.scalar (overallMean AvgMetric.mse.loss
      (fun (_ : Unit) (i : Fin 2) (j : Fin 3) => (i + j : ℝ)) (fun _ _ _ => 0))) :=
  (C61_averaging_partial _ _ _).2.1

/-! ### C62 -/

section
variable {B I J : Type} [Fintype B] [Fintype I] [Fintype J]

theorem AvgMetric.loss_nonneg (m : AvgMetric) (t p : ℝ) : 0 ≤ m.loss t p := by
  cases m <;> simp only [AvgMetric.loss] <;> positivity

theorem overallMean_nonneg (m : AvgMetric) (yt yp : Tens B I J) : 0 ≤ overallMean m.loss yt yp :=
  div_nonneg (Finset.sum_nonneg fun b _ => Finset.sum_nonneg fun i _ => Finset.sum_nonneg fun j _ =>
    m.loss_nonneg _ _) (by positivity)

theorem overallMean_eq_zero [Nonempty B] [Nonempty I] [Nonempty J] (m : AvgMetric) (yt yp : Tens B I J) :
    overallMean m.loss yt yp = 0 ↔ ∀ b i j, m.loss (yt b i j) (yp b i j) = 0 := by
  unfold overallMean
  have hc : ((Fintype.card B : ℝ) * Fintype.card I * Fintype.card J) ≠ 0 := by
    have h1 : (Fintype.card B : ℝ) ≠ 0 := by exact_mod_cast Fintype.card_ne_zero
    have h2 : (Fintype.card I : ℝ) ≠ 0 := by exact_mod_cast Fintype.card_ne_zero
    have h3 : (Fintype.card J : ℝ) ≠ 0 := by exact_mod_cast Fintype.card_ne_zero
    positivity
  rw [div_eq_zero_iff, or_iff_left hc,
    Finset.sum_eq_zero_iff_of_nonneg fun b _ => Finset.sum_nonneg fun i _ => Finset.sum_nonneg fun j _ =>
      m.loss_nonneg _ _]
  constructor
  · intro h b i j
    have h1 := h b (Finset.mem_univ _)
    rw [Finset.sum_eq_zero_iff_of_nonneg fun i _ => Finset.sum_nonneg fun j _ => m.loss_nonneg _ _] at h1
    have h2 := h1 i (Finset.mem_univ _)
    rw [Finset.sum_eq_zero_iff_of_nonneg fun j _ => m.loss_nonneg _ _] at h2
    exact h2 j (Finset.mem_univ _)
  · intro h b _
    exact Finset.sum_eq_zero fun i _ => Finset.sum_eq_zero fun j _ => h b i j

/-- C62, squared, absolute and percentage errors: non-negative, zero exactly when
predictions equal targets. -/
theorem C62_errors [Nonempty B] [Nonempty I] [Nonempty J] (m : AvgMetric) (hm : m ≠ .msle) (av : Average)
    (hav : av = .macro ∨ av = .micro) (yt yp : Tens B I J) :
    ∃ v, withBinaryAveraging m.fn av yt yp = .ok (.scalar v) ∧ 0 ≤ v ∧ (v = 0 ↔ yp = yt) := by
  refine ⟨overallMean m.loss yt yp, ?_, overallMean_nonneg m yt yp, ?_⟩
  · rcases hav with rfl | rfl
    · exact (C61_averaging_partial m yt yp).1
    · exact (C61_averaging_partial m yt yp).2.1
  · rw [overallMean_eq_zero]
    have key : ∀ t p, m.loss t p = 0 ↔ p = t := by
      intro t p
      cases m with
      | mse => simp [AvgMetric.loss, sub_eq_zero, eq_comm]
      | mae => simp [AvgMetric.loss, sub_eq_zero, eq_comm]
      | mape =>
        have : (0 : ℝ) < max |t| 1e-8 := lt_of_lt_of_le (by norm_num) (le_max_right _ _)
        simp only [AvgMetric.loss, mul_eq_zero, div_eq_zero_iff, this.ne', or_false, abs_eq_zero, sub_eq_zero]
        norm_num [eq_comm]
      | msle => exact absurd rfl hm
    simp only [key]
    constructor
    · intro h; funext b i j; exact h b i j
    · rintro rfl b i j; rfl

/-- C62 (partial): the squared logarithmic error is non-negative, and zero exactly when
predictions equal targets provided all are at least `1e-8`; smaller numbers are clipped
(`C62_msle_fails`). -/
theorem C62_msle_partial [Nonempty B] [Nonempty I] [Nonempty J] (av : Average)
    (hav : av = .macro ∨ av = .micro) (yt yp : Tens B I J) :
    ∃ v, withBinaryAveraging meanSquaredLogarithmicError av yt yp = .ok (.scalar v) ∧ 0 ≤ v ∧
      (v = 0 ↔ ∀ b i j, max (yp b i j) 1e-8 = max (yt b i j) 1e-8) ∧
      ((∀ b i j, 1e-8 ≤ yt b i j ∧ 1e-8 ≤ yp b i j) → (v = 0 ↔ yp = yt)) := by
  have h1 : overallMean AvgMetric.msle.loss yt yp = 0 ↔ ∀ b i j, max (yp b i j) 1e-8 = max (yt b i j) 1e-8 := by
    rw [overallMean_eq_zero]
    have key : ∀ t p, AvgMetric.msle.loss t p = 0 ↔ max p 1e-8 = max t 1e-8 := by
      intro t p
      have ht : (0 : ℝ) < 1 + max t 1e-8 := by
        have : (1e-8 : ℝ) ≤ max t 1e-8 := le_max_right _ _
        have : (0 : ℝ) < 1e-8 := by norm_num
        linarith
      have hp : (0 : ℝ) < 1 + max p 1e-8 := by
        have : (1e-8 : ℝ) ≤ max p 1e-8 := le_max_right _ _
        have : (0 : ℝ) < 1e-8 := by norm_num
        linarith
      simp only [AvgMetric.loss]
      rw [sq_eq_zero_iff, sub_eq_zero]
      constructor
      · intro h
        have := Real.log_injOn_pos (Set.mem_Ioi.mpr ht) (Set.mem_Ioi.mpr hp) h
        linarith
      · intro h; rw [h]
    simp only [key]
  refine ⟨overallMean AvgMetric.msle.loss yt yp, ?_, overallMean_nonneg _ yt yp, h1, fun hge => ?_⟩
  · rcases hav with rfl | rfl
    · exact (C61_averaging_partial .msle yt yp).1
    · exact (C61_averaging_partial .msle yt yp).2.1
  · rw [h1]
    constructor
    · intro h; funext b i j
      have := h b i j
      rwa [max_eq_left (hge b i j).1, max_eq_left (hge b i j).2] at this
    · rintro rfl b i j; rfl

end

/-- C62 fails for the squared logarithmic error: different negative numbers have error
zero. -/
theorem C62_msle_fails : ∃ yt yp : Tens Unit (Fin 1) (Fin 1), yt ≠ yp ∧
    withBinaryAveraging meanSquaredLogarithmicError .macro yt yp = .ok (.scalar 0) := by
  refine ⟨fun _ _ _ => -1, fun _ _ _ => -2, fun h => ?_, ?_⟩
  · have := congrFun (congrFun (congrFun h ()) 0) 0
    norm_num at this
  · obtain ⟨v, hv, -, h0, -⟩ := C62_msle_partial (B := Unit) (I := Fin 1) (J := Fin 1) .macro (Or.inl rfl)
      (fun _ _ _ => -1) (fun _ _ _ => -2)
    rw [hv, h0.2]
    intro b i j
    norm_num

section
variable {A : Type} [Fintype A] [Nonempty A]

/-- C62, accuracies lie in [0, 1] and are 1 exactly when all predictions agree. -/
theorem C62_accuracy (yt yp : A → ℝ) :
    0 ≤ accuracy yt yp ∧ accuracy yt yp ≤ 1 ∧ (accuracy yt yp = 1 ↔ ∀ a, yp a = yt a) := by
  classical
  unfold accuracy reduceMean
  have hc : (0 : ℝ) < Fintype.card A := by exact_mod_cast Fintype.card_pos
  rw [Finset.sum_boole]
  refine ⟨by positivity, ?_, ?_⟩
  · rw [div_le_one hc]
    exact_mod_cast Finset.card_filter_le _ _
  · rw [div_eq_one_iff_eq hc.ne', Nat.cast_inj, ← Finset.card_univ, Finset.card_filter_eq_iff]
    simp [eq_comm]

theorem argmax_spec {k : ℕ} (y : Fin (k + 1) → ℝ) : ∀ i, y i ≤ y (argmax y) := by
  classical
  unfold argmax
  have key : ∀ (l : List (Fin (k + 1))) (b : Fin (k + 1)),
      (∀ i ∈ l, y i ≤ y (l.foldl (fun best i => if y best < y i then i else best) b)) ∧
      y b ≤ y (l.foldl (fun best i => if y best < y i then i else best) b) := by
    intro l
    induction l with
    | nil => intro b; simp
    | cons a l ih =>
      intro b
      rw [List.foldl_cons]
      obtain ⟨h1, h2⟩ := ih (if y b < y a then a else b)
      have h3 : y a ≤ y (if y b < y a then a else b) ∧ y b ≤ y (if y b < y a then a else b) := by
        split
        · rename_i h; exact ⟨le_rfl, h.le⟩
        · rename_i h; exact ⟨not_lt.mp h, le_rfl⟩
      refine ⟨fun i hi => ?_, h3.2.trans h2⟩
      rw [List.mem_cons] at hi
      rcases hi with rfl | hi
      · exact h3.1.trans h2
      · exact h1 i hi
  intro i
  have := (key (List.finRange (k + 1)) 0).1 i (List.mem_finRange i)
  convert this

/-- C62, categorical accuracy for one-hot targets: `c a` is the class of row `a`. -/
theorem C62_categorical_accuracy {k : ℕ} (c : A → Fin (k + 1)) (yp : A → ℝ) :
    let yt : A → Fin (k + 1) → ℝ := fun a i => if i = c a then 1 else 0
    0 ≤ categoricalAccuracy yt yp ∧ categoricalAccuracy yt yp ≤ 1 ∧
      (categoricalAccuracy yt yp = 1 ↔ ∀ a, yp a = (c a : ℕ)) := by
  intro yt
  have h : ∀ a, argmax (yt a) = c a := by
    intro a
    have := argmax_spec (yt a) (c a)
    by_contra hne
    simp only [yt, if_true, if_neg hne] at this
    norm_num at this
  obtain ⟨h1, h2, h3⟩ := C62_accuracy (fun a => ((argmax (yt a) : ℕ) : ℝ)) yp
  refine ⟨h1, h2, ?_⟩
  unfold categoricalAccuracy
  rw [h3]
  simp only [h]

end

/-! Cosine proximity -/

theorem l2Normalize_sq_le {K : Type} [Fintype K] (x : K → ℝ) : ∑ k, l2Normalize x k ^ 2 ≤ 1 := by
  unfold l2Normalize
  have hpos : (0 : ℝ) < max (∑ j, x j ^ 2) 1e-12 := lt_of_lt_of_le (by norm_num) (le_max_right _ _)
  simp only [div_pow, Real.sq_sqrt hpos.le, ← Finset.sum_div]
  rw [div_le_one hpos]
  exact le_max_left _ _

/-- C62, cosine proximity: every row contributes a number in [-1, 1]. -/
theorem C62_cosine {K : Type} [Fintype K] (yt yp : K → ℝ) :
    -1 ≤ cosineRow yt yp ∧ cosineRow yt yp ≤ 1 := by
  have h := Finset.sum_mul_sq_le_sq_mul_sq Finset.univ (l2Normalize yt) (l2Normalize yp)
  have h1 := l2Normalize_sq_le yt
  have h2 := l2Normalize_sq_le yp
  have h3 : (cosineRow yt yp) ^ 2 ≤ 1 := by
    refine h.trans ?_
    have n1 : 0 ≤ ∑ k, l2Normalize yp k ^ 2 := Finset.sum_nonneg fun _ _ => sq_nonneg _
    nlinarith
  exact abs_le.mp ((sq_le_one_iff_abs_le_one _).mp h3)

/-- C62: the cosine of a row with itself is 1 unless the row is nearly zero. -/
theorem C62_cosine_self {K : Type} [Fintype K] (y : K → ℝ) (h : 1e-12 ≤ ∑ j, y j ^ 2) : cosineRow y y = 1 := by
  have hpos : (0 : ℝ) < ∑ j, y j ^ 2 := lt_of_lt_of_le (by norm_num) h
  unfold cosineRow l2Normalize
  rw [max_eq_left h]
  have : ∀ k, y k / Real.sqrt (∑ j, y j ^ 2) * (y k / Real.sqrt (∑ j, y j ^ 2)) = y k ^ 2 / ∑ j, y j ^ 2 := by
    intro k
    rw [div_mul_div_comm, Real.mul_self_sqrt hpos.le, sq]
  simp only [this, ← Finset.sum_div]
  exact div_self hpos.ne'

/-! KL divergence -/

theorem ereal_coe_sum {A : Type} (u : Finset A) (f : A → ℝ) :
    ((∑ a ∈ u, f a : ℝ) : EReal) = ∑ a ∈ u, (f a : EReal) := by
  classical
  induction u using Finset.induction_on with
  | empty => simp
  | insert a u ha ih => rw [Finset.sum_insert ha, Finset.sum_insert ha, EReal.coe_add, ih]

theorem ereal_sum_eq_bot {A : Type} (u : Finset A) (f : A → EReal) : ∑ a ∈ u, f a = ⊥ ↔ ∃ a ∈ u, f a = ⊥ := by
  classical
  induction u using Finset.induction_on with
  | empty => simp
  | insert a u ha ih => rw [Finset.sum_insert ha, EReal.add_eq_bot_iff, ih]; simp

theorem ereal_sum_eq_top {A : Type} (u : Finset A) (f : A → EReal) (hb : ∀ a ∈ u, f a ≠ ⊥) (a : A) (ha : a ∈ u)
    (ht : f a = ⊤) : ∑ a ∈ u, f a = ⊤ := by
  classical
  rw [← Finset.add_sum_erase u f ha, ht]
  refine EReal.top_add_of_ne_bot ?_
  rw [Ne, ereal_sum_eq_bot]
  rintro ⟨c, hc, h⟩
  exact hb c (Finset.mem_of_mem_erase hc) h

/-- Gibbs' inequality for one pair of numbers. -/
theorem kl_term {t p : ℝ} (ht : 0 < t) (hp : 0 < p) :
    t - p ≤ t * (Real.log t - Real.log p) ∧ (t * (Real.log t - Real.log p) = t - p ↔ t = p) := by
  have hx : 0 < p / t := div_pos hp ht
  have e : Real.log t - Real.log p = - Real.log (p / t) := by rw [Real.log_div hp.ne' ht.ne']; ring
  rw [e]
  have e2 : t - p = t * (-(p / t - 1)) := by field_simp; ring
  constructor
  · rw [e2]
    exact mul_le_mul_of_nonneg_left (neg_le_neg (Real.log_le_sub_one_of_pos hx)) ht.le
  · constructor
    · intro h
      by_contra hne
      have h1 : p / t ≠ 1 := by rw [Ne, div_eq_one_iff_eq ht.ne']; exact fun h => hne h.symm
      have := Real.log_lt_sub_one_of_pos hx h1
      rw [e2, mul_right_inj' ht.ne'] at h
      linarith
    · rintro rfl
      rw [div_self ht.ne']; simp

section
variable {A K : Type} [Fintype A] [Fintype K]

/-- C62, KL divergence of (rows of) probability vectors: non-negative, possibly
infinite, and zero exactly when the vectors are equal. -/
theorem C62_kl (yt yp : A → K → ℝ) (ht : ∀ a k, 0 ≤ yt a k) (hp : ∀ a k, 0 ≤ yp a k)
    (hts : ∀ a, ∑ k, yt a k = 1) (hps : ∀ a, ∑ k, yp a k = 1) :
    0 ≤ klDivergence yt yp ∧ (klDivergence yt yp = 0 ↔ yt = yp) := by
  classical
  -- every term
  let term : A → K → EReal := fun a k => if yt a k = 0 then 0 else
    (yt a k : EReal) * (ENNReal.log (ENNReal.ofReal (yt a k)) - ENNReal.log (ENNReal.ofReal (yp a k)))
  have hdef : klDivergence yt yp = ∑ a, ∑ k, term a k := by
    unfold klDivergence; rfl
  let rt : A → K → ℝ := fun a k => yt a k * (Real.log (yt a k) - Real.log (yp a k))
  have hreal : ∀ a k, (yt a k = 0 ∨ 0 < yp a k) → term a k = (rt a k : EReal) := by
    intro a k h
    by_cases h0 : yt a k = 0
    · simp [term, rt, h0]
    · have h1 : 0 < yt a k := lt_of_le_of_ne (ht a k) (Ne.symm h0)
      have h2 : 0 < yp a k := h.resolve_left h0
      simp only [term, if_neg h0, rt]
      rw [ENNReal.log_ofReal_of_pos h1, ENNReal.log_ofReal_of_pos h2, ← EReal.coe_sub, ← EReal.coe_mul]
  have htop : ∀ a k, yt a k ≠ 0 → yp a k = 0 → term a k = ⊤ := by
    intro a k h0 h2
    have h1 : 0 < yt a k := lt_of_le_of_ne (ht a k) (Ne.symm h0)
    simp only [term, if_neg h0]
    rw [ENNReal.log_ofReal_of_pos h1, h2, ENNReal.ofReal_zero, ENNReal.log_zero, EReal.coe_sub_bot,
      EReal.coe_mul_top_of_pos h1]
  have hnb : ∀ a k, term a k ≠ ⊥ := by
    intro a k
    by_cases h : yt a k = 0 ∨ 0 < yp a k
    · rw [hreal a k h]; exact EReal.coe_ne_bot _
    · push Not at h
      rw [htop a k h.1 (le_antisymm h.2 (hp a k))]; simp
  by_cases hac : ∀ a k, yt a k = 0 ∨ 0 < yp a k
  · have hsum : klDivergence yt yp = ((∑ a, ∑ k, rt a k : ℝ) : EReal) := by
      rw [hdef, ereal_coe_sum]
      refine Finset.sum_congr rfl fun a _ => ?_
      rw [ereal_coe_sum]
      exact Finset.sum_congr rfl fun k _ => hreal a k (hac a k)
    have hle : ∀ a k, yt a k - yp a k ≤ rt a k := by
      intro a k
      rcases eq_or_lt_of_le (ht a k) with h | h
      · simp [rt, ← h, hp a k]
      · exact (kl_term h ((hac a k).resolve_left h.ne')).1
    have h0 : ∑ a, ∑ k, (yt a k - yp a k) = 0 := by
      refine Finset.sum_eq_zero fun a _ => ?_
      rw [Finset.sum_sub_distrib, hts, hps, sub_self]
    have hge : 0 ≤ ∑ a, ∑ k, rt a k := by
      rw [← h0]
      exact Finset.sum_le_sum fun a _ => Finset.sum_le_sum fun k _ => hle a k
    rw [hsum]
    refine ⟨by exact_mod_cast hge, ?_⟩
    rw [EReal.coe_eq_zero]
    constructor
    · intro h
      have heq : ∀ a k, rt a k = yt a k - yp a k := by
        have h1 : ∑ a, ∑ k, (rt a k - (yt a k - yp a k)) = 0 := by
          simp only [Finset.sum_sub_distrib] at h0 ⊢
          rw [h0, h, sub_zero]
        intro a k
        rw [Finset.sum_eq_zero_iff_of_nonneg fun a _ => Finset.sum_nonneg fun k _ => sub_nonneg.mpr (hle a k)] at h1
        have h2 := h1 a (Finset.mem_univ _)
        rw [Finset.sum_eq_zero_iff_of_nonneg fun k _ => sub_nonneg.mpr (hle a k)] at h2
        exact sub_eq_zero.mp (h2 k (Finset.mem_univ _))
      funext a k
      rcases eq_or_lt_of_le (ht a k) with h' | h'
      · have := heq a k
        simp only [rt, ← h', zero_mul, zero_sub] at this
        linarith
      · exact (kl_term h' ((hac a k).resolve_left h'.ne')).2.mp (heq a k)
    · rintro rfl
      simp [rt]
  · push Not at hac
    obtain ⟨a, k, h1, h2⟩ := hac
    have h3 : yp a k = 0 := le_antisymm h2 (hp a k)
    have : klDivergence yt yp = ⊤ := by
      rw [hdef]
      refine ereal_sum_eq_top _ _ (fun a _ => ?_) a (Finset.mem_univ _) ?_
      · rw [Ne, ereal_sum_eq_bot]
        rintro ⟨k, -, h⟩
        exact hnb a k h
      · exact ereal_sum_eq_top _ _ (fun k _ => hnb a k) k (Finset.mem_univ _) (htop a k h1 h3)
    rw [this]
    refine ⟨le_top, ?_⟩
    simp only [EReal.top_ne_zero, false_iff]
    rintro rfl
    exact h1 h3

end

example : klDivergence (fun (_ : Unit) (i : Fin 2) => if i = 0 then (1 : ℝ) else 0)
    (fun _ _ => (1 / 2 : ℝ)) ≠ 0 := by
  rw [Ne, (C62_kl _ _ (fun _ k => by fin_cases k <;> simp) (fun _ _ => by norm_num) (fun _ => by simp)
    (fun _ => by simp)).2]
  intro h
  have := congrFun (congrFun h ()) 0
  norm_num at this

/-! ### C64 -/

section
variable {A : Type} [Fintype A] [Nonempty A] {n : ℕ}

/-- Specification: mean over the data of the log of the predictive likelihood averaged
over the draws. -/
noncomputable def logPredictive (p : Fin n → A → ENNReal) : EReal :=
  (∑ a, ENNReal.log ((∑ s, p s a) / n)) / (Fintype.card A : EReal)

/-- C64: the `'log_lik'` metric never exceeds the log predictive density of the same
draws, for any finite likelihood values (zero allowed). -/
theorem C64_jensen (hn : 0 < n) (p : Fin n → A → ENNReal) (hp : ∀ s a, p s a ≠ ⊤) :
    logLik (fun s a => ENNReal.log (p s a)) ≤ logPredictive p := by
  have hA : (0 : ℝ) < Fintype.card A := by exact_mod_cast Fintype.card_pos
  have hn' : (0 : ℝ) < n := by exact_mod_cast hn
  have cA : (Fintype.card A : EReal) = ((Fintype.card A : ℝ) : EReal) := rfl
  have cn : (n : EReal) = ((n : ℝ) : EReal) := rfl
  unfold logLik logPredictive
  by_cases h0 : ∃ s a, p s a = 0
  · obtain ⟨s, a, h0⟩ := h0
    have h1 : ∑ a, ENNReal.log (p s a) = ⊥ :=
      (ereal_sum_eq_bot _ _).2 ⟨a, Finset.mem_univ _, by rw [h0, ENNReal.log_zero]⟩
    have h2 : ∑ s, (∑ a, ENNReal.log (p s a)) / (Fintype.card A : EReal) = ⊥ := by
      refine (ereal_sum_eq_bot _ _).2 ⟨s, Finset.mem_univ _, ?_⟩
      rw [h1, cA]
      exact EReal.bot_div_of_pos_ne_top (by exact_mod_cast hA) (EReal.coe_ne_top _)
    rw [h2, cn, EReal.bot_div_of_pos_ne_top (by exact_mod_cast hn') (EReal.coe_ne_top _)]
    exact bot_le
  · push Not at h0
    let x : Fin n → A → ℝ := fun s a => (p s a).toReal
    have hx : ∀ s a, 0 < x s a := fun s a => ENNReal.toReal_pos (h0 s a) (hp s a)
    have hpx : ∀ s a, p s a = ENNReal.ofReal (x s a) := fun s a => (ENNReal.ofReal_toReal (hp s a)).symm
    have : Nonempty (Fin n) := ⟨⟨0, hn⟩⟩
    have hsum : ∀ a, 0 < (∑ s, x s a) / n := fun a =>
      div_pos (Finset.sum_pos (fun s _ => hx s a) Finset.univ_nonempty) hn'
    have hr : ∀ a, (∑ s, p s a) / n = ENNReal.ofReal ((∑ s, x s a) / n) := by
      intro a
      rw [ENNReal.ofReal_div_of_pos hn', ENNReal.ofReal_sum_of_nonneg (fun s _ => (hx s a).le), ENNReal.ofReal_natCast]
      congr 1
      exact Finset.sum_congr rfl fun s _ => hpx s a
    simp only [hr]
    simp only [hpx, ENNReal.log_ofReal_of_pos (hx _ _), ENNReal.log_ofReal_of_pos (hsum _), ← ereal_coe_sum, cA, cn,
      ← EReal.coe_div]
    rw [EReal.coe_le_coe_iff]
    have e1 : (∑ s, (∑ a, Real.log (x s a)) / (Fintype.card A : ℝ)) / n =
        (∑ a, (∑ s, Real.log (x s a)) / n) / Fintype.card A := by
      rw [← Finset.sum_div, ← Finset.sum_div, Finset.sum_comm, div_div, div_div, mul_comm]
    rw [e1]
    refine div_le_div_of_nonneg_right (Finset.sum_le_sum fun a _ => ?_) hA.le
    have := strictConcaveOn_log_Ioi.concaveOn.le_map_sum (t := Finset.univ) (w := fun _ : Fin n => (n : ℝ)⁻¹)
      (p := fun s => x s a) (fun _ _ => by positivity) (by simp [hn'.ne']) (fun s _ => hx s a)
    simp only [smul_eq_mul, ← Finset.mul_sum] at this
    rw [div_eq_inv_mul, div_eq_inv_mul]
    exact this

end

example : logLik (fun (s : Fin 2) (_ : Unit) => ENNReal.log (if s = 0 then 1/2 else 0)) ≤
    logPredictive (fun (s : Fin 2) (_ : Unit) => if s = 0 then 1/2 else 0) :=
  C64_jensen (by norm_num) _ (fun s a => by split <;> simp)

/-! ### C76: cross entropy -/

/-- The logistic function. -/
noncomputable def logistic (x : ℝ) : ℝ := 1 / (1 + Real.exp (-x))

/-- C76, what holds: the metric is the cross entropy of the labels under the
probabilities whose logits are given as predictions. -/
theorem C76_crossentropy_partial {A : Type} [Fintype A] (yt logits : A → ℝ) :
    binaryCrossentropy yt logits =
      (∑ a, -(yt a * Real.log (logistic (logits a)) + (1 - yt a) * Real.log (1 - logistic (logits a)))) /
        Fintype.card A := by
  unfold binaryCrossentropy reduceMean
  congr 1
  refine Finset.sum_congr rfl fun a _ => ?_
  dsimp only
  generalize yt a = z
  generalize logits a = x
  have hpos : ∀ y : ℝ, 0 < 1 + Real.exp y := fun y => by positivity
  have h1 : Real.log (logistic x) = - Real.log (1 + Real.exp (-x)) := by
    unfold logistic; rw [Real.log_div one_ne_zero (hpos _).ne', Real.log_one, zero_sub]
  have h2 : Real.log (1 - logistic x) = - x - Real.log (1 + Real.exp (-x)) := by
    have : 1 - logistic x = Real.exp (-x) / (1 + Real.exp (-x)) := by
      unfold logistic; field_simp [(hpos (-x)).ne']; ring
    rw [this, Real.log_div (Real.exp_pos _).ne' (hpos _).ne', Real.log_exp]
  rw [h1, h2]
  unfold sigmoidCrossEntropy
  rcases le_total 0 x with hx | hx
  · rw [max_eq_left hx, abs_of_nonneg hx]; ring
  · rw [max_eq_right hx, abs_of_nonpos hx, neg_neg]
    have : Real.log (1 + Real.exp (-x)) = -x + Real.log (1 + Real.exp x) := by
      have e : 1 + Real.exp (-x) = Real.exp (-x) * (1 + Real.exp x) := by
        rw [mul_add, ← Real.exp_add]; simp; ring
      rw [e, Real.log_mul (Real.exp_pos _).ne' (hpos _).ne', Real.log_exp]
    rw [this]; ring

/-- C76 fails: for a Bernoulli output `ed.evaluate` passes rounded probabilities as
logits, so a model giving every observation probability one still has a loss: `log 2`
when all observations are 0. -/
theorem C76_fails : ∀ (A : Type) [Fintype A] [Nonempty A] (random : A → ℝ),
    binaryCrossentropy (fun _ : A => 0) (fun a => roundPrediction 0 (random a)) = Real.log 2 := by
  intro A _ _ random
  have hc : (Fintype.card A : ℝ) ≠ 0 := by exact_mod_cast Fintype.card_ne_zero
  have : ∀ a, sigmoidCrossEntropy 0 (roundPrediction 0 (random a)) = Real.log 2 := by
    intro a
    have : roundPrediction 0 (random a) = 0 := by unfold roundPrediction; norm_num
    rw [this]
    simp [sigmoidCrossEntropy]
    norm_num
  unfold binaryCrossentropy reduceMean
  simp only [this]
  simp [hc]

/-- C76: whatever the probabilities and the labels (0 or 1), the loss `ed.evaluate`
reports for a Bernoulli output is at least `log (1 + exp (-1))`. -/
theorem C76_bound {A : Type} [Fintype A] [Nonempty A] (yt probs random : A → ℝ) (h : ∀ a, yt a = 0 ∨ yt a = 1) :
    Real.log (1 + Real.exp (-1)) ≤ binaryCrossentropy yt (fun a => roundPrediction (probs a) (random a)) := by
  have hc : (0 : ℝ) < Fintype.card A := by exact_mod_cast Fintype.card_pos
  unfold binaryCrossentropy reduceMean
  rw [le_div_iff₀ hc]
  have hterm : ∀ a, Real.log (1 + Real.exp (-1)) ≤ sigmoidCrossEntropy (yt a) (roundPrediction (probs a) (random a)) := by
    intro a
    have hr : roundPrediction (probs a) (random a) = 0 ∨ roundPrediction (probs a) (random a) = 1 := by
      unfold roundPrediction; dsimp only; split_ifs <;> simp
    have hm : Real.log (1 + Real.exp (-1)) ≤ Real.log (1 + Real.exp 0) :=
      Real.log_le_log (by positivity) (by gcongr; norm_num)
    rcases hr with hr | hr <;> rcases h a with hz | hz <;> rw [hr, hz] <;> simp [sigmoidCrossEntropy] at hm ⊢ <;>
      linarith
  calc Real.log (1 + Real.exp (-1)) * Fintype.card A = ∑ _a : A, Real.log (1 + Real.exp (-1)) := by
        rw [Finset.sum_const, Finset.card_univ, nsmul_eq_mul, mul_comm]
    _ ≤ _ := Finset.sum_le_sum fun a _ => hterm a

/-! ### C77: hinge -/

/-- C77, what holds: for labels -1 and 1 both hinge losses are non-negative and vanish
exactly when every prediction has the right sign with margin one. -/
theorem C77_hinge_partial {A : Type} [Fintype A] [Nonempty A] (yt yp : A → ℝ) :
    0 ≤ hinge yt yp ∧ (hinge yt yp = 0 ↔ ∀ a, 1 ≤ yt a * yp a) ∧
    0 ≤ squaredHinge yt yp ∧ (squaredHinge yt yp = 0 ↔ ∀ a, 1 ≤ yt a * yp a) := by
  have hc : (0 : ℝ) < Fintype.card A := by exact_mod_cast Fintype.card_pos
  have h1 : ∀ a, 0 ≤ max (1 - yt a * yp a) 0 := fun a => le_max_right _ _
  have h2 : ∀ a, 0 ≤ (max (1 - yt a * yp a) 0) ^ 2 := fun a => sq_nonneg _
  have e : ∀ a, max (1 - yt a * yp a) 0 = 0 ↔ 1 ≤ yt a * yp a := fun a => by
    rw [max_eq_right_iff, sub_nonpos]
  unfold hinge squaredHinge reduceMean
  refine ⟨div_nonneg (Finset.sum_nonneg fun a _ => h1 a) hc.le, ?_,
    div_nonneg (Finset.sum_nonneg fun a _ => h2 a) hc.le, ?_⟩
  · rw [div_eq_zero_iff, or_iff_left hc.ne', Finset.sum_eq_zero_iff_of_nonneg fun a _ => h1 a]
    simp [e]
  · rw [div_eq_zero_iff, or_iff_left hc.ne', Finset.sum_eq_zero_iff_of_nonneg fun a _ => h2 a]
    simp only [sq_eq_zero_iff, e]; simp

/-- C77 fails for the documented labels 0 and 1: an observation 0 contributes 1 whatever
the prediction. -/
theorem C77_fails (yp : Unit → ℝ) : hinge (fun _ => 0) yp = 1 ∧ squaredHinge (fun _ => 0) yp = 1 := by
  simp [hinge, squaredHinge, reduceMean]

end Edward
