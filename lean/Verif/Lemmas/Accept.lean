/-
The acceptance test `log u < r` with `u` uniform on [0, 1).
-/
import Mathlib.MeasureTheory.Constructions.BorelSpace.Order
import Mathlib.MeasureTheory.Function.SpecialFunctions.Basic
import Mathlib.Dynamics.Ergodic.MeasurePreserving
import Verif.Model.MetropolisHastings

namespace Edward

open MeasureTheory ENNReal

/-- Probability that the test succeeds. -/
noncomputable def acceptProb (r : EReal) : ℝ≥0∞ :=
  volume {u : ℝ | u ∈ Set.Ico (0 : ℝ) 1 ∧ accepts u r}

theorem accepts_log_iff {u : ℝ} (x : ℝ≥0∞) : accepts u (log x) ↔ ENNReal.ofReal u < x := by
  unfold accepts; exact log_lt_log_iff

theorem accept_set (x : ℝ≥0∞) : {u : ℝ | u ∈ Set.Ico (0 : ℝ) 1 ∧ accepts u (log x)} =
    Set.Ico 0 (min 1 x).toReal := by
  ext u
  simp only [Set.mem_ofPred_eq, Set.mem_Ico, accepts_log_iff]
  constructor
  · rintro ⟨⟨h0, h1⟩, h2⟩
    refine ⟨h0, ?_⟩
    have : ENNReal.ofReal u < min 1 x := lt_min (by rw [← ENNReal.ofReal_one]; exact (ENNReal.ofReal_lt_ofReal_iff one_pos).mpr h1) h2
    exact (ENNReal.ofReal_lt_iff_lt_toReal h0 (ne_top_of_le_ne_top one_ne_top (min_le_left _ _))).mp this
  · rintro ⟨h0, h1⟩
    have : ENNReal.ofReal u < min 1 x :=
      (ENNReal.ofReal_lt_iff_lt_toReal h0 (ne_top_of_le_ne_top one_ne_top (min_le_left _ _))).mpr h1
    refine ⟨⟨h0, ?_⟩, this.trans_le (min_le_right _ _)⟩
    have h2 := this.trans_le (min_le_left _ _)
    rwa [← ENNReal.ofReal_one, ENNReal.ofReal_lt_ofReal_iff one_pos] at h2

/-- The test succeeds with probability `min 1 x` when `r = log x`. -/
theorem acceptProb_log (x : ℝ≥0∞) : acceptProb (log x) = min 1 x := by
  unfold acceptProb
  rw [accept_set, Real.volume_Ico, sub_zero, ENNReal.ofReal_toReal]
  exact ne_top_of_le_ne_top one_ne_top (min_le_left _ _)

theorem acceptProb_le_one (r : EReal) : acceptProb r ≤ 1 := by
  obtain ⟨x, rfl⟩ := log_surjective r
  rw [acceptProb_log]; exact min_le_left _ _

open Classical in
/-- Expectation over the uniform draw. -/
theorem lintegral_accept (r : EReal) (a b : ℝ≥0∞) :
    ∫⁻ u in Set.Ico (0 : ℝ) 1, (if accepts u r then a else b) = acceptProb r * a + (1 - acceptProb r) * b := by
  obtain ⟨x, rfl⟩ := log_surjective r
  have hmeas : MeasurableSet {u : ℝ | accepts u (log x)} := by
    have : {u : ℝ | accepts u (log x)} = {u : ℝ | ENNReal.ofReal u < x} := by
      ext u; exact accepts_log_iff x
    rw [this]
    exact measurableSet_lt ENNReal.measurable_ofReal measurable_const
  have hS : {u : ℝ | accepts u (log x)} ∩ Set.Ico (0 : ℝ) 1 = {u : ℝ | u ∈ Set.Ico (0 : ℝ) 1 ∧ accepts u (log x)} := by
    ext u; simp [and_comm]
  have e : (fun u : ℝ => if accepts u (log x) then a else b) =
      fun u => Set.indicator {u | accepts u (log x)} (fun _ => a) u +
        Set.indicator {u | accepts u (log x)}ᶜ (fun _ => b) u := by
    funext u
    by_cases h : accepts u (log x) <;> simp [h]
  rw [e, lintegral_add_left (measurable_const.indicator hmeas), lintegral_indicator_const hmeas,
    lintegral_indicator_const hmeas.compl, Measure.restrict_apply hmeas, hS]
  have h1 : (volume.restrict (Set.Ico (0 : ℝ) 1)) {u | accepts u (log x)} = acceptProb (log x) := by
    rw [Measure.restrict_apply hmeas, hS]; rfl
  have htot : (volume.restrict (Set.Ico (0 : ℝ) 1)) Set.univ = 1 := by simp
  have h2 : (volume.restrict (Set.Ico (0 : ℝ) 1)) {u | accepts u (log x)}ᶜ = 1 - acceptProb (log x) := by
    rw [measure_compl hmeas (by rw [h1]; exact ne_top_of_le_ne_top one_ne_top (acceptProb_le_one _)), htot, h1]
  rw [h2]
  change a * acceptProb (log x) + _ = _
  rw [mul_comm, mul_comm b]

/-- Balance of the Metropolis rule: `a min(1, b/a) = min a b` for positive finite `a`. -/
theorem mul_min_one_div {a b : ℝ≥0∞} (h0 : a ≠ 0) (h1 : a ≠ ∞) : a * min 1 (b / a) = min a b := by
  have e : a * (b / a) = b := by rw [mul_comm, ENNReal.div_mul_cancel h0 h1]
  rcases le_total (b / a) 1 with h | h
  · rw [min_eq_right h, e, min_eq_right]
    have := mul_le_mul_right h a
    rwa [e, mul_one] at this
  · rw [min_eq_left h, mul_one, min_eq_left]
    have := mul_le_mul_right h a
    rwa [e, mul_one] at this

/-! ### Involutive Metropolis-Hastings -/

theorem involutive_reversible {X : Type} [MeasurableSpace X] (μ : Measure X) (T : X → X)
    (hT : MeasurePreserving T μ μ) (hinv : ∀ x, T (T x) = x) (π : X → ℝ≥0∞) (hπ : Measurable π)
    (hfin : ∀ x, π x ≠ ∞) (a : X → ℝ≥0∞) (ha : ∀ x, π x * a x = min (π x) (π (T x)))
    (f k : X → ℝ≥0∞) (hf : Measurable f) (hk : Measurable k) :
    ∫⁻ x, π x * k x * (a x * f (T x) + (1 - a x) * f x) ∂μ =
    ∫⁻ x, π x * f x * (a x * k (T x) + (1 - a x) * k x) ∂μ := by
  have hm : Measurable (fun x => min (π x) (π (T x))) := hπ.min (hπ.comp hT.measurable)
  have split : ∀ f k : X → ℝ≥0∞, Measurable f → Measurable k →
      ∫⁻ x, π x * k x * (a x * f (T x) + (1 - a x) * f x) ∂μ =
      (∫⁻ x, min (π x) (π (T x)) * (k x * f (T x)) ∂μ) +
        ∫⁻ x, (π x - min (π x) (π (T x))) * (k x * f x) ∂μ := by
    intro f k hf hk
    have hmm : Measurable (fun x => min (π x) (π (T x)) * (k x * f (T x))) :=
      hm.mul (hk.mul (hf.comp hT.measurable))
    rw [← lintegral_add_left hmm]
    congr 1
    funext x
    rw [← ha, show π x - π x * a x = π x * (1 - a x) by
      rw [ENNReal.mul_sub (fun _ _ => hfin x), mul_one]]
    ring
  rw [split f k hf hk, split k f hk hf]
  congr 1
  · have hmm : Measurable (fun x => min (π x) (π (T x)) * (k x * f (T x))) :=
      hm.mul (hk.mul (hf.comp hT.measurable))
    rw [← hT.lintegral_comp hmm]
    congr 1
    funext x
    simp only [hinv]
    rw [min_comm, mul_comm (k (T x))]
  · congr 1; funext x; ring

end Edward
