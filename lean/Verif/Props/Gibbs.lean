/-
Properties C38 (Gibbs sweeps preserve the joint), C39 (blocks), C40 (stored rows).
-/
import Mathlib.MeasureTheory.Integral.Marginal
import Mathlib.MeasureTheory.Function.SpecialFunctions.Basic
import Mathlib.Data.Fintype.Perm
import Mathlib.Data.Fin.VecNotation
import Mathlib.Algebra.BigOperators.Fin
import Verif.Model.Gibbs

set_option linter.unusedSectionVars false

namespace Edward

open MeasureTheory ENNReal

/-! ### Specification -/

section
variable {ι : Type} [DecidableEq ι] {X : ι → Type} [∀ i, MeasurableSpace (X i)]

/-- `q i` is the complete conditional of variable `i` under the joint density `p`: a
probability density not depending on the current value of `i`, proportional to `p`. -/
structure IsConditional (μ : ∀ i, Measure (X i)) (p : (∀ i, X i) → ℝ≥0∞)
    (q : ∀ i, (∀ i, X i) → X i → ℝ≥0∞) (i : ι) : Prop where
  meas : Measurable (fun a : (∀ i, X i) × X i => q i a.1 a.2)
  norm : ∀ z, ∫⁻ x, q i z x ∂μ i = 1
  indep : ∀ z x, q i (Function.update z i x) = q i z
  prop : ∀ z, ∀ᵐ x ∂μ i, q i z x * ∫⁻ x', p (Function.update z i x') ∂μ i = p (Function.update z i x)

variable {μ : ∀ i, Measure (X i)} {p : (∀ i, X i) → ℝ≥0∞} {q : ∀ i, (∀ i, X i) → X i → ℝ≥0∞}

theorem measurable_update_pi (i : ι) :
    Measurable (fun a : (∀ i, X i) × X i => Function.update a.1 i a.2) := by
  refine measurable_pi_lambda _ fun j => ?_
  by_cases h : j = i
  · subst h; simp only [Function.update_self]; exact measurable_snd
  · simp only [Function.update_of_ne h]; exact (measurable_pi_apply j).comp measurable_fst

/-- One draw preserves the joint. -/
theorem draw_invariant [Fintype ι] [∀ i, SigmaFinite (μ i)] (hp : Measurable p) (i : ι)
    (h : IsConditional μ p q i) (F : (∀ i, X i) → ℝ≥0∞) (hF : Measurable F) :
    ∫⁻ z, p z * drawExpect μ q i z (fun x => F (Function.update z i x)) ∂(Measure.pi μ) =
      ∫⁻ z, p z * F z ∂(Measure.pi μ) := by
  have hK : Measurable (fun z => drawExpect μ q i z (fun x => F (Function.update z i x))) := by
    unfold drawExpect
    exact Measurable.lintegral_prod_right' (f := fun a : (∀ i, X i) × X i => q i a.1 a.2 * F (Function.update a.1 i a.2))
      (h.meas.mul (hF.comp (measurable_update_pi i)))
  refine lintegral_eq_of_lmarginal_eq {i} (hp.mul hK) (hp.mul hF) ?_
  rw [lmarginal_singleton, lmarginal_singleton]
  funext z
  have hup : Measurable (fun x => Function.update z i x) :=
    (measurable_update_pi i).comp (measurable_const.prodMk measurable_id)
  have e : ∀ s, p (Function.update z i s) * drawExpect μ q i (Function.update z i s)
        (fun x => F (Function.update (Function.update z i s) i x)) =
      p (Function.update z i s) * ∫⁻ x, q i z x * F (Function.update z i x) ∂μ i := by
    intro s
    unfold drawExpect
    simp only [h.indep, Function.update_idem]
  change ∫⁻ s, p (Function.update z i s) * drawExpect μ q i (Function.update z i s)
        (fun x => F (Function.update (Function.update z i s) i x)) ∂μ i = _
  simp only [e]
  have hpu : Measurable (fun x => p (Function.update z i x)) := hp.comp hup
  rw [lintegral_mul_const _ hpu, mul_comm, ← lintegral_mul_const]
  · refine lintegral_congr_ae ?_
    filter_upwards [h.prop z] with x hx
    rw [← hx]
    ring
  · exact (h.meas.comp (measurable_const.prodMk measurable_id)).mul (hF.comp hup)

theorem measurable_gibbsScan [∀ i, SFinite (μ i)] (hq : ∀ i, Measurable (fun a : (∀ i, X i) × X i => q i a.1 a.2))
    (order : List ι) (F : (∀ i, X i) → ℝ≥0∞) (hF : Measurable F) :
    Measurable (fun z => gibbsScan (drawExpect μ q) (order.map .single) z F) := by
  induction order with
  | nil => exact hF
  | cons i l ih =>
    simp only [List.map_cons, gibbsScan, drawExpect]
    exact Measurable.lintegral_prod_right' (f := fun a : (∀ i, X i) × X i => q i a.1 a.2 *
        gibbsScan (drawExpect μ q) (l.map .single) (Function.update a.1 i a.2) F)
      ((hq i).mul (ih.comp (measurable_update_pi i)))

/-- C38: a scan over single variables, in any order (any list: repetitions and
omissions allowed), preserves the joint, for any number of variables and any sigma-finite
reference measures. -/
theorem C38_gibbs_invariant [Fintype ι] [∀ i, SigmaFinite (μ i)] (hp : Measurable p)
    (h : ∀ i, IsConditional μ p q i) (order : List ι) (F : (∀ i, X i) → ℝ≥0∞) (hF : Measurable F) :
    ∫⁻ z, p z * gibbsScan (drawExpect μ q) (order.map .single) z F ∂(Measure.pi μ) =
      ∫⁻ z, p z * F z ∂(Measure.pi μ) := by
  induction order with
  | nil => rfl
  | cons i l ih =>
    rw [← ih]
    exact draw_invariant hp i (h i) _ (measurable_gibbsScan (fun i => (h i).meas) l F hF)

/-- C38, `scan_order='random'`: the order is drawn from any distribution `w` on orders
(`random.shuffle`). -/
theorem C38_gibbs_random [Fintype ι] [∀ i, SigmaFinite (μ i)] (hp : Measurable p)
    (h : ∀ i, IsConditional μ p q i) {O : Type} [Fintype O] (order : O → List ι) (w : O → ℝ≥0∞)
    (hw : ∑ o, w o = 1) (F : (∀ i, X i) → ℝ≥0∞) (hF : Measurable F) :
    ∫⁻ z, p z * ∑ o, w o * gibbsScan (drawExpect μ q) ((order o).map .single) z F ∂(Measure.pi μ) =
      ∫⁻ z, p z * F z ∂(Measure.pi μ) := by
  have hm : ∀ o, Measurable (fun z => p z * gibbsScan (drawExpect μ q) ((order o).map .single) z F) := fun o =>
    hp.mul (measurable_gibbsScan (fun i => (h i).meas) (order o) F hF)
  have e : ∀ z, p z * ∑ o, w o * gibbsScan (drawExpect μ q) ((order o).map .single) z F =
      ∑ o, w o * (p z * gibbsScan (drawExpect μ q) ((order o).map .single) z F) := by
    intro z; rw [Finset.mul_sum]; refine Finset.sum_congr rfl fun o _ => by ring
  simp only [e]
  rw [lintegral_finsetSum _ fun o _ => (hm o).const_mul _]
  simp only [lintegral_const_mul _ (hm _), C38_gibbs_invariant hp h _ F hF]
  rw [← Finset.sum_mul, hw, one_mul]

/-- The draws of a block equal a sequence of single draws when no conditional of the
block depends on another variable of the block. -/
theorem gibbsBlock_eq_scan {R : Type} (draw : (i : ι) → (∀ i, X i) → (X i → R) → R) (is : List ι)
    (hind : ∀ i ∈ is, ∀ j ∈ is, ∀ z x, draw i (Function.update z j x) = draw i z)
    (z0 z : ∀ i, X i) (hz : ∀ i ∈ is, draw i z = draw i z0) (k : (∀ i, X i) → R) :
    gibbsBlock draw z0 is z k = gibbsScan draw (is.map .single) z k := by
  induction is generalizing z with
  | nil => rfl
  | cons i l ih =>
    simp only [gibbsBlock, List.map_cons, gibbsScan]
    rw [hz i (by simp)]
    congr 1
    funext x
    exact ih (fun a ha b hb => hind a (by simp [ha]) b (by simp [hb])) _
      (fun a ha => by rw [hind a (by simp [ha]) i (by simp), hz a (by simp [ha])])

theorem gibbsScan_append {R : Type} (draw : (i : ι) → (∀ i, X i) → (X i → R) → R)
    (a b : List (ScanEntry ι)) (z : ∀ i, X i) (k : (∀ i, X i) → R) :
    gibbsScan draw (a ++ b) z k = gibbsScan draw a z (fun z' => gibbsScan draw b z' k) := by
  induction a generalizing z with
  | nil => rfl
  | cons e a ih =>
    cases e with
    | single i => simp only [List.cons_append, gibbsScan]; congr 1; funext x; exact ih _
    | block is => simp only [List.cons_append, gibbsScan]; congr 1; funext z'; exact ih _

def ScanEntry.vars : ScanEntry ι → List ι
  | .single i => [i]
  | .block is => is

/-- C39, if the variables of every block are conditionally independent given the others
(their conditionals do not mention each other): blocked scans preserve the joint.
In general the claim is false: `C39_fails`. -/
theorem C39_block_partial [Fintype ι] [∀ i, SigmaFinite (μ i)] (hp : Measurable p)
    (h : ∀ i, IsConditional μ p q i) (order : List (ScanEntry ι))
    (hind : ∀ is, .block is ∈ order → ∀ i ∈ is, ∀ j ∈ is, ∀ z x, q i (Function.update z j x) = q i z)
    (F : (∀ i, X i) → ℝ≥0∞) (hF : Measurable F) :
    ∫⁻ z, p z * gibbsScan (drawExpect μ q) order z F ∂(Measure.pi μ) =
      ∫⁻ z, p z * F z ∂(Measure.pi μ) := by
  have key : ∀ z k, gibbsScan (drawExpect μ q) order z k =
      gibbsScan (drawExpect μ q) ((order.flatMap ScanEntry.vars).map .single) z k := by
    clear hF F
    induction order with
    | nil => intro z k; rfl
    | cons e es ih =>
      have ih := ih (fun is his => hind is (by simp [his]))
      intro z k
      rw [List.flatMap_cons, List.map_append, gibbsScan_append]
      cases e with
      | single i => simp only [gibbsScan, ScanEntry.vars, List.map_cons, List.map_nil]; congr 1; funext x; exact ih _ _
      | block is =>
        simp only [gibbsScan, ScanEntry.vars]
        rw [gibbsBlock_eq_scan]
        · congr 1; funext z'; exact ih _ _
        · intro i hi j hj z x
          unfold drawExpect
          rw [hind is (by simp) i hi j hj]
        · intro i _; rfl
  simp only [key]
  exact C38_gibbs_invariant hp h _ F hF

theorem drawExpect_const (i : ι) (h : IsConditional μ p q i) (z : ∀ i, X i) (c : ℝ≥0∞) :
    drawExpect μ q i z (fun _ => c) = c := by
  unfold drawExpect
  have hm : Measurable (q i z) := h.meas.comp (measurable_const.prodMk measurable_id)
  rw [lintegral_mul_const _ hm, h.norm, one_mul]

/-- Other entries of the row do not matter for the entry of `i`. -/
theorem gibbsBlock_row (h : ∀ i, IsConditional μ p q i) (z' : ∀ i, X i) (keys : List ι) (hn : keys.Nodup)
    (i : ι) (hi : i ∈ keys) (row : ∀ i, X i) (F : X i → ℝ≥0∞) :
    gibbsBlock (drawExpect μ q) z' keys row (fun row' => F (row' i)) =
      drawExpect μ q i z' F := by
  have hnot : ∀ (keys : List ι) (row : ∀ i, X i), i ∉ keys →
      gibbsBlock (drawExpect μ q) z' keys row (fun row' => F (row' i)) = F (row i) := by
    intro keys
    induction keys with
    | nil => intro row _; rfl
    | cons j l ih =>
      intro row hk
      simp only [gibbsBlock]
      have hji : i ≠ j := fun e => hk (by simp [e])
      have : ∀ x, gibbsBlock (drawExpect μ q) z' l (Function.update row j x) (fun row' => F (row' i)) = F (row i) := by
        intro x
        rw [ih _ (fun hl => hk (by simp [hl])), Function.update_of_ne hji]
      simp only [this]
      exact drawExpect_const j (h j) z' _
  induction keys generalizing row with
  | nil => simp at hi
  | cons j l ih =>
    simp only [gibbsBlock]
    by_cases hji : i = j
    · subst hji
      congr 1
      funext x
      rw [hnot l _ (List.nodup_cons.mp hn).1, Function.update_self]
    · have hl : i ∈ l := by simpa [hji] using hi
      simp only [ih (List.nodup_cons.mp hn).2 hl]
      exact drawExpect_const j (h j) z' _

/-- C40, what holds: each entry of the stored row separately has the right
distribution. The row is not the state of the chain and its entries are not jointly
distributed according to the posterior: `C40_fails`. -/
theorem C40_marginal_partial [Fintype ι] [∀ i, SigmaFinite (μ i)] (hp : Measurable p)
    (h : ∀ i, IsConditional μ p q i) (order keys : List ι) (hn : keys.Nodup) (i : ι) (hi : i ∈ keys)
    (row : ∀ i, X i) (F : X i → ℝ≥0∞) (hF : Measurable F) :
    ∫⁻ z, p z * gibbsUpdate (drawExpect μ q) (order.map .single) keys z row (fun _ row' => F (row' i)) ∂(Measure.pi μ) =
      ∫⁻ z, p z * F (z i) ∂(Measure.pi μ) := by
  unfold gibbsUpdate
  simp only [gibbsBlock_row h _ keys hn i hi row F]
  have e : ∀ z', drawExpect μ q i z' F = drawExpect μ q i z' (fun x => F ((Function.update z' i x) i)) := by
    intro z'; simp
  simp only [e]
  have := C38_gibbs_invariant (μ := μ) (q := q) hp h (order ++ [i]) (fun z => F (z i))
    (hF.comp (measurable_pi_apply i))
  rw [List.map_append] at this
  simp only [gibbsScan_append, List.map_cons, List.map_nil, gibbsScan] at this
  exact this

end

/-! ### Counterexamples: two correlated binary variables -/

/-- 2/5 if equal, 1/10 otherwise. -/
noncomputable def exJoint (z : Fin 2 → Bool) : ℝ≥0∞ := if z 0 = z 1 then 2/5 else 1/10

/-- The complete conditionals: equal to the other variable with probability 4/5. -/
noncomputable def exCond (i : Fin 2) (z : Fin 2 → Bool) (x : Bool) : ℝ≥0∞ :=
  if x = z (1 - i) then 4/5 else 1/5

theorem ennreal_eq_of_toReal {a b : ℝ≥0∞} (ha : a ≠ ∞) (hb : b ≠ ∞) (h : a.toReal = b.toReal) : a = b :=
  (ENNReal.toReal_eq_toReal_iff' ha hb).mp h

theorem exCond_isConditional (i : Fin 2) :
    IsConditional (X := fun _ : Fin 2 => Bool) (fun _ => Measure.count) exJoint exCond i := by
  have hft : ∀ a b : ℝ≥0∞, b ≠ 0 → a ≠ ∞ → a / b ≠ ∞ := fun a b hb ha => ENNReal.div_ne_top ha hb
  refine ⟨measurable_of_countable _, ?_, ?_, ?_⟩
  · intro z
    rw [lintegral_count, tsum_fintype, Fintype.sum_bool]
    unfold exCond
    have h54 : (4/5 : ℝ≥0∞) + 1/5 = 1 := by
      rw [← ENNReal.add_div]; norm_num; exact ENNReal.div_self (by norm_num) (by norm_num)
    cases z (1 - i) <;> simp [add_comm] <;> rw [← h54] <;> simp
  · intro z x
    funext y
    unfold exCond
    rw [Function.update_of_ne]
    fin_cases i <;> decide
  · intro z
    refine Filter.Eventually.of_forall fun x => ?_
    rw [lintegral_count, tsum_fintype, Fintype.sum_bool]
    have hsum : exJoint (Function.update z i true) + exJoint (Function.update z i false) = 1/2 := by
      apply ennreal_eq_of_toReal
      · unfold exJoint
        refine ENNReal.add_ne_top.mpr ⟨?_, ?_⟩ <;> split <;> exact ENNReal.div_ne_top (by simp) (by simp)
      · exact ENNReal.div_ne_top (by simp) (by simp)
      · rw [ENNReal.toReal_add]
        · unfold exJoint
          fin_cases i
          · cases h1 : z 1 <;> simp [h1, Function.update_of_ne, ENNReal.toReal_div] <;> norm_num
          · cases h1 : z 0 <;> simp [h1, Function.update_of_ne, ENNReal.toReal_div] <;> norm_num
        all_goals
          unfold exJoint; split <;> exact ENNReal.div_ne_top (by simp) (by simp)
    rw [hsum]
    apply ennreal_eq_of_toReal
    · refine ENNReal.mul_ne_top ?_ (by simp)
      unfold exCond; split <;> exact ENNReal.div_ne_top (by simp) (by simp)
    · unfold exJoint; split <;> exact ENNReal.div_ne_top (by simp) (by simp)
    · unfold exCond exJoint
      fin_cases i
      · cases h1 : z 1 <;> cases x <;> simp [h1, Function.update_of_ne, ENNReal.toReal_div] <;> norm_num
      · cases h1 : z 0 <;> cases x <;> simp [h1, Function.update_of_ne, ENNReal.toReal_div] <;> norm_num

/-- Hypotheses of C38 hold for the example. -/
example (order : List (Fin 2)) (F : (Fin 2 → Bool) → ℝ≥0∞) :
    ∫⁻ z, exJoint z * gibbsScan (drawExpect (fun _ => Measure.count) exCond) (order.map .single) z F
      ∂(Measure.pi fun _ => Measure.count) = ∫⁻ z, exJoint z * F z ∂(Measure.pi fun _ => Measure.count) :=
  C38_gibbs_invariant (X := fun _ => Bool) (measurable_of_countable _) exCond_isConditional order F
    (measurable_of_countable _)

/-- Hypotheses of C40 hold for the example. -/
example (row : Fin 2 → Bool) (F : Bool → ℝ≥0∞) :
    ∫⁻ z, exJoint z * gibbsUpdate (X := fun _ => Bool) (drawExpect (fun _ => Measure.count) exCond)
        ([0, 1].map .single) [1, 0] z row (fun _ row' => F (row' 1)) ∂(Measure.pi fun _ => Measure.count) =
      ∫⁻ z, exJoint z * F (z 1) ∂(Measure.pi fun _ => Measure.count) :=
  C40_marginal_partial (X := fun _ => Bool) (measurable_of_countable _) exCond_isConditional [0, 1] [1, 0]
    (by decide) 1 (by decide) row F (measurable_of_countable _)

/-- Hypotheses of C39 hold for two independent fair coins (unnormalised joint) drawn as a
block. -/
example (F : (Fin 2 → Bool) → ℝ≥0∞) :
    ∫⁻ z, 1 * gibbsScan (X := fun _ => Bool) (drawExpect (fun _ => Measure.count) (fun _ _ _ => 2⁻¹))
        [.block [0, 1]] z F ∂(Measure.pi fun _ => Measure.count) =
      ∫⁻ z, 1 * F z ∂(Measure.pi fun _ => Measure.count) := by
  refine C39_block_partial (X := fun _ => Bool) (p := fun _ => 1) measurable_const (fun i => ?_) [.block [0, 1]]
    (fun _ _ _ _ _ _ _ _ => rfl) F (measurable_of_countable _)
  refine ⟨measurable_const, fun z => ?_, fun _ _ => rfl, fun z => Filter.Eventually.of_forall fun x => ?_⟩
  · rw [lintegral_count, tsum_fintype, Fintype.sum_bool, ENNReal.inv_two_add_inv_two]
  · rw [lintegral_count, tsum_fintype, Fintype.sum_bool, one_add_one_eq_two]
    exact ENNReal.inv_mul_cancel (by simp) (by simp)

/-- Both variables false. -/
noncomputable def bothFalse (z : Fin 2 → Bool) : ℝ≥0∞ := if z 0 = false ∧ z 1 = false then 1 else 0

theorem ex_draw (i : Fin 2) (z : Fin 2 → Bool) (k : Bool → ℝ≥0∞) :
    drawExpect (X := fun _ => Bool) (fun _ => Measure.count) exCond i z k =
      exCond i z true * k true + exCond i z false * k false := by
  unfold drawExpect
  rw [lintegral_count, tsum_fintype, Fintype.sum_bool]

theorem ex_block (z row : Fin 2 → Bool) :
    gibbsBlock (X := fun _ => Bool) (drawExpect (fun _ => Measure.count) exCond) z [0, 1] row bothFalse =
      exCond 0 z false * exCond 1 z false := by
  simp only [gibbsBlock, ex_draw]
  simp [bothFalse, Function.update_of_ne]

theorem ex_sum : ∑ a : Bool, ∑ b : Bool, exJoint ![a, b] * (exCond 0 ![a, b] false * exCond 1 ![a, b] false) ≠
    ∑ a : Bool, ∑ b : Bool, exJoint ![a, b] * bothFalse ![a, b] := by
  intro h
  have h2 := congrArg ENNReal.toReal h
  simp only [Fintype.sum_bool, exJoint, exCond, bothFalse] at h2
  simp at h2
  have ne : ∀ a b : ℝ≥0∞, a ≠ ∞ → b ≠ 0 → a / b ≠ ∞ := fun a b ha hb => ENNReal.div_ne_top ha hb
  rw [ENNReal.toReal_add, ENNReal.toReal_add, ENNReal.toReal_add] at h2
  · simp [ENNReal.toReal_mul, ENNReal.toReal_div, ENNReal.toReal_inv] at h2
    norm_num at h2
  all_goals
    simp [ENNReal.mul_eq_top, ENNReal.div_eq_top]

/-- C39 fails: redrawing two correlated variables as a block does not preserve their
joint (each is drawn given the old value of the other). The left sides are the
expected indicators of "both false" after and before the update. -/
theorem C39_fails : (∀ i, IsConditional (X := fun _ : Fin 2 => Bool) (fun _ => Measure.count) exJoint exCond i) ∧
    ∑ a : Bool, ∑ b : Bool, exJoint ![a, b] *
      gibbsScan (X := fun _ => Bool) (drawExpect (fun _ => Measure.count) exCond) [.block [0, 1]] ![a, b] bothFalse ≠
    ∑ a : Bool, ∑ b : Bool, exJoint ![a, b] * bothFalse ![a, b] := by
  refine ⟨exCond_isConditional, ?_⟩
  simp only [gibbsScan]
  have : ∀ a b : Bool, gibbsBlock (X := fun _ => Bool) (drawExpect (fun _ => Measure.count) exCond) ![a, b] [0, 1]
      ![a, b] (fun z' => bothFalse z') = exCond 0 ![a, b] false * exCond 1 ![a, b] false := fun a b => ex_block _ _
  simp only [this]
  exact ex_sum

theorem ex_int (F : (Fin 2 → Bool) → ℝ≥0∞) :
    ∫⁻ z, F z ∂(Measure.pi fun _ => Measure.count) = ∑ a : Bool, ∑ b : Bool, F ![a, b] := by
  have h := (measurePreserving_finTwoArrow (Measure.count : Measure Bool)).symm
  rw [← h.lintegral_comp (measurable_of_countable F), lintegral_prod _ (measurable_of_countable _).aemeasurable]
  simp only [lintegral_count, tsum_fintype]
  rfl

/-- C40 fails: starting from the joint and scanning both variables one by one, the row
stored by the update is not distributed according to the joint. -/
theorem C40_fails :
    (∀ i, IsConditional (X := fun _ : Fin 2 => Bool) (fun _ => Measure.count) exJoint exCond i) ∧
    ∀ row : Fin 2 → Bool,
    ∑ a : Bool, ∑ b : Bool, exJoint ![a, b] *
      gibbsUpdate (X := fun _ => Bool) (drawExpect (fun _ => Measure.count) exCond) [.single 0, .single 1] [0, 1]
        ![a, b] row (fun _ row' => bothFalse row') ≠
    ∑ a : Bool, ∑ b : Bool, exJoint ![a, b] * bothFalse ![a, b] := by
  refine ⟨exCond_isConditional, fun row => ?_⟩
  have hb : ∀ z, gibbsBlock (X := fun _ => Bool) (drawExpect (fun _ => Measure.count) exCond) z [0, 1]
      row (fun z' => bothFalse z') = exCond 0 z false * exCond 1 z false := fun z => ex_block _ _
  have hu : ∀ z, gibbsUpdate (X := fun _ => Bool) (drawExpect (fun _ => Measure.count) exCond)
      [.single 0, .single 1] [0, 1] z row (fun _ row' => bothFalse row') =
      gibbsScan (X := fun _ => Bool) (drawExpect (fun _ => Measure.count) exCond) ([0, 1].map .single) z
        (fun z => exCond 0 z false * exCond 1 z false) := by
    intro z; unfold gibbsUpdate; simp only [hb]; rfl
  simp only [hu]
  have hc := C38_gibbs_invariant (μ := fun _ => Measure.count) (X := fun _ => Bool) (p := exJoint) (q := exCond)
    (measurable_of_countable _) exCond_isConditional [0, 1]
    (fun z => exCond 0 z false * exCond 1 z false) (measurable_of_countable _)
  rw [ex_int, ex_int] at hc
  rw [hc]
  exact ex_sum

end Edward
