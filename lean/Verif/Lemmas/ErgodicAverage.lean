/-
Averages along a chain converge almost surely: the maximal inequality for maps preserving a
measure, and the strong law of large numbers for chains that can reach everything their
invariant distribution charges.
-/
import Verif.Lemmas.Positive
import Verif.Lemmas.Draws
import Mathlib.Dynamics.Ergodic.MeasurePreserving
import Mathlib.Dynamics.BirkhoffSum.Basic

namespace Edward

set_option linter.unusedSectionVars false

open MeasureTheory ProbabilityTheory Filter Topology

/-! ### The maximal inequality -/

section
variable {α : Type} [MeasurableSpace α] {μ : Measure α} [IsProbabilityMeasure μ] {θ : α → α}

/-- The largest of the first `n` sums of `F` along the orbit, or zero. -/
noncomputable def maxSum (θ : α → α) (F : α → ℝ) : ℕ → α → ℝ
  | 0, _ => 0
  | n + 1, x => max 0 (F x + maxSum θ F n (θ x))

theorem maxSum_nonneg (F : α → ℝ) (n : ℕ) (x : α) : 0 ≤ maxSum θ F n x := by
  cases n with
  | zero => exact le_rfl
  | succ n => exact le_max_left _ _

theorem maxSum_mono (F : α → ℝ) (n : ℕ) (x : α) : maxSum θ F n x ≤ maxSum θ F (n + 1) x := by
  induction n generalizing x with
  | zero => exact maxSum_nonneg F 1 x
  | succ n ih =>
    show max 0 _ ≤ max 0 _
    exact max_le_max le_rfl (by linarith [ih (θ x)])

theorem birkhoffSum_le_maxSum (F : α → ℝ) (n k : ℕ) (hk : k ≤ n) (x : α) : birkhoffSum θ F k x ≤ maxSum θ F n x := by
  induction n generalizing k x with
  | zero =>
    obtain rfl : k = 0 := by omega
    simp [maxSum]
  | succ n ih =>
    cases k with
    | zero => simpa using maxSum_nonneg F (n + 1) x
    | succ k =>
      rw [birkhoffSum_succ']
      refine le_trans ?_ (le_max_right _ _)
      linarith [ih k (by omega) (θ x)]

theorem measurable_maxSum (hθ : Measurable θ) {F : α → ℝ} (hF : Measurable F) (n : ℕ) : Measurable (maxSum θ F n) := by
  induction n with
  | zero => exact measurable_const
  | succ n ih => exact measurable_const.max (hF.add (ih.comp hθ))

theorem integrable_maxSum (hθ : MeasurePreserving θ μ μ) {F : α → ℝ} (hF : Integrable F μ) (n : ℕ) : Integrable (maxSum θ F n) μ := by
  induction n with
  | zero => exact integrable_zero _ _ _
  | succ n ih =>
    have h1 : Integrable (fun x => F x + maxSum θ F n (θ x)) μ := hF.add (hθ.integrable_comp_of_integrable ih)
    have h2 : Integrable (fun x => max 0 (F x + maxSum θ F n (θ x))) μ := (integrable_zero _ _ _).sup h1
    exact h2

theorem integral_maxSum_pos (hθ : MeasurePreserving θ μ μ) {F : α → ℝ} (hFm : Measurable F) (hF : Integrable F μ) (n : ℕ) :
    0 ≤ ∫ x in {x | 0 < maxSum θ F n x}, F x ∂μ := by
  cases n with
  | zero => simp [maxSum]
  | succ n =>
    have hm := measurable_maxSum hθ.measurable hFm (n + 1)
    have hi := integrable_maxSum hθ hF (n + 1)
    have hset : MeasurableSet {x | 0 < maxSum θ F (n + 1) x} := measurableSet_lt measurable_const hm
    have hic : Integrable (fun x => maxSum θ F (n + 1) (θ x)) μ := hθ.integrable_comp_of_integrable hi
    rw [← integral_indicator hset]
    have h0 : ∫ x, (maxSum θ F (n + 1) x - maxSum θ F (n + 1) (θ x)) ∂μ = 0 := by
      rw [integral_sub hi hic]
      have : ∫ x, maxSum θ F (n + 1) (θ x) ∂μ = ∫ x, maxSum θ F (n + 1) x ∂μ := by
        conv_rhs => rw [← hθ.map_eq]
        rw [integral_map hθ.measurable.aemeasurable hm.aestronglyMeasurable]
      rw [this, sub_self]
    refine h0.symm.le.trans ?_
    refine integral_mono (hi.sub hic) (hF.indicator hset) fun x => ?_
    by_cases hx : 0 < maxSum θ F (n + 1) x
    · rw [Set.indicator_of_mem (show x ∈ {x | 0 < maxSum θ F (n + 1) x} from hx)]
      have h1 : maxSum θ F (n + 1) x = F x + maxSum θ F n (θ x) := by
        have h2 : maxSum θ F (n + 1) x = max 0 (F x + maxSum θ F n (θ x)) := rfl
        rw [h2] at hx ⊢
        rcases lt_max_iff.mp hx with h | h
        · exact absurd h (lt_irrefl _)
        · exact max_eq_right h.le
      have := maxSum_mono (θ := θ) F n (θ x)
      show maxSum θ F (n + 1) x - maxSum θ F (n + 1) (θ x) ≤ F x
      linarith
    · rw [Set.indicator_of_notMem (show x ∉ {x | 0 < maxSum θ F (n + 1) x} from hx)]
      have := maxSum_nonneg (θ := θ) F (n + 1) (θ x)
      show maxSum θ F (n + 1) x - maxSum θ F (n + 1) (θ x) ≤ 0
      linarith [not_lt.mp hx]

/-- The average along the orbit of a nonnegative function exceeds `l` at some time with
probability at most its mean over `l`. -/
theorem maximal_inequality (hθ : MeasurePreserving θ μ μ) {F : α → ℝ} (hFm : Measurable F) (hF : Integrable F μ) (h0 : ∀ x, 0 ≤ F x) {l : ℝ} (hl : 0 < l) :
    μ {x | ∃ k : ℕ, l * k < birkhoffSum θ F k x} ≤ ENNReal.ofReal ((∫ x, F x ∂μ) / l) := by
  set H : α → ℝ := fun x => F x - l with hH
  have hHm : Measurable H := hFm.sub_const l
  have hHi : Integrable H μ := hF.sub (integrable_const l)
  set A : ℕ → Set α := fun n => {x | 0 < maxSum θ H n x} with hA
  have hAm : ∀ n, MeasurableSet (A n) := fun n => measurableSet_lt measurable_const (measurable_maxSum hθ.measurable hHm n)
  have hmono : Monotone A := monotone_nat_of_le_succ fun n x hx => lt_of_lt_of_le hx (maxSum_mono H n x)
  have hsum : ∀ k x, birkhoffSum θ H k x = birkhoffSum θ F k x - l * k := by
    intro k x
    simp only [birkhoffSum, hH, Finset.sum_sub_distrib, Finset.sum_const, Finset.card_range, nsmul_eq_mul]
    ring
  have hsub : {x | ∃ k : ℕ, l * k < birkhoffSum θ F k x} ⊆ ⋃ n, A n := by
    rintro x ⟨k, hk⟩
    refine Set.mem_iUnion.mpr ⟨k, ?_⟩
    show 0 < maxSum θ H k x
    have := birkhoffSum_le_maxSum (θ := θ) H k k le_rfl x
    rw [hsum] at this
    linarith
  refine (measure_mono hsub).trans ?_
  rw [hmono.measure_iUnion]
  refine iSup_le fun n => ?_
  have h1 := integral_maxSum_pos hθ hHm hHi n
  have h2 : ∫ x in A n, H x ∂μ = ∫ x in A n, F x ∂μ - l * μ.real (A n) := by
    simp only [hH]
    rw [integral_sub hF.integrableOn (integrable_const l)]
    simp [mul_comm]
  have h3 : ∫ x in A n, F x ∂μ ≤ ∫ x, F x ∂μ := setIntegral_le_integral hF (ae_of_all _ h0)
  have h4 : μ.real (A n) ≤ (∫ x, F x ∂μ) / l := by
    rw [le_div_iff₀ hl]
    have : 0 ≤ ∫ x in A n, H x ∂μ := h1
    linarith
  rw [← ENNReal.ofReal_toReal (measure_ne_top μ (A n))]
  exact ENNReal.ofReal_le_ofReal h4

/-- Almost sure convergence of averages passes to limits in mean. -/
theorem averages_closed (hθ : MeasurePreserving θ μ μ) {F : α → ℝ} (hFm : Measurable F) (hF : Integrable F μ)
    (h : ∀ e : ℝ, 0 < e → ∃ H : α → ℝ, Measurable H ∧ Integrable H μ ∧ ∫ x, |F x - H x| ∂μ ≤ e ∧
      ∀ᵐ x ∂μ, Tendsto (fun n : ℕ => birkhoffSum θ H n x / n) atTop (𝓝 (∫ x, H x ∂μ))) :
    ∀ᵐ x ∂μ, Tendsto (fun n : ℕ => birkhoffSum θ F n x / n) atTop (𝓝 (∫ x, F x ∂μ)) := by
  have key : ∀ l : ℝ, 0 < l → ∀ᵐ x ∂μ, ∀ᶠ n : ℕ in atTop, |birkhoffSum θ F n x / n - ∫ x, F x ∂μ| ≤ 3 * l := by
    intro l hl
    rw [ae_iff]
    refine le_antisymm ?_ (zero_le)
    refine le_of_forall_pos_le_add fun b hb => ?_
    rw [zero_add]
    by_cases hbt : b = ⊤
    · simp [hbt]
    set e : ℝ := min l (l * b.toReal) with he
    have hbr : 0 < b.toReal := ENNReal.toReal_pos hb.ne' hbt
    have hepos : 0 < e := lt_min hl (mul_pos hl hbr)
    obtain ⟨H, hHm, hHi, hHe, hHc⟩ := h e hepos
    have hdi : Integrable (fun x => |F x - H x|) μ := (hF.sub hHi).abs
    have hmax := maximal_inequality hθ (F := fun x => |F x - H x|) (measurable_norm.comp (hFm.sub hHm)) hdi (fun x => abs_nonneg _) hl
    have hsub : {x | ¬ ∀ᶠ n : ℕ in atTop, |birkhoffSum θ F n x / n - ∫ x, F x ∂μ| ≤ 3 * l} ⊆
        {x | ¬ Tendsto (fun n : ℕ => birkhoffSum θ H n x / n) atTop (𝓝 (∫ x, H x ∂μ))} ∪
        {x | ∃ k : ℕ, l * k < birkhoffSum θ (fun x => |F x - H x|) k x} := by
      intro x hx
      by_contra hc
      simp only [Set.mem_union, not_or, Set.mem_ofPred_eq, not_not, not_exists, not_lt] at hc
      obtain ⟨hc1, hc2⟩ := hc
      refine hx ?_
      have hev := (Metric.tendsto_atTop.mp hc1) l hl
      obtain ⟨N, hN⟩ := hev
      filter_upwards [eventually_ge_atTop (N + 1)] with n hn
      have hnr : (0 : ℝ) < n := by exact_mod_cast (by omega : 0 < n)
      have h1 := hN n (by omega)
      rw [Real.dist_eq] at h1
      have h2 : |birkhoffSum θ F n x / n - birkhoffSum θ H n x / n| ≤ l := by
        rw [← sub_div, abs_div, abs_of_pos hnr, div_le_iff₀ hnr]
        refine le_trans ?_ (hc2 n)
        simp only [birkhoffSum]
        rw [← Finset.sum_sub_distrib]
        exact Finset.abs_sum_le_sum_abs _ _
      have h3 : |∫ x, H x ∂μ - ∫ x, F x ∂μ| ≤ l := by
        rw [abs_sub_comm, ← integral_sub hF hHi]
        exact abs_integral_le_integral_abs.trans (hHe.trans (min_le_left _ _))
      have e1 : birkhoffSum θ F n x / n - ∫ x, F x ∂μ = (birkhoffSum θ F n x / n - birkhoffSum θ H n x / n) +
        ((birkhoffSum θ H n x / n - ∫ x, H x ∂μ) + (∫ x, H x ∂μ - ∫ x, F x ∂μ)) := by ring
      rw [e1]
      refine (abs_add_le _ _).trans ?_
      have := abs_add_le (birkhoffSum θ H n x / n - ∫ x, H x ∂μ) (∫ x, H x ∂μ - ∫ x, F x ∂μ)
      linarith
    refine (measure_mono hsub).trans ((measure_union_le _ _).trans ?_)
    rw [ae_iff] at hHc
    rw [hHc, zero_add]
    refine hmax.trans ?_
    rw [← ENNReal.ofReal_toReal hbt]
    refine ENNReal.ofReal_le_ofReal ?_
    rw [div_le_iff₀ hl]
    refine hHe.trans ((min_le_right _ _).trans (le_of_eq (mul_comm _ _)))
  have hall : ∀ᵐ x ∂μ, ∀ m : ℕ, ∀ᶠ n : ℕ in atTop, |birkhoffSum θ F n x / n - ∫ x, F x ∂μ| ≤ 3 * (1 / ((m : ℝ) + 1)) :=
    ae_all_iff.mpr fun m => key _ (by positivity)
  filter_upwards [hall] with x hx
  rw [Metric.tendsto_atTop]
  intro e he
  obtain ⟨m, hm⟩ := exists_nat_one_div_lt (show 0 < e / 3 by positivity)
  obtain ⟨N, hN⟩ := eventually_atTop.mp (hx m)
  refine ⟨N, fun n hn => ?_⟩
  rw [Real.dist_eq]
  have := hN n hn
  linarith

end

/-! ### Sequences -/

/-- Leaving out the first term does not change the limit of the averages. -/
theorem average_shift (a : ℕ → ℝ) (L : ℝ) :
    Tendsto (fun n : ℕ => (∑ i ∈ Finset.range n, a i) / n) atTop (𝓝 L) ↔
    Tendsto (fun n : ℕ => (∑ i ∈ Finset.range n, a (i + 1)) / n) atTop (𝓝 L) := by
  have hinv : Tendsto (fun n : ℕ => ((n : ℝ) + 1)⁻¹) atTop (𝓝 0) := by
    have := tendsto_one_div_add_atTop_nhds_zero_nat (𝕜 := ℝ)
    simpa [one_div] using this
  rw [← tendsto_add_atTop_iff_nat (f := fun n : ℕ => (∑ i ∈ Finset.range n, a i) / n) 1]
  have e : ∀ n : ℕ, (∑ i ∈ Finset.range (n + 1), a i) / ((n + 1 : ℕ) : ℝ) =
      ((∑ i ∈ Finset.range n, a (i + 1)) + a 0) * ((n : ℝ) + 1)⁻¹ := by
    intro n
    rw [Finset.sum_range_succ', div_eq_mul_inv]
    push_cast
    rfl
  simp only [e]
  constructor
  · intro h
    have h1 := (h.sub (hinv.const_mul (a 0))).mul (tendsto_const_nhds (x := (1 : ℝ)) |>.add tendsto_inv_atTop_nhds_zero_nat)
    simp only [mul_zero, sub_zero, add_zero, mul_one] at h1
    refine h1.congr' ?_
    filter_upwards [eventually_gt_atTop 0] with n hn
    have hnr : (n : ℝ) ≠ 0 := by exact_mod_cast hn.ne'
    have hn1 : (n : ℝ) + 1 ≠ 0 := by positivity
    field_simp
    ring
  · intro h
    have h1 := (h.mul (tendsto_const_nhds (x := (1 : ℝ)) |>.sub hinv)).add (hinv.const_mul (a 0))
    simp only [sub_zero, mul_one, mul_zero, add_zero] at h1
    refine h1.congr' ?_
    filter_upwards [eventually_gt_atTop 0] with n hn
    have hnr : (n : ℝ) ≠ 0 := by exact_mod_cast hn.ne'
    have hn1 : (n : ℝ) + 1 ≠ 0 := by positivity
    field_simp
    ring

/-- Nor does replacing every term by one a fixed number of places later, if terms are bounded. -/
theorem average_later {a b : ℕ → ℝ} {D : ℝ} (ha : ∀ n, |a n| ≤ D) (M : ℕ)
    (h : Tendsto (fun n : ℕ => (∑ i ∈ Finset.range n, (a (i + M) - b i)) / n) atTop (𝓝 0)) :
    Tendsto (fun n : ℕ => (∑ i ∈ Finset.range n, (a i - b i)) / n) atTop (𝓝 0) := by
  have hdiff : ∀ n, |∑ i ∈ Finset.range n, a i - ∑ i ∈ Finset.range n, a (i + M)| ≤ 2 * (M * D) := by
    intro n
    have e1 := Finset.sum_range_add a n M
    have e2 := Finset.sum_range_add a M n
    rw [add_comm M n] at e2
    have e3 : ∑ i ∈ Finset.range n, a (i + M) = ∑ i ∈ Finset.range n, a (M + i) := Finset.sum_congr rfl fun i _ => by rw [add_comm]
    have e4 : ∑ i ∈ Finset.range n, a i - ∑ i ∈ Finset.range n, a (i + M) =
        ∑ i ∈ Finset.range M, a i - ∑ i ∈ Finset.range M, a (n + i) := by rw [e3]; linarith
    rw [e4]
    have b1 : |∑ i ∈ Finset.range M, a i| ≤ M * D :=
      (Finset.abs_sum_le_sum_abs _ _).trans ((Finset.sum_le_card_nsmul _ _ D fun i _ => ha i).trans (by simp))
    have b2 : |∑ i ∈ Finset.range M, a (n + i)| ≤ M * D :=
      (Finset.abs_sum_le_sum_abs _ _).trans ((Finset.sum_le_card_nsmul _ _ D fun i _ => ha _).trans (by simp))
    have := abs_sub (∑ i ∈ Finset.range M, a i) (∑ i ∈ Finset.range M, a (n + i))
    linarith
  have hz : Tendsto (fun n : ℕ => (∑ i ∈ Finset.range n, a i - ∑ i ∈ Finset.range n, a (i + M)) / n) atTop (𝓝 0) := by
    refine squeeze_zero_norm (a := fun n : ℕ => 2 * (M * D) * (n : ℝ)⁻¹) (fun n => ?_) ?_
    · rw [Real.norm_eq_abs, abs_div, Nat.abs_cast, div_eq_mul_inv]
      exact mul_le_mul_of_nonneg_right (hdiff n) (by positivity)
    · simpa using tendsto_inv_atTop_nhds_zero_nat.const_mul (2 * (M * D))
  have := h.add hz
  rw [add_zero] at this
  refine this.congr fun n => ?_
  rw [← add_div]
  congr 1
  simp only [Finset.sum_sub_distrib]
  ring

/-! ### Chains -/

section
variable {S W Ω : Type} [MeasurableSpace S] [MeasurableSpace W] [MeasurableSpace Ω]
variable {K : S → W → S} {ν : Measure W} [IsProbabilityMeasure ν] {π : Measure S} [IsProbabilityMeasure π]
  {Pr : Measure Ω} [IsProbabilityMeasure Pr] {w : ℕ → Ω → W}

/-- The differences between a value and its prediction `M` steps before average to zero, from
every starting point. -/
theorem prediction_average (hK : Measurable (fun a : S × W => K a.1 a.2)) (hw : ∀ i, Measurable (w i)) (hlaw : ∀ i, Pr.map (w i) = ν) (hind : iIndepFun w Pr)
    (z0 : S) {f : S → ℝ} (hf : Measurable f) {D : ℝ} (hD : ∀ x, -D ≤ f x ∧ f x ≤ D) (M : ℕ) :
    ∀ᵐ ω ∂Pr, Tendsto (fun n : ℕ => (∑ i ∈ Finset.range n, (f (walk K z0 (fun i => w i ω) i) -
      (push (stepKernel K ν))^[M] f (walk K z0 (fun i => w i ω) i))) / n) atTop (𝓝 0) := by
  have := stepKernel_markov (ν := ν) hK
  obtain ⟨g1, g2⟩ := push_iterate_basic (κ := stepKernel K ν) M hf hD
  set g := (push (stepKernel K ν))^[M] f with hg
  have hD0 : 0 ≤ D := by linarith [(hD z0).1, (hD z0).2]
  set Y : ℕ → Ω → ℝ := fun i ω => f (walk K z0 (fun i => w i ω) (i + M)) - g (walk K z0 (fun i => w i ω) i) with hY
  have hYm : ∀ n, Measurable (Y n) := fun n => (hf.comp (walk_measurable hK hw z0 (n + M))).sub (g1.comp (walk_measurable hK hw z0 n))
  have hYb : ∀ n ω, -(2 * D) ≤ Y n ω ∧ Y n ω ≤ 2 * D := fun n ω => by
    have a1 := hD (walk K z0 (fun i => w i ω) (n + M))
    have a2 := g2 (walk K z0 (fun i => w i ω) n)
    constructor <;> simp only [hY] <;> linarith [a1.1, a1.2, a2.1, a2.2]
  have hYD : ∀ n ω, |Y n ω| ≤ 2 * D := fun n ω => abs_le.mpr (hYb n ω)
  have hpast : ∀ i n, i + M ≤ n → Measurable[past w n] (Y i) := fun i n hin =>
    (hf.comp ((walk_past hK z0 (i + M)).mono (past_mono hin) le_rfl)).sub (g1.comp ((walk_past hK z0 i).mono (past_mono (by omega)) le_rfl))
  have hcov : ∀ n, ∑ i ∈ Finset.range n, ∫ ω, Y i ω * Y n ω ∂Pr ≤ M * (2 * D) ^ 2 := by
    intro n
    have hterm : ∀ i ∈ Finset.range n, ∫ ω, Y i ω * Y n ω ∂Pr ≤ if n < i + M then (2 * D) ^ 2 else 0 := by
      intro i hi
      by_cases hc : n < i + M
      · rw [if_pos hc]
        have hint : Integrable (fun ω => Y i ω * Y n ω) Pr := (integrable_of_bounds Pr (hYm n) (hYb n)).bdd_mul (hYm i).aestronglyMeasurable (ae_of_all _ fun ω => hYD i ω)
        have := integral_mono hint (integrable_const ((2 * D) ^ 2)) (fun ω => by
          refine (le_abs_self _).trans ?_
          show |_ * _| ≤ _
          rw [abs_mul, sq]
          exact mul_le_mul (hYD _ _) (hYD _ _) (abs_nonneg _) (by positivity))
        simpa using this
      · rw [if_neg hc]
        have h1 := expect_later hK hw hlaw hind z0 n (hpast i n (by omega)) (hYb i) M hf hD
        have i1 : Integrable (fun ω => Y i ω * f (walk K z0 (fun i => w i ω) (n + M))) Pr :=
          (integrable_of_bounds Pr (f := fun ω => f (walk K z0 (fun i => w i ω) (n + M))) (hf.comp (walk_measurable hK hw z0 (n + M))) fun ω => hD _).bdd_mul (hYm i).aestronglyMeasurable (ae_of_all _ fun ω => hYD i ω)
        have i2 : Integrable (fun ω => Y i ω * g (walk K z0 (fun i => w i ω) n)) Pr :=
          (integrable_of_bounds Pr (f := fun ω => g (walk K z0 (fun i => w i ω) n)) (g1.comp (walk_measurable hK hw z0 n)) fun ω => g2 _).bdd_mul (hYm i).aestronglyMeasurable (ae_of_all _ fun ω => hYD i ω)
        have e : (fun ω => Y i ω * Y n ω) = fun ω => Y i ω * f (walk K z0 (fun i => w i ω) (n + M)) - Y i ω * g (walk K z0 (fun i => w i ω) n) := by
          funext ω
          rw [← mul_sub]
        rw [e, integral_sub i1 i2, h1, sub_self]
    refine (Finset.sum_le_sum hterm).trans ?_
    rw [← Finset.sum_filter, Finset.sum_const, nsmul_eq_mul]
    have hcard : ((Finset.range n).filter fun i => n < i + M).card ≤ M := by
      have hsub : (Finset.range n).filter (fun i => n < i + M) ⊆ Finset.Ico (n - M) n := by
        intro i hi
        rw [Finset.mem_filter, Finset.mem_range] at hi
        rw [Finset.mem_Ico]
        omega
      refine (Finset.card_le_card hsub).trans ?_
      rw [Nat.card_Ico]; omega
    exact mul_le_mul_of_nonneg_right (by exact_mod_cast hcard) (sq_nonneg _)
  filter_upwards [average_zero hYm hYD (second_moment hYm hYD hcov)] with ω hω
  exact average_later (fun n => abs_le.mpr (hD (walk K z0 (fun i => w i ω) n))) M hω

/-- The chain as a map: use the first draw, drop it. -/
def shift (K : S → W → S) (x : S × (ℕ → W)) : S × (ℕ → W) := (K x.1 (x.2 0), fun n => x.2 (n + 1))

theorem shift_iterate (K : S → W → S) (x : S × (ℕ → W)) (n : ℕ) :
    (shift K)^[n] x = (walk K x.1 x.2 n, fun i => x.2 (i + n)) := by
  induction n with
  | zero => rfl
  | succ n ih =>
    rw [Function.iterate_succ_apply', ih]
    simp only [shift, walk, zero_add]
    refine Prod.ext rfl (funext fun i => ?_)
    show x.2 (i + 1 + n) = x.2 (i + (n + 1))
    rw [show i + 1 + n = i + (n + 1) by omega]

theorem walk_shift (K : S → W → S) (z0 : S) (w : ℕ → W) (n : ℕ) :
    walk K (K z0 (w 0)) (fun i => w (i + 1)) n = walk K z0 w (n + 1) := by
  induction n with
  | zero => rfl
  | succ n ih => rw [walk, ih]; rfl

theorem measurable_shift (hK : Measurable (fun a : S × W => K a.1 a.2)) : Measurable (shift K) :=
  (hK.comp (measurable_fst.prodMk ((measurable_pi_apply 0).comp measurable_snd))).prodMk
    (measurable_pi_lambda _ fun n => (measurable_pi_apply (n + 1)).comp measurable_snd)

theorem lintegral_shift (hK : Measurable (fun a : S × W => K a.1 a.2)) {F : S × (ℕ → W) → ENNReal} (hF : Measurable F) (s : S) :
    ∫⁻ w, F (shift K (s, w)) ∂Measure.infinitePi (fun _ : ℕ => ν) =
      ∫⁻ s', ∫⁻ w, F (s', w) ∂Measure.infinitePi (fun _ : ℕ => ν) ∂stepKernel K ν s := by
  have hKs : Measurable (K s) := hK.comp (measurable_const.prodMk measurable_id)
  have h1 := lintegral_head_tail ν (g := fun a : W × (ℕ → W) => F (K s a.1, a.2))
    (hF.comp ((hKs.comp measurable_fst).prodMk measurable_snd))
  rw [stepKernel_apply hK, lintegral_map hF.lintegral_prod_right' hKs]
  exact h1

theorem measurePreserving_shift (hK : Measurable (fun a : S × W => K a.1 a.2)) (hinv : ∀ A, MeasurableSet A → ∫⁻ s, stepKernel K ν s A ∂π = π A) :
    MeasurePreserving (shift K) (π.prod (Measure.infinitePi (fun _ : ℕ => ν))) (π.prod (Measure.infinitePi (fun _ : ℕ => ν))) := by
  refine ⟨measurable_shift hK, Measure.ext fun A hA => ?_⟩
  have hI : Measurable (A.indicator (1 : S × (ℕ → W) → ENNReal)) := measurable_one.indicator hA
  rw [← lintegral_indicator_one hA, ← lintegral_indicator_one hA, lintegral_map hI (measurable_shift hK),
    lintegral_prod (fun a => A.indicator 1 (shift K a)) (hI.comp (measurable_shift hK)).aemeasurable, lintegral_prod _ hI.aemeasurable]
  simp only [lintegral_shift hK hI]
  have hb : π.bind (stepKernel K ν) = π := by
    refine Measure.ext fun A hA => ?_
    rw [Measure.bind_apply hA (stepKernel K ν).aemeasurable]
    exact hinv A hA
  conv_rhs => rw [← hb]
  rw [Measure.lintegral_bind (stepKernel K ν).aemeasurable hI.lintegral_prod_right'.aemeasurable]

theorem birkhoffSum_shift (K : S → W → S) (f : S → ℝ) (n : ℕ) (x : S × (ℕ → W)) :
    birkhoffSum (shift K) (fun x => f x.1) n x = ∑ i ∈ Finset.range n, f (walk K x.1 x.2 i) := by
  simp only [birkhoffSum, shift_iterate]

theorem measurable_walk (hK : Measurable (fun a : S × W => K a.1 a.2)) (n : ℕ) : Measurable (fun x : S × (ℕ → W) => walk K x.1 x.2 n) := by
  have h := (measurable_shift hK).iterate n
  have e : (fun x : S × (ℕ → W) => walk K x.1 x.2 n) = fun x => ((shift K)^[n] x).1 := by funext x; rw [shift_iterate]
  rw [e]
  exact measurable_fst.comp h

theorem measurableSet_average (hK : Measurable (fun a : S × W => K a.1 a.2)) {f : S → ℝ} (hf : Measurable f) (L : ℝ) :
    MeasurableSet {x : S × (ℕ → W) | Tendsto (fun n : ℕ => (∑ i ∈ Finset.range n, f (walk K x.1 x.2 i)) / n) atTop (𝓝 L)} :=
  measurableSet_tendsto (𝓝 L) fun n => (Finset.measurable_sum _ fun i _ => hf.comp (measurable_walk hK i)).div_const _

theorem integral_fst_prod {f : S → ℝ} (hf : Measurable f) :
    ∫ x, f x.1 ∂(π.prod (Measure.infinitePi (fun _ : ℕ => ν))) = ∫ s, f s ∂π := by
  have h : (π.prod (Measure.infinitePi (fun _ : ℕ => ν))).map Prod.fst = π := by simp
  conv_rhs => rw [← h]
  rw [integral_map measurable_fst.aemeasurable hf.aestronglyMeasurable]

theorem integrable_fst_prod {f : S → ℝ} (hf : Integrable f π) :
    Integrable (fun x : S × (ℕ → W) => f x.1) (π.prod (Measure.infinitePi (fun _ : ℕ => ν))) :=
  hf.comp_fst _

/-- Bounded functions of mean zero, started from the invariant distribution. -/
theorem stationary_bounded (hK : Measurable (fun a : S × W => K a.1 a.2)) (hm : Reaching (stepKernel K ν) π)
    {f : S → ℝ} (hf : Measurable f) {D : ℝ} (hD : ∀ x, -D ≤ f x ∧ f x ≤ D) (h0 : ∫ x, f x ∂π = 0) :
    ∀ᵐ x ∂(π.prod (Measure.infinitePi (fun _ : ℕ => ν))), Tendsto (fun n : ℕ => birkhoffSum (shift K) (fun x => f x.1) n x / n) atTop (𝓝 0) := by
  have := stepKernel_markov (ν := ν) hK
  have hθ := measurePreserving_shift (ν := ν) (π := π) hK hm.invariant
  have hi := integrable_of_bounds π hf hD
  have h := averages_closed hθ (F := fun x => f x.1) (hf.comp measurable_fst) (integrable_fst_prod hi) ?_
  · rwa [integral_fst_prod hf, h0] at h
  intro e he
  obtain ⟨M, hM⟩ := (Metric.tendsto_atTop.mp (hm.first_moment hf hD h0)) e he
  have hM' := hM M le_rfl
  rw [Real.dist_eq, sub_zero, abs_of_nonneg (integral_nonneg fun s => abs_nonneg _)] at hM'
  obtain ⟨g1, g2⟩ := push_iterate_basic (κ := stepKernel K ν) M hf hD
  set g := (push (stepKernel K ν))^[M] f with hg
  have hgi := integrable_of_bounds π g1 g2
  have hg0 : ∫ x, g x ∂π = 0 := (hm.integral_iterate M hf hD).trans h0
  have hfg : Measurable (fun s => f s - g s) := hf.sub g1
  refine ⟨fun x => f x.1 - g x.1, hfg.comp measurable_fst, integrable_fst_prod (hi.sub hgi), ?_, ?_⟩
  · have e1 : (fun x : S × (ℕ → W) => |f x.1 - (f x.1 - g x.1)|) = fun x => |g x.1| := by funext x; congr 1; ring
    rw [e1, integral_fst_prod (f := fun s => |g s|) (measurable_norm.comp g1)]
    exact hM'.le
  · have e2 : ∫ x, (f x.1 - g x.1) ∂(π.prod (Measure.infinitePi (fun _ : ℕ => ν))) = 0 := by
      rw [integral_fst_prod (f := fun s => f s - g s) hfg, integral_sub hi hgi, h0, hg0, sub_zero]
    rw [e2]
    have hset := measurableSet_average hK hfg 0
    have hb : ∀ x : S × (ℕ → W), (fun n : ℕ => birkhoffSum (shift K) (fun x => f x.1 - g x.1) n x / n) =
        fun n : ℕ => (∑ i ∈ Finset.range n, (f (walk K x.1 x.2 i) - g (walk K x.1 x.2 i))) / n := fun x => by
      funext n
      rw [birkhoffSum_shift K (fun s => f s - g s)]
    simp only [hb]
    rw [Measure.ae_prod_iff_ae_ae hset]
    refine ae_of_all _ fun s => ?_
    have hind : iIndepFun (fun (i : ℕ) (w : ℕ → W) => w i) (Measure.infinitePi (fun _ : ℕ => ν)) := iIndepFun_infinitePi (X := fun _ x => x) (fun _ => measurable_id)
    exact prediction_average hK (fun i => measurable_pi_apply i) (fun i => Measure.infinitePi_map_eval _ i) hind s hf hD M

/-- Integrable functions, started from the invariant distribution. -/
theorem stationary_average (hK : Measurable (fun a : S × W => K a.1 a.2)) (hm : Reaching (stepKernel K ν) π)
    {f : S → ℝ} (hf : Measurable f) (hfi : Integrable f π) :
    ∀ᵐ x ∂(π.prod (Measure.infinitePi (fun _ : ℕ => ν))), Tendsto (fun n : ℕ => birkhoffSum (shift K) (fun x => f x.1) n x / n) atTop (𝓝 (∫ s, f s ∂π)) := by
  have hθ := measurePreserving_shift (ν := ν) (π := π) hK hm.invariant
  rw [← integral_fst_prod (ν := ν) (π := π) hf]
  refine averages_closed hθ (F := fun x => f x.1) (hf.comp measurable_fst) (integrable_fst_prod hfi) ?_
  intro e he
  -- truncation
  set t : ℕ → S → ℝ := fun k s => max (-(k : ℝ)) (min (f s) k) with ht
  have htm : ∀ k, Measurable (t k) := fun k => measurable_const.max (hf.min measurable_const)
  have htb : ∀ (k : ℕ) s, -(k : ℝ) ≤ t k s ∧ t k s ≤ k := fun k s => ⟨le_max_left _ _, max_le (by linarith [Nat.cast_nonneg (α := ℝ) k]) (min_le_right _ _)⟩
  have hta : ∀ k s, |f s - t k s| ≤ |f s| := by
    intro k s
    have hk : (0 : ℝ) ≤ k := by positivity
    simp only [ht]
    rcases le_total (f s) k with h1 | h1
    · rw [min_eq_left h1]
      rcases le_total (-(k : ℝ)) (f s) with h2 | h2
      · rw [max_eq_right h2]; simp
      · rw [max_eq_left h2, abs_of_nonpos (by linarith), abs_of_nonpos (by linarith)]; linarith
    · rw [min_eq_right h1, max_eq_right (by linarith), abs_of_nonneg (by linarith), abs_of_nonneg (by linarith)]; linarith
  have hto : Tendsto (fun k => ∫ s, |f s - t k s| ∂π) atTop (𝓝 (∫ _, (0 : ℝ) ∂π)) := by
    refine tendsto_integral_of_dominated_convergence (fun s => |f s|) (fun k => (measurable_norm.comp (hf.sub (htm k))).aestronglyMeasurable) hfi.abs
      (fun k => ae_of_all _ fun s => by rw [Real.norm_eq_abs, abs_abs]; exact hta k s) (ae_of_all _ fun s => ?_)
    refine tendsto_const_nhds.congr' ?_
    obtain ⟨N, hN⟩ := exists_nat_ge |f s|
    filter_upwards [eventually_ge_atTop N] with k hk
    have hkr : |f s| ≤ k := hN.trans (by exact_mod_cast hk)
    have := abs_le.mp hkr
    simp only [ht]
    rw [min_eq_left this.2, max_eq_right this.1]
    simp
  rw [integral_zero] at hto
  obtain ⟨k, hk⟩ := (Metric.tendsto_atTop.mp hto) e he
  have hk' := hk k le_rfl
  rw [Real.dist_eq, sub_zero, abs_of_nonneg (integral_nonneg fun s => abs_nonneg _)] at hk'
  set c := ∫ s, t k s ∂π with hc
  have hti := integrable_of_bounds π (htm k) (htb k)
  have hcb := stationary_bounded hK hm (f := fun s => t k s - c) ((htm k).sub_const c) (D := k + |c|)
    (fun s => ⟨by linarith [(htb k s).1, le_abs_self c], by linarith [(htb k s).2, neg_abs_le c]⟩)
    (by rw [integral_sub hti (integrable_const c)]; simp [hc])
  refine ⟨fun x => t k x.1, (htm k).comp measurable_fst, integrable_fst_prod hti, ?_, ?_⟩
  · rw [integral_fst_prod (f := fun s => |f s - t k s|) (measurable_norm.comp (hf.sub (htm k)))]
    exact hk'.le
  · rw [integral_fst_prod (htm k)]
    filter_upwards [hcb] with x hx
    have h2 := hx.add_const c
    rw [zero_add] at h2
    refine h2.congr' ?_
    filter_upwards [eventually_gt_atTop 0] with n hn
    have hnr : (n : ℝ) ≠ 0 := by exact_mod_cast hn.ne'
    rw [birkhoffSum_shift K (fun s => t k s - c), birkhoffSum_shift K (t k), Finset.sum_sub_distrib, Finset.sum_const, Finset.card_range, nsmul_eq_mul]
    field_simp
    ring

/-- A start from which nothing `π` neglects is met for ever: functions with values between 0
and 1 that the transition averages and that vanish `π`-almost everywhere vanish there. -/
def Regular (κ : ProbabilityTheory.Kernel S S) (π : Measure S) (z0 : S) : Prop :=
  ∀ b : S → ENNReal, Measurable b → (∀ s, b s ≤ 1) → (∀ s, b s = ∫⁻ s', b s' ∂κ s) → (∀ᵐ s ∂π, b s = 0) → b z0 = 0

theorem Leaves.regular {κ : ProbabilityTheory.Kernel S S} {z0 : S} (hz : Leaves κ π z0) : Regular κ π z0 := by
  intro b hbm hble hstep hb0
  obtain ⟨r, ν', hr0, hr, hν', e⟩ := hz
  have h1 := hstep z0
  rw [e, lintegral_add_measure, lintegral_smul_measure, lintegral_dirac' _ hbm,
    lintegral_congr_ae (hν'.ae_le hb0), lintegral_zero, add_zero, smul_eq_mul] at h1
  by_contra hne
  have hfin : b z0 ≠ ⊤ := ne_top_of_le_ne_top ENNReal.one_ne_top (hble z0)
  have h2 : ENNReal.ofReal r * b z0 < b z0 := by
    calc ENNReal.ofReal r * b z0 < 1 * b z0 := by
          rw [ENNReal.mul_lt_mul_iff_left hne hfin]
          rw [← ENNReal.ofReal_one]
          exact (ENNReal.ofReal_lt_ofReal_iff one_pos).mpr hr
      _ = b z0 := one_mul _
  exact absurd h1 h2.ne'

/-- From every regular start. -/
theorem stream_average (hK : Measurable (fun a : S × W => K a.1 a.2)) (hm : Reaching (stepKernel K ν) π) {z0 : S} (hz : Regular (stepKernel K ν) π z0)
    {f : S → ℝ} (hf : Measurable f) (hfi : Integrable f π) :
    ∀ᵐ w ∂Measure.infinitePi (fun _ : ℕ => ν), Tendsto (fun n : ℕ => (∑ i ∈ Finset.range n, f (walk K z0 w i)) / n) atTop (𝓝 (∫ s, f s ∂π)) := by
  set Q := Measure.infinitePi (fun _ : ℕ => ν) with hQ
  set B : Set (S × (ℕ → W)) := {x | Tendsto (fun n : ℕ => (∑ i ∈ Finset.range n, f (walk K x.1 x.2 i)) / n) atTop (𝓝 (∫ s, f s ∂π))}ᶜ with hB
  have hBm : MeasurableSet B := (measurableSet_average hK hf _).compl
  have hI : Measurable (B.indicator (1 : S × (ℕ → W) → ENNReal)) := measurable_one.indicator hBm
  set b : S → ENNReal := fun s => ∫⁻ w, B.indicator 1 (s, w) ∂Q with hb
  have hbm : Measurable b := hI.lintegral_prod_right'
  have hinvB : ∀ x, shift K x ∈ B ↔ x ∈ B := by
    intro x
    simp only [hB, Set.mem_compl_iff, Set.mem_ofPred_eq, shift, walk_shift]
    rw [not_iff_not]
    exact (average_shift (fun i => f (walk K x.1 x.2 i)) _).symm
  have hstep : ∀ s, b s = ∫⁻ s', b s' ∂stepKernel K ν s := by
    intro s
    rw [← lintegral_shift hK hI s]
    refine lintegral_congr fun w => ?_
    by_cases h : ((s, w) : S × (ℕ → W)) ∈ B
    · rw [Set.indicator_of_mem h, Set.indicator_of_mem ((hinvB _).mpr h)]; rfl
    · rw [Set.indicator_of_notMem h, Set.indicator_of_notMem fun hc => h ((hinvB _).mp hc)]
  have hb0 : ∀ᵐ s ∂π, b s = 0 := by
    have hs := stationary_average hK hm hf hfi
    have hs' : ∀ᵐ x ∂(π.prod Q), x ∉ B := by
      filter_upwards [hs] with x hx
      simp only [hB, Set.mem_compl_iff, Set.mem_ofPred_eq, not_not]
      refine hx.congr fun n => ?_
      rw [birkhoffSum_shift]
    have h2 : ∫⁻ x, B.indicator 1 x ∂(π.prod Q) = 0 := by
      rw [lintegral_indicator_one hBm]
      exact measure_eq_zero_iff_ae_notMem.mpr hs'
    rw [lintegral_prod _ hI.aemeasurable, lintegral_eq_zero_iff hbm] at h2
    exact h2
  have hble : ∀ s, b s ≤ 1 := fun s => by
    calc b s ≤ ∫⁻ _, 1 ∂Q := lintegral_mono fun w => Set.indicator_le_self' (fun _ _ => zero_le) _
      _ = 1 := by simp
  have hbz : b z0 = 0 := hz b hbm hble hstep hb0
  have hsec : Measurable (fun w : ℕ → W => B.indicator (1 : S × (ℕ → W) → ENNReal) (z0, w)) := hI.comp (measurable_const.prodMk measurable_id)
  have h3 := (lintegral_eq_zero_iff hsec).mp hbz
  filter_upwards [h3] with w hw
  by_contra hc
  have : ((z0, w) : S × (ℕ → W)) ∈ B := hc
  simp [Set.indicator_of_mem this] at hw

/-- Strong law of large numbers: from every regular start, averages over the samples of every
function with a mean converge almost surely to that mean. -/
theorem walk_average_regular (hK : Measurable (fun a : S × W => K a.1 a.2)) (hm : Reaching (stepKernel K ν) π) (hw : ∀ i, Measurable (w i)) (hlaw : ∀ i, Pr.map (w i) = ν) (hind : iIndepFun w Pr)
    {z0 : S} (hz : Regular (stepKernel K ν) π z0) {f : S → ℝ} (hf : Measurable f) (hfi : Integrable f π) :
    ∀ᵐ ω ∂Pr, Tendsto (fun n : ℕ => (∑ i ∈ Finset.range n, f (walk K z0 (fun i => w i ω) (i + 1))) / n) atTop (𝓝 (∫ s, f s ∂π)) := by
  have hmeas : Measurable (fun ω i => w i ω) := measurable_pi_lambda _ hw
  have hmap : Pr.map (fun ω i => w i ω) = Measure.infinitePi (fun _ : ℕ => ν) := by
    rw [hind.map_fun_eq_infinitePi_map hw]
    rw [funext hlaw]
  have h := stream_average hK hm hz hf hfi
  rw [← hmap] at h
  have h2 := ae_of_ae_map hmeas.aemeasurable h
  filter_upwards [h2] with ω hω
  exact (average_shift (fun i => f (walk K z0 (fun i => w i ω) i)) (∫ s, f s ∂π)).mp hω

/-- Strong law of large numbers: from every state the transition leaves, averages over the
samples of every function with a mean converge almost surely to that mean. -/
theorem walk_average (hK : Measurable (fun a : S × W => K a.1 a.2)) (hm : Reaching (stepKernel K ν) π) (hw : ∀ i, Measurable (w i)) (hlaw : ∀ i, Pr.map (w i) = ν) (hind : iIndepFun w Pr)
    {z0 : S} (hz : Leaves (stepKernel K ν) π z0) {f : S → ℝ} (hf : Measurable f) (hfi : Integrable f π) :
    ∀ᵐ ω ∂Pr, Tendsto (fun n : ℕ => (∑ i ∈ Finset.range n, f (walk K z0 (fun i => w i ω) (i + 1))) / n) atTop (𝓝 (∫ s, f s ∂π)) :=
  walk_average_regular hK hm hw hlaw hind hz.regular hf hfi

end

end Edward
