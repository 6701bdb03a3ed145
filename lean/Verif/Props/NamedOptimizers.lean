/-
C126: MAP with the other optimisers a name selects. Adagrad reaches a stationary point whatever the scale of the log density;
momentum does up to a bound on the curvature; RMSProp stays at the mode only if it hits it exactly.
-/
import Verif.Props.MapDescent
import Verif.Model.NamedOptimizers

namespace Edward
open MeasureTheory Filter Topology ProbabilityTheory

/-! ### Adagrad -/
section adagrad
variable {ι : Type} [Fintype ι]

/-- The sums of squares Adagrad divides by pay for its steps. -/
theorem adagrad_pay {b g η κ : ℝ} (hb : 0 < b) (hη : 0 ≤ η) (hκ : 0 ≤ κ) :
    -(η * (g ^ 2 / √(b + g ^ 2))) + κ * (g ^ 2 / (b + g ^ 2)) ≤
      (η * √b - κ * Real.log b) - (η * √(b + g ^ 2) - κ * Real.log (b + g ^ 2)) := by
  set b' := b + g ^ 2 with hb'
  have hb'0 : 0 < b' := by positivity
  have hle : b ≤ b' := by rw [hb']; nlinarith [sq_nonneg g]
  have hg : g ^ 2 = b' - b := by rw [hb']; ring
  have h1 : √b' - √b ≤ g ^ 2 / √b' := by
    rw [le_div_iff₀ (Real.sqrt_pos.mpr hb'0), hg]
    nlinarith [Real.mul_self_sqrt hb'0.le, Real.mul_self_sqrt hb.le, Real.sqrt_le_sqrt hle, Real.sqrt_nonneg b]
  have h2 : g ^ 2 / b' ≤ Real.log b' - Real.log b := by
    have h3 := Real.log_le_sub_one_of_pos (div_pos hb hb'0)
    rw [Real.log_div hb.ne' hb'0.ne'] at h3
    have h4 : g ^ 2 / b' = 1 - b / b' := by rw [hg]; field_simp
    linarith
  nlinarith [mul_le_mul_of_nonneg_left h1 hη, mul_le_mul_of_nonneg_left h2 hκ]

/-- A root outgrows a logarithm. -/
theorem sqrt_sub_log {η κ : ℝ} (hη : 0 < η) (hκ : 0 ≤ κ) : ∃ C, 0 ≤ C ∧ ∀ b, 0 < b → η / 2 * √b - C ≤ η * √b - κ * Real.log b := by
  set A := 4 * κ / η + 1 with hA
  have hA0 : 0 < A := by positivity
  refine ⟨|2 * κ * (Real.log A - 1)|, abs_nonneg _, fun b hb => ?_⟩
  have hs := Real.sqrt_pos.mpr hb
  have h1 := Real.log_le_sub_one_of_pos (div_pos hs hA0)
  rw [Real.log_div hs.ne' hA0.ne', Real.log_sqrt hb.le] at h1
  have h2 : κ * Real.log b ≤ 2 * κ * (√b / A) + 2 * κ * (Real.log A - 1) := by
    nlinarith [mul_le_mul_of_nonneg_left h1 hκ]
  have h3 : 2 * κ * (√b / A) ≤ η / 2 * √b := by
    rw [← mul_div_assoc, div_le_iff₀ hA0]
    have : 2 * κ ≤ η / 2 * A := by rw [hA]; field_simp; linarith
    nlinarith
  linarith [le_abs_self (2 * κ * (Real.log A - 1))]

variable {F : EuclideanSpace ℝ ι → ℝ} {G : EuclideanSpace ℝ ι → EuclideanSpace ℝ ι} {K η c : ℝ}

theorem adagrad_acc_pos (lr : ℕ → ℝ) (G : EuclideanSpace ℝ ι → EuclideanSpace ℝ ι) (x : EuclideanSpace ℝ ι) (n : ℕ) (i : ι) :
    0 < (adagradRun lr G x n).acc i := by
  induction n with
  | zero => show (0 : ℝ) < 0.1; norm_num
  | succ n ih => simp only [adagradRun, adagradStep]; positivity

theorem adagrad_seq_pos {s : ℕ → AdagradState ι} (hs : ∀ n, s (n + 1) = adagradStep η (G (s n).x) (s n)) (h0 : ∀ i, 0 < (s 0).acc i)
    (n : ℕ) (i : ι) : 0 < (s n).acc i := by
  induction n with
  | zero => exact h0 i
  | succ n ih => rw [hs n]; simp only [adagradStep]; positivity

theorem adagrad_lyapunov (hF : ∀ x, HasGradientAt F (G x) x) (hG : ∀ x y, ‖G x - G y‖ ≤ K * ‖x - y‖) (hK : 0 ≤ K) (hη : 0 ≤ η)
    {s : ℕ → AdagradState ι} (hs : ∀ n, s (n + 1) = adagradStep η (G (s n).x) (s n)) (h0 : ∀ i, 0 < (s 0).acc i) :
    Antitone fun n => F (s n).x + ∑ i, (η * √((s n).acc i) - K / 2 * η ^ 2 * Real.log ((s n).acc i)) := by
  refine antitone_nat_of_succ_le fun n => ?_
  have hpos := adagrad_seq_pos hs h0 n
  rw [hs n]
  set s := s n
  have h1 := smooth_le hF hG s.x (adagradStep η (G s.x) s).x
  have h2 : inner ℝ (G s.x) ((adagradStep η (G s.x) s).x - s.x) = ∑ i, -(η * (G s.x i ^ 2 / √(s.acc i + G s.x i ^ 2))) := by
    rw [PiLp.inner_apply]
    refine Finset.sum_congr rfl fun i _ => ?_
    simp only [adagradStep, PiLp.sub_apply, RCLike.inner_apply, conj_trivial]
    ring
  have h3 : ‖(adagradStep η (G s.x) s).x - s.x‖ ^ 2 = ∑ i, η ^ 2 * (G s.x i ^ 2 / (s.acc i + G s.x i ^ 2)) := by
    rw [EuclideanSpace.norm_sq_eq]
    refine Finset.sum_congr rfl fun i _ => ?_
    have h0 : 0 ≤ s.acc i + G s.x i ^ 2 := by have := hpos i; positivity
    simp only [adagradStep, PiLp.sub_apply, Real.norm_eq_abs, sq_abs, sub_sub_cancel_left, neg_sq, div_pow, mul_pow, Real.sq_sqrt h0]
    ring
  rw [h2, h3, Finset.mul_sum] at h1
  have h4 : ∑ i, -(η * (G s.x i ^ 2 / √(s.acc i + G s.x i ^ 2))) + ∑ i, K / 2 * (η ^ 2 * (G s.x i ^ 2 / (s.acc i + G s.x i ^ 2))) ≤
      ∑ i, ((η * √(s.acc i) - K / 2 * η ^ 2 * Real.log (s.acc i)) -
        (η * √(s.acc i + G s.x i ^ 2) - K / 2 * η ^ 2 * Real.log (s.acc i + G s.x i ^ 2))) := by
    rw [← Finset.sum_add_distrib]
    refine Finset.sum_le_sum fun i _ => ?_
    rw [← mul_assoc (K / 2)]
    exact adagrad_pay (hpos i) hη (by positivity)
  rw [Finset.sum_sub_distrib] at h4
  show F (adagradStep η (G s.x) s).x + ∑ i, (η * √(s.acc i + G s.x i ^ 2) - K / 2 * η ^ 2 * Real.log (s.acc i + G s.x i ^ 2)) ≤ _
  linarith

theorem adagrad_acc (lr : ℕ → ℝ) (G : EuclideanSpace ℝ ι → EuclideanSpace ℝ ι) (x : EuclideanSpace ℝ ι) (n : ℕ) (i : ι) :
    (adagradRun lr G x n).acc i = 0.1 + ∑ t ∈ Finset.range n, G (adagradRun lr G x t).x i ^ 2 := by
  induction n with
  | zero => simp [adagradRun]
  | succ n ih =>
    rw [Finset.sum_range_succ, ← add_assoc, ← ih]
    rfl

theorem adagrad_seq_converges (hF : ∀ x, HasGradientAt F (G x) x) (hG : ∀ x y, ‖G x - G y‖ ≤ K * ‖x - y‖) (hη : 0 < η) (hc : ∀ x, c ≤ F x)
    {s : ℕ → AdagradState ι} (hs : ∀ n, s (n + 1) = adagradStep η (G (s n).x) (s n)) (h0 : ∀ i, 0 < (s 0).acc i) :
    (∃ k, Tendsto (fun n => F (s n).x) atTop (𝓝 k)) ∧ Tendsto (fun n => G (s n).x) atTop (𝓝 0) := by
  have hG' : ∀ x y, ‖G x - G y‖ ≤ |K| * ‖x - y‖ := fun x y =>
    (hG x y).trans (mul_le_mul_of_nonneg_right (le_abs_self K) (norm_nonneg _))
  have hL := adagrad_lyapunov hF hG' (abs_nonneg K) hη.le hs h0
  set κ := |K| / 2 * η ^ 2 with hκ
  have hκ0 : 0 ≤ κ := by positivity
  obtain ⟨C, hC0, hC⟩ := sqrt_sub_log hη hκ0
  have hpos := adagrad_seq_pos hs h0
  have hacc : ∀ n i, (s (n + 1)).acc i = (s n).acc i + G (s n).x i ^ 2 := fun n i => by rw [hs n]; rfl
  set L : ℕ → ℝ := fun n => F (s n).x + ∑ i, (η * √((s n).acc i) - κ * Real.log ((s n).acc i)) with hLdef
  have hbound : ∀ i n, (s n).acc i ≤ (2 / η * (L 0 - c + Fintype.card ι * C)) ^ 2 := by
    intro i n
    have h1 : L n ≤ L 0 := hL (Nat.zero_le n)
    have h2 : ∑ j, (η / 2 * √((s n).acc j) - C) ≤ ∑ j, (η * √((s n).acc j) - κ * Real.log ((s n).acc j)) :=
      Finset.sum_le_sum fun j _ => hC _ (hpos n j)
    rw [Finset.sum_sub_distrib, Finset.sum_const, Finset.card_univ, nsmul_eq_mul] at h2
    have h3 : η / 2 * √((s n).acc i) ≤ ∑ j, η / 2 * √((s n).acc j) :=
      Finset.single_le_sum (f := fun j => η / 2 * √((s n).acc j)) (fun j _ => by positivity) (Finset.mem_univ i)
    have h4 : c + ∑ j, (η * √((s n).acc j) - κ * Real.log ((s n).acc j)) ≤ L n := add_le_add_left (hc _) _
    have h5 : √((s n).acc i) ≤ 2 / η * (L 0 - c + Fintype.card ι * C) := by
      rw [div_mul_eq_mul_div, le_div_iff₀ hη]
      linarith
    calc (s n).acc i = √((s n).acc i) ^ 2 := (Real.sq_sqrt (hpos n i).le).symm
      _ ≤ _ := pow_le_pow_left₀ (Real.sqrt_nonneg _) h5 2
  have hmono : ∀ i, Monotone fun n => (s n).acc i := fun i => monotone_nat_of_le_succ fun n => by
    rw [hacc n i]
    nlinarith [sq_nonneg (G (s n).x i)]
  have hlim : ∀ i, ∃ a, 0 < a ∧ Tendsto (fun n => (s n).acc i) atTop (𝓝 a) := fun i => by
    have hbdd : BddAbove (Set.range fun n => (s n).acc i) := by
      refine ⟨(2 / η * (L 0 - c + Fintype.card ι * C)) ^ 2, ?_⟩
      rintro _ ⟨n, rfl⟩
      exact hbound i n
    exact ⟨⨆ n, (s n).acc i, (hpos 0 i).trans_le (le_ciSup hbdd 0), tendsto_atTop_ciSup (hmono i) hbdd⟩
  choose a ha0 ha using hlim
  constructor
  · have h1 : Tendsto (fun n => ∑ i, (η * √((s n).acc i) - κ * Real.log ((s n).acc i))) atTop
        (𝓝 (∑ i, (η * √(a i) - κ * Real.log (a i)))) :=
      tendsto_finsetSum _ fun i _ => ((ha i).sqrt.const_mul η).sub (((Real.continuousAt_log (ha0 i).ne').tendsto.comp (ha i)).const_mul κ)
    have hb : BddBelow (Set.range L) := by
      refine ⟨c - Fintype.card ι * C, ?_⟩
      rintro _ ⟨n, rfl⟩
      have h2 : ∑ j : ι, -C ≤ ∑ j, (η * √((s n).acc j) - κ * Real.log ((s n).acc j)) :=
        Finset.sum_le_sum fun j _ => (by have : 0 ≤ η / 2 * √((s n).acc j) := by positivity
                                         linarith : -C ≤ η / 2 * √((s n).acc j) - C).trans (hC _ (hpos n j))
      rw [Finset.sum_const, Finset.card_univ, nsmul_eq_mul] at h2
      have h3 := hc (s n).x
      simp only [hLdef]
      linarith
    have h2 := (tendsto_atTop_ciInf hL hb).sub h1
    refine ⟨_, h2.congr fun n => ?_⟩
    simp [hLdef]
  · have hcoord : ∀ i, Tendsto (fun n => G (s n).x i) atTop (𝓝 0) := by
      intro i
      have h1 : Tendsto (fun n => (s (n + 1)).acc i - (s n).acc i) atTop (𝓝 (a i - a i)) := ((ha i).comp (tendsto_add_atTop_nat 1)).sub (ha i)
      rw [sub_self] at h1
      have h2 : (fun n => (s (n + 1)).acc i - (s n).acc i) = fun n => G (s n).x i ^ 2 := by
        funext n
        rw [hacc n i]
        ring
      rw [h2] at h1
      have h3 := h1.sqrt
      simp only [Real.sqrt_sq_eq_abs, Real.sqrt_zero] at h3
      exact tendsto_zero_iff_abs_tendsto_zero _ |>.mpr h3
    rw [tendsto_zero_iff_norm_tendsto_zero]
    have h4 : Tendsto (fun n => √(∑ i, ‖G (s n).x i‖ ^ 2)) atTop (𝓝 √(∑ i : ι, ‖(0 : ℝ)‖ ^ 2)) :=
      (tendsto_finsetSum _ fun i _ => (hcoord i).norm.pow 2).sqrt
    simp only [norm_zero, ne_eq, OfNat.ofNat_ne_zero, not_false_eq_true, zero_pow, Finset.sum_const_zero, Real.sqrt_zero] at h4
    refine h4.congr fun n => ?_
    rw [EuclideanSpace.norm_eq]

theorem adagrad_converges (hF : ∀ x, HasGradientAt F (G x) x) (hG : ∀ x y, ‖G x - G y‖ ≤ K * ‖x - y‖) (hη : 0 < η) (hc : ∀ x, c ≤ F x)
    (x : EuclideanSpace ℝ ι) :
    (∃ k, Tendsto (fun n => F (adagradRun (fun _ => η) G x n).x) atTop (𝓝 k)) ∧
    Tendsto (fun n => G (adagradRun (fun _ => η) G x n).x) atTop (𝓝 0) :=
  adagrad_seq_converges hF hG hη hc (fun _ => rfl) (adagrad_acc_pos (fun _ => η) G x 0)

end adagrad

/-- Where the gradient of a strongly convex function tends to zero, the argument tends to the minimum. -/
theorem minimum_of_gradient {E : Type} [NormedAddCommGroup E] [InnerProductSpace ℝ E] {F : E → ℝ} {G : E → E} {m : ℝ} (hm : 0 < m)
    (hsc : ∀ l l', F l + inner ℝ (G l) (l' - l) + m / 2 * ‖l' - l‖ ^ 2 ≤ F l') {mode : E} (hmode : ∀ l, F mode ≤ F l)
    {x : ℕ → E} (hx : Tendsto (fun n => G (x n)) atTop (𝓝 0)) : Tendsto x atTop (𝓝 mode) := by
  rw [tendsto_iff_norm_sub_tendsto_zero]
  have h1 : Tendsto (fun n => 2 / m * ‖G (x n)‖) atTop (𝓝 0) := by
    simpa using hx.norm.const_mul (2 / m)
  refine squeeze_zero (fun n => norm_nonneg _) (fun n => ?_) h1
  have h2 := hsc (x n) mode
  have h3 := hmode (x n)
  have h4 := neg_le_of_abs_le (abs_real_inner_le_norm (G (x n)) (mode - x n))
  rw [norm_sub_rev (x n) mode, div_mul_eq_mul_div, le_div_iff₀ hm]
  rcases (norm_nonneg (mode - x n)).eq_or_lt with h5 | h5
  · rw [← h5, zero_mul]; positivity
  · nlinarith

/-! ### Momentum -/
section momentum
variable {E : Type} [NormedAddCommGroup E] [InnerProductSpace ℝ E] [CompleteSpace E] {F : E → ℝ} {G : E → E} {K c : ℝ}

theorem momentum_converges (hF : ∀ x, HasGradientAt F (G x) x) (hG : ∀ x y, ‖G x - G y‖ ≤ K * ‖x - y‖) (hK : K < 20) (hc : ∀ x, c ≤ F x) (x : E) :
    (∃ k, Tendsto (fun n => F (momentumRun (fun _ => 0.01) G x n).x) atTop (𝓝 k)) ∧
    Tendsto (fun n => G (momentumRun (fun _ => 0.01) G x n).x) atTop (𝓝 0) := by
  set s := momentumRun (fun _ => 0.01) G x with hs
  have hx : ∀ n, (s (n + 1)).x = (s n).x - (0.01 : ℝ) • (s (n + 1)).acc := fun n => rfl
  have ha : ∀ n, (s (n + 1)).acc = (0.9 : ℝ) • (s n).acc + G (s n).x := fun n => rfl
  set V : ℕ → ℝ := fun n => F (s n).x + 0.0045 * ‖(s n).acc‖ ^ 2 with hV
  have hstep : ∀ n, V (n + 1) ≤ V n - 0.01 * (0.1 - K * 0.005) * ‖(s (n + 1)).acc‖ ^ 2 := by
    intro n
    have h1 := smooth_le hF hG (s n).x (s (n + 1)).x
    have h2 : (s (n + 1)).x - (s n).x = -((0.01 : ℝ) • (s (n + 1)).acc) := by rw [hx n]; abel
    have h3 : G (s n).x = (s (n + 1)).acc - (0.9 : ℝ) • (s n).acc := by rw [ha n]; abel
    rw [h2, h3, inner_neg_right, inner_smul_right, norm_neg, norm_smul, inner_sub_left, inner_smul_left, real_inner_self_eq_norm_sq,
      Real.norm_eq_abs, mul_pow, sq_abs] at h1
    have h4 := real_inner_le_norm (s n).acc (s (n + 1)).acc
    simp only [conj_trivial] at h1
    simp only [hV]
    nlinarith [sq_nonneg (‖(s n).acc‖ - ‖(s (n + 1)).acc‖)]
  have hpos : 0 < 0.01 * (0.1 - K * 0.005) := by norm_num; linarith
  have hanti : Antitone V := antitone_nat_of_succ_le fun n => (hstep n).trans (by
    have : 0 ≤ 0.01 * (0.1 - K * 0.005) * ‖(s (n + 1)).acc‖ ^ 2 := by positivity
    linarith)
  have hVc : ∀ n, c ≤ V n := fun n => by
    have h1 := hc (s n).x
    have : 0 ≤ 0.0045 * ‖(s n).acc‖ ^ 2 := by positivity
    simp only [hV]
    linarith
  have hVlim := tendsto_atTop_ciInf hanti ⟨c, by rintro _ ⟨n, rfl⟩; exact hVc n⟩
  have hacc : Tendsto (fun n => ‖(s (n + 1)).acc‖ ^ 2) atTop (𝓝 0) := by
    have h1 := (hVlim.sub (hVlim.comp (tendsto_add_atTop_nat 1))).const_mul (0.01 * (0.1 - K * 0.005))⁻¹
    rw [sub_self, mul_zero] at h1
    refine squeeze_zero (fun n => by positivity) (fun n => ?_) h1
    rw [inv_mul_eq_div, le_div_iff₀ hpos, mul_comm]
    have := hstep n
    simp only [Function.comp]
    linarith
  have hacc0 : Tendsto (fun n => ‖(s n).acc‖ ^ 2) atTop (𝓝 0) := (tendsto_add_atTop_iff_nat 1).mp hacc
  have hacc1 : Tendsto (fun n => (s n).acc) atTop (𝓝 0) := by
    rw [tendsto_zero_iff_norm_tendsto_zero]
    have := hacc0.sqrt
    simpa [Real.sqrt_sq (norm_nonneg _)] using this
  constructor
  · refine ⟨_, (hVlim.sub (hacc0.const_mul 0.0045)).congr fun n => ?_⟩
    simp [hV]
  · have h1 := (hacc1.comp (tendsto_add_atTop_nat 1)).sub (hacc1.const_smul (0.9 : ℝ))
    rw [smul_zero, sub_zero] at h1
    refine h1.congr fun n => ?_
    simp only [Function.comp, ha n]
    abel

/-- A recurrence of second order whose roots lie in the unit disc. -/
theorem recurrence_tendsto {e : ℕ → ℝ} {a b : ℝ} (hb : |b| < 1) (ha : |a| < 1 + b) (he : ∀ n, e (n + 2) = a * e (n + 1) - b * e n) :
    Tendsto e atTop (𝓝 0) := by
  rw [abs_lt] at hb ha
  set V : ℕ → ℝ := fun n => (1 + b) * e (n + 1) ^ 2 - 2 * a * e (n + 1) * e n + (1 + b) * e n ^ 2 with hV
  have hstep : ∀ n, V n - V (n + 1) = (1 - b) * (a * e (n + 1) - (1 + b) * e n) ^ 2 := fun n => by
    simp only [hV, he]
    ring
  have hpos : ∀ n, 0 ≤ V n := fun n => by
    simp only [hV]
    nlinarith [sq_nonneg (e (n + 1) - e n), sq_nonneg (e (n + 1) + e n)]
  have hanti : Antitone V := antitone_nat_of_succ_le fun n => by
    have := hstep n
    nlinarith [sq_nonneg (a * e (n + 1) - (1 + b) * e n)]
  have hVlim := tendsto_atTop_ciInf hanti ⟨0, by rintro _ ⟨n, rfl⟩; exact hpos n⟩
  have hu : Tendsto (fun n => a * e (n + 1) - (1 + b) * e n) atTop (𝓝 0) := by
    have h1 := (hVlim.sub (hVlim.comp (tendsto_add_atTop_nat 1))).const_mul (1 - b)⁻¹
    rw [sub_self, mul_zero] at h1
    have h2 : Tendsto (fun n => (a * e (n + 1) - (1 + b) * e n) ^ 2) atTop (𝓝 0) := by
      refine h1.congr fun n => ?_
      simp only [Function.comp, hstep n]
      rw [inv_mul_cancel_left₀ (by linarith)]
    have h3 := h2.sqrt
    simp only [Real.sqrt_sq_eq_abs, Real.sqrt_zero] at h3
    exact (tendsto_zero_iff_abs_tendsto_zero _).mpr h3
  -- a * u (n + 1) + (1 + b) * u n = a * a * e (n + 2) - (1 + b)² * e n, and e (n + 2) = u n + e n
  have h1 : Tendsto (fun n => a * (a * e (n + 2) - (1 + b) * e (n + 1)) + (1 + b) * (a * e (n + 1) - (1 + b) * e n) -
      a ^ 2 * (a * e (n + 1) - (1 + b) * e n)) atTop (𝓝 0) := by
    have := (((hu.comp (tendsto_add_atTop_nat 1)).const_mul a).add (hu.const_mul (1 + b))).sub (hu.const_mul (a ^ 2))
    simpa using this
  have h2 := h1.const_mul (a ^ 2 - (1 + b) ^ 2)⁻¹
  rw [mul_zero] at h2
  have hne : a ^ 2 - (1 + b) ^ 2 ≠ 0 := by nlinarith
  refine h2.congr fun n => ?_
  rw [he n, inv_mul_eq_div, div_eq_iff hne]
  ring

/-- A recurrence of second order with a root at minus one or beyond. -/
theorem recurrence_grows {e : ℕ → ℝ} {a b : ℝ} (hb : 0 ≤ b) (ha : 1 + b ≤ |a|) (he : ∀ n, e (n + 2) = a * e (n + 1) - b * e n)
    (h0 : |e 0| ≤ |e 1|) (n : ℕ) : |e n| ≤ |e (n + 1)| := by
  induction n with
  | zero => exact h0
  | succ n ih =>
    rw [he n]
    have h1 : |a * e (n + 1)| - |b * e n| ≤ |a * e (n + 1) - b * e n| := abs_sub_abs_le_abs_sub _ _
    rw [abs_mul, abs_mul, abs_of_nonneg hb] at h1
    nlinarith [abs_nonneg (e (n + 1)), mul_le_mul_of_nonneg_right ha (abs_nonneg (e (n + 1))), mul_le_mul_of_nonneg_left ih hb]

end momentum

/-! ### MAP -/
section map
variable {Z X I Θ : Type} [Fintype I]

section
variable {E : Type} [NormedAddCommGroup E] [InnerProductSpace ℝ E] [CompleteSpace E] {v : ViProblem Z X I Θ} {T : E → Θ} {K c : ℝ}

theorem map_hasGradient (hd : ∀ l, DifferentiableAt ℝ (fun l => Spec.logJoint v (T l)) l) (l : E) :
    HasGradientAt (fun l => -Spec.logJoint v (T l)) (mapGradient v T l) l := by
  have h : DifferentiableAt ℝ (fun l => -Spec.logJoint v (T l)) l := (hd l).fun_neg
  have e : mapGradient v T l = gradient (fun l => -Spec.logJoint v (T l)) l := by
    simp only [mapGradient, map_value]
  rw [e]
  exact h.hasGradientAt

theorem map_lipschitz (hK : ∀ l l', ‖gradient (fun l => Spec.logJoint v (T l)) l - gradient (fun l => Spec.logJoint v (T l)) l'‖ ≤ K * ‖l - l'‖)
    (l l' : E) : ‖mapGradient v T l - mapGradient v T l'‖ ≤ K * ‖l - l'‖ := by
  rw [mapGradient_eq, mapGradient_eq, neg_sub_neg, norm_sub_rev]
  exact hK l l'

/-- C126 for `optimizer="momentum"`: when the gradient of the log density has a Lipschitz constant below 20, the log density
converges along the updates and its gradient tends to zero. -/
theorem C126_momentum (hd : ∀ l, DifferentiableAt ℝ (fun l => Spec.logJoint v (T l)) l)
    (hK : ∀ l l', ‖gradient (fun l => Spec.logJoint v (T l)) l - gradient (fun l => Spec.logJoint v (T l)) l'‖ ≤ K * ‖l - l'‖) (hK2 : K < 20)
    (hc : ∀ l, Spec.logJoint v (T l) ≤ c) (x : E) :
    buildOptimizer (.name "momentum") .none = .ok (.built .momentum .fixed, .none) ∧
    (∃ k, Tendsto (fun n => Spec.logJoint v (T (momentumRun LearningRate.fixed.at (mapGradient v T) x n).x)) atTop (𝓝 k)) ∧
    Tendsto (fun n => gradient (fun l => Spec.logJoint v (T l)) (momentumRun LearningRate.fixed.at (mapGradient v T) x n).x) atTop (𝓝 0) := by
  obtain ⟨⟨k, h1⟩, h2⟩ := momentum_converges (map_hasGradient hd) (map_lipschitz hK) hK2 (c := -c) (fun l => neg_le_neg (hc l)) x
  refine ⟨rfl, ⟨-k, ?_⟩, ?_⟩
  · have := h1.neg
    simp only [neg_neg] at this
    exact this
  · have := h2.neg
    simp only [mapGradient_eq v T (momentumRun _ _ _ _).x, neg_neg, neg_zero] at this
    exact this

end

section
variable {ι : Type} [Fintype ι] {v : ViProblem Z X I Θ} {T : EuclideanSpace ℝ ι → Θ} {K c : ℝ}

/-- C126 for `optimizer="adagrad"`: whatever the Lipschitz constant of the gradient of the log density, the log density converges
along the updates and its gradient tends to zero. -/
theorem C126_adagrad (hd : ∀ l, DifferentiableAt ℝ (fun l => Spec.logJoint v (T l)) l)
    (hK : ∀ l l', ‖gradient (fun l => Spec.logJoint v (T l)) l - gradient (fun l => Spec.logJoint v (T l)) l'‖ ≤ K * ‖l - l'‖)
    (hc : ∀ l, Spec.logJoint v (T l) ≤ c) (x : EuclideanSpace ℝ ι) :
    buildOptimizer (.name "adagrad") .none = .ok (.built .adagrad .fixed, .none) ∧
    (∃ k, Tendsto (fun n => Spec.logJoint v (T (adagradRun LearningRate.fixed.at (mapGradient v T) x n).x)) atTop (𝓝 k)) ∧
    Tendsto (fun n => gradient (fun l => Spec.logJoint v (T l)) (adagradRun LearningRate.fixed.at (mapGradient v T) x n).x) atTop (𝓝 0) := by
  obtain ⟨⟨k, h1⟩, h2⟩ := adagrad_converges (η := 0.01) (map_hasGradient hd) (map_lipschitz hK) (by norm_num) (c := -c) (fun l => neg_le_neg (hc l)) x
  refine ⟨rfl, ⟨-k, ?_⟩, ?_⟩
  · have := h1.neg
    simp only [neg_neg] at this
    exact this
  · have := h2.neg
    simp only [mapGradient_eq v T (adagradRun _ _ _ _).x, neg_neg, neg_zero] at this
    exact this

/-- C126 for `optimizer="adagrad"`: if moreover the log density is strongly concave, the parameters converge to the mode, from
every starting point. -/
theorem C126_adagrad_mode (hd : ∀ l, DifferentiableAt ℝ (fun l => Spec.logJoint v (T l)) l)
    (hK : ∀ l l', ‖gradient (fun l => Spec.logJoint v (T l)) l - gradient (fun l => Spec.logJoint v (T l)) l'‖ ≤ K * ‖l - l'‖)
    {m : ℝ} (hm : 0 < m)
    (hsc : ∀ l l', Spec.logJoint v (T l') ≤
      Spec.logJoint v (T l) + inner ℝ (gradient (fun l => Spec.logJoint v (T l)) l) (l' - l) - m / 2 * ‖l' - l‖ ^ 2)
    {mode : EuclideanSpace ℝ ι} (hmode : ∀ l, Spec.logJoint v (T l) ≤ Spec.logJoint v (T mode)) (x : EuclideanSpace ℝ ι) :
    Tendsto (fun n => (adagradRun LearningRate.fixed.at (mapGradient v T) x n).x) atTop (𝓝 mode) := by
  obtain ⟨-, -, h⟩ := C126_adagrad hd hK hmode x
  refine minimum_of_gradient (F := fun l => -Spec.logJoint v (T l)) (G := fun l => -gradient (fun l => Spec.logJoint v (T l)) l) hm
    (fun l l' => ?_) (fun l => neg_le_neg (hmode l)) (by simpa using h.neg)
  rw [inner_neg_left]
  linarith [hsc l l']

end

end map

/-! ### The mean of normal data -/
section mean
variable {n : ℕ} (data : Fin n → ℝ)

/-- C126 for the mean of `n` observations: `optimizer="momentum"` converges to the mode from every starting point exactly when
there are at most 378 observations. -/
theorem C126_momentum_iff :
    (∀ x, Tendsto (fun t => (momentumRun LearningRate.fixed.at (mapGradient (meanVi data) id) x t).x) atTop (𝓝 ((∑ i, data i) / (n + 1)))) ↔
      n ≤ 378 := by
  have hn0 : (n : ℝ) + 1 ≠ 0 := by positivity
  set mode := (∑ i, data i) / ((n : ℝ) + 1) with hmode
  have hsum : ∑ i, data i = (n + 1) * mode := by rw [hmode]; field_simp
  have hg : ∀ z, mapGradient (meanVi data) id z = (n + 1) * (z - mode) := fun z => by rw [mean_gradient, hsum]; ring
  have key : ∀ x, ∃ e : ℕ → ℝ, (∀ t, (momentumRun LearningRate.fixed.at (mapGradient (meanVi data) id) x t).x = mode + e t) ∧ e 0 = x - mode ∧
      e 1 = (1 - 0.01 * (n + 1)) * e 0 ∧ ∀ t, e (t + 2) = (1.9 - 0.01 * (n + 1)) * e (t + 1) - 0.9 * e t := by
    intro x
    set s := momentumRun LearningRate.fixed.at (mapGradient (meanVi data) id) x with hs
    have hx : ∀ t, (s (t + 1)).x = (s t).x - 0.01 * (s (t + 1)).acc := fun t => rfl
    have ha : ∀ t, (s (t + 1)).acc = 0.9 * (s t).acc + (n + 1) * ((s t).x - mode) := fun t => by
      rw [← hg]; rfl
    refine ⟨fun t => (s t).x - mode, fun t => by ring, rfl, ?_, fun t => ?_⟩
    · have h0 : (s 0).acc = 0 := rfl
      simp only [hx 0, ha 0, h0]
      ring
    · have h1 := hx t
      simp only [hx (t + 1), ha (t + 1)]
      linear_combination -0.9 * h1
  constructor
  · intro h
    by_contra hn
    have hn' : (379 : ℝ) ≤ n := by exact_mod_cast (by omega : 379 ≤ n)
    obtain ⟨e, h1, h2, h3, h4⟩ := key (mode + 1)
    have h5 := h (mode + 1)
    simp_rw [h1] at h5
    have h6 : Tendsto e atTop (𝓝 0) := by
      have := h5.sub_const mode
      simpa using this
    rw [add_sub_cancel_left] at h2
    have h7 := recurrence_grows (e := e) (a := 1.9 - 0.01 * (n + 1)) (b := 0.9) (by norm_num) (by rw [le_abs]; right; linarith) h4 (by
      rw [h3, h2, mul_one, abs_one, le_abs]; right; linarith)
    have h8 : ∀ t, 1 ≤ |e t| := fun t => by
      induction t with
      | zero => rw [h2, abs_one]
      | succ t ih => exact ih.trans (h7 t)
    have h9 := ge_of_tendsto' h6.abs h8
    rw [abs_zero] at h9
    linarith
  · intro hn x
    have hn' : (n : ℝ) ≤ 378 := by exact_mod_cast hn
    have hn1 : (0 : ℝ) ≤ n := Nat.cast_nonneg n
    obtain ⟨e, h1, -, -, h4⟩ := key x
    simp_rw [h1]
    have h5 := recurrence_tendsto (e := e) (a := 1.9 - 0.01 * (n + 1)) (b := 0.9) (by rw [abs_lt]; constructor <;> norm_num)
      (by rw [abs_lt]; constructor <;> linarith) h4
    simpa using h5.const_add mode

/-- The gradient when the parameters are a vector of length one. -/
theorem one_gradient {Z X I Θ : Type} [Fintype I] {v : ViProblem Z X I Θ} {T : ℝ → Θ} {f' : ℝ → ℝ}
    (h : ∀ z, HasDerivAt (fun z => Spec.logJoint v (T z)) (f' z) z) (l : EuclideanSpace ℝ (Fin 1)) :
    HasGradientAt (fun l : EuclideanSpace ℝ (Fin 1) => Spec.logJoint v (T (l 0))) (EuclideanSpace.single 0 (f' (l 0))) l := by
  have h1 : HasFDerivAt (fun l : EuclideanSpace ℝ (Fin 1) => l 0) (EuclideanSpace.proj (0 : Fin 1) : EuclideanSpace ℝ (Fin 1) →L[ℝ] ℝ) l :=
    (EuclideanSpace.proj (0 : Fin 1) : EuclideanSpace ℝ (Fin 1) →L[ℝ] ℝ).hasFDerivAt
  have h2 := (h (l 0)).hasFDerivAt.comp l h1
  refine HasFDerivAt.congr_fderiv h2 ?_
  ext d
  simp [InnerProductSpace.toDual_apply_apply, EuclideanSpace.inner_single_left, mul_comm]

theorem one_sub (a b : ℝ) : (EuclideanSpace.single 0 a - EuclideanSpace.single 0 b : EuclideanSpace ℝ (Fin 1)) = EuclideanSpace.single 0 (a - b) := by
  ext i
  have : i = 0 := Subsingleton.elim _ _
  subst this
  simp

theorem one_norm (l : EuclideanSpace ℝ (Fin 1)) : ‖l‖ = |l 0| := by
  rw [EuclideanSpace.norm_eq]
  simp [Real.sqrt_sq_eq_abs]

theorem mean_joint_deriv (z : ℝ) : HasDerivAt (fun z => Spec.logJoint (meanVi data) (id z)) (∑ i, data i - (n + 1) * z) z := by
  have h := (mean_deriv data z).fun_neg
  simp only [map_value, neg_neg] at h
  exact h.congr_deriv (by ring)

theorem mean_joint (l l' : ℝ) : Spec.logJoint (meanVi data) l' =
    Spec.logJoint (meanVi data) l + (∑ i, data i - (n + 1) * l) * (l' - l) - ((n : ℝ) + 1) / 2 * (l' - l) ^ 2 := by
  obtain ⟨c, hc⟩ := mean_loss data
  have hj : ∀ z, Spec.logJoint (meanVi data) z = -mapLoss (meanVi data) z 0 := fun z => by rw [map_value, neg_neg]
  have e : ∀ z : ℝ, ∑ i, (data i - z) ^ 2 / 2 = (∑ i, data i ^ 2 / 2) - z * ∑ i, data i + n / 2 * z ^ 2 := fun z => by
    have : ∀ i, (data i - z) ^ 2 / 2 = data i ^ 2 / 2 - z * data i + z ^ 2 / 2 := fun i => by ring
    simp_rw [this]
    rw [Finset.sum_add_distrib, Finset.sum_sub_distrib, ← Finset.mul_sum]
    simp
    ring
  rw [hj, hj, hc, hc, e, e]
  ring

/-- C126 for the mean of `n` observations: `optimizer="adagrad"` converges to the mode from every starting point, however many
observations there are. -/
theorem C126_adagrad_mean (x : EuclideanSpace ℝ (Fin 1)) :
    Tendsto (fun t => (adagradRun LearningRate.fixed.at (mapGradient (meanVi data) fun l => l 0) x t).x 0) atTop (𝓝 ((∑ i, data i) / (n + 1))) := by
  have hn0 : (0 : ℝ) < (n : ℝ) + 1 := by positivity
  have hg := one_gradient (mean_joint_deriv data)
  simp only [id] at hg
  have h : Tendsto (fun t => (adagradRun LearningRate.fixed.at (mapGradient (meanVi data) fun l => l 0) x t).x) atTop
      (𝓝 (EuclideanSpace.single 0 ((∑ i, data i) / (n + 1)))) := by
    refine C126_adagrad_mode (v := meanVi data) (T := fun l => l 0) (K := n + 1) (m := n + 1) (fun l => (hg l).differentiableAt) (fun l l' => ?_)
      hn0 (fun l l' => ?_) (fun l => ?_) x
    · rw [(hg l).gradient, (hg l').gradient, one_sub, one_norm, one_norm]
      have : ∑ i, data i - (n + 1) * l 0 - (∑ i, data i - (n + 1) * l' 0) = (n + 1) * -(l 0 - l' 0) := by ring
      simp only [PiLp.single_apply, if_true, this, abs_mul, abs_neg, abs_of_pos hn0, PiLp.sub_apply, le_refl]
    · rw [(hg l).gradient, EuclideanSpace.inner_single_left, one_norm, sq_abs, mean_joint data (l 0) (l' 0)]
      simp
    · simp only [PiLp.single_apply, if_true]
      rw [mean_joint data ((∑ i, data i) / (n + 1)) (l 0)]
      have : ∑ i, data i - (n + 1) * ((∑ i, data i) / (n + 1)) = 0 := by field_simp; ring
      rw [this, zero_mul]
      have h2 : 0 ≤ ((n : ℝ) + 1) / 2 * (l 0 - (∑ i, data i) / (n + 1)) ^ 2 := by positivity
      linarith
  have h2 := ((EuclideanSpace.proj (0 : Fin 1) : EuclideanSpace ℝ (Fin 1) →L[ℝ] ℝ).continuous.tendsto _).comp h
  simpa [Function.comp_def] using h2

/-- The hypotheses of `C126_momentum` hold for 10 observations. -/
example (data : Fin 10 → ℝ) (x : ℝ) :
    Tendsto (fun t => gradient (fun l => Spec.logJoint (meanVi data) (id l))
      (momentumRun LearningRate.fixed.at (mapGradient (meanVi data) id) x t).x) atTop (𝓝 0) := by
  have hg : ∀ l, HasGradientAt (fun l => Spec.logJoint (meanVi data) (id l)) (∑ i, data i - (10 + 1) * l) l := fun l => by
    have := (mean_joint_deriv data l).hasGradientAt'
    norm_num at this ⊢
    exact this
  refine (C126_momentum (v := meanVi data) (T := id) (K := 11) (c := Spec.logJoint (meanVi data) ((∑ i, data i) / 11))
    (fun l => (hg l).differentiableAt) (fun l l' => ?_) (by norm_num) (fun l => ?_) x).2.2
  · rw [(hg l).gradient, (hg l').gradient, Real.norm_eq_abs, Real.norm_eq_abs]
    have : ∑ i, data i - (10 + 1) * l - (∑ i, data i - (10 + 1) * l') = 11 * -(l - l') := by ring
    rw [this, abs_mul, abs_neg]
    norm_num
  · simp only [id]
    rw [mean_joint data ((∑ i, data i) / 11) l]
    push_cast
    nlinarith [sq_nonneg (l - (∑ i, data i) / 11)]

/-- A thousand observations are no problem for Adagrad, and too many for momentum and gradient descent. -/
example (data : Fin 1000 → ℝ) (x : EuclideanSpace ℝ (Fin 1)) :
    Tendsto (fun t => (adagradRun LearningRate.fixed.at (mapGradient (meanVi data) fun l => l 0) x t).x 0) atTop (𝓝 ((∑ i, data i) / (1000 + 1))) ∧
    (¬ ∀ y, Tendsto (fun t => (momentumRun LearningRate.fixed.at (mapGradient (meanVi data) id) y t).x) atTop (𝓝 ((∑ i, data i) / (1000 + 1)))) ∧
    ¬ ∀ y, Tendsto (mapRun LearningRate.fixed.at (meanVi data) id y) atTop (𝓝 ((∑ i, data i) / (1000 + 1))) := by
  have h1 := C126_adagrad_mean data x
  have h2 := C126_momentum_iff data
  have h3 := C125_mean_iff data
  push_cast at h1 h2 h3
  exact ⟨h1, fun h => by have := h2.mp h; omega, fun h => by have := h3.mp h; omega⟩

/-- C126 for `optimizer="rmsprop"`: if the parameter converges to the mode, then because some update hits it exactly. -/
theorem C126_rmsprop_partial (x : EuclideanSpace ℝ (Fin 1))
    (h : Tendsto (fun t => (rmsRun LearningRate.fixed.at (mapGradient (meanVi data) fun l => l 0) x t).x 0) atTop (𝓝 ((∑ i, data i) / (n + 1)))) :
    ∃ t, (rmsRun LearningRate.fixed.at (mapGradient (meanVi data) fun l => l 0) x t).x 0 = (∑ i, data i) / (n + 1) := by
  have hn0 : (0 : ℝ) < (n : ℝ) + 1 := by positivity
  have hn1 : (1 : ℝ) ≤ (n : ℝ) + 1 := by linarith [(Nat.cast_nonneg n : (0 : ℝ) ≤ n)]
  set mode := (∑ i, data i) / ((n : ℝ) + 1) with hmode
  have hsum : ∑ i, data i = (n + 1) * mode := by rw [hmode]; field_simp
  have hgrad : ∀ l : EuclideanSpace ℝ (Fin 1), mapGradient (meanVi data) (fun l => l 0) l 0 = (n + 1) * (l 0 - mode) := fun l => by
    have hg := one_gradient (mean_joint_deriv data) l
    simp only [id] at hg
    rw [mapGradient_eq, hg.gradient, hsum]
    simp
    ring
  set s := rmsRun LearningRate.fixed.at (mapGradient (meanVi data) fun l => l 0) x with hs
  set e : ℕ → ℝ := fun t => (s t).x 0 - mode with he
  have hrms : ∀ t, (s (t + 1)).rms 0 = 0.9 * (s t).rms 0 + 0.1 * ((n + 1) * e t) ^ 2 := fun t => by
    have : (s (t + 1)).rms 0 = (s t).rms 0 + (mapGradient (meanVi data) (fun l => l 0) (s t).x 0 ^ 2 - (s t).rms 0) * (1 - 0.9) := rfl
    rw [this, hgrad]
    ring
  have hx : ∀ t, e (t + 1) = e t * (1 - 0.01 * (n + 1) / √((s (t + 1)).rms 0 + 1e-10)) := fun t => by
    have : (s (t + 1)).x 0 = (s t).x 0 - 0.01 * mapGradient (meanVi data) (fun l => l 0) (s t).x 0 / √((s (t + 1)).rms 0 + 1e-10) := rfl
    simp only [he]
    rw [this, hgrad]
    ring
  have h0 : Tendsto e atTop (𝓝 0) := by simpa [he] using h.sub_const mode
  have hrms0 : ∀ t, 0 ≤ (s t).rms 0 := fun t => by
    induction t with
    | zero => show (0 : ℝ) ≤ 1; norm_num
    | succ t ih => rw [hrms t]; positivity
  -- the slot becomes small
  have hu : Tendsto (fun t => ((n + 1) * e t) ^ 2) atTop (𝓝 0) := by
    have := (h0.const_mul ((n : ℝ) + 1)).pow 2
    simpa using this
  obtain ⟨N, hN⟩ := eventually_atTop.mp (hu.eventually (gt_mem_nhds (by norm_num : (0 : ℝ) < 1e-5)))
  have hdecay : ∀ k, (s (N + k)).rms 0 ≤ 0.9 ^ k * (s N).rms 0 + 1e-5 := fun k => by
    induction k with
    | zero => simp; norm_num
    | succ k ih =>
      rw [← add_assoc, hrms, pow_succ (0.9 : ℝ) k]
      have := hN (N + k) (by omega)
      linarith
  have hpow : Tendsto (fun k : ℕ => (0.9 : ℝ) ^ k * (s N).rms 0) atTop (𝓝 0) := by
    simpa using (tendsto_pow_atTop_nhds_zero_of_lt_one (by norm_num : (0 : ℝ) ≤ 0.9) (by norm_num)).mul_const ((s N).rms 0)
  obtain ⟨M, hM⟩ := eventually_atTop.mp (hpow.eventually (gt_mem_nhds (by norm_num : (0 : ℝ) < 1e-5)))
  have hgrow : ∀ t, N + M ≤ t → |e t| ≤ |e (t + 1)| := by
    intro t ht
    have h1 : (s (t + 1)).rms 0 + 1e-10 ≤ 0.005 ^ 2 := by
      have h2 := hdecay (t + 1 - N)
      have h3 := hM (t + 1 - N) (by omega)
      rw [Nat.add_sub_cancel' (by omega)] at h2
      norm_num at h2 h3 ⊢
      linarith
    have hpos : 0 < (s (t + 1)).rms 0 + 1e-10 := by have := hrms0 (t + 1); positivity
    have h2 : √((s (t + 1)).rms 0 + 1e-10) ≤ 0.005 := Real.sqrt_le_iff.mpr ⟨by norm_num, h1⟩
    have h3 : 2 ≤ 0.01 * ((n : ℝ) + 1) / √((s (t + 1)).rms 0 + 1e-10) := by
      rw [le_div_iff₀ (Real.sqrt_pos.mpr hpos)]
      linarith
    rw [hx t, abs_mul]
    have h4 : 1 ≤ |1 - 0.01 * ((n : ℝ) + 1) / √((s (t + 1)).rms 0 + 1e-10)| := by rw [le_abs]; right; linarith
    nlinarith [abs_nonneg (e t)]
  refine ⟨N + M, ?_⟩
  have hle : ∀ k, |e (N + M)| ≤ |e (N + M + k)| := fun k => by
    induction k with
    | zero => rfl
    | succ k ih => exact ih.trans (hgrow _ (by omega))
  have hlim : Tendsto (fun k => |e (N + M + k)|) atTop (𝓝 0) := by
    have h1 := h0.abs
    rw [abs_zero] at h1
    have h2 := h1.comp (tendsto_add_atTop_nat (N + M))
    refine h2.congr fun k => ?_
    simp [Function.comp, add_comm]
  have h2 := ge_of_tendsto' hlim hle
  have h3 : e (N + M) = 0 := abs_nonpos_iff.mp h2
  simp only [he] at h3
  linarith

end mean

/-! ### A normal prior alone -/

theorem prior_deriv (m : ℝ) {v : NNReal} (hv : v ≠ 0) (l z : ℝ) : HasDerivAt (fun z => Spec.logJoint (fitVi m v l) (id z)) (-(z - m) / v) z := by
  have hv' : (v : ℝ) ≠ 0 := by exact_mod_cast hv
  have e : (fun z : ℝ => Spec.logJoint (fitVi m v l) (id z)) = fun z => Real.log (√(2 * Real.pi * v))⁻¹ - (z - m) ^ 2 / (2 * v) := by
    funext z
    simp [Spec.logJoint, fitVi, log_normal m hv]
  rw [e]
  have h := ((((hasDerivAt_id z).sub_const m).pow 2).div_const (2 * (v : ℝ))).const_sub (Real.log (√(2 * Real.pi * v))⁻¹)
  refine h.congr_deriv ?_
  simp
  field_simp
  ring

theorem prior_gradient (m : ℝ) {v : NNReal} (hv : v ≠ 0) (l : EuclideanSpace ℝ (Fin 1)) :
    mapGradient (fitVi m v 0) (fun l => l 0) l = EuclideanSpace.single 0 ((l 0 - m) / v) := by
  have hg := one_gradient (prior_deriv m hv 0) l
  simp only [id] at hg
  rw [mapGradient_eq, hg.gradient]
  ext i
  have : i = 0 := Subsingleton.elim _ _
  subst this
  simp
  ring

/-- The variance for which RMSProp alternates. -/
noncomputable def rmsVariance : NNReal := ⟨0.005 / √(1 + 1e-10), by positivity⟩

theorem rmsVariance_pos : 0 < (rmsVariance : ℝ) := by
  show 0 < 0.005 / √(1 + 1e-10)
  positivity

/-- C126 fails for `optimizer="rmsprop"`: for a normal prior with mean zero and variance about 0.005, from a starting point as far
from the mode as the variance, the parameter alternates between the two sides of the mode for ever. -/
theorem C126_rmsprop_fails :
    buildOptimizer (.name "rmsprop") .none = .ok (.built .rmsprop .fixed, .none) ∧
    (∀ t, (rmsRun LearningRate.fixed.at (mapGradient (fitVi 0 rmsVariance 0) fun l : EuclideanSpace ℝ (Fin 1) => l 0) (EuclideanSpace.single (0 : Fin 1) (rmsVariance : ℝ)) t).x 0 =
      (-1) ^ t * rmsVariance) ∧
    ¬ ∃ k, Tendsto (fun t => (rmsRun LearningRate.fixed.at (mapGradient (fitVi 0 rmsVariance 0) fun l : EuclideanSpace ℝ (Fin 1) => l 0)
      (EuclideanSpace.single (0 : Fin 1) (rmsVariance : ℝ)) t).x 0) atTop (𝓝 k) := by
  have hpos := rmsVariance_pos
  have hne : rmsVariance ≠ 0 := by exact_mod_cast hpos.ne'
  set s := rmsRun LearningRate.fixed.at (mapGradient (fitVi 0 rmsVariance 0) fun l : EuclideanSpace ℝ (Fin 1) => l 0) (EuclideanSpace.single (0 : Fin 1) (rmsVariance : ℝ)) with hs
  have hx : ∀ t, (s t).x 0 = (-1) ^ t * rmsVariance ∧ (s t).rms 0 = 1 := by
    intro t
    induction t with
    | zero => exact ⟨by simp [hs, rmsRun], rfl⟩
    | succ t ih =>
      have hg : mapGradient (fitVi 0 rmsVariance 0) (fun l => l 0) (s t).x 0 = (-1) ^ t := by
        rw [prior_gradient 0 hne, PiLp.single_apply, if_pos rfl, ih.1, sub_zero]
        field_simp
      have hr : (s (t + 1)).rms 0 = 1 := by
        have : (s (t + 1)).rms 0 = (s t).rms 0 + (mapGradient (fitVi 0 rmsVariance 0) (fun l => l 0) (s t).x 0 ^ 2 - (s t).rms 0) * (1 - 0.9) := rfl
        rw [this, hg, ih.2, ← pow_mul, mul_comm t 2, pow_mul]
        norm_num
      refine ⟨?_, hr⟩
      have : (s (t + 1)).x 0 = (s t).x 0 - 0.01 * mapGradient (fitVi 0 rmsVariance 0) (fun l => l 0) (s t).x 0 / √((s (t + 1)).rms 0 + 1e-10) := rfl
      have hv : (rmsVariance : ℝ) = 0.005 / √(1 + 1e-10) := rfl
      rw [this, hr, hg, ih.1, pow_succ, hv]
      ring
  refine ⟨rfl, fun t => (hx t).1, fun ⟨k, hk⟩ => ?_⟩
  simp_rw [fun t => (hx t).1] at hk
  have h1 := (hk.comp (tendsto_add_atTop_nat 1)).add hk
  have h2 := (hk.comp (tendsto_add_atTop_nat 1)).sub hk
  have e1 : (fun t : ℕ => ((fun t : ℕ => (-1 : ℝ) ^ t * (rmsVariance : ℝ)) ∘ fun a => a + 1) t + (-1) ^ t * rmsVariance) = fun _ => 0 := by
    funext t
    simp only [Function.comp, pow_succ]
    ring
  rw [e1] at h1
  have h3 := tendsto_nhds_unique h1 tendsto_const_nhds
  have h4 : k = 0 := by linarith
  rw [h4] at hk
  have h5 := hk.abs
  simp only [abs_mul, abs_pow, abs_neg, abs_one, one_pow, one_mul, abs_zero] at h5
  have h6 := tendsto_nhds_unique h5 tendsto_const_nhds
  rw [abs_of_pos hpos] at h6
  linarith

/-- C126 fails for `optimizer="adagrad"` with a `global_step`: no coordinate moves further than 100, so that a prior with mean 1000
is not fitted from zero. -/
theorem C126_adagrad_decay_fails (start : ℕ) {ι : Type} [Fintype ι] (G : EuclideanSpace ℝ ι → EuclideanSpace ℝ ι) (x : EuclideanSpace ℝ ι) (i : ι) (t : ℕ) :
    buildOptimizer (.name "adagrad") (.variable start) = .ok (.built .adagrad (.decay start), .given) ∧
    |(adagradRun (LearningRate.decay start).at G x t).x i - x i| ≤ 100 ∧
    900 ≤ |(adagradRun (LearningRate.decay start).at (mapGradient (fitVi 1000 1 0) fun l : EuclideanSpace ℝ (Fin 1) => l 0) 0 t).x 0 - 1000| := by
  have hle : ∀ {ι : Type} [Fintype ι] (G : EuclideanSpace ℝ ι → EuclideanSpace ℝ ι) (x : EuclideanSpace ℝ ι) (i : ι),
      |(adagradRun (LearningRate.decay start).at G x t).x i - x i| ≤ 100 := by
    intro ι _ G x i
    set lr := (LearningRate.decay start).at with hlr
    have hpos : ∀ t, 0 < lr t := decay_pos start
    have hstep : ∀ t, |(adagradRun lr G x t).x i - x i| ≤ ∑ k ∈ Finset.range t, lr k := by
      intro t
      induction t with
      | zero => simp [adagradRun]
      | succ t ih =>
        rw [Finset.sum_range_succ]
        set s := adagradRun lr G x t
        have hb := adagrad_acc_pos lr G x t i
        have h1 : (adagradRun lr G x (t + 1)).x i = s.x i - lr t * G s.x i / √(s.acc i + G s.x i ^ 2) := rfl
        have h2 : |lr t * G s.x i / √(s.acc i + G s.x i ^ 2)| ≤ lr t := by
          have h3 : 0 < √(s.acc i + G s.x i ^ 2) := Real.sqrt_pos.mpr (by positivity)
          rw [abs_div, abs_mul, abs_of_pos (hpos t), abs_of_pos h3, div_le_iff₀ h3]
          refine mul_le_mul_of_nonneg_left ?_ (hpos t).le
          rw [← Real.sqrt_sq_eq_abs]
          exact Real.sqrt_le_sqrt (by linarith)
        rw [h1]
        have h4 : s.x i - lr t * G s.x i / √(s.acc i + G s.x i ^ 2) - x i = (s.x i - x i) - lr t * G s.x i / √(s.acc i + G s.x i ^ 2) := by ring
        rw [h4]
        exact (abs_sub _ _).trans (add_le_add ih h2)
    refine (hstep t).trans ?_
    rw [sum_decay]
    have h5 := rateLeft_le start
    have h6 := rateLeft_pos (start + t)
    have h7 : (0.9 : ℝ) ^ (start / 100) ≤ 1 := pow_le_one₀ (by norm_num) (by norm_num)
    linarith
  refine ⟨rfl, hle G x i, ?_⟩
  have h := hle (mapGradient (fitVi 1000 1 0) fun l : EuclideanSpace ℝ (Fin 1) => l 0) 0 0
  simp only [PiLp.zero_apply, sub_zero] at h
  rw [abs_le] at h
  rw [le_abs]
  right
  linarith [h.2]

end Edward
