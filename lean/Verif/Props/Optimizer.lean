/-
C105: with the default optimiser no number of iterations moves a parameter further than a
fixed distance. C106: `global_step` changes the learning rate of a named optimiser.
-/
import Mathlib.Analysis.SpecificLimits.Basic
import Mathlib.Analysis.SpecificLimits.Normed
import Mathlib.Topology.Algebra.InfiniteSum.Real
import Mathlib.Tactic.Linarith
import Mathlib.Tactic.FieldSimp
import Verif.Model.Optimizer

namespace Edward
open Filter Topology

/-! ### C105 -/

/-- What is left of the learning rates from counter `n` on. -/
noncomputable def rateLeft (n : ℕ) : ℝ := (100 - 0.1 * (n % 100 : ℕ)) * (0.9 : ℝ) ^ (n / 100)

theorem rateLeft_pos (n : ℕ) : 0 < rateLeft n := by
  have h : ((n % 100 : ℕ) : ℝ) < 100 := by exact_mod_cast Nat.mod_lt n (by norm_num)
  exact mul_pos (by linarith) (by positivity)

theorem rateLeft_le (n : ℕ) : rateLeft n ≤ 100 * (0.9 : ℝ) ^ (n / 100) := by
  have h : (0 : ℝ) ≤ ((n % 100 : ℕ) : ℝ) := Nat.cast_nonneg _
  exact mul_le_mul_of_nonneg_right (by linarith) (by positivity)

theorem rateLeft_succ (n : ℕ) : rateLeft n = exponentialDecay 0.1 n + rateLeft (n + 1) := by
  rw [rateLeft, rateLeft, exponentialDecay]
  by_cases h : n % 100 = 99
  · have h1 : (n + 1) % 100 = 0 := by omega
    have h2 : (n + 1) / 100 = n / 100 + 1 := by omega
    rw [h1, h2, h, pow_succ]; push_cast; ring
  · have h1 : (n + 1) % 100 = n % 100 + 1 := by omega
    have h2 : (n + 1) / 100 = n / 100 := by omega
    rw [h1, h2]; push_cast; ring

theorem sum_decay (s n : ℕ) : ∑ t ∈ Finset.range n, (LearningRate.decay s).at t = rateLeft s - rateLeft (s + n) := by
  induction n with
  | zero => simp
  | succ n ih =>
    rw [Finset.sum_range_succ, ih, LearningRate.at, ← add_assoc]
    linarith [rateLeft_succ (s + n)]

theorem decay_pos (s t : ℕ) : 0 < (LearningRate.decay s).at t := by
  rw [LearningRate.at, exponentialDecay]; positivity

/-- C105: the learning rates of the default optimiser, over all iterations together, add up to 100. -/
theorem C105_rates : HasSum (LearningRate.decay 0).at 100 := by
  rw [hasSum_iff_tendsto_nat_of_nonneg fun t => (decay_pos 0 t).le]
  simp_rw [sum_decay]
  have h0 : rateLeft 0 = 100 := by simp [rateLeft]
  have h1 : Tendsto (fun n : ℕ => rateLeft (0 + n)) atTop (𝓝 0) := by
    have hd : Tendsto (fun n : ℕ => n / 100) atTop atTop := Nat.tendsto_div_const_atTop (by norm_num)
    have hp := (tendsto_pow_atTop_nhds_zero_of_lt_one (r := (0.9 : ℝ)) (by norm_num) (by norm_num)).comp hd
    have := hp.const_mul 100
    rw [mul_zero] at this
    refine squeeze_zero (fun n => (rateLeft_pos _).le) (fun n => ?_) this
    simpa using rateLeft_le n
  simpa [h0] using h1.const_sub (rateLeft 0)

/-- The first moment of Adam is bounded by the second. -/
theorem adam_moments (lr g : ℕ → ℝ) (x : ℝ) (n : ℕ) :
    (adamRun lr g x n).m ^ 2 ≤ 370 / 7 * (adamRun lr g x n).v := by
  induction n with
  | zero => simp [adamRun]
  | succ n ih =>
    simp only [adamRun, adamStep]
    generalize (adamRun lr g x n).m = m at ih ⊢
    generalize (adamRun lr g x n).v = v at ih ⊢
    generalize g n = a
    norm_num at ih ⊢
    nlinarith [sq_nonneg (21 * m - 10 * a)]

/-- The bias correction of Adam is at most one. -/
theorem adam_correction (t : ℕ) :
    0 ≤ √(1 - 0.999 ^ (t + 1)) / (1 - 0.9 ^ (t + 1)) ∧ √(1 - (0.999 : ℝ) ^ (t + 1)) / (1 - 0.9 ^ (t + 1)) ≤ 1 := by
  have h9 : (0.9 : ℝ) ^ (t + 1) < 1 := pow_lt_one₀ (by norm_num) (by norm_num) (by omega)
  have hp : (0 : ℝ) < 1 - 0.9 ^ (t + 1) := by linarith
  refine ⟨div_nonneg (Real.sqrt_nonneg _) hp.le, ?_⟩
  rw [div_le_one hp, Real.sqrt_le_left hp.le]
  have h0 : (0 : ℝ) < 0.9 ^ (t + 1) := by positivity
  have ha := one_add_mul_le_pow (a := (0.11 : ℝ)) (by norm_num) (t + 1)
  have hb := one_add_mul_le_pow (a := (-0.1 : ℝ)) (by norm_num) (t + 1)
  have e : (0.999 : ℝ) ^ (t + 1) = 0.9 ^ (t + 1) * (1 + 0.11) ^ (t + 1) := by rw [← mul_pow]; norm_num
  have e' : (1 + -0.1 : ℝ) = 0.9 := by norm_num
  rw [e'] at hb
  have ht : (0 : ℝ) ≤ ((t + 1 : ℕ) : ℝ) := Nat.cast_nonneg _
  rw [e]
  generalize (0.9 : ℝ) ^ (t + 1) = a at *
  generalize (1 + 0.11 : ℝ) ^ (t + 1) = b at *
  nlinarith

/-- One update of Adam moves a coordinate by less than 7.28 learning rates. -/
theorem adam_step_le (lr g : ℕ → ℝ) (hlr : ∀ t, 0 ≤ lr t) (x : ℝ) (n : ℕ) :
    |(adamRun lr g x (n + 1)).x - (adamRun lr g x n).x| ≤ 7.28 * lr n := by
  have hm := adam_moments lr g x (n + 1)
  obtain ⟨h0, h1⟩ := adam_correction n
  have hx : (adamRun lr g x (n + 1)).x - (adamRun lr g x n).x =
      -(lr n * (√(1 - 0.999 ^ (n + 1)) / (1 - 0.9 ^ (n + 1))) *
        ((adamRun lr g x (n + 1)).m / (√(adamRun lr g x (n + 1)).v + 1e-8))) := by
    simp only [adamRun, adamStep]; ring
  rw [hx, abs_neg, abs_mul, abs_mul, abs_of_nonneg (hlr n), abs_of_nonneg h0]
  have hr : |(adamRun lr g x (n + 1)).m / (√(adamRun lr g x (n + 1)).v + 1e-8)| ≤ 7.28 := by
    have hv : 0 ≤ √(adamRun lr g x (n + 1)).v := Real.sqrt_nonneg _
    have hv0 : 0 ≤ (adamRun lr g x (n + 1)).v := by nlinarith [sq_nonneg (adamRun lr g x (n + 1)).m]
    rw [abs_div, abs_of_nonneg (a := √(adamRun lr g x (n + 1)).v + 1e-8) (by positivity), div_le_iff₀ (by positivity)]
    have : |(adamRun lr g x (n + 1)).m| ≤ 7.28 * √(adamRun lr g x (n + 1)).v := by
      refine abs_le_of_sq_le_sq ?_ (by positivity)
      rw [mul_pow, Real.sq_sqrt hv0]
      nlinarith
    nlinarith
  have hl := hlr n
  calc lr n * (√(1 - 0.999 ^ (n + 1)) / (1 - 0.9 ^ (n + 1))) * |_ / (_ + _)|
      ≤ lr n * 1 * 7.28 := by gcongr
    _ = 7.28 * lr n := by ring

/-- C105: with the default optimiser, a coordinate of a parameter stays within 728 of its initial value: for all
gradients, hence all models and draws, and for any number of iterations. (For any initial value of the counter.) -/
theorem C105_travel (s : ℕ) (g : ℕ → ℝ) (x : ℝ) (n : ℕ) : |(adamRun (LearningRate.decay s).at g x n).x - x| < 728 := by
  set lr := (LearningRate.decay s).at
  have h : |(adamRun lr g x n).x - x| ≤ 7.28 * ∑ t ∈ Finset.range n, lr t := by
    induction n with
    | zero => simp [adamRun]
    | succ n ih =>
      rw [Finset.sum_range_succ, mul_add]
      have h1 := adam_step_le lr g (fun t => (decay_pos s t).le) x n
      have e : (adamRun lr g x (n + 1)).x - x =
          ((adamRun lr g x n).x - x) + ((adamRun lr g x (n + 1)).x - (adamRun lr g x n).x) := by ring
      rw [e]
      exact (abs_add_le _ _).trans (add_le_add ih h1)
  refine h.trans_lt ?_
  rw [sum_decay]
  have h1 := rateLeft_le s
  have h2 : (0.9 : ℝ) ^ (s / 100) ≤ 1 := pow_le_one₀ (by norm_num) (by norm_num)
  have h3 := rateLeft_pos (s + n)
  linarith

/-- C105 for gradient descent with a counter: the distance is at most 100 times the largest gradient. -/
theorem C105_descent (s : ℕ) (g : ℕ → ℝ) (x b : ℝ) (hb : ∀ t, |g t| ≤ b) (n : ℕ) :
    |descentRun (LearningRate.decay s).at g x n - x| ≤ 100 * b := by
  set lr := (LearningRate.decay s).at
  have h0 : 0 ≤ b := (abs_nonneg _).trans (hb 0)
  have h : |descentRun lr g x n - x| ≤ b * ∑ t ∈ Finset.range n, lr t := by
    induction n with
    | zero => simp [descentRun]
    | succ n ih =>
      rw [Finset.sum_range_succ, mul_add]
      have e : descentRun lr g x (n + 1) - x = (descentRun lr g x n - x) + -(lr n * g n) := by
        rw [descentRun]; ring
      rw [e]
      refine (abs_add_le _ _).trans (add_le_add ih ?_)
      rw [abs_neg, abs_mul, abs_of_nonneg (decay_pos s n).le, mul_comm]
      exact mul_le_mul_of_nonneg_right (hb n) (decay_pos s n).le
  refine h.trans ?_
  rw [sum_decay, mul_comm]
  have h1 := rateLeft_le s
  have h2 : (0.9 : ℝ) ^ (s / 100) ≤ 1 := pow_le_one₀ (by norm_num) (by norm_num)
  have h3 := rateLeft_pos (s + n)
  exact mul_le_mul_of_nonneg_right (by linarith) h0

theorem adamMinimise_eq (lr : ℕ → ℝ) (grad : ℝ → ℝ) (x : ℝ) (n : ℕ) :
    adamMinimise lr grad x n = adamRun lr (fun k => grad (adamMinimise lr grad x k).x) x n := by
  induction n with
  | zero => rfl
  | succ n ih => rw [adamMinimise, adamRun, ← ih]

/-- C105 fails: the optimiser chosen by default is Adam with these rates, and minimising `(x - 1000)²` from `x = 0` it
stays more than 272 away from the minimiser for ever. -/
theorem C105_fails :
    buildOptimizer .none .none = .ok (.built .adam (.decay 0), .fresh) ∧
    ∀ n, 272 < |(adamMinimise (LearningRate.decay 0).at (fun x => 2 * (x - 1000)) 0 n).x - 1000| := by
  refine ⟨rfl, fun n => ?_⟩
  have h := C105_travel 0 (fun k => 2 * ((adamMinimise (LearningRate.decay 0).at (fun x => 2 * (x - 1000)) 0 k).x - 1000)) 0 n
  rw [← adamMinimise_eq _ (fun x => 2 * (x - 1000))] at h
  rw [sub_zero, abs_lt] at h
  rw [abs_of_neg (by linarith)]
  linarith

theorem adam_const_moments (lr : ℕ → ℝ) (x : ℝ) (n : ℕ) :
    (adamRun lr (fun _ => 1) x n).m = 1 - 0.9 ^ n ∧ (adamRun lr (fun _ => 1) x n).v = 1 - 0.999 ^ n := by
  induction n with
  | zero => simp [adamRun]
  | succ n ih =>
    simp only [adamRun, adamStep]
    rw [ih.1, ih.2, pow_succ, pow_succ]
    constructor <;> ring

/-- C105, the contrast: `optimizer='adam'` without a counter has the fixed learning rate 0.01, and no such bound. With
all gradients one the parameter goes to minus infinity. -/
theorem C105_named_partial (x : ℝ) :
    buildOptimizer (.name "adam") .none = .ok (.built .adam .fixed, .none) ∧
    Tendsto (fun n => (adamRun LearningRate.fixed.at (fun _ => 1) x n).x) atTop atBot := by
  refine ⟨rfl, ?_⟩
  have hstep : ∀ n, (adamRun LearningRate.fixed.at (fun _ => 1) x (n + 1)).x ≤
      (adamRun LearningRate.fixed.at (fun _ => 1) x n).x - 0.005 := by
    intro n
    obtain ⟨hm, hv⟩ := adam_const_moments LearningRate.fixed.at x (n + 1)
    have hx : (adamRun LearningRate.fixed.at (fun _ => 1) x (n + 1)).x =
        (adamRun LearningRate.fixed.at (fun _ => 1) x n).x - LearningRate.fixed.at n *
          √(1 - 0.999 ^ (n + 1)) / (1 - 0.9 ^ (n + 1)) * (adamRun LearningRate.fixed.at (fun _ => 1) x (n + 1)).m /
          (√(adamRun LearningRate.fixed.at (fun _ => 1) x (n + 1)).v + 1e-8) := by
      simp only [adamRun, adamStep]
    rw [hx, hm, hv]
    have h9 : (0.9 : ℝ) ^ (n + 1) < 1 := pow_lt_one₀ (by norm_num) (by norm_num) (by omega)
    have hp : (1 : ℝ) - 0.9 ^ (n + 1) ≠ 0 := by linarith
    have hs : (1e-8 : ℝ) ≤ √(1 - 0.999 ^ (n + 1)) := by
      refine Real.le_sqrt_of_sq_le ?_
      have : (0.999 : ℝ) ^ (n + 1) ≤ 0.999 ^ 1 := pow_le_pow_of_le_one (by norm_num) (by norm_num) (by omega)
      norm_num at this ⊢
      linarith
    set r := √(1 - (0.999 : ℝ) ^ (n + 1))
    have e : LearningRate.fixed.at n * r / (1 - 0.9 ^ (n + 1)) * (1 - 0.9 ^ (n + 1)) / (r + 1e-8) = 0.01 * r / (r + 1e-8) := by
      rw [LearningRate.at, div_mul_cancel₀ _ hp]
    rw [e]
    have hr : 0 < r + 1e-8 := by linarith [show (0 : ℝ) < 1e-8 by norm_num]
    have : 0.005 ≤ 0.01 * r / (r + 1e-8) := by
      rw [le_div_iff₀ hr]
      linarith
    linarith
  have hle : ∀ n : ℕ, (adamRun LearningRate.fixed.at (fun _ => 1) x n).x ≤ x - 0.005 * n := by
    intro n
    induction n with
    | zero => simp [adamRun]
    | succ n ih => have := hstep n; push_cast; linarith
  refine tendsto_atBot_mono hle ?_
  have : Tendsto (fun n : ℕ => (0.005 : ℝ) * n) atTop atTop :=
    (tendsto_natCast_atTop_atTop (R := ℝ)).const_mul_atTop (by norm_num)
  simpa [sub_eq_add_neg] using tendsto_atBot_add_const_left atTop x (tendsto_neg_atTop_atBot.comp this)

/-! ### C106 -/

namespace Spec

/-- The optimisers that can be named. -/
def optNames : List (String × OptClass) :=
  [("gradientdescent", .gradientDescent), ("adadelta", .adadelta), ("adagrad", .adagrad), ("momentum", .momentum),
    ("adam", .adam), ("ftrl", .ftrl), ("rmsprop", .rmsprop)]

/-- The updates two optimisers make agree: the same object, or the same class with the same learning rates. -/
def SameUpdates : Opt → Opt → Prop
  | .built c l, .built c' l' => c = c' ∧ ∀ t, l.at t = l'.at t
  | .given i, .given i' => i = i'
  | _, _ => False

end Spec

/-- C106: which optimiser is used. A name gives the class of that name, any other string raises ValueError; an
optimiser is used as it is; anything else raises TypeError. -/
theorem C106_choice (g : StepArg) :
    (∀ s c, (s, c) ∈ Spec.optNames → ∃ lr use, buildOptimizer (.name s) g = .ok (.built c lr, use)) ∧
    (∀ s, (∀ c, (s, c) ∉ Spec.optNames) → buildOptimizer (.name s) g = .error .valueError) ∧
    (∀ i, ∃ use, buildOptimizer (.object i) g = .ok (.given i, use)) ∧
    (∃ lr use, buildOptimizer .none g = .ok (.built .adam lr, use)) ∧
    buildOptimizer .other g = .error .typeError := by
  refine ⟨fun s c h => ?_, fun s h => ?_, fun i => ?_, ?_, ?_⟩
  · simp only [Spec.optNames, List.mem_cons, Prod.mk.injEq, List.not_mem_nil, or_false] at h
    rcases h with ⟨rfl, rfl⟩ | ⟨rfl, rfl⟩ | ⟨rfl, rfl⟩ | ⟨rfl, rfl⟩ | ⟨rfl, rfl⟩ | ⟨rfl, rfl⟩ | ⟨rfl, rfl⟩ <;>
      exact ⟨_, _, rfl⟩
  · have hne : ∀ s' c, (s', c) ∈ Spec.optNames → s ≠ s' := fun s' c hm e => h c (e ▸ hm)
    have h1 := hne _ _ (List.mem_cons_self : ("gradientdescent", OptClass.gradientDescent) ∈ Spec.optNames)
    have h2 := hne "adadelta" .adadelta (by simp [Spec.optNames])
    have h3 := hne "adagrad" .adagrad (by simp [Spec.optNames])
    have h4 := hne "momentum" .momentum (by simp [Spec.optNames])
    have h5 := hne "adam" .adam (by simp [Spec.optNames])
    have h6 := hne "ftrl" .ftrl (by simp [Spec.optNames])
    have h7 := hne "rmsprop" .rmsprop (by simp [Spec.optNames])
    simp only [buildOptimizer, h1, h2, h3, h4, h5, h6, h7, if_false]
  · exact ⟨_, rfl⟩
  · exact ⟨_, _, rfl⟩
  · rfl

/-- C106: which counter is incremented: the one passed; without one, a new one for the default optimiser and none
otherwise. -/
theorem C106_counted (o : OptArg) (g : StepArg) (a : Opt) (u : StepUse) (h : buildOptimizer o g = .ok (a, u)) :
    u = match (generalizing := false) g, o with
      | .none, .none => .fresh
      | .none, _ => .none
      | _, _ => .given := by
  have key : ∀ b, buildOptimizer o g = .ok b → b.2 = (stepFor o g).2 := by
    intro b hb
    cases o with
    | none => cases hb; rfl
    | name s =>
      simp only [buildOptimizer] at hb
      repeat' split at hb
      all_goals cases hb
      all_goals rfl
    | object i => cases hb; rfl
    | other => cases hb
  rw [show u = (stepFor o g).2 from key _ h]
  cases g <;> cases o <;> rfl

/-- C106, where it holds: passing a counter that starts at zero changes nothing but the counter for an optimiser object
and for the default. -/
theorem C106_counter_partial (o : OptArg) (h : (∃ i, o = .object i) ∨ o = .none) :
    ∃ a b u u', buildOptimizer o .none = .ok (a, u) ∧ buildOptimizer o (.variable 0) = .ok (b, u') ∧ u' = .given ∧
      Spec.SameUpdates a b := by
  rcases h with ⟨i, rfl⟩ | rfl
  · exact ⟨_, _, _, _, rfl, rfl, rfl, rfl⟩
  · exact ⟨_, _, _, _, rfl, rfl, rfl, rfl, fun _ => rfl⟩

/-- C106 fails for every named optimiser: with a counter, whatever its initial value, the learning rates are others.
For the default optimiser it fails when the counter does not start at zero. -/
theorem C106_fails :
    (∀ s c, (s, c) ∈ Spec.optNames → ∀ start, ∃ a b u u', buildOptimizer (.name s) .none = .ok (a, u) ∧
      buildOptimizer (.name s) (.variable start) = .ok (b, u') ∧ ¬Spec.SameUpdates a b) ∧
    ∃ a b u u', buildOptimizer .none .none = .ok (a, u) ∧ buildOptimizer .none (.variable 100) = .ok (b, u') ∧
      ¬Spec.SameUpdates a b := by
  have key : ∀ start, ¬∀ t, LearningRate.fixed.at t = (LearningRate.decay start).at t := by
    intro start h
    have h1 := h 0
    have h2 := h 100
    simp only [LearningRate.at, exponentialDecay, add_zero] at h1 h2
    rw [show (start + 100) / 100 = start / 100 + 1 by omega, pow_succ] at h2
    norm_num at h1 h2
    linarith
  refine ⟨fun s c h start => ?_, ?_⟩
  · simp only [Spec.optNames, List.mem_cons, Prod.mk.injEq, List.not_mem_nil, or_false] at h
    rcases h with ⟨rfl, rfl⟩ | ⟨rfl, rfl⟩ | ⟨rfl, rfl⟩ | ⟨rfl, rfl⟩ | ⟨rfl, rfl⟩ | ⟨rfl, rfl⟩ | ⟨rfl, rfl⟩ <;>
      exact ⟨_, _, _, _, rfl, rfl, fun h => key start h.2⟩
  · refine ⟨_, _, _, _, rfl, rfl, fun h => ?_⟩
    have : (LearningRate.decay 0).at 0 = (LearningRate.decay 100).at 0 := h.2 0
    simp only [LearningRate.at, exponentialDecay] at this
    norm_num at this

/-- C105 and C106 on concrete inputs. -/
example : (LearningRate.decay 0).at 250 = 0.1 * 0.9 ^ 2 ∧
    buildOptimizer (.name "rmsprop") (.variable 0) = .ok (.built .rmsprop (.decay 0), .given) := by
  exact ⟨by norm_num [LearningRate.at, exponentialDecay], rfl⟩

end Edward
