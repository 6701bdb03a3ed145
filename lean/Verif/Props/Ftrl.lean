/-
C126: MAP with `optimizer="ftrl"` and `optimizer="adadelta"`. Without a `global_step` Ftrl is Adagrad from its second update on, but
its first update forgets where it started; with a `global_step` it sends every parameter to zero. Adadelta can converge to
the mode of many observations only by hitting it exactly.
-/
import Verif.Props.NamedOptimizers
import Verif.Model.Ftrl

namespace Edward
open MeasureTheory Filter Topology ProbabilityTheory

/-! ### Ftrl -/
section ftrl
variable {ι : Type} [Fintype ι] (lr : ℕ → ℝ) (G : EuclideanSpace ℝ ι → EuclideanSpace ℝ ι) (x : EuclideanSpace ℝ ι)

theorem ftrl_acc (n : ℕ) (i : ι) : (ftrlRun lr G x (n + 1)).acc i = (ftrlRun lr G x n).acc i + G (ftrlRun lr G x n).x i ^ 2 := rfl

theorem ftrl_acc_ge (n : ℕ) (i : ι) : 0.1 ≤ (ftrlRun lr G x n).acc i := by
  induction n with
  | zero => exact le_refl (0.1 : ℝ)
  | succ n ih => rw [ftrl_acc]; nlinarith [sq_nonneg (G (ftrlRun lr G x n).x i)]

theorem ftrl_sqrt_pos (n : ℕ) (i : ι) : 0 < √((ftrlRun lr G x n).acc i) :=
  Real.sqrt_pos.mpr (lt_of_lt_of_le (by norm_num) (ftrl_acc_ge lr G x n i))

theorem ftrl_linear (hlr : ∀ n, 0 < lr n) (n : ℕ) (i : ι) :
    (ftrlRun lr G x (n + 1)).linear i = -(√((ftrlRun lr G x (n + 1)).acc i) / lr n * (ftrlRun lr G x (n + 1)).x i) := by
  have h : (ftrlRun lr G x (n + 1)).x i =
    -(ftrlRun lr G x (n + 1)).linear i / (√((ftrlRun lr G x (n + 1)).acc i) / lr n) := rfl
  rw [h]
  have h1 := ftrl_sqrt_pos lr G x (n + 1) i
  have h2 := hlr n
  field_simp

/-- The first update of Ftrl. -/
theorem ftrl_first (hlr : ∀ n, 0 < lr n) (i : ι) :
    (ftrlRun lr G x 1).x i = (1 - √0.1 / √(0.1 + G x i ^ 2)) * x i - lr 0 * G x i / √(0.1 + G x i ^ 2) := by
  have h : (ftrlRun lr G x 1).x i =
    -(0 + G x i - (√(0.1 + G x i ^ 2) - √0.1) / lr 0 * x i) / (√(0.1 + G x i ^ 2) / lr 0) := rfl
  have h1 : 0 < √(0.1 + G x i ^ 2) := Real.sqrt_pos.mpr (by positivity)
  have h2 := hlr 0
  rw [h]
  field_simp
  ring

/-- The later updates of Ftrl: where the learning rate falls, the parameter shrinks. -/
theorem ftrl_step (hlr : ∀ n, 0 < lr n) (n : ℕ) (i : ι) :
    (ftrlRun lr G x (n + 2)).x i = (1 - √((ftrlRun lr G x (n + 1)).acc i) / √((ftrlRun lr G x (n + 2)).acc i) * (1 - lr (n + 1) / lr n)) *
      (ftrlRun lr G x (n + 1)).x i - lr (n + 1) * G (ftrlRun lr G x (n + 1)).x i / √((ftrlRun lr G x (n + 2)).acc i) := by
  have h : (ftrlRun lr G x (n + 2)).x i = -((ftrlRun lr G x (n + 1)).linear i + G (ftrlRun lr G x (n + 1)).x i -
    (√((ftrlRun lr G x (n + 2)).acc i) - √((ftrlRun lr G x (n + 1)).acc i)) / lr (n + 1) * (ftrlRun lr G x (n + 1)).x i) /
      (√((ftrlRun lr G x (n + 2)).acc i) / lr (n + 1)) := rfl
  rw [h, ftrl_linear lr G x hlr n i]
  have h1 := ftrl_sqrt_pos lr G x (n + 1) i
  have h2 := ftrl_sqrt_pos lr G x (n + 2) i
  have h3 := hlr n
  have h4 := hlr (n + 1)
  field_simp
  ring

/-- With a fixed learning rate Ftrl is Adagrad from its second update on. -/
theorem ftrl_adagrad {η : ℝ} (hη : 0 < η) (n : ℕ) :
    (⟨(ftrlRun (fun _ => η) G x (n + 2)).x, (ftrlRun (fun _ => η) G x (n + 2)).acc⟩ : AdagradState ι) =
      adagradStep η (G (ftrlRun (fun _ => η) G x (n + 1)).x) ⟨(ftrlRun (fun _ => η) G x (n + 1)).x, (ftrlRun (fun _ => η) G x (n + 1)).acc⟩ := by
  have h : (ftrlRun (fun _ => η) G x (n + 2)).x = (adagradStep η (G (ftrlRun (fun _ => η) G x (n + 1)).x)
      ⟨(ftrlRun (fun _ => η) G x (n + 1)).x, (ftrlRun (fun _ => η) G x (n + 1)).acc⟩).x := by
    ext i
    rw [ftrl_step (fun _ => η) G x (fun _ => hη) n i, div_self hη.ne', sub_self, mul_zero, sub_zero, one_mul]
    rfl
  rw [h]
  rfl

end ftrl

section map
variable {Z X I Θ : Type} [Fintype I] {ι : Type} [Fintype ι] {v : ViProblem Z X I Θ} {T : EuclideanSpace ℝ ι → Θ} {K c : ℝ}

/-- C126 for `optimizer="ftrl"`: whatever the Lipschitz constant of the gradient of the log density, the log density converges
along the updates and its gradient tends to zero. -/
theorem C126_ftrl (hd : ∀ l, DifferentiableAt ℝ (fun l => Spec.logJoint v (T l)) l)
    (hK : ∀ l l', ‖gradient (fun l => Spec.logJoint v (T l)) l - gradient (fun l => Spec.logJoint v (T l)) l'‖ ≤ K * ‖l - l'‖)
    (hc : ∀ l, Spec.logJoint v (T l) ≤ c) (x : EuclideanSpace ℝ ι) :
    buildOptimizer (.name "ftrl") .none = .ok (.built .ftrl .fixed, .none) ∧
    (∃ k, Tendsto (fun n => Spec.logJoint v (T (ftrlRun LearningRate.fixed.at (mapGradient v T) x n).x)) atTop (𝓝 k)) ∧
    Tendsto (fun n => gradient (fun l => Spec.logJoint v (T l)) (ftrlRun LearningRate.fixed.at (mapGradient v T) x n).x) atTop (𝓝 0) := by
  obtain ⟨⟨k, h1⟩, h2⟩ := adagrad_seq_converges (η := 0.01) (map_hasGradient hd) (map_lipschitz hK) (by norm_num) (c := -c)
    (fun l => neg_le_neg (hc l)) (s := fun n => ⟨(ftrlRun (fun _ => 0.01) (mapGradient v T) x (n + 1)).x,
      (ftrlRun (fun _ => 0.01) (mapGradient v T) x (n + 1)).acc⟩) (fun n => ftrl_adagrad (mapGradient v T) x (by norm_num) n)
    (fun i => lt_of_lt_of_le (by norm_num) (ftrl_acc_ge _ (mapGradient v T) x 1 i))
  refine ⟨rfl, ⟨-k, ?_⟩, ?_⟩
  · have := h1.neg
    simp only [neg_neg] at this
    exact (tendsto_add_atTop_iff_nat 1).mp this
  · have := h2.neg
    simp only [mapGradient_eq v T (ftrlRun _ _ _ _).x, neg_neg, neg_zero] at this
    exact (tendsto_add_atTop_iff_nat 1).mp this

/-- C126 for `optimizer="ftrl"`: if moreover the log density is strongly concave, the parameters converge to the mode, from every
starting point. -/
theorem C126_ftrl_mode (hd : ∀ l, DifferentiableAt ℝ (fun l => Spec.logJoint v (T l)) l)
    (hK : ∀ l l', ‖gradient (fun l => Spec.logJoint v (T l)) l - gradient (fun l => Spec.logJoint v (T l)) l'‖ ≤ K * ‖l - l'‖)
    {m : ℝ} (hm : 0 < m)
    (hsc : ∀ l l', Spec.logJoint v (T l') ≤
      Spec.logJoint v (T l) + inner ℝ (gradient (fun l => Spec.logJoint v (T l)) l) (l' - l) - m / 2 * ‖l' - l‖ ^ 2)
    {mode : EuclideanSpace ℝ ι} (hmode : ∀ l, Spec.logJoint v (T l) ≤ Spec.logJoint v (T mode)) (x : EuclideanSpace ℝ ι) :
    Tendsto (fun n => (ftrlRun LearningRate.fixed.at (mapGradient v T) x n).x) atTop (𝓝 mode) := by
  obtain ⟨-, -, h⟩ := C126_ftrl hd hK hmode x
  refine minimum_of_gradient (F := fun l => -Spec.logJoint v (T l)) (G := fun l => -gradient (fun l => Spec.logJoint v (T l)) l) hm
    (fun l l' => ?_) (fun l => neg_le_neg (hmode l)) (by simpa using h.neg)
  rw [inner_neg_left]
  linarith [hsc l l']

end map

section
variable {n : ℕ} (data : Fin n → ℝ)

/-- C126 for the mean of `n` observations: `optimizer="ftrl"` converges to the mode from every starting point, however many
observations there are. -/
theorem C126_ftrl_mean (x : EuclideanSpace ℝ (Fin 1)) :
    Tendsto (fun t => (ftrlRun LearningRate.fixed.at (mapGradient (meanVi data) fun l => l 0) x t).x 0) atTop (𝓝 ((∑ i, data i) / (n + 1))) := by
  have hn0 : (0 : ℝ) < (n : ℝ) + 1 := by positivity
  have hg := one_gradient (mean_joint_deriv data)
  simp only [id] at hg
  have h : Tendsto (fun t => (ftrlRun LearningRate.fixed.at (mapGradient (meanVi data) fun l => l 0) x t).x) atTop
      (𝓝 (EuclideanSpace.single 0 ((∑ i, data i) / (n + 1)))) := by
    refine C126_ftrl_mode (v := meanVi data) (T := fun l => l 0) (K := n + 1) (m := n + 1) (fun l => (hg l).differentiableAt) (fun l l' => ?_)
      hn0 (fun l l' => ?_) (fun l => ?_) x
    · rw [(hg l).gradient, (hg l').gradient, one_sub, one_norm, one_norm]
      have : ∑ i, data i - (n + 1) * l 0 - (∑ i, data i - (n + 1) * l' 0) = (n + 1) * -(l 0 - l' 0) := by ring
      simp only [PiLp.single_apply, if_true, this, abs_mul, abs_neg, abs_of_pos hn0, PiLp.sub_apply, le_refl]
    · rw [(hg l).gradient, EuclideanSpace.inner_single_left, one_norm, sq_abs, mean_joint data (l 0) (l' 0)]
      simp
    · simp only [PiLp.single_apply, if_true]
      rw [mean_joint data ((∑ i, data i) / (n + 1)) (l 0)]
      have : ∑ i, data i - (n + 1) * ((∑ i, data i) / (n + 1)) = 0 := by field_simp; ring
      rw [this, zero_mul]
      have h2 : 0 ≤ ((n : ℝ) + 1) / 2 * (l 0 - (∑ i, data i) / (n + 1)) ^ 2 := by positivity
      linarith
  have h2 := ((EuclideanSpace.proj (0 : Fin 1) : EuclideanSpace ℝ (Fin 1) →L[ℝ] ℝ).continuous.tendsto _).comp h
  simpa [Function.comp_def] using h2

end

/-- A thousand observations are no problem for Ftrl. -/
example (data : Fin 1000 → ℝ) (x : EuclideanSpace ℝ (Fin 1)) :
    Tendsto (fun t => (ftrlRun LearningRate.fixed.at (mapGradient (meanVi data) fun l => l 0) x t).x 0) atTop (𝓝 ((∑ i, data i) / (1000 + 1))) := by
  have h := C126_ftrl_mean data x
  push_cast at h
  exact h

/-- C126 for `optimizer="ftrl"`, the first update: a coordinate in which the gradient vanishes is set to zero. -/
theorem ftrl_forgets {ι : Type} [Fintype ι] (lr : ℕ → ℝ) (G : EuclideanSpace ℝ ι → EuclideanSpace ℝ ι) (x : EuclideanSpace ℝ ι) (i : ι)
    (h : G x i = 0) : (ftrlRun lr G x 1).x i = 0 := by
  have e : (ftrlRun lr G x 1).x i = -(0 + G x i - (√(0.1 + G x i ^ 2) - √0.1) / lr 0 * x i) / (√(0.1 + G x i ^ 2) / lr 0) := rfl
  rw [e, h]
  simp

theorem prior_joint (m l : ℝ) : Spec.logJoint (fitVi m 1 0) l = Real.log (√(2 * Real.pi))⁻¹ - (l - m) ^ 2 / 2 := by
  simp [Spec.logJoint, fitVi, log_normal m (one_ne_zero : (1 : NNReal) ≠ 0)]

/-- C126 fails for one update of `optimizer="ftrl"`: started at the mode of a normal prior, MAP sets the parameter to zero and the
log density falls by `m² / 2`. -/
theorem C126_ftrl_start_fails (m : ℝ) :
    (ftrlRun LearningRate.fixed.at (mapGradient (fitVi m 1 0) fun l : EuclideanSpace ℝ (Fin 1) => l 0) (EuclideanSpace.single (0 : Fin 1) m) 1).x 0 = 0 ∧
    Spec.logJoint (fitVi m 1 0) ((ftrlRun LearningRate.fixed.at (mapGradient (fitVi m 1 0) fun l : EuclideanSpace ℝ (Fin 1) => l 0)
      (EuclideanSpace.single (0 : Fin 1) m) 1).x 0) = Spec.logJoint (fitVi m 1 0) m - m ^ 2 / 2 := by
  have h : (ftrlRun LearningRate.fixed.at (mapGradient (fitVi m 1 0) fun l : EuclideanSpace ℝ (Fin 1) => l 0)
      (EuclideanSpace.single (0 : Fin 1) m) 1).x 0 = 0 := by
    refine ftrl_forgets _ _ _ 0 ?_
    rw [prior_gradient m one_ne_zero]
    simp
  refine ⟨h, ?_⟩
  rw [h, prior_joint, prior_joint]
  ring

/-! ### Ftrl with a `global_step` -/

theorem decay_le_one (s t : ℕ) : (LearningRate.decay s).at t ≤ 0.1 := by
  rw [LearningRate.at, exponentialDecay]
  have : (0.9 : ℝ) ^ ((s + t) / 100) ≤ 1 := pow_le_one₀ (by norm_num) (by norm_num)
  linarith

theorem decay_ratio (s t : ℕ) : (LearningRate.decay s).at (t + 1) / (LearningRate.decay s).at t =
    if (s + (t + 1)) / 100 = (s + t) / 100 then 1 else 0.9 := by
  rw [LearningRate.at, LearningRate.at, exponentialDecay, exponentialDecay]
  split
  · next h => rw [h]; exact div_self (by positivity)
  · next h =>
    have : (s + (t + 1)) / 100 = (s + t) / 100 + 1 := by omega
    rw [this, pow_succ, mul_div_mul_left _ _ (by norm_num : (0.1 : ℝ) ≠ 0), mul_comm, mul_div_assoc, div_self (by positivity), mul_one]

section
variable {ι : Type} [Fintype ι] (start : ℕ) (G : EuclideanSpace ℝ ι → EuclideanSpace ℝ ι) (x : EuclideanSpace ℝ ι)

theorem ftrl_move (lr : ℕ → ℝ) (hlr : ∀ n, 0 < lr n) (t : ℕ) (i : ι) :
    |lr t * G (ftrlRun lr G x t).x i / √((ftrlRun lr G x (t + 1)).acc i)| ≤ lr t := by
  have h3 := ftrl_sqrt_pos lr G x (t + 1) i
  have h4 := ftrl_acc_ge lr G x t i
  rw [abs_div, abs_mul, abs_of_pos (hlr t), abs_of_pos h3, div_le_iff₀ h3]
  refine mul_le_mul_of_nonneg_left ?_ (hlr t).le
  rw [← Real.sqrt_sq_eq_abs, ftrl_acc]
  exact Real.sqrt_le_sqrt (by linarith)

theorem ftrl_ratio_le (lr : ℕ → ℝ) (t : ℕ) (i : ι) : √((ftrlRun lr G x t).acc i) / √((ftrlRun lr G x (t + 1)).acc i) ≤ 1 := by
  rw [div_le_one (ftrl_sqrt_pos lr G x (t + 1) i), ftrl_acc]
  exact Real.sqrt_le_sqrt (by nlinarith [sq_nonneg (G (ftrlRun lr G x t).x i)])

theorem ftrl_decay_step (t : ℕ) (i : ι) : |(ftrlRun (LearningRate.decay start).at G x (t + 2)).x i| ≤
    (1 - √((ftrlRun (LearningRate.decay start).at G x (t + 1)).acc i) / √((ftrlRun (LearningRate.decay start).at G x (t + 2)).acc i) *
      (if (start + (t + 1)) / 100 = (start + t) / 100 then 0 else 0.1)) * |(ftrlRun (LearningRate.decay start).at G x (t + 1)).x i| +
      (LearningRate.decay start).at (t + 1) := by
  set lr := (LearningRate.decay start).at with hlr
  have hpos : ∀ t, 0 < lr t := decay_pos start
  have h1 := ftrl_step lr G x hpos t i
  have h2 := ftrl_move G x lr hpos (t + 1) i
  have h3 := ftrl_ratio_le G x lr (t + 1) i
  have h4 : 0 ≤ √((ftrlRun lr G x (t + 1)).acc i) / √((ftrlRun lr G x (t + 2)).acc i) := by positivity
  have h5 : 1 - lr (t + 1) / lr t = if (start + (t + 1)) / 100 = (start + t) / 100 then 0 else 0.1 := by
    rw [hlr, decay_ratio]
    split <;> norm_num
  rw [h5] at h1
  rw [h1]
  refine (abs_sub _ _).trans (add_le_add (le_of_eq ?_) h2)
  rw [abs_mul, abs_of_nonneg]
  split
  · simp
  · rw [sub_nonneg]
    exact (mul_le_of_le_one_left (by norm_num) h3).trans (by norm_num)

theorem ftrl_decay_bounded (t : ℕ) (i : ι) : |(ftrlRun (LearningRate.decay start).at G x t).x i| ≤ |x i| + 100 := by
  have hpos : ∀ t, 0 < (LearningRate.decay start).at t := decay_pos start
  have hsum : ∀ t, |(ftrlRun (LearningRate.decay start).at G x t).x i| ≤ |x i| + ∑ k ∈ Finset.range t, (LearningRate.decay start).at k := by
    intro t
    induction t with
    | zero => simp [ftrlRun]
    | succ t ih =>
      rw [Finset.sum_range_succ]
      cases t with
      | zero =>
        have h1 := ftrl_first (LearningRate.decay start).at G x hpos i
        have h2 := ftrl_move G x (LearningRate.decay start).at hpos 0 i
        have h3 := ftrl_ratio_le G x (LearningRate.decay start).at 0 i
        have e : √((ftrlRun (LearningRate.decay start).at G x 0).acc i) / √((ftrlRun (LearningRate.decay start).at G x (0 + 1)).acc i) =
          √0.1 / √(0.1 + G x i ^ 2) := rfl
        have e2 : (LearningRate.decay start).at 0 * G (ftrlRun (LearningRate.decay start).at G x 0).x i /
          √((ftrlRun (LearningRate.decay start).at G x (0 + 1)).acc i) = (LearningRate.decay start).at 0 * G x i / √(0.1 + G x i ^ 2) := rfl
        rw [e] at h3
        rw [e2] at h2
        have h4 : 0 ≤ √0.1 / √(0.1 + G x i ^ 2) := by positivity
        rw [zero_add, h1, Finset.sum_range_zero, zero_add]
        refine (abs_sub _ _).trans (add_le_add ?_ h2)
        rw [abs_mul, abs_of_nonneg (by linarith)]
        exact mul_le_of_le_one_left (abs_nonneg _) (by linarith)
      | succ t =>
        have h1 := ftrl_decay_step start G x t i
        refine h1.trans ?_
        have h2 : 0 ≤ √((ftrlRun (LearningRate.decay start).at G x (t + 1)).acc i) / √((ftrlRun (LearningRate.decay start).at G x (t + 2)).acc i) *
          (if (start + (t + 1)) / 100 = (start + t) / 100 then 0 else 0.1) := by
          refine mul_nonneg (by positivity) ?_
          split <;> norm_num
        have h3 := mul_le_of_le_one_left (abs_nonneg ((ftrlRun (LearningRate.decay start).at G x (t + 1)).x i)) (sub_le_self 1 h2)
        linarith
  refine (hsum t).trans (add_le_add_right ?_ _)
  rw [sum_decay]
  have h5 := rateLeft_le start
  have h6 := rateLeft_pos (start + t)
  have h7 : (0.9 : ℝ) ^ (start / 100) ≤ 1 := pow_le_one₀ (by norm_num) (by norm_num)
  linarith

/-- C126 fails for `optimizer="ftrl"` with a `global_step`: whatever the model, every parameter tends to zero. -/
theorem C126_ftrl_decay_fails (hG : ∀ R, ∃ C, ∀ l, ‖l‖ ≤ R → ‖G l‖ ≤ C) :
    buildOptimizer (.name "ftrl") (.variable start) = .ok (.built .ftrl (.decay start), .given) ∧
    ∀ i, Tendsto (fun t => (ftrlRun (LearningRate.decay start).at G x t).x i) atTop (𝓝 0) := by
  refine ⟨rfl, fun i => ?_⟩
  -- the gradients are bounded
  obtain ⟨C, hC⟩ := hG (√(∑ i, (|x i| + 100) ^ 2))
  have hg : ∀ t, |G (ftrlRun (LearningRate.decay start).at G x t).x i| ≤ C := fun t => by
    refine (PiLp.norm_apply_le (G (ftrlRun (LearningRate.decay start).at G x t).x) i).trans (hC _ ?_)
    rw [EuclideanSpace.norm_eq]
    refine Real.sqrt_le_sqrt (Finset.sum_le_sum fun j _ => ?_)
    rw [Real.norm_eq_abs]
    exact pow_le_pow_left₀ (abs_nonneg _) (ftrl_decay_bounded start G x t j) 2
  have hC0 : 0 ≤ C := (abs_nonneg _).trans (hg 0)
  -- so that a parameter shrinks by a fixed factor where the rate falls
  set κ := √0.1 / √(0.1 + C ^ 2) with hκ
  have hκ0 : 0 < κ := by positivity
  have hκ1 : κ ≤ 1 := by
    rw [hκ, div_le_one (by positivity)]
    exact Real.sqrt_le_sqrt (by nlinarith)
  have hratio : ∀ t, κ ≤ √((ftrlRun (LearningRate.decay start).at G x t).acc i) / √((ftrlRun (LearningRate.decay start).at G x (t + 1)).acc i) := by
    intro t
    have h1 := ftrl_acc_ge (LearningRate.decay start).at G x t i
    have h2 : G (ftrlRun (LearningRate.decay start).at G x t).x i ^ 2 ≤ C ^ 2 := by
      rw [← sq_abs]
      exact pow_le_pow_left₀ (abs_nonneg _) (hg t) 2
    rw [hκ, ← Real.sqrt_div (by norm_num), ← Real.sqrt_div (by linarith), ftrl_acc]
    refine Real.sqrt_le_sqrt ?_
    rw [div_le_div_iff₀ (by positivity) (by positivity)]
    nlinarith [sq_nonneg C]
  set q := 1 - 0.1 * κ with hq
  have hq9 : 0.9 ≤ q := by rw [hq]; linarith
  have hq0 : 0 < q := by linarith
  have hq1 : q < 1 := by rw [hq]; linarith
  set w : ℕ → ℝ := fun t => |(ftrlRun (LearningRate.decay start).at G x (t + 1)).x i| with hw
  have hw0 : ∀ t, 0 ≤ w t := fun t => abs_nonneg _
  set A := w 0 / q ^ (start / 100) with hA
  have hA0 : 0 ≤ A := div_nonneg (hw0 0) (by positivity)
  have hrate : ∀ t, (LearningRate.decay start).at t ≤ 0.1 * q ^ ((start + t) / 100) := fun t => by
    rw [LearningRate.at, exponentialDecay]
    exact mul_le_mul_of_nonneg_left (pow_le_pow_left₀ (by norm_num) hq9 _) (by norm_num)
  have hbound : ∀ t : ℕ, w t ≤ q ^ ((start + t) / 100) * (A + 0.1 * t) := by
    intro t
    induction t with
    | zero =>
      rw [hA]
      simp only [add_zero, CharP.cast_eq_zero, mul_zero]
      rw [mul_div_cancel₀ _ (by positivity)]
    | succ t ih =>
      have h1 : w (t + 1) ≤ _ := ftrl_decay_step start G x t i
      have h2 := hratio (t + 1)
      have h3 := hrate (t + 1)
      have h4 := hw0 t
      push_cast
      split at h1
      · next hs =>
        rw [hs] at h3 ⊢
        rw [mul_zero, sub_zero, one_mul] at h1
        have h5 : w (t + 1) ≤ w t + (LearningRate.decay start).at (t + 1) := h1
        linarith
      · next hs =>
        have e : (start + (t + 1)) / 100 = (start + t) / 100 + 1 := by omega
        rw [e, pow_succ] at h3 ⊢
        have h5 : w (t + 1) ≤ q * w t + (LearningRate.decay start).at (t + 1) := by
          refine h1.trans (add_le_add_left (mul_le_mul_of_nonneg_right ?_ h4) _)
          rw [hq]
          linarith
        have h6 := mul_le_mul_of_nonneg_left ih hq0.le
        linarith
  -- a geometric sequence beats a linear one
  have hlim : Tendsto (fun k : ℕ => q ^ k * (A + 10 * (k + 1))) atTop (𝓝 0) := by
    have h1 := tendsto_pow_atTop_nhds_zero_of_lt_one hq0.le hq1
    have h2 := tendsto_self_mul_const_pow_of_lt_one hq0.le hq1
    have h3 := (h1.const_mul (A + 10)).add (h2.const_mul 10)
    rw [mul_zero, mul_zero, add_zero] at h3
    refine h3.congr fun k => ?_
    ring
  have hdiv : Tendsto (fun t : ℕ => (start + t) / 100) atTop atTop :=
    (Nat.tendsto_div_const_atTop (by norm_num)).comp (tendsto_atTop_mono (fun t => Nat.le_add_left t start) tendsto_id)
  have hw1 : Tendsto w atTop (𝓝 0) := by
    refine squeeze_zero hw0 (fun t => ?_) (hlim.comp hdiv)
    refine (hbound t).trans (mul_le_mul_of_nonneg_left ?_ (by positivity))
    have : (t : ℝ) ≤ 100 * (((start + t) / 100 : ℕ) + 1) := by
      have : t ≤ 100 * ((start + t) / 100 + 1) := by omega
      exact_mod_cast this
    linarith
  exact (tendsto_add_atTop_iff_nat 1).mp ((tendsto_zero_iff_abs_tendsto_zero _).mpr hw1)

end

/-- A normal prior with mean 1000 and variance 1 is fitted by zero. -/
example (start : ℕ) (x : EuclideanSpace ℝ (Fin 1)) :
    Tendsto (fun t => (ftrlRun (LearningRate.decay start).at (mapGradient (fitVi 1000 1 0) fun l : EuclideanSpace ℝ (Fin 1) => l 0) x t).x 0)
      atTop (𝓝 0) := by
  refine (C126_ftrl_decay_fails start _ x fun R => ⟨R + 1000, fun l hl => ?_⟩).2 0
  rw [prior_gradient 1000 one_ne_zero, one_norm]
  rw [one_norm] at hl
  simp only [NNReal.coe_one, div_one, PiLp.single_apply, if_true]
  rw [abs_le] at hl ⊢
  constructor <;> linarith [hl.1, hl.2]

/-! ### Adadelta -/
section
variable {n : ℕ} (data : Fin n → ℝ)

/-- C126 for `optimizer="adadelta"` and the mean of 200 or more observations: if the parameter converges to the mode, then because some
update hits it exactly. -/
theorem C126_adadelta_partial (hn : 200 ≤ n) (x : EuclideanSpace ℝ (Fin 1))
    (h : Tendsto (fun t => (adadeltaRun LearningRate.fixed.at (mapGradient (meanVi data) fun l => l 0) x t).x 0) atTop (𝓝 ((∑ i, data i) / (n + 1)))) :
    ∃ t, (adadeltaRun LearningRate.fixed.at (mapGradient (meanVi data) fun l => l 0) x t).x 0 = (∑ i, data i) / (n + 1) := by
  have hn1 : (201 : ℝ) ≤ (n : ℝ) + 1 := by
    have : (200 : ℝ) ≤ n := by exact_mod_cast hn
    linarith
  have hn0 : (0 : ℝ) < (n : ℝ) + 1 := by linarith
  set mode := (∑ i, data i) / ((n : ℝ) + 1) with hmode
  have hsum : ∑ i, data i = (n + 1) * mode := by rw [hmode]; field_simp
  have hgrad : ∀ l : EuclideanSpace ℝ (Fin 1), mapGradient (meanVi data) (fun l => l 0) l 0 = (n + 1) * (l 0 - mode) := fun l => by
    have hg := one_gradient (mean_joint_deriv data) l
    simp only [id] at hg
    rw [mapGradient_eq, hg.gradient, hsum]
    simp
    ring
  set s := adadeltaRun LearningRate.fixed.at (mapGradient (meanVi data) fun l => l 0) x with hs
  set e : ℕ → ℝ := fun t => (s t).x 0 - mode with he
  have hacc : ∀ t, (s (t + 1)).acc 0 = 0.95 * (s t).acc 0 + 0.05 * ((n + 1) * e t) ^ 2 := fun t => by
    have : (s (t + 1)).acc 0 = 0.95 * (s t).acc 0 + (1 - 0.95) * mapGradient (meanVi data) (fun l => l 0) (s t).x 0 ^ 2 := rfl
    rw [this, hgrad]
    ring
  have hx : ∀ t, e (t + 1) = e t * (1 - 0.01 * (n + 1) * (√((s t).delta 0 + 1e-8) / √((s (t + 1)).acc 0 + 1e-8))) := fun t => by
    have : (s (t + 1)).x 0 = (s t).x 0 - 0.01 * (√((s t).delta 0 + 1e-8) / √((s (t + 1)).acc 0 + 1e-8) *
      mapGradient (meanVi data) (fun l => l 0) (s t).x 0) := rfl
    simp only [he]
    rw [this, hgrad]
    ring
  have h0 : Tendsto e atTop (𝓝 0) := by simpa [he] using h.sub_const mode
  have hacc0 : ∀ t, 0 ≤ (s t).acc 0 := fun t => by
    induction t with
    | zero => exact le_refl (0 : ℝ)
    | succ t ih => rw [hacc t]; positivity
  have hdelta0 : ∀ t, 0 ≤ (s t).delta 0 := fun t => by
    induction t with
    | zero => exact le_refl (0 : ℝ)
    | succ t ih =>
      have : (s (t + 1)).delta 0 = 0.95 * (s t).delta 0 + (1 - 0.95) * (√((s t).delta 0 + 1e-8) / √((s (t + 1)).acc 0 + 1e-8) *
        mapGradient (meanVi data) (fun l => l 0) (s t).x 0) ^ 2 := rfl
      rw [this]
      have h1 : (0 : ℝ) ≤ 1 - 0.95 := by norm_num
      exact add_nonneg (mul_nonneg (by norm_num) ih) (mul_nonneg h1 (sq_nonneg _))
  -- the slot `accum` becomes small
  have hu : Tendsto (fun t => ((n + 1) * e t) ^ 2) atTop (𝓝 0) := by
    have := (h0.const_mul ((n : ℝ) + 1)).pow 2
    simpa using this
  obtain ⟨N, hN⟩ := eventually_atTop.mp (hu.eventually (gt_mem_nhds (by norm_num : (0 : ℝ) < 1e-11)))
  have hdecay : ∀ k, (s (N + k)).acc 0 ≤ 0.95 ^ k * (s N).acc 0 + 1e-11 := fun k => by
    induction k with
    | zero => simp; norm_num
    | succ k ih =>
      rw [← add_assoc, hacc, pow_succ (0.95 : ℝ) k]
      have := hN (N + k) (by omega)
      linarith
  have hpow : Tendsto (fun k : ℕ => (0.95 : ℝ) ^ k * (s N).acc 0) atTop (𝓝 0) := by
    simpa using (tendsto_pow_atTop_nhds_zero_of_lt_one (by norm_num : (0 : ℝ) ≤ 0.95) (by norm_num)).mul_const ((s N).acc 0)
  obtain ⟨M, hM⟩ := eventually_atTop.mp (hpow.eventually (gt_mem_nhds (by norm_num : (0 : ℝ) < 1e-11)))
  have hgrow : ∀ t, N + M ≤ t → |e t| ≤ |e (t + 1)| := by
    intro t ht
    have h1 : (s (t + 1)).acc 0 + 1e-8 ≤ (1.005 * 1e-4) ^ 2 := by
      have h2 := hdecay (t + 1 - N)
      have h3 := hM (t + 1 - N) (by omega)
      rw [Nat.add_sub_cancel' (by omega)] at h2
      norm_num at h2 h3 ⊢
      linarith
    have hpos : 0 < (s (t + 1)).acc 0 + 1e-8 := by have := hacc0 (t + 1); positivity
    have h2 : √((s (t + 1)).acc 0 + 1e-8) ≤ 1.005 * 1e-4 := Real.sqrt_le_iff.mpr ⟨by norm_num, h1⟩
    have h3 : 1e-4 ≤ √((s t).delta 0 + 1e-8) := by
      refine Real.le_sqrt_of_sq_le ?_
      have := hdelta0 t
      norm_num at this ⊢
      exact this
    have h4 : 2 ≤ 0.01 * ((n : ℝ) + 1) * (√((s t).delta 0 + 1e-8) / √((s (t + 1)).acc 0 + 1e-8)) := by
      rw [← mul_div_assoc, le_div_iff₀ (Real.sqrt_pos.mpr hpos)]
      nlinarith
    rw [hx t, abs_mul]
    have h5 : 1 ≤ |1 - 0.01 * ((n : ℝ) + 1) * (√((s t).delta 0 + 1e-8) / √((s (t + 1)).acc 0 + 1e-8))| := by rw [le_abs]; right; linarith
    nlinarith [abs_nonneg (e t)]
  refine ⟨N + M, ?_⟩
  have hle : ∀ k, |e (N + M)| ≤ |e (N + M + k)| := fun k => by
    induction k with
    | zero => rfl
    | succ k ih => exact ih.trans (hgrow _ (by omega))
  have hlim : Tendsto (fun k => |e (N + M + k)|) atTop (𝓝 0) := by
    have h1 := h0.abs
    rw [abs_zero] at h1
    have h2 := h1.comp (tendsto_add_atTop_nat (N + M))
    refine h2.congr fun k => ?_
    simp [Function.comp, add_comm]
  have h2 := ge_of_tendsto' hlim hle
  have h3 : e (N + M) = 0 := abs_nonpos_iff.mp h2
  simp only [he] at h3
  linarith

omit data in
/-- C126, the rule of `optimizer="adadelta"`: each gradient is divided by the decaying root mean square of the gradients so far and
multiplied by that of the moves so far. -/
theorem C126_adadelta_rule {ι : Type} [Fintype ι] (lr : ℕ → ℝ) (hlr : ∀ n, 0 < lr n) (G : EuclideanSpace ℝ ι → EuclideanSpace ℝ ι)
    (x : ℕ → EuclideanSpace ℝ ι) (hx : ∀ t, x t = (adadeltaRun lr G (x 0) t).x) (i : ι) (t : ℕ) :
    x (t + 1) i = x t i - lr t * (√(0.05 * ∑ k ∈ Finset.range t, 0.95 ^ (t - 1 - k) * ((x k i - x (k + 1) i) / lr k) ^ 2 + 1e-8) /
      √(0.05 * ∑ k ∈ Finset.range (t + 1), 0.95 ^ (t - k) * G (x k) i ^ 2 + 1e-8) * G (x t) i) := by
  set s := adadeltaRun lr G (x 0) with hs
  have hacc : ∀ t, (s t).acc i = 0.05 * ∑ k ∈ Finset.range t, 0.95 ^ (t - 1 - k) * G (x k) i ^ 2 := by
    intro t
    induction t with
    | zero => simp [hs, adadeltaRun]
    | succ t ih =>
      have e : (s (t + 1)).acc i = 0.95 * (s t).acc i + (1 - 0.95) * G (s t).x i ^ 2 := rfl
      rw [e, ih, ← hx t, Finset.sum_range_succ, Nat.add_sub_cancel, Nat.sub_self, pow_zero]
      have h : ∑ k ∈ Finset.range t, (0.95 : ℝ) ^ (t - k) * G (x k) i ^ 2 = 0.95 * ∑ k ∈ Finset.range t, 0.95 ^ (t - 1 - k) * G (x k) i ^ 2 := by
        rw [Finset.mul_sum]
        refine Finset.sum_congr rfl fun k hk => ?_
        have : t - k = t - 1 - k + 1 := by have := Finset.mem_range.mp hk; omega
        rw [this, pow_succ]
        ring
      rw [h]
      ring
  have hmove : ∀ t, (x t i - x (t + 1) i) / lr t = √((s t).delta i + 1e-8) / √((s (t + 1)).acc i + 1e-8) * G (x t) i := by
    intro t
    have e : (s (t + 1)).x i = (s t).x i - lr t * (√((s t).delta i + 1e-8) / √((s (t + 1)).acc i + 1e-8) * G (s t).x i) := rfl
    rw [hx (t + 1), e, ← hx t, sub_sub_cancel, mul_div_cancel_left₀ _ (hlr t).ne']
  have hdelta : ∀ t, (s t).delta i = 0.05 * ∑ k ∈ Finset.range t, 0.95 ^ (t - 1 - k) * ((x k i - x (k + 1) i) / lr k) ^ 2 := by
    intro t
    induction t with
    | zero => simp [hs, adadeltaRun]
    | succ t ih =>
      have e : (s (t + 1)).delta i = 0.95 * (s t).delta i + (1 - 0.95) * (√((s t).delta i + 1e-8) / √((s (t + 1)).acc i + 1e-8) * G (s t).x i) ^ 2 := rfl
      rw [e, ← hx t, ← hmove t, ih, Finset.sum_range_succ, Nat.add_sub_cancel, Nat.sub_self, pow_zero]
      have h : ∑ k ∈ Finset.range t, (0.95 : ℝ) ^ (t - k) * ((x k i - x (k + 1) i) / lr k) ^ 2 =
          0.95 * ∑ k ∈ Finset.range t, 0.95 ^ (t - 1 - k) * ((x k i - x (k + 1) i) / lr k) ^ 2 := by
        rw [Finset.mul_sum]
        refine Finset.sum_congr rfl fun k hk => ?_
        have : t - k = t - 1 - k + 1 := by have := Finset.mem_range.mp hk; omega
        rw [this, pow_succ]
        ring
      rw [h]
      ring
  have h := hmove t
  rw [hdelta t, hacc (t + 1), Nat.add_sub_cancel] at h
  rw [← h, mul_div_cancel₀ _ (hlr t).ne']
  ring

omit data in
/-- The first move is at most `lr * sqrt(20 * 1e-8)`: at gradient one it is about `lr * 4.5e-4`. -/
example : (adadeltaRun LearningRate.fixed.at (fun _ => EuclideanSpace.single (0 : Fin 1) (1 : ℝ)) 0 1).x 0 = -(0.01 * (√1e-8 / √(0.05 + 1e-8))) := by
  have h := C126_adadelta_rule LearningRate.fixed.at (fun n => by show (0 : ℝ) < 0.01; norm_num) (fun _ => EuclideanSpace.single (0 : Fin 1) (1 : ℝ))
    (fun t => (adadeltaRun LearningRate.fixed.at (fun _ => EuclideanSpace.single (0 : Fin 1) (1 : ℝ)) 0 t).x) (fun t => rfl) 0 0
  rw [Nat.zero_add] at h
  rw [h]
  simp [adadeltaRun, LearningRate.at]

omit data in
/-- C126 for `optimizer="adadelta"`: started at the mode it stays there. -/
theorem C126_adadelta_fixed {ι : Type} [Fintype ι] (lr : ℕ → ℝ) (G : EuclideanSpace ℝ ι → EuclideanSpace ℝ ι) (x : EuclideanSpace ℝ ι)
    (h : G x = 0) (t : ℕ) : (adadeltaRun lr G x t).x = x := by
  induction t with
  | zero => rfl
  | succ t ih =>
    ext i
    have e : (adadeltaRun lr G x (t + 1)).x i = (adadeltaRun lr G x t).x i - lr t * (√((adadeltaRun lr G x t).delta i + 1e-8) /
      √((adadeltaRun lr G x (t + 1)).acc i + 1e-8) * G (adadeltaRun lr G x t).x i) := rfl
    rw [e, ih, h]
    simp

end

/-- The hypothesis of `C126_adadelta_partial` holds for 1000 observations from the mode itself. -/
example (data : Fin 1000 → ℝ) : ∃ x : EuclideanSpace ℝ (Fin 1),
    Tendsto (fun t => (adadeltaRun LearningRate.fixed.at (mapGradient (meanVi data) fun l => l 0) x t).x 0) atTop (𝓝 ((∑ i, data i) / (1000 + 1))) := by
  refine ⟨EuclideanSpace.single 0 ((∑ i, data i) / (1000 + 1)), ?_⟩
  have h0 : mapGradient (meanVi data) (fun l => l 0) (EuclideanSpace.single 0 ((∑ i, data i) / (1000 + 1)) : EuclideanSpace ℝ (Fin 1)) = 0 := by
    have hg := one_gradient (mean_joint_deriv data) (EuclideanSpace.single 0 ((∑ i, data i) / (1000 + 1)))
    simp only [id] at hg
    rw [mapGradient_eq, hg.gradient]
    ext i
    simp
    intro _
    ring
  simp_rw [C126_adadelta_fixed _ _ _ h0]
  simp

end Edward
