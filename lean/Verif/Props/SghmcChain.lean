/-
Property C118: `SGHMC` on models with a normal posterior: its stationary law, exactly, for
both of the op orders of C42; the error vanishes with the step size; with one of the orders
the samples diverge when the posterior is narrow.
-/
import Verif.Props.LangevinChain

namespace Edward

open MeasureTheory ProbabilityTheory Filter Topology Matrix

/-! ### Chains in the plane -/

/-- Squares of a functional along the iterates of a plane map. -/
noncomputable def orbitSum (M : ℝ × ℝ → ℝ × ℝ) (c : ℝ × ℝ → ℝ) (n : ℕ) (w : ℝ × ℝ) : ℝ := ∑ k ∈ Finset.range n, c (M^[k] w) ^ 2

/-- A quadratic form decreasing along a plane map. -/
structure Lyapunov (M : ℝ × ℝ → ℝ × ℝ) (c : ℝ × ℝ → ℝ) (A B C κ : ℝ) : Prop where
  step : ∀ w : ℝ × ℝ, A * w.1 ^ 2 + 2 * B * (w.1 * w.2) + C * w.2 ^ 2 =
    (A * (M w).1 ^ 2 + 2 * B * ((M w).1 * (M w).2) + C * (M w).2 ^ 2) + c w ^ 2
  trace : 0 < A + C
  det : 0 < A * C - B ^ 2
  kappa : 0 < κ
  coercive : ∀ w : ℝ × ℝ, w.1 ^ 2 + w.2 ^ 2 ≤ κ * (c w ^ 2 + c (M w) ^ 2)

section
variable {M : ℝ × ℝ → ℝ × ℝ} {c : ℝ × ℝ → ℝ} {A B C κ : ℝ}

theorem form_lower (w : ℝ × ℝ) : (A * C - B ^ 2) * (w.1 ^ 2 + w.2 ^ 2) ≤ (A + C) * (A * w.1 ^ 2 + 2 * B * (w.1 * w.2) + C * w.2 ^ 2) := by
  nlinarith [sq_nonneg (A * w.1 + B * w.2), sq_nonneg (B * w.1 + C * w.2)]

variable (h : Lyapunov M c A B C κ)
include h

theorem Lyapunov.nonneg (w : ℝ × ℝ) : 0 ≤ A * w.1 ^ 2 + 2 * B * (w.1 * w.2) + C * w.2 ^ 2 := by
  have h1 := form_lower (A := A) (B := B) (C := C) w
  have h2 : 0 ≤ (A * C - B ^ 2) * (w.1 ^ 2 + w.2 ^ 2) := mul_nonneg h.det.le (by positivity)
  by_contra hn
  push Not at hn
  nlinarith [mul_neg_of_pos_of_neg h.trace hn]

/-- The form vanishes along the iterates, and the sum of squares is what it loses. -/
theorem Lyapunov.tendsto (w : ℝ × ℝ) :
    Tendsto (fun n => M^[n] w) atTop (𝓝 (0, 0)) ∧
    Tendsto (fun n => orbitSum M c n w) atTop (𝓝 (A * w.1 ^ 2 + 2 * B * (w.1 * w.2) + C * w.2 ^ 2)) := by
  set F : ℝ × ℝ → ℝ := fun w => A * w.1 ^ 2 + 2 * B * (w.1 * w.2) + C * w.2 ^ 2 with hF
  have hstep : ∀ w, F w = F (M w) + c w ^ 2 := h.step
  have hF0 : ∀ w, 0 ≤ F w := h.nonneg
  set K := |A| + 2 * |B| + |C| + 1 with hK
  have hKpos : 0 < K := by positivity
  have hup : ∀ w, F w ≤ K * (w.1 ^ 2 + w.2 ^ 2) := by
    intro w
    have h1 : A * w.1 ^ 2 ≤ |A| * w.1 ^ 2 := mul_le_mul_of_nonneg_right (le_abs_self A) (sq_nonneg _)
    have h2 : C * w.2 ^ 2 ≤ |C| * w.2 ^ 2 := mul_le_mul_of_nonneg_right (le_abs_self C) (sq_nonneg _)
    have h3 : 2 * B * (w.1 * w.2) ≤ |B| * (w.1 ^ 2 + w.2 ^ 2) := by
      have h4 : B * (w.1 * w.2) ≤ |B| * |w.1 * w.2| := by rw [← abs_mul]; exact le_abs_self _
      have h5 : 2 * |w.1 * w.2| ≤ w.1 ^ 2 + w.2 ^ 2 := by
        rw [abs_mul]
        nlinarith [sq_nonneg (|w.1| - |w.2|), sq_abs w.1, sq_abs w.2]
      nlinarith [abs_nonneg B]
    simp only [hF, hK]
    nlinarith [mul_nonneg (abs_nonneg A) (sq_nonneg w.2), mul_nonneg (abs_nonneg C) (sq_nonneg w.1), mul_nonneg (abs_nonneg B) (sq_nonneg w.1),
      mul_nonneg (abs_nonneg B) (sq_nonneg w.2), sq_nonneg w.1, sq_nonneg w.2]
  have hiter : ∀ n w, M^[n + 1] w = M (M^[n] w) := fun n w => Function.iterate_succ_apply' M n w
  have hcontr : ∀ n, F (M^[n + 2] w) ≤ (1 - 1 / (K * κ)) * F (M^[n] w) := by
    intro n
    set x := M^[n] w with hx
    have e1 : M^[n + 2] w = M (M x) := by rw [hiter, hiter]
    have h1 := hstep x
    have h2 := hstep (M x)
    have h3 := h.coercive x
    have h4 := hup x
    have hKκ : 0 < K * κ := mul_pos hKpos h.kappa
    have h5 : F x ≤ K * κ * (c x ^ 2 + c (M x) ^ 2) := by
      calc F x ≤ K * (x.1 ^ 2 + x.2 ^ 2) := h4
        _ ≤ K * (κ * (c x ^ 2 + c (M x) ^ 2)) := mul_le_mul_of_nonneg_left h3 hKpos.le
        _ = _ := by ring
    have h6 : 1 / (K * κ) * F x ≤ c x ^ 2 + c (M x) ^ 2 := by
      rw [one_div, inv_mul_le_iff₀ hKκ]; exact h5
    rw [e1]
    linarith
  have hmono : ∀ n, F (M^[n + 1] w) ≤ F (M^[n] w) := by
    intro n
    rw [hiter]
    have := hstep (M^[n] w)
    nlinarith [sq_nonneg (c (M^[n] w))]
  have hlim : Tendsto (fun n => F (M^[n] w)) atTop (𝓝 0) := by
    have hanti : Antitone (fun n => F (M^[n] w)) := antitone_nat_of_succ_le hmono
    obtain ⟨L, hL⟩ : ∃ L, Tendsto (fun n => F (M^[n] w)) atTop (𝓝 L) := ⟨_, tendsto_atTop_ciInf hanti ⟨0, by rintro _ ⟨n, rfl⟩; exact hF0 _⟩⟩
    have h2 : Tendsto (fun n => F (M^[n + 2] w)) atTop (𝓝 L) := hL.comp (tendsto_add_atTop_nat 2)
    have h3 := le_of_tendsto_of_tendsto' h2 (hL.const_mul (1 - 1 / (K * κ))) hcontr
    have h4 : 0 ≤ L := ge_of_tendsto' hL fun n => hF0 _
    have h5 : 0 < 1 / (K * κ) := one_div_pos.mpr (mul_pos hKpos h.kappa)
    have h6 : L = 0 := le_antisymm (by nlinarith) h4
    rwa [h6] at hL
  constructor
  · have hsq : Tendsto (fun n => (M^[n] w).1 ^ 2 + (M^[n] w).2 ^ 2) atTop (𝓝 0) := by
      have h1 : Tendsto (fun n => (A + C) / (A * C - B ^ 2) * F (M^[n] w)) atTop (𝓝 ((A + C) / (A * C - B ^ 2) * 0)) := hlim.const_mul _
      rw [mul_zero] at h1
      refine squeeze_zero (fun n => by positivity) (fun n => ?_) h1
      have h2 := form_lower (A := A) (B := B) (C := C) (M^[n] w)
      rw [div_mul_eq_mul_div, le_div_iff₀ h.det, mul_comm]
      exact h2
    have h1 : Tendsto (fun n => (M^[n] w).1) atTop (𝓝 0) := by
      have : Tendsto (fun n => Real.sqrt ((M^[n] w).1 ^ 2 + (M^[n] w).2 ^ 2)) atTop (𝓝 (Real.sqrt 0)) := (Real.continuous_sqrt.tendsto _).comp hsq
      rw [Real.sqrt_zero] at this
      refine squeeze_zero_norm (fun n => ?_) this
      exact Real.abs_le_sqrt (by nlinarith [sq_nonneg (M^[n] w).2])
    have h2 : Tendsto (fun n => (M^[n] w).2) atTop (𝓝 0) := by
      have : Tendsto (fun n => Real.sqrt ((M^[n] w).1 ^ 2 + (M^[n] w).2 ^ 2)) atTop (𝓝 (Real.sqrt 0)) := (Real.continuous_sqrt.tendsto _).comp hsq
      rw [Real.sqrt_zero] at this
      refine squeeze_zero_norm (fun n => ?_) this
      exact Real.abs_le_sqrt (by nlinarith [sq_nonneg (M^[n] w).1])
    exact h1.prodMk_nhds h2
  · have e : ∀ n, orbitSum M c n w = F w - F (M^[n] w) := by
      intro n
      induction n with
      | zero => simp [orbitSum]
      | succ n ih =>
        have : orbitSum M c (n + 1) w = orbitSum M c n w + c (M^[n] w) ^ 2 := Finset.sum_range_succ _ _
        rw [this, ih, hiter]
        have := hstep (M^[n] w)
        linarith
    simp only [e]
    have := hlim.const_sub (F w)
    simpa using this

end

/-! ### The two orders -/

/-- The order in which samples use the old velocity, along an eigenvector; `α` is half the
friction, `h` the learning rate times the eigenvalue. -/
def oldMap (α h : ℝ) (w : ℝ × ℝ) : ℝ × ℝ := (w.1 - h * w.2, w.1 + (1 - α) * w.2)

/-- The order in which samples use the new velocity. -/
def newMap (α h : ℝ) (w : ℝ × ℝ) : ℝ × ℝ := (w.1 - h * (w.1 + w.2), (1 - α) * (w.1 + w.2))

/-- Stationary variance of a sample over the one of the posterior, first order. -/
noncomputable def oldFactor (α h : ℝ) : ℝ := 2 * α * (2 - α + h) / ((α - h) * (4 - 2 * α + h))

/-- And second order. -/
noncomputable def newFactor (α h : ℝ) : ℝ := 2 * (2 - α) / (4 - 2 * α - h)

theorem old_lyapunov {α h : ℝ} (hα : 0 < α) (hα2 : α < 2) (hh : 0 < h) (hlt : h < α) :
    ∃ B C κ, Lyapunov (oldMap α h) (fun w => w.2) (oldFactor α h / (2 * α * h)) B C κ := by
  have h1 : 0 < 2 - α + h := by linarith
  have h2 : 0 < α - h := by linarith
  have h3 : 0 < 4 - 2 * α + h := by linarith
  set A := oldFactor α h / (2 * α * h) with hA
  have hAe : A = (2 - α + h) / (h * ((α - h) * (4 - 2 * α + h))) := by
    rw [hA, oldFactor]; field_simp
  have hA0 : 0 < A := by rw [hAe]; positivity
  set B := -(h * A / (2 - α + h)) with hB
  have hB0 : B < 0 := by rw [hB]; have : 0 < h * A / (2 - α + h) := by positivity
                         linarith
  have hBe : B = -(1 / ((α - h) * (4 - 2 * α + h))) := by rw [hB, hAe]; field_simp
  refine ⟨B, -2 * B, 3 + 2 * (1 - α) ^ 2, ⟨fun w => ?_, ?_, ?_, by positivity, fun w => ?_⟩⟩
  · simp only [oldMap]
    rw [hBe, hAe]
    field_simp
    ring
  · linarith
  · have : B * (2 - α + h) = -(h * A) := by rw [hB]; field_simp
    have h4 : 0 < 2 * A + B := by
      have h5 : h * A / (2 - α + h) < 2 * A := by
        rw [div_lt_iff₀ h1]; nlinarith
      rw [hB]; linarith
    nlinarith [mul_neg_of_neg_of_pos hB0 h4]
  · simp only [oldMap]
    nlinarith [sq_nonneg (w.1 + 2 * (1 - α) * w.2), sq_nonneg (w.1 + (1 - α) * w.2), sq_nonneg ((1 - α) * w.2),
      mul_nonneg (sq_nonneg (1 - α)) (sq_nonneg (w.1 + (1 - α) * w.2)), sq_nonneg w.2]

theorem new_lyapunov {α h : ℝ} (hα : 0 < α) (hα2 : α < 2) (hh : 0 < h) (hlt : h < 4 - 2 * α) :
    ∃ B C κ, Lyapunov (newMap α h) (fun w => w.1 + w.2) (newFactor α h / (2 * α * h)) B C κ := by
  have h1 : 0 < 2 - α := by linarith
  have h2 : 0 < 4 - 2 * α - h := by linarith
  set A := newFactor α h / (2 * α * h) with hA
  have hAe : A = (2 - α) / (α * h * (4 - 2 * α - h)) := by
    rw [hA, newFactor]; field_simp
  have hA0 : 0 < A := by rw [hAe]; positivity
  set C := 2 / (α * (4 - 2 * α - h)) with hC
  have hC0 : 0 < C := by rw [hC]; positivity
  refine ⟨C / 2, C, 3 + 4 * (1 - α - h) ^ 2 + 4 * (1 - (1 - α - h)) ^ 2 + 4, ⟨fun w => ?_, by linarith, ?_, by positivity, fun w => ?_⟩⟩
  · simp only [newMap]
    rw [hAe, hC]
    field_simp
    ring
  · rw [hAe, hC]
    have : (2 - α) / (α * h * (4 - 2 * α - h)) * (2 / (α * (4 - 2 * α - h))) - (2 / (α * (4 - 2 * α - h)) / 2) ^ 2 =
        1 / (α ^ 2 * h * (4 - 2 * α - h)) := by field_simp; ring
    rw [this]; positivity
  · simp only [newMap]
    set s := w.1 + w.2 with hs
    set b := 1 - α - h with hb
    have e1 : w.1 - h * s + (1 - α) * s = w.1 + b * s := by rw [hb]; ring
    rw [e1]
    have e2 : w.2 = s - w.1 := by rw [hs]; ring
    set r := w.1 + b * s with hr
    have e3 : w.1 = r - b * s := by rw [hr]; ring
    rw [e2, e3]
    nlinarith [sq_nonneg (r + b * s), sq_nonneg ((1 - b) * s + r), sq_nonneg (b * s), mul_nonneg (sq_nonneg b) (sq_nonneg s), mul_nonneg (sq_nonneg b) (sq_nonneg r),
      mul_nonneg (sq_nonneg (1 - b)) (sq_nonneg r), mul_nonneg (sq_nonneg (1 - b)) (sq_nonneg s), sq_nonneg r, sq_nonneg s, sq_nonneg (r - (s + b * s)), sq_nonneg (r + (s + b * s))]

/-- With `h ≥ α` the first order amplifies the noise without bound. -/
theorem old_diverges {α h : ℝ} (hα2 : α < 2) (hlt : α ≤ h) :
    Tendsto (fun n => orbitSum (oldMap α h) (fun w => w.2) n (1, 0)) atTop atTop := by
  set δ := 1 - α + h with hδ
  have hδ1 : 1 ≤ δ := by rw [hδ]; linarith
  set τ := 2 - α with hτ
  set q : ℕ → ℝ := fun k => ((oldMap α h)^[k] (1, 0)).2 with hq
  have hit : ∀ n, (oldMap α h)^[n + 1] (1, 0) = oldMap α h ((oldMap α h)^[n] (1, 0)) := fun n => Function.iterate_succ_apply' _ n _
  have hrec : ∀ k, q (k + 2) = τ * q (k + 1) - δ * q k := by
    intro k
    simp only [hq]
    rw [hit (k + 1), hit k]
    simp only [oldMap, hτ, hδ]
    ring
  have hE : ∀ k, q (k + 1) ^ 2 - τ * (q (k + 1) * q k) + δ * q k ^ 2 = δ ^ k := by
    intro k
    induction k with
    | zero => simp [hq, oldMap]
    | succ k ih => rw [hrec k, pow_succ δ k, ← ih]; ring
  have hlow : ∀ k, 1 / (1 + |τ| + δ) ≤ q (k + 1) ^ 2 + q k ^ 2 := by
    intro k
    have h1 : (1 : ℝ) ≤ δ ^ k := one_le_pow₀ hδ1
    rw [← hE k] at h1
    have hp : 0 < 1 + |τ| + δ := by positivity
    rw [div_le_iff₀ hp]
    have h2 : -(τ * (q (k + 1) * q k)) ≤ |τ| * (q (k + 1) ^ 2 + q k ^ 2) := by
      have h3 : -(τ * (q (k + 1) * q k)) ≤ |τ| * |q (k + 1) * q k| := by rw [← abs_mul]; exact neg_le_abs _
      have h4 : |q (k + 1) * q k| ≤ q (k + 1) ^ 2 + q k ^ 2 := by
        rw [abs_mul]
        nlinarith [sq_nonneg (|q (k + 1)| - |q k|), sq_abs (q (k + 1)), sq_abs (q k), sq_nonneg (q (k + 1)), sq_nonneg (q k)]
      exact h3.trans (mul_le_mul_of_nonneg_left h4 (abs_nonneg _))
    nlinarith [sq_nonneg (q (k + 1)), sq_nonneg (q k), mul_nonneg (zero_le_one.trans hδ1) (sq_nonneg (q (k + 1)))]
  have hdef : ∀ n, orbitSum (oldMap α h) (fun w => w.2) n (1, 0) = ∑ k ∈ Finset.range n, q k ^ 2 := fun n => rfl
  have hsum : ∀ n : ℕ, n * (1 / (1 + |τ| + δ)) ≤ 2 * ∑ k ∈ Finset.range (n + 1), q k ^ 2 := by
    intro n
    have h1 : n * (1 / (1 + |τ| + δ)) ≤ ∑ k ∈ Finset.range n, (q (k + 1) ^ 2 + q k ^ 2) := by
      have := Finset.card_nsmul_le_sum (Finset.range n) (fun k => q (k + 1) ^ 2 + q k ^ 2) _ (fun k _ => hlow k)
      simpa using this
    rw [Finset.sum_add_distrib] at h1
    have h2 := Finset.sum_range_succ' (fun k => q k ^ 2) n
    have h3 := Finset.sum_range_succ (fun k => q k ^ 2) n
    nlinarith [sq_nonneg (q 0), sq_nonneg (q n)]
  have hp : 0 < 1 / (1 + |τ| + δ) / 2 := by positivity
  have hT : Tendsto (fun n : ℕ => (n : ℝ) * (1 / (1 + |τ| + δ) / 2)) atTop atTop := tendsto_natCast_atTop_atTop.atTop_mul_const hp
  have h5 : Tendsto (fun n => orbitSum (oldMap α h) (fun w => w.2) (n + 1) (1, 0)) atTop atTop := by
    refine tendsto_atTop_mono (fun n => ?_) hT
    rw [hdef]
    have := hsum n
    linarith
  exact (tendsto_add_atTop_iff_nat 1).mp h5

/-! ### The sampler -/

section
variable {ι : Type} [Fintype ι] [DecidableEq ι]

/-- A functional of sample and velocity along `u`. -/
def phaseL (u : ι → ℝ) (w : ℝ × ℝ) : ((ι → ℝ) × (ι → ℝ)) →ₗ[ℝ] ℝ :=
  w.1 • (dotL u ∘ₗ LinearMap.fst ℝ _ _) + w.2 • (dotL u ∘ₗ LinearMap.snd ℝ _ _)

omit [DecidableEq ι] in
theorem phaseL_apply (u : ι → ℝ) (w : ℝ × ℝ) (s : (ι → ℝ) × (ι → ℝ)) : phaseL u w s = w.1 * (u ⬝ᵥ s.1) + w.2 * (u ⬝ᵥ s.2) := by
  simp [phaseL, dotL_apply]

/-- New velocity, without noise. -/
noncomputable def velL (α η : ℝ) (H : Matrix ι ι ℝ) : ((ι → ℝ) × (ι → ℝ)) →ₗ[ℝ] (ι → ℝ) :=
  (1 - α) • LinearMap.snd ℝ _ _ - η • (Matrix.mulVecLin H ∘ₗ LinearMap.fst ℝ _ _)

noncomputable def oldStep (α η : ℝ) (H : Matrix ι ι ℝ) : ((ι → ℝ) × (ι → ℝ)) →ₗ[ℝ] ((ι → ℝ) × (ι → ℝ)) :=
  (LinearMap.fst ℝ _ _ + LinearMap.snd ℝ _ _).prod (velL α η H)

noncomputable def newStep (α η : ℝ) (H : Matrix ι ι ℝ) : ((ι → ℝ) × (ι → ℝ)) →ₗ[ℝ] ((ι → ℝ) × (ι → ℝ)) :=
  (LinearMap.fst ℝ _ _ + velL α η H).prod (velL α η H)

noncomputable def oldNoise (σ : ℝ) (j : ι) : (ι → ℝ) × (ι → ℝ) := (0, σ • Pi.single j 1)
noncomputable def newNoise (σ : ℝ) (j : ι) : (ι → ℝ) × (ι → ℝ) := (σ • Pi.single j 1, σ • Pi.single j 1)

theorem noise_sum (σ : ℝ) (ξ : ι → ℝ) : ∑ j, ξ j • (σ • (Pi.single j 1 : ι → ℝ)) = σ • ξ := by
  funext i
  simp [Finset.sum_apply, Pi.single_apply, mul_comm]

variable {H : Matrix ι ι ℝ} {u : ι → ℝ} {a : ℝ}

omit [DecidableEq ι] in
theorem eigen_dot (hH : Hᵀ = H) (hu : H *ᵥ u = a • u) (x : ι → ℝ) : u ⬝ᵥ (H *ᵥ x) = a * (u ⬝ᵥ x) := by
  rw [dotProduct_mulVec, ← mulVec_transpose, hH, hu, smul_dotProduct, smul_eq_mul]

omit [DecidableEq ι] in
theorem phaseL_old (hH : Hᵀ = H) (hu : H *ᵥ u = a • u) (α η : ℝ) (w : ℝ × ℝ) :
    phaseL u w ∘ₗ oldStep α η H = phaseL u (oldMap α (η * a) w) := by
  refine LinearMap.ext fun s => ?_
  rw [LinearMap.comp_apply, phaseL_apply, phaseL_apply]
  simp only [oldStep, velL, LinearMap.prod_apply, Function.prod, LinearMap.add_apply, LinearMap.sub_apply, LinearMap.smul_apply, LinearMap.fst_apply, LinearMap.snd_apply,
    LinearMap.comp_apply, mulVecLin_apply, dotProduct_add, dotProduct_sub, dotProduct_smul, eigen_dot hH hu, smul_eq_mul, oldMap]
  ring

omit [DecidableEq ι] in
theorem phaseL_new (hH : Hᵀ = H) (hu : H *ᵥ u = a • u) (α η : ℝ) (w : ℝ × ℝ) :
    phaseL u w ∘ₗ newStep α η H = phaseL u (newMap α (η * a) w) := by
  refine LinearMap.ext fun s => ?_
  rw [LinearMap.comp_apply, phaseL_apply, phaseL_apply]
  simp only [newStep, velL, LinearMap.prod_apply, Function.prod, LinearMap.add_apply, LinearMap.sub_apply, LinearMap.smul_apply, LinearMap.fst_apply, LinearMap.snd_apply,
    LinearMap.comp_apply, mulVecLin_apply, dotProduct_add, dotProduct_sub, dotProduct_smul, eigen_dot hH hu, smul_eq_mul, newMap]
  ring

/-- Means and variances of a chain whose functionals along `u` follow a plane map. -/
theorem phase_moments {T : ((ι → ℝ) × (ι → ℝ)) →ₗ[ℝ] ((ι → ℝ) × (ι → ℝ))} {b : ι → (ι → ℝ) × (ι → ℝ)} {M : ℝ × ℝ → ℝ × ℝ} {c : ℝ × ℝ → ℝ} {v : ℝ}
    (hT : ∀ w, phaseL u w ∘ₗ T = phaseL u (M w)) (hb : ∀ w, ∑ j, phaseL u w (b j) ^ 2 = v * c w ^ 2) (s0 : (ι → ℝ) × (ι → ℝ)) (n : ℕ) (w : ℝ × ℝ) :
    linVar (fun _ => T) (fun _ => b) n (phaseL u w) = v * orbitSum M c n w ∧
      phaseL u w (linMean (fun _ => T) s0 n) = phaseL u (M^[n] w) s0 := by
  induction n generalizing w with
  | zero => simp [linVar, orbitSum, linMean]
  | succ n ih =>
    constructor
    · rw [linVar, hT, (ih (M w)).1, hb]
      unfold orbitSum
      rw [Finset.sum_range_succ', mul_add]
      simp [Function.iterate_succ_apply]
    · rw [linMean]
      have : phaseL u w (T (linMean (fun _ => T) s0 n)) = (phaseL u w ∘ₗ T) (linMean (fun _ => T) s0 n) := rfl
      rw [this, hT, (ih (M w)).2, Function.iterate_succ_apply]

variable {G : (ι → ℝ) → ι → ℝ} {c : ℝ} {m : ι → ℝ} {l : ℕ → List (HOp ι)} {step friction : ℝ}

/-- The chain of `SGHMC` when all samples use the old velocities. -/
theorem sghmc_old_eq (hH : Hᵀ = H) (hG : IsGradient (quadLog c m H) G) (hl : ∀ t, HSchedule (l t)) (hall : ∀ t o, o ∈ l t)
    (hf : ∀ t i, ¬ AssignedFirst (l t) i) (x0 v0 : ι → ℝ) (ξ : ℕ → ι → ℝ) (n : ℕ) :
    chain (sghmcKernel l step friction G) x0 v0 ξ n = ((m, 0) : (ι → ℝ) × (ι → ℝ)) + linChain (fun _ => oldStep (friction / 2) (step * 0.01) H)
      (fun _ => oldNoise (Real.sqrt (step * 0.01 * friction))) (x0 - m, v0) ξ n := by
  induction n with
  | zero => simp [chain, linChain]
  | succ n ih =>
    have e : ∑ j, ξ n j • oldNoise (Real.sqrt (step * 0.01 * friction)) j = (0, Real.sqrt (step * 0.01 * friction) • ξ n) := by
      rw [← noise_sum]
      ext <;> simp [oldNoise, Prod.fst_sum, Prod.snd_sum]
    rw [linChain, e]
    simp only [chain, sghmcKernel, ih]
    set s := linChain (fun _ => oldStep (friction / 2) (step * 0.01) H) (fun _ => oldNoise (Real.sqrt (step * 0.01 * friction))) (x0 - m, v0) ξ n with hs
    have ho := fun i => C42_outcomes ⟨step, friction, G, (((m, 0) : (ι → ℝ) × (ι → ℝ)) + s).1, ξ n⟩ (((m, 0) : (ι → ℝ) × (ι → ℝ)) + s).2 (l n) (hl n) (hall n) i
    refine Prod.ext (funext fun i => ?_) (funext fun i => ?_)
    · simp only
      rw [(ho i).2.1 (hf n i)]
      simp [sghmcSample, oldStep]
      ring
    · simp only
      rw [(ho i).1]
      simp only [sghmcVelocity]
      rw [IsGradient.eq hH hG]
      simp [oldStep, velL, mulVecLin_apply]
      ring

/-- The chain of `SGHMC` when all samples use the new velocities. -/
theorem sghmc_new_eq (hH : Hᵀ = H) (hG : IsGradient (quadLog c m H) G) (hl : ∀ t, HSchedule (l t)) (hall : ∀ t o, o ∈ l t)
    (hf : ∀ t i, AssignedFirst (l t) i) (x0 v0 : ι → ℝ) (ξ : ℕ → ι → ℝ) (n : ℕ) :
    chain (sghmcKernel l step friction G) x0 v0 ξ n = ((m, 0) : (ι → ℝ) × (ι → ℝ)) + linChain (fun _ => newStep (friction / 2) (step * 0.01) H)
      (fun _ => newNoise (Real.sqrt (step * 0.01 * friction))) (x0 - m, v0) ξ n := by
  induction n with
  | zero => simp [chain, linChain]
  | succ n ih =>
    have e : ∑ j, ξ n j • newNoise (Real.sqrt (step * 0.01 * friction)) j =
        (Real.sqrt (step * 0.01 * friction) • ξ n, Real.sqrt (step * 0.01 * friction) • ξ n) := by
      rw [← noise_sum]
      ext <;> simp [newNoise, Prod.fst_sum, Prod.snd_sum]
    rw [linChain, e]
    simp only [chain, sghmcKernel, ih]
    set s := linChain (fun _ => newStep (friction / 2) (step * 0.01) H) (fun _ => newNoise (Real.sqrt (step * 0.01 * friction))) (x0 - m, v0) ξ n with hs
    have ho := fun i => C42_outcomes ⟨step, friction, G, (((m, 0) : (ι → ℝ) × (ι → ℝ)) + s).1, ξ n⟩ (((m, 0) : (ι → ℝ) × (ι → ℝ)) + s).2 (l n) (hl n) (hall n) i
    refine Prod.ext (funext fun i => ?_) (funext fun i => ?_)
    · simp only
      rw [(ho i).2.2 (hf n i)]
      simp only [sghmcVelocity]
      rw [IsGradient.eq hH hG]
      simp [newStep, velL, mulVecLin_apply]
      ring
    · simp only
      rw [(ho i).1]
      simp only [sghmcVelocity]
      rw [IsGradient.eq hH hG]
      simp [newStep, velL, mulVecLin_apply]
      ring

theorem oldNoise_sq (σ : ℝ) (w : ℝ × ℝ) : ∑ j, phaseL u w (oldNoise σ j) ^ 2 = σ ^ 2 * (u ⬝ᵥ u) * w.2 ^ 2 := by
  have : ∀ j, phaseL u w (oldNoise σ j) ^ 2 = σ ^ 2 * w.2 ^ 2 * (u j * u j) := fun j => by
    rw [phaseL_apply]; simp [oldNoise]; ring
  simp only [this, dotProduct]
  rw [← Finset.mul_sum]; ring

theorem newNoise_sq (σ : ℝ) (w : ℝ × ℝ) : ∑ j, phaseL u w (newNoise σ j) ^ 2 = σ ^ 2 * (u ⬝ᵥ u) * (w.1 + w.2) ^ 2 := by
  have : ∀ j, phaseL u w (newNoise σ j) ^ 2 = σ ^ 2 * (w.1 + w.2) ^ 2 * (u j * u j) := fun j => by
    rw [phaseL_apply]; simp [newNoise]; ring
  simp only [this, dotProduct]
  rw [← Finset.mul_sum]; ring

end

section
variable {ι : Type} [Fintype ι] [DecidableEq ι] {Ω : Type} [MeasurableSpace Ω] {Pr : Measure Ω} [IsProbabilityMeasure Pr] {d : ℕ → Ω → (ι → ℝ)}
  {H : Matrix ι ι ℝ} {u : ι → ℝ} {a c step friction : ℝ} {m : ι → ℝ} {G : (ι → ℝ) → ι → ℝ} {l : ℕ → List (HOp ι)}

theorem phase_law (hd : NormalDraws Pr d) {T : ((ι → ℝ) × (ι → ℝ)) →ₗ[ℝ] ((ι → ℝ) × (ι → ℝ))} {b : ι → (ι → ℝ) × (ι → ℝ)} {M : ℝ × ℝ → ℝ × ℝ} {co : ℝ × ℝ → ℝ}
    {v : ℝ} (hT : ∀ w, phaseL u w ∘ₗ T = phaseL u (M w)) (hb : ∀ w, ∑ j, phaseL u w (b j) ^ 2 = v * co w ^ 2) (s0 : (ι → ℝ) × (ι → ℝ)) (n : ℕ) :
    Pr.map (fun ω => u ⬝ᵥ (((m, 0) : (ι → ℝ) × (ι → ℝ)) + linChain (fun _ => T) (fun _ => b) s0 (fun i => d i ω) n).1) =
      gaussianReal (u ⬝ᵥ m + phaseL u (M^[n] (1, 0)) s0) (Real.toNNReal (v * orbitSum M co n (1, 0))) := by
  have h2 := linChain_law (fun _ => T) (fun _ => b) s0 hd.meas hd.law hd.indep n (phaseL u (1, 0))
  have hm := phase_moments hT hb s0 n (1, 0)
  rw [hm.1, hm.2] at h2
  have h3 := gaussianReal_map_const_add (μ := phaseL u (M^[n] (1, 0)) s0) (v := Real.toNNReal (v * orbitSum M co n (1, 0))) (u ⬝ᵥ m)
  rw [← h2, Measure.map_map (by fun_prop) ((linChain_past _ _ _ n _).mono (past_le hd.meas n) le_rfl)] at h3
  rw [add_comm (u ⬝ᵥ m), ← h3]
  congr 1
  funext ω
  simp [phaseL_apply, dotProduct_add]

/-! #### All directions at once -/

/-- A functional of sample and velocity, by its coordinates along the columns of `U`. -/
def phaseG (U : Matrix ι ι ℝ) (W : ι → ℝ × ℝ) : ((ι → ℝ) × (ι → ℝ)) →ₗ[ℝ] ℝ := ∑ k, phaseL (Uᵀ k) (W k)

omit [DecidableEq ι] in
theorem phaseG_apply (U : Matrix ι ι ℝ) (W : ι → ℝ × ℝ) (s : (ι → ℝ) × (ι → ℝ)) : phaseG U W s = ∑ k, phaseL (Uᵀ k) (W k) s := by
  simp [phaseG]

theorem phaseG_of {U : Matrix ι ι ℝ} (hU' : U * Uᵀ = 1) (w : ι → ℝ) (s : (ι → ℝ) × (ι → ℝ)) :
    phaseG U (fun k => ((Uᵀ *ᵥ w) k, 0)) s = w ⬝ᵥ s.1 := by
  rw [phaseG_apply]
  simp only [phaseL_apply, zero_mul, add_zero]
  have : ∑ k, (Uᵀ *ᵥ w) k * (Uᵀ k ⬝ᵥ s.1) = (Uᵀ *ᵥ w) ⬝ᵥ (Uᵀ *ᵥ s.1) := rfl
  rw [this, dotProduct_mulVec, vecMul_transpose, mulVec_mulVec, hU', one_mulVec]

theorem eigen_col {U : Matrix ι ι ℝ} {lam : ι → ℝ} (hU : Uᵀ * U = 1) (he : H = U * diagonal lam * Uᵀ) (k : ι) : H *ᵥ (Uᵀ k) = lam k • Uᵀ k := by
  have h1 : ∀ z : ι → ℝ, H *ᵥ (U *ᵥ z) = U *ᵥ (fun i => lam i * z i) := by
    intro z
    rw [he, mulVec_mulVec, Matrix.mul_assoc, hU, Matrix.mul_one, ← mulVec_mulVec]
    congr 1
    funext i
    rw [mulVec_diagonal]
  have h2 : U *ᵥ (Pi.single k 1) = Uᵀ k := by
    rw [mulVec_single_one]; rfl
  rw [← h2, h1]
  have : (fun i => lam i * (Pi.single k (1 : ℝ) : ι → ℝ) i) = lam k • Pi.single k 1 := by
    funext i
    by_cases hi : i = k
    · subst hi; simp
    · simp [hi]
  rw [this, mulVec_smul]

omit [DecidableEq ι] in
theorem phaseG_moments {U : Matrix ι ι ℝ} {T : ((ι → ℝ) × (ι → ℝ)) →ₗ[ℝ] ((ι → ℝ) × (ι → ℝ))} {b : ι → (ι → ℝ) × (ι → ℝ)} {M : ι → ℝ × ℝ → ℝ × ℝ} {co : ℝ × ℝ → ℝ} {v : ℝ}
    (hT : ∀ k w, phaseL (Uᵀ k) w ∘ₗ T = phaseL (Uᵀ k) (M k w)) (hb : ∀ W, ∑ j, phaseG U W (b j) ^ 2 = v * ∑ k, co (W k) ^ 2) (s0 : (ι → ℝ) × (ι → ℝ)) (n : ℕ)
    (W : ι → ℝ × ℝ) :
    linVar (fun _ => T) (fun _ => b) n (phaseG U W) = v * ∑ k, orbitSum (M k) co n (W k) ∧
      phaseG U W (linMean (fun _ => T) s0 n) = phaseG U (fun k => (M k)^[n] (W k)) s0 := by
  have hG : ∀ W, phaseG U W ∘ₗ T = phaseG U (fun k => M k (W k)) := fun W => by
    unfold phaseG
    refine LinearMap.ext fun s => ?_
    simp only [LinearMap.comp_apply, LinearMap.sum_apply]
    exact Finset.sum_congr rfl fun k _ => LinearMap.congr_fun (hT k (W k)) s
  induction n generalizing W with
  | zero => simp [linVar, orbitSum, linMean]
  | succ n ih =>
    constructor
    · rw [linVar, hG, (ih _).1, hb, ← mul_add, ← Finset.sum_add_distrib]
      congr 1
      refine Finset.sum_congr rfl fun k _ => ?_
      unfold orbitSum
      rw [Finset.sum_range_succ']
      simp [Function.iterate_succ_apply]
    · rw [linMean]
      have : phaseG U W (T (linMean (fun _ => T) s0 n)) = (phaseG U W ∘ₗ T) (linMean (fun _ => T) s0 n) := rfl
      rw [this, hG, (ih _).2]
      simp only [Function.iterate_succ_apply]

theorem orth_sq {U : Matrix ι ι ℝ} (hU : Uᵀ * U = 1) (z : ι → ℝ) : ∑ j, (∑ k, z k * U j k) ^ 2 = ∑ k, z k ^ 2 := by
  have h : (U *ᵥ z) ⬝ᵥ (U *ᵥ z) = z ⬝ᵥ z := by
    rw [dotProduct_mulVec, vecMul_mulVec, hU, vecMul_one]
  simpa [dotProduct, sq, mulVec, mul_comm] using h

theorem oldNoise_sqG {U : Matrix ι ι ℝ} (hU : Uᵀ * U = 1) (σ : ℝ) (W : ι → ℝ × ℝ) : ∑ j, phaseG U W (oldNoise σ j) ^ 2 = σ ^ 2 * ∑ k, (W k).2 ^ 2 := by
  rw [← orth_sq hU (fun k => (W k).2), Finset.mul_sum]
  refine Finset.sum_congr rfl fun j _ => ?_
  rw [phaseG_apply, ← mul_pow, Finset.mul_sum]
  congr 1
  refine Finset.sum_congr rfl fun k _ => ?_
  rw [phaseL_apply]; simp [oldNoise]; ring

theorem newNoise_sqG {U : Matrix ι ι ℝ} (hU : Uᵀ * U = 1) (σ : ℝ) (W : ι → ℝ × ℝ) :
    ∑ j, phaseG U W (newNoise σ j) ^ 2 = σ ^ 2 * ∑ k, ((W k).1 + (W k).2) ^ 2 := by
  rw [← orth_sq hU (fun k => (W k).1 + (W k).2), Finset.mul_sum]
  refine Finset.sum_congr rfl fun j _ => ?_
  rw [phaseG_apply, ← mul_pow, Finset.mul_sum]
  congr 1
  refine Finset.sum_congr rfl fun k _ => ?_
  rw [phaseL_apply]; simp [newNoise]; ring

/-- Chains whose functionals follow contracting plane maps converge in law. -/
theorem phaseG_tendsto (hd : NormalDraws Pr d) {U : Matrix ι ι ℝ} (hU' : U * Uᵀ = 1)
    {T : ((ι → ℝ) × (ι → ℝ)) →ₗ[ℝ] ((ι → ℝ) × (ι → ℝ))} {b : ι → (ι → ℝ) × (ι → ℝ)} {M : ι → ℝ × ℝ → ℝ × ℝ} {co : ℝ × ℝ → ℝ}
    {v : ℝ} {A : ι → ℝ} (hL : ∀ k, ∃ B C κ, Lyapunov (M k) co (A k) B C κ)
    (hT : ∀ k w, phaseL (Uᵀ k) w ∘ₗ T = phaseL (Uᵀ k) (M k w)) (hb : ∀ W, ∑ j, phaseG U W (b j) ^ 2 = v * ∑ k, co (W k) ^ 2) (s0 : (ι → ℝ) × (ι → ℝ))
    (hU : Uᵀ * U = 1) (c : ℝ) (hA : ∀ k, 0 < v * A k) {f : (ι → ℝ) → ℝ} (hf : Continuous f) {K : ℝ} (hK : ∀ x, |f x| ≤ K) :
    Tendsto (fun n => ∫ ω, f (((m, 0) : (ι → ℝ) × (ι → ℝ)) + linChain (fun _ => T) (fun _ => b) s0 (fun i => d i ω) n).1 ∂Pr) atTop
      (𝓝 (∫ x, f x ∂fromLogDensity (quadLog c m (U * diagonal (fun k => 1 / (v * A k)) * Uᵀ)))) := by
  have hfun : ∀ n w, Measurable (fun ω => phaseG U w (linChain (fun _ => T) (fun _ => b) s0 (fun i => d i ω) n)) := fun n w =>
    (linChain_past _ _ _ n _).mono (past_le hd.meas n) le_rfl
  have hX : ∀ n, Measurable (fun ω => (((m, 0) : (ι → ℝ) × (ι → ℝ)) + linChain (fun _ => T) (fun _ => b) s0 (fun i => d i ω) n).1) := by
    intro n
    have h1 : Measurable (fun ω => (linChain (fun _ => T) (fun _ => b) s0 (fun i => d i ω) n).1) := by
      refine measurable_of_dotL fun w => ?_
      have := hfun n (fun k => ((Uᵀ *ᵥ w) k, 0))
      simp only [phaseG_of hU'] at this
      simpa only [dotL_apply] using this
    exact h1.const_add m
  have hY : ∀ (a σ : ι → ℝ), Measurable (fun y : ι → ℝ => a + U *ᵥ (fun i => σ i * y i)) := fun a σ =>
    (continuous_const.add (Continuous.matrix_mulVec continuous_const (by fun_prop))).measurable
  have hpos : ∀ k, 0 < 1 / (v * A k) := fun k => one_div_pos.mpr (hA k)
  have hstd := quadratic_law_std hpos hU rfl c m
  have : IsProbabilityMeasure (fromLogDensity (quadLog c m (U * diagonal (fun k => 1 / (v * A k)) * Uᵀ))) := by
    unfold quadLog
    rw [hstd]
    exact Measure.isProbabilityMeasure_map (hY _ _).aemeasurable
  have : ∀ n, IsProbabilityMeasure (Pr.map (fun ω => (((m, 0) : (ι → ℝ) × (ι → ℝ)) + linChain (fun _ => T) (fun _ => b) s0 (fun i => d i ω) n).1)) :=
    fun n => Measure.isProbabilityMeasure_map (hX n).aemeasurable
  have key := cramer_wold (μ := fun n => Pr.map (fun ω => (((m, 0) : (ι → ℝ) × (ι → ℝ)) + linChain (fun _ => T) (fun _ => b) s0 (fun i => d i ω) n).1))
    (μ₀ := fromLogDensity (quadLog c m (U * diagonal (fun k => 1 / (v * A k)) * Uᵀ))) ?_ hf hK
  · refine key.congr fun n => ?_
    rw [integral_map (hX n).aemeasurable hf.aestronglyMeasurable]
  intro w g hg hg1
  have hw : Continuous (fun x : ι → ℝ => w ⬝ᵥ x) := Continuous.dotProduct continuous_const continuous_id
  have hgw : Continuous (fun x : ι → ℝ => g (w ⬝ᵥ x)) := hg.comp hw
  have hwY : Measurable (fun y : ι → ℝ => w ⬝ᵥ (m + U *ᵥ (fun i => Real.sqrt (1 / (1 / (v * A i))) * y i))) := hw.measurable.comp (hY _ _)
  set W : ι → ℝ × ℝ := fun k => ((Uᵀ *ᵥ w) k, 0) with hW
  have hlim := fun k => (hL k).choose_spec.choose_spec.choose_spec.tendsto (W k)
  have hmean : Tendsto (fun n => w ⬝ᵥ m + phaseG U (fun k => (M k)^[n] (W k)) s0) atTop (𝓝 (w ⬝ᵥ m)) := by
    have h3 : Tendsto (fun n => ∑ k, phaseL (Uᵀ k) ((M k)^[n] (W k)) s0) atTop (𝓝 (∑ _k : ι, (0 : ℝ))) := by
      refine tendsto_finset_sum _ fun k _ => ?_
      have h1 : Tendsto (fun n => ((M k)^[n] (W k)).1) atTop (𝓝 0) := (continuous_fst.tendsto ((0 : ℝ), (0 : ℝ))).comp (hlim k).1
      have h2 : Tendsto (fun n => ((M k)^[n] (W k)).2) atTop (𝓝 0) := (continuous_snd.tendsto ((0 : ℝ), (0 : ℝ))).comp (hlim k).1
      have h4 := (h1.mul_const (Uᵀ k ⬝ᵥ s0.1)).add (h2.mul_const (Uᵀ k ⬝ᵥ s0.2))
      simp only [phaseL_apply]
      simpa using h4
    have h5 := h3.const_add (w ⬝ᵥ m)
    simp only [phaseG_apply]
    simpa using h5
  have hvar : Tendsto (fun n => v * ∑ k, orbitSum (M k) co n (W k)) atTop (𝓝 (∑ k, ((Uᵀ *ᵥ w) k * Real.sqrt (1 / (1 / (v * A k)))) ^ 2)) := by
    have h1 : Tendsto (fun n => v * ∑ k, orbitSum (M k) co n (W k)) atTop (𝓝 (v * ∑ k, A k * (Uᵀ *ᵥ w) k ^ 2)) := by
      refine (tendsto_finset_sum _ fun k _ => ?_).const_mul v
      have := (hlim k).2
      simpa [hW] using this
    convert h1 using 2
    rw [Finset.mul_sum]
    refine Finset.sum_congr rfl fun k _ => ?_
    rw [mul_pow, one_div_one_div, Real.sq_sqrt (hA k).le]
    ring
  have hlimit : ∫ x, g (w ⬝ᵥ x) ∂fromLogDensity (quadLog c m (U * diagonal (fun k => 1 / (v * A k)) * Uᵀ)) =
      ∫ x, g x ∂gaussianReal (w ⬝ᵥ m) (Real.toNNReal (∑ k, ((Uᵀ *ᵥ w) k * Real.sqrt (1 / (1 / (v * A k)))) ^ 2)) := by
    rw [← affine_functional m U (fun k => Real.sqrt (1 / (1 / (v * A k)))) w, integral_map hwY.aemeasurable hg.aestronglyMeasurable]
    unfold quadLog
    rw [hstd, integral_map (hY _ _).aemeasurable hgw.aestronglyMeasurable]
  rw [hlimit]
  refine (gaussian_tendsto hg hg1 hmean hvar).congr fun n => ?_
  rw [integral_map (hX n).aemeasurable hgw.aestronglyMeasurable]
  have h2 := linChain_law (fun _ => T) (fun _ => b) s0 hd.meas hd.law hd.indep n (phaseG U W)
  have hm := phaseG_moments hT hb s0 n W
  rw [hm.1, hm.2] at h2
  have h3 := gaussianReal_map_const_add (μ := phaseG U (fun k => (M k)^[n] (W k)) s0) (v := Real.toNNReal (v * ∑ k, orbitSum (M k) co n (W k))) (w ⬝ᵥ m)
  rw [← h2, Measure.map_map (by fun_prop) (hfun n W)] at h3
  rw [add_comm (w ⬝ᵥ m), ← h3, integral_map ((measurable_const_add _).comp (hfun n W)).aemeasurable hg.aestronglyMeasurable]
  refine integral_congr_ae (ae_of_all _ fun ω => ?_)
  simp only [Function.comp_apply, hW, phaseG_of hU', Prod.fst_add, dotProduct_add]

/-! ### C118 -/

/-- The law `SGHMC` settles to: normal, around the posterior mean, with the precision in
every principal direction divided by a factor. -/
noncomputable def settledLaw (factor : ℝ → ℝ → ℝ) (c : ℝ) (m : ι → ℝ) (U : Matrix ι ι ℝ) (lam : ι → ℝ) (step friction : ℝ) : Measure (ι → ℝ) :=
  fromLogDensity (quadLog c m (U * diagonal (fun k => lam k / factor (friction / 2) (step * 0.01 * lam k)) * Uᵀ))

theorem oldFactor_gt {α h : ℝ} (hα : 0 < α) (hα2 : α < 2) (hh : 0 < h) (hlt : h < α) : 1 < oldFactor α h := by
  have h2 : 0 < α - h := by linarith
  have h3 : 0 < 4 - 2 * α + h := by linarith
  rw [oldFactor, lt_div_iff₀ (mul_pos h2 h3)]
  nlinarith

theorem newFactor_gt {α h : ℝ} (hh : 0 < h) (hlt : h < 4 - 2 * α) : 1 < newFactor α h := by
  rw [newFactor, lt_div_iff₀ (by linarith)]
  linarith

/-- C118: where every sample takes the velocity of before the update (one of the two orders
of C42), the samples settle to a normal law, too wide by `oldFactor`. -/
theorem C118_old_velocity {U : Matrix ι ι ℝ} {lam : ι → ℝ} (hlam : ∀ k, 0 < lam k) (hU : Uᵀ * U = 1) (hH : H = U * diagonal lam * Uᵀ)
    (hG : IsGradient (quadLog c m H) G) (hl : ∀ t, HSchedule (l t)) (hall : ∀ t o, o ∈ l t) (hfirst : ∀ t i, ¬ AssignedFirst (l t) i)
    (hs : 0 < step) (hfr : friction < 4) (hstep : ∀ k, step * 0.01 * lam k < friction / 2) (hfr0 : 0 < friction)
    (x0 v0 : ι → ℝ) (hd : NormalDraws Pr d) {f : (ι → ℝ) → ℝ} (hf : Continuous f) {K : ℝ} (hK : ∀ x, |f x| ≤ K) :
    Tendsto (fun n => ∫ ω, f (chain (sghmcKernel l step friction G) x0 v0 (fun i => d i ω) n).1 ∂Pr) atTop
      (𝓝 (∫ x, f x ∂settledLaw oldFactor c m U lam step friction)) := by
  have hU' : U * Uᵀ = 1 := mul_eq_one_comm.mp hU
  have hsym : Hᵀ = H := by rw [hH, transpose_mul, transpose_mul, transpose_transpose, diagonal_transpose, Matrix.mul_assoc]
  have hη : 0 < step * 0.01 := by positivity
  have hh : ∀ k, 0 < step * 0.01 * lam k := fun k => mul_pos hη (hlam k)
  have hα : 0 < friction / 2 := by linarith
  have hα2 : friction / 2 < 2 := by linarith
  have hσ : Real.sqrt (step * 0.01 * friction) ^ 2 = step * 0.01 * friction := Real.sq_sqrt (by positivity)
  have e : ∀ k, Real.sqrt (step * 0.01 * friction) ^ 2 * (oldFactor (friction / 2) (step * 0.01 * lam k) / (2 * (friction / 2) * (step * 0.01 * lam k))) =
      oldFactor (friction / 2) (step * 0.01 * lam k) / lam k := fun k => by
    rw [hσ]
    have := hlam k
    field_simp
  have h := phaseG_tendsto (m := m) hd hU' (fun k => old_lyapunov hα hα2 (hh k) (hstep k))
    (fun k w => phaseL_old hsym (eigen_col hU hH k) (friction / 2) (step * 0.01) w) (oldNoise_sqG hU (Real.sqrt (step * 0.01 * friction))) (x0 - m, v0) hU c
    (fun k => by rw [e]; exact div_pos (zero_lt_one.trans (oldFactor_gt hα hα2 (hh k) (hstep k))) (hlam k)) hf hK
  simp only [e, one_div_div] at h
  simp only [sghmc_old_eq hsym hG hl hall hfirst]
  exact h

/-- C118: where every sample takes the velocity of after the update (the other order), they
settle to a normal law too wide by `newFactor`. -/
theorem C118_new_velocity {U : Matrix ι ι ℝ} {lam : ι → ℝ} (hlam : ∀ k, 0 < lam k) (hU : Uᵀ * U = 1) (hH : H = U * diagonal lam * Uᵀ)
    (hG : IsGradient (quadLog c m H) G) (hl : ∀ t, HSchedule (l t)) (hall : ∀ t o, o ∈ l t) (hfirst : ∀ t i, AssignedFirst (l t) i)
    (hs : 0 < step) (hfr : friction < 4) (hstep : ∀ k, step * 0.01 * lam k < 4 - friction) (hfr0 : 0 < friction)
    (x0 v0 : ι → ℝ) (hd : NormalDraws Pr d) {f : (ι → ℝ) → ℝ} (hf : Continuous f) {K : ℝ} (hK : ∀ x, |f x| ≤ K) :
    Tendsto (fun n => ∫ ω, f (chain (sghmcKernel l step friction G) x0 v0 (fun i => d i ω) n).1 ∂Pr) atTop
      (𝓝 (∫ x, f x ∂settledLaw newFactor c m U lam step friction)) := by
  have hU' : U * Uᵀ = 1 := mul_eq_one_comm.mp hU
  have hsym : Hᵀ = H := by rw [hH, transpose_mul, transpose_mul, transpose_transpose, diagonal_transpose, Matrix.mul_assoc]
  have hη : 0 < step * 0.01 := by positivity
  have hh : ∀ k, 0 < step * 0.01 * lam k := fun k => mul_pos hη (hlam k)
  have hα : 0 < friction / 2 := by linarith
  have hα2 : friction / 2 < 2 := by linarith
  have hlt : ∀ k, step * 0.01 * lam k < 4 - 2 * (friction / 2) := fun k => by linarith [hstep k]
  have hσ : Real.sqrt (step * 0.01 * friction) ^ 2 = step * 0.01 * friction := Real.sq_sqrt (by positivity)
  have e : ∀ k, Real.sqrt (step * 0.01 * friction) ^ 2 * (newFactor (friction / 2) (step * 0.01 * lam k) / (2 * (friction / 2) * (step * 0.01 * lam k))) =
      newFactor (friction / 2) (step * 0.01 * lam k) / lam k := fun k => by
    rw [hσ]
    have := hlam k
    field_simp
  have h := phaseG_tendsto (m := m) hd hU' (fun k => new_lyapunov hα hα2 (hh k) (hlt k))
    (fun k w => phaseL_new hsym (eigen_col hU hH k) (friction / 2) (step * 0.01) w) (newNoise_sqG hU (Real.sqrt (step * 0.01 * friction))) (x0 - m, v0) hU c
    (fun k => by rw [e]; exact div_pos (zero_lt_one.trans (newFactor_gt (hh k) (hlt k))) (hlam k)) hf hK
  simp only [e, one_div_div] at h
  simp only [sghmc_new_eq hsym hG hl hall hfirst]
  exact h

theorem settled_std (factor : ℝ → ℝ → ℝ) {U : Matrix ι ι ℝ} {lam : ι → ℝ} (hlam : ∀ k, 0 < lam k) (hU : Uᵀ * U = 1)
    (hpos : ∀ k, 0 < factor (friction / 2) (step * 0.01 * lam k)) :
    settledLaw factor c m U lam step friction = (Measure.pi (fun _ : ι => gaussianReal 0 1)).map
      (fun y => m + U *ᵥ (fun i => Real.sqrt (factor (friction / 2) (step * 0.01 * lam i) / lam i) * y i)) := by
  have h := quadratic_law_std (fun k => div_pos (hlam k) (hpos k)) hU rfl c m
  simp only [one_div_div] at h
  exact h

/-- C118: the docstring's "discretization error goes to zero as the learning rate decreases":
as the step size goes to 0 the settled laws of both orders go to the posterior. -/
theorem C118_small_step {U : Matrix ι ι ℝ} {lam : ι → ℝ} (hlam : ∀ k, 0 < lam k) (hU : Uᵀ * U = 1) (hH : H = U * diagonal lam * Uᵀ)
    (hfr0 : 0 < friction) (hfr : friction < 4) {f : (ι → ℝ) → ℝ} (hf : Continuous f) {K : ℝ} (hK : ∀ x, |f x| ≤ K) :
    Tendsto (fun step => ∫ x, f x ∂settledLaw oldFactor c m U lam step friction) (𝓝[>] 0) (𝓝 (∫ x, f x ∂fromLogDensity (quadLog c m H))) ∧
    Tendsto (fun step => ∫ x, f x ∂settledLaw newFactor c m U lam step friction) (𝓝[>] 0) (𝓝 (∫ x, f x ∂fromLogDensity (quadLog c m H))) := by
  have hY : ∀ (σ : ι → ℝ), Measurable (fun y : ι → ℝ => m + U *ᵥ (fun i => σ i * y i)) := fun σ =>
    (continuous_const.add (Continuous.matrix_mulVec continuous_const (by fun_prop))).measurable
  have main : ∀ factor : ℝ → ℝ → ℝ, Tendsto (fun h => factor (friction / 2) h) (𝓝 0) (𝓝 1) →
      Tendsto (fun step => ∫ x, f x ∂settledLaw factor c m U lam step friction) (𝓝[>] 0) (𝓝 (∫ x, f x ∂fromLogDensity (quadLog c m H))) := by
    intro factor hfac
    have hto : ∀ k, Tendsto (fun step : ℝ => factor (friction / 2) (step * 0.01 * lam k)) (𝓝[>] 0) (𝓝 1) := by
      intro k
      refine hfac.comp ?_
      have : Continuous (fun step : ℝ => step * 0.01 * lam k) := by fun_prop
      have h0 := this.tendsto 0
      simp only [zero_mul] at h0
      exact h0.mono_left nhdsWithin_le_nhds
    have hpos : ∀ᶠ step in 𝓝[>] (0 : ℝ), ∀ k, 0 < factor (friction / 2) (step * 0.01 * lam k) :=
      eventually_all.mpr fun k => (hto k).eventually (lt_mem_nhds one_pos)
    refine tendsto_of_seq_tendsto fun ε hε => ?_
    have hσ : Tendsto (fun n => fun i => Real.sqrt (factor (friction / 2) (ε n * 0.01 * lam i) / lam i)) atTop (𝓝 (fun i => Real.sqrt (1 / lam i))) :=
      tendsto_pi_nhds.mpr fun i => (Real.continuous_sqrt.tendsto _).comp (((hto i).comp hε).div_const _)
    have h1 := (affine_tendsto (a := fun _ => m) (p := 0) (A := K) hf (by simpa using hK) U tendsto_const_nhds hσ).2
    have h2 : ∫ x, f x ∂fromLogDensity (quadLog c m H) =
        ∫ y, f (m + U *ᵥ (fun i => Real.sqrt (1 / lam i) * y i)) ∂(Measure.pi (fun _ : ι => gaussianReal 0 1)) := by
      unfold quadLog
      rw [quadratic_law_std hlam hU hH, integral_map (hY _).aemeasurable hf.aestronglyMeasurable]
    rw [h2]
    refine h1.congr' ?_
    filter_upwards [hε.eventually hpos] with n hn
    simp only [Function.comp_apply]
    rw [settled_std factor hlam hU hn, integral_map (hY _).aemeasurable hf.aestronglyMeasurable]
  have hα : friction / 2 ≠ 0 := by positivity
  have h4 : 4 - 2 * (friction / 2) ≠ 0 := by linarith
  constructor
  · refine main _ ?_
    have hc : ContinuousAt (fun h => oldFactor (friction / 2) h) 0 := by
      unfold oldFactor
      refine ContinuousAt.div (by fun_prop) (by fun_prop) ?_
      simp only [sub_zero, add_zero]
      exact mul_ne_zero hα h4
    have h0 := hc.tendsto
    have e : oldFactor (friction / 2) 0 = 1 := by
      unfold oldFactor
      simp only [sub_zero, add_zero]
      rw [div_eq_one_iff_eq (mul_ne_zero hα h4)]
      ring
    rwa [e] at h0
  · refine main _ ?_
    have hc : ContinuousAt (fun h => newFactor (friction / 2) h) 0 := by
      unfold newFactor
      refine ContinuousAt.div (by fun_prop) (by fun_prop) ?_
      simp only [sub_zero]
      exact h4
    have h0 := hc.tendsto
    have e : newFactor (friction / 2) 0 = 1 := by
      unfold newFactor
      simp only [sub_zero]
      rw [div_eq_one_iff_eq h4]
      ring
    rwa [e] at h0

/-- The settled law is not the posterior when the factor is not 1. -/
theorem settled_ne (factor : ℝ → ℝ → ℝ) {U : Matrix ι ι ℝ} {lam : ι → ℝ} (hlam : ∀ k, 0 < lam k) (hU : Uᵀ * U = 1) (hH : H = U * diagonal lam * Uᵀ)
    (hpos : ∀ k, 1 < factor (friction / 2) (step * 0.01 * lam k)) (k : ι) : settledLaw factor c m U lam step friction ≠ fromLogDensity (quadLog c m H) := by
  intro h
  have hp : ∀ k, 0 < factor (friction / 2) (step * 0.01 * lam k) := fun k => zero_lt_one.trans (hpos k)
  have hY : ∀ (σ : ι → ℝ), Measurable (fun y : ι → ℝ => m + U *ᵥ (fun i => σ i * y i)) := fun σ =>
    (continuous_const.add (Continuous.matrix_mulVec continuous_const (by fun_prop))).measurable
  have hw : Measurable (fun x : ι → ℝ => Uᵀ k ⬝ᵥ x) := (Continuous.dotProduct continuous_const continuous_id).measurable
  have hcol : Uᵀ *ᵥ (Uᵀ k) = Pi.single k 1 := by
    have h2 : U *ᵥ (Pi.single k 1) = Uᵀ k := by rw [mulVec_single_one]; rfl
    rw [← h2, mulVec_mulVec, hU, one_mulVec]
  have hlaw : ∀ (g : ι → ℝ), (∀ i, 0 ≤ g i) → (((Measure.pi (fun _ : ι => gaussianReal 0 1)).map (fun y => m + U *ᵥ (fun i => Real.sqrt (g i) * y i))).map
      (fun x => Uᵀ k ⬝ᵥ x)) = gaussianReal (Uᵀ k ⬝ᵥ m) (Real.toNNReal (g k)) := by
    intro g hg
    rw [Measure.map_map hw (hY _)]
    refine (affine_functional m U (fun i => Real.sqrt (g i)) (Uᵀ k)).trans ?_
    congr 2
    rw [hcol, Finset.sum_eq_single k]
    · simp [Real.sq_sqrt (hg k)]
    · intro i _ hi; simp [hi]
    · simp
  have h1 := hlaw (fun i => factor (friction / 2) (step * 0.01 * lam i) / lam i) (fun i => (div_pos (hp i) (hlam i)).le)
  have h2 := hlaw (fun i => 1 / lam i) (fun i => (one_div_pos.mpr (hlam i)).le)
  rw [← settled_std factor hlam hU hp (c := c), h] at h1
  rw [← quadratic_law_std hlam hU hH c m] at h2
  have h3 := h1.symm.trans h2
  have h4 := congrArg (fun μ : Measure ℝ => variance id μ) h3
  simp only [variance_id_gaussianReal] at h4
  rw [Real.coe_toNNReal _ (div_pos (hp k) (hlam k)).le, Real.coe_toNNReal _ (one_div_pos.mpr (hlam k)).le, div_left_inj' (hlam k).ne'] at h4
  exact absurd h4 (hpos k).ne'

theorem settled_isProbability (factor : ℝ → ℝ → ℝ) {U : Matrix ι ι ℝ} {lam : ι → ℝ} (hlam : ∀ k, 0 < lam k) (hU : Uᵀ * U = 1)
    (hpos : ∀ k, 0 < factor (friction / 2) (step * 0.01 * lam k)) : IsProbabilityMeasure (settledLaw factor c m U lam step friction) := by
  rw [settled_std factor hlam hU hpos]
  exact Measure.isProbabilityMeasure_map (continuous_const.add (Continuous.matrix_mulVec continuous_const (by fun_prop))).aemeasurable

/-- C118 fails: with a step size that does not decrease, as the source uses, the samples do not
converge to the posterior, in either order. -/
theorem C118_too_wide_fails [Nonempty ι] {U : Matrix ι ι ℝ} {lam : ι → ℝ} (hlam : ∀ k, 0 < lam k) (hU : Uᵀ * U = 1) (hH : H = U * diagonal lam * Uᵀ)
    (hG : IsGradient (quadLog c m H) G) (hl : ∀ t, HSchedule (l t)) (hall : ∀ t o, o ∈ l t)
    (hs : 0 < step) (hfr : friction < 4) (hfr0 : 0 < friction)
    (hfirst : ((∀ t i, ¬ AssignedFirst (l t) i) ∧ ∀ k, step * 0.01 * lam k < friction / 2) ∨ ((∀ t i, AssignedFirst (l t) i) ∧ ∀ k, step * 0.01 * lam k < 4 - friction))
    (x0 v0 : ι → ℝ) (hd : NormalDraws Pr d) :
    ¬ (∀ f : (ι → ℝ) → ℝ, Continuous f → (∃ K, ∀ x, |f x| ≤ K) →
      Tendsto (fun n => ∫ ω, f (chain (sghmcKernel l step friction G) x0 v0 (fun i => d i ω) n).1 ∂Pr) atTop
        (𝓝 (∫ x, f x ∂fromLogDensity (quadLog c m H)))) := by
  intro h
  obtain ⟨k⟩ := ‹Nonempty ι›
  have hη : 0 < step * 0.01 := by positivity
  have hh : ∀ k, 0 < step * 0.01 * lam k := fun k => mul_pos hη (hlam k)
  have : IsProbabilityMeasure (fromLogDensity (quadLog c m H)) := by
    unfold quadLog
    rw [quadratic_law_std hlam hU hH]
    exact Measure.isProbabilityMeasure_map (continuous_const.add (Continuous.matrix_mulVec continuous_const (by fun_prop))).aemeasurable
  rcases hfirst with ⟨h1, h2⟩ | ⟨h1, h2⟩
  · have hgt : ∀ k, 1 < oldFactor (friction / 2) (step * 0.01 * lam k) := fun k => oldFactor_gt (by linarith) (by linarith) (hh k) (h2 k)
    have := settled_isProbability (c := c) (m := m) oldFactor hlam hU (fun k => zero_lt_one.trans (hgt k))
    refine settled_ne (c := c) (m := m) oldFactor hlam hU hH hgt k ?_
    refine ext_of_forall_integral_eq_of_IsFiniteMeasure fun f => ?_
    have hK : ∀ x, |f x| ≤ ‖f‖ := fun x => f.norm_coe_le_norm x
    exact tendsto_nhds_unique (C118_old_velocity hlam hU hH hG hl hall h1 hs hfr h2 hfr0 x0 v0 hd f.continuous hK) (h f f.continuous ⟨_, hK⟩)
  · have hgt : ∀ k, 1 < newFactor (friction / 2) (step * 0.01 * lam k) := fun k => newFactor_gt (hh k) (by linarith [h2 k])
    have := settled_isProbability (c := c) (m := m) newFactor hlam hU (fun k => zero_lt_one.trans (hgt k))
    refine settled_ne (c := c) (m := m) newFactor hlam hU hH hgt k ?_
    refine ext_of_forall_integral_eq_of_IsFiniteMeasure fun f => ?_
    have hK : ∀ x, |f x| ≤ ‖f‖ := fun x => f.norm_coe_le_norm x
    exact tendsto_nhds_unique (C118_new_velocity hlam hU hH hG hl hall h1 hs hfr h2 hfr0 x0 v0 hd f.continuous hK) (h f f.continuous ⟨_, hK⟩)

/-- A normal law gives an interval at most its width over the standard deviation. -/
theorem gaussian_interval_le (μ : ℝ) {v : ℝ} (hv : 0 < v) {K : ℝ} (hK : 0 ≤ K) :
    gaussianReal μ (Real.toNNReal v) (Set.Icc (-K) K) ≤ ENNReal.ofReal (2 * K / Real.sqrt v) := by
  have hv' : Real.toNNReal v ≠ 0 := by simpa using hv
  rw [gaussianReal_apply _ hv']
  have hb : ∀ x, gaussianPDF μ (Real.toNNReal v) x ≤ ENNReal.ofReal (1 / Real.sqrt v) := by
    intro x
    unfold gaussianPDF
    refine ENNReal.ofReal_le_ofReal ?_
    unfold gaussianPDFReal
    rw [Real.coe_toNNReal _ hv.le]
    have h1 : Real.exp (-(x - μ) ^ 2 / (2 * v)) ≤ 1 := Real.exp_le_one_iff.mpr (div_nonpos_of_nonpos_of_nonneg (by nlinarith [sq_nonneg (x - μ)]) (by positivity))
    have h2 : (Real.sqrt (2 * Real.pi * v))⁻¹ ≤ 1 / Real.sqrt v := by
      rw [← one_div]
      refine one_div_le_one_div_of_le (Real.sqrt_pos.mpr hv) (Real.sqrt_le_sqrt ?_)
      nlinarith [Real.two_le_pi]
    calc _ ≤ (Real.sqrt (2 * Real.pi * v))⁻¹ * 1 := mul_le_mul_of_nonneg_left h1 (by positivity)
      _ ≤ _ := by rw [mul_one]; exact h2
  calc ∫⁻ x in Set.Icc (-K) K, gaussianPDF μ (Real.toNNReal v) x ≤ ∫⁻ _ in Set.Icc (-K) K, ENNReal.ofReal (1 / Real.sqrt v) := lintegral_mono fun x => hb x
    _ = ENNReal.ofReal (1 / Real.sqrt v) * ENNReal.ofReal (K - -K) := by rw [setLIntegral_const, Real.volume_Icc]
    _ = _ := by rw [← ENNReal.ofReal_mul (by positivity)]; congr 1; ring

/-- C118 fails: where samples take the old velocity and the posterior is narrow along `u`
(`step · 0.01 · a ≥ friction / 2`: precision 20 and up for the default parameters), the samples
leave every interval. -/
theorem C118_diverges_fails {H : Matrix ι ι ℝ} (hH : Hᵀ = H) (hu : H *ᵥ u = a • u) (hu0 : u ≠ 0)
    (hG : IsGradient (quadLog c m H) G) (hl : ∀ t, HSchedule (l t)) (hall : ∀ t o, o ∈ l t) (hfirst : ∀ t i, ¬ AssignedFirst (l t) i)
    (hs : 0 < step) (hfr0 : 0 < friction) (hfr : friction < 4) (hstep : friction / 2 ≤ step * 0.01 * a)
    (x0 v0 : ι → ℝ) (hd : NormalDraws Pr d) (K : ℝ) :
    Tendsto (fun n => Pr {ω | |u ⬝ᵥ (chain (sghmcKernel l step friction G) x0 v0 (fun i => d i ω) n).1| ≤ K}) atTop (𝓝 0) := by
  rcases lt_or_ge K 0 with hK | hK
  · have : ∀ x : ℝ, ¬ |x| ≤ K := fun x => not_le.mpr (hK.trans_le (abs_nonneg x))
    simp [this]
  have huu : 0 < u ⬝ᵥ u := by
    have h1 : 0 ≤ u ⬝ᵥ u := Finset.sum_nonneg fun i _ => mul_self_nonneg _
    exact lt_of_le_of_ne h1 fun h => hu0 (dotProduct_self_eq_zero.mp h.symm)
  have hσ : Real.sqrt (step * 0.01 * friction) ^ 2 = step * 0.01 * friction := Real.sq_sqrt (by positivity)
  have hlaw := phase_law (m := m) hd (fun w => phaseL_old hH hu (friction / 2) (step * 0.01) w) (oldNoise_sq (Real.sqrt (step * 0.01 * friction))) (x0 - m, v0)
  have hdiv := (old_diverges (α := friction / 2) (h := step * 0.01 * a) (by linarith) hstep).const_mul_atTop
    (show 0 < Real.sqrt (step * 0.01 * friction) ^ 2 * (u ⬝ᵥ u) by rw [hσ]; positivity)
  set V := fun n => Real.sqrt (step * 0.01 * friction) ^ 2 * (u ⬝ᵥ u) * orbitSum (oldMap (friction / 2) (step * 0.01 * a)) (fun w => w.2) n (1, 0) with hV
  have hlim : Tendsto (fun n => ENNReal.ofReal (2 * K / Real.sqrt (V n))) atTop (𝓝 0) := by
    have h1 : Tendsto (fun n => 2 * K / Real.sqrt (V n)) atTop (𝓝 0) := (Real.tendsto_sqrt_atTop.comp hdiv).const_div_atTop (2 * K)
    have := ENNReal.tendsto_ofReal h1
    simpa using this
  refine tendsto_of_tendsto_of_tendsto_of_le_of_le' tendsto_const_nhds hlim (Eventually.of_forall fun _ => zero_le) ?_
  filter_upwards [hdiv.eventually_gt_atTop 0] with n hn
  have h2 := hlaw n
  have hset : {ω | |u ⬝ᵥ (chain (sghmcKernel l step friction G) x0 v0 (fun i => d i ω) n).1| ≤ K} =
      (fun ω => u ⬝ᵥ (((m, 0) : (ι → ℝ) × (ι → ℝ)) + linChain (fun _ => oldStep (friction / 2) (step * 0.01) H)
        (fun _ => oldNoise (Real.sqrt (step * 0.01 * friction))) (x0 - m, v0) (fun i => d i ω) n).1) ⁻¹' Set.Icc (-K) K := by
    ext ω
    simp only [sghmc_old_eq hH hG hl hall hfirst, Set.mem_ofPred_eq, Set.mem_preimage, Set.mem_Icc, abs_le]
  have hmeas : Measurable (fun ω => u ⬝ᵥ (((m, 0) : (ι → ℝ) × (ι → ℝ)) + linChain (fun _ => oldStep (friction / 2) (step * 0.01) H)
        (fun _ => oldNoise (Real.sqrt (step * 0.01 * friction))) (x0 - m, v0) (fun i => d i ω) n).1) := by
    have h1 : Measurable (fun ω => phaseL u (1, 0) (linChain (fun _ => oldStep (friction / 2) (step * 0.01) H)
        (fun _ => oldNoise (Real.sqrt (step * 0.01 * friction))) (x0 - m, v0) (fun i => d i ω) n)) :=
      (linChain_past _ _ _ n _).mono (past_le hd.meas n) le_rfl
    have h3 := h1.const_add (u ⬝ᵥ m)
    simpa [phaseL_apply, dotProduct_add] using h3
  rw [hset, ← Measure.map_apply hmeas measurableSet_Icc, h2]
  exact gaussian_interval_le _ hn hK

end

/-! The hypotheses are met by one latent variable with either of the schedules of C42 and the
default parameters: for posterior precision 10 the settled variance is about twice the one of
the posterior. -/

theorem hsched₁_old (i : Unit) : ¬ AssignedFirst hsched₁ i := by
  rintro ⟨l₁, l₂, he, hm⟩
  have hl : l₁ = hsched₁.take l₁.length := by rw [he]; simp
  have hlen : l₁.length < 8 := by
    have := congrArg List.length he
    simp [hsched₁] at this; omega
  have hget : hsched₁[l₁.length]? = some (.addS i) := by rw [he]; simp
  generalize l₁.length = n at *
  subst hl
  interval_cases n <;> simp [hsched₁] at hget hm

theorem hsched₂_new (i : Unit) : AssignedFirst hsched₂ i :=
  ⟨[.gather (), .readV (), .grad, .normal (), .addV (), .assignV ()], [.scatter ()], rfl, by simp⟩

/-- Precision of one latent variable. -/
noncomputable def precOne (a : ℝ) : Matrix Unit Unit ℝ := diagonal fun _ => a

theorem precOne_eigen (a : ℝ) : precOne a = 1 * diagonal (fun _ => a) * (1 : Matrix Unit Unit ℝ)ᵀ := by simp [precOne]

example {f : (Unit → ℝ) → ℝ} (hf : Continuous f) {K : ℝ} (hK : ∀ x, |f x| ≤ K) :
    Tendsto (fun n => ∫ ω, f (chain (sghmcKernel (fun _ => hsched₁) 0.25 0.1 (fun x => -(precOne 10 *ᵥ (x - 3)))) 0 0 (fun i => (ω : ℕ → Unit → ℝ) i) n).1
      ∂Measure.infinitePi (fun _ : ℕ => Measure.pi (fun _ : Unit => gaussianReal 0 1))) atTop
      (𝓝 (∫ x, f x ∂settledLaw oldFactor 0 3 1 (fun _ => 10) 0.25 0.1)) :=
  C118_old_velocity (fun _ => by norm_num) (by simp) (precOne_eigen 10) (quadLog_gradient 0 3 (diagonal_transpose _)) (fun _ => hsched₁_valid) (fun _ => hsched₁_all)
    (fun _ => hsched₁_old) (by norm_num) (by norm_num) (fun _ => by norm_num) (by norm_num) 0 0 normalDraws_ex hf hK

example {f : (Unit → ℝ) → ℝ} (hf : Continuous f) {K : ℝ} (hK : ∀ x, |f x| ≤ K) :
    Tendsto (fun n => ∫ ω, f (chain (sghmcKernel (fun _ => hsched₂) 0.25 0.1 (fun x => -(precOne 10 *ᵥ (x - 3)))) 0 0 (fun i => (ω : ℕ → Unit → ℝ) i) n).1
      ∂Measure.infinitePi (fun _ : ℕ => Measure.pi (fun _ : Unit => gaussianReal 0 1))) atTop
      (𝓝 (∫ x, f x ∂settledLaw newFactor 0 3 1 (fun _ => 10) 0.25 0.1)) :=
  C118_new_velocity (fun _ => by norm_num) (by simp) (precOne_eigen 10) (quadLog_gradient 0 3 (diagonal_transpose _)) (fun _ => hsched₂_valid) (fun _ => hsched₂_all)
    (fun _ => hsched₂_new) (by norm_num) (by norm_num) (fun _ => by norm_num) (by norm_num) 0 0 normalDraws_ex hf hK

/-- The factor of the first order for the default parameters and precision 10. -/
theorem C118_default_factor : 2 < oldFactor (0.1 / 2) (0.25 * 0.01 * 10) := by
  unfold oldFactor
  norm_num

example (K : ℝ) : Tendsto (fun n => Measure.infinitePi (fun _ : ℕ => Measure.pi (fun _ : Unit => gaussianReal 0 1))
    {ω | |(fun _ => 1) ⬝ᵥ (chain (sghmcKernel (fun _ => hsched₁) 0.25 0.1 (fun x => -(precOne 20 *ᵥ (x - 3)))) 0 0 (fun i => (ω : ℕ → Unit → ℝ) i) n).1| ≤ K})
    atTop (𝓝 0) :=
  C118_diverges_fails (u := fun _ => 1) (a := 20) (H := precOne 20) (diagonal_transpose _)
    (by funext i; simp [precOne, mulVec_diagonal]) (by intro h; simpa using congrFun h ()) (quadLog_gradient 0 3 (diagonal_transpose _))
    (fun _ => hsched₁_valid) (fun _ => hsched₁_all) (fun _ => hsched₁_old) (by norm_num) (by norm_num) (by norm_num) (by norm_num) 0 0 normalDraws_ex K

end Edward
