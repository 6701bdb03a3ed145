/-
Property C118: `SGHMC` when the order of the ops of C42 differs between latent variables and between updates.
-/
import Verif.Props.SghmcChain

namespace Edward

open MeasureTheory ProbabilityTheory Filter Topology Matrix

/-! ### A form decreasing under both orders -/

theorem form_ge {a b c : ℝ} (hc : 0 < c) (hd : b ^ 2 < a * c) :
    ∃ δ, 0 < δ ∧ ∀ x y : ℝ, δ * (x ^ 2 + y ^ 2) ≤ a * x ^ 2 + 2 * b * (x * y) + c * y ^ 2 := by
  have ha : 0 < a := by
    by_contra h
    nlinarith [sq_nonneg b, mul_nonneg hc.le (not_lt.mp h |> neg_nonneg.mpr)]
  refine ⟨(a * c - b ^ 2) / (a + c), div_pos (by linarith) (by linarith), fun x y => ?_⟩
  have h := form_lower (A := a) (B := b) (C := c) (x, y)
  rw [div_mul_eq_mul_div, div_le_iff₀ (by linarith)]
  simp only at h
  linarith

/-- `F` is a positive form on functionals of sample and velocity, smaller by a factor after either order. -/
structure BothDecrease (α h ρ k : ℝ) (F : ℝ × ℝ → ℝ) : Prop where
  ρ0 : 0 ≤ ρ
  ρ1 : ρ < 1
  k0 : 0 ≤ k
  ge : ∀ w, w.1 ^ 2 + w.2 ^ 2 ≤ k * F w
  old : ∀ w, F (oldMap α h w) ≤ ρ * F w
  new : ∀ w, F (newMap α h w) ≤ ρ * F w

theorem decreases_of {α h K δ₀ δ₁ δ₂ : ℝ} {F : ℝ × ℝ → ℝ} (hK : 0 < K) (h0 : 0 < δ₀) (h1 : 0 < δ₁) (h2 : 0 < δ₂)
    (hle : ∀ w, F w ≤ K * (w.1 ^ 2 + w.2 ^ 2)) (hge : ∀ w, δ₀ * (w.1 ^ 2 + w.2 ^ 2) ≤ F w)
    (ho : ∀ w, F (oldMap α h w) ≤ F w - δ₁ * (w.1 ^ 2 + w.2 ^ 2)) (hn : ∀ w, F (newMap α h w) ≤ F w - δ₂ * (w.1 ^ 2 + w.2 ^ 2)) :
    ∃ ρ k, BothDecrease α h ρ k F := by
  have hF : ∀ w, 0 ≤ F w := fun w => (by positivity : 0 ≤ δ₀ * (w.1 ^ 2 + w.2 ^ 2)).trans (hge w)
  have hδ : 0 < min δ₁ δ₂ := lt_min h1 h2
  have hkey : ∀ w, min (min δ₁ δ₂ / K) 1 * F w ≤ min δ₁ δ₂ * (w.1 ^ 2 + w.2 ^ 2) := fun w => by
    calc min (min δ₁ δ₂ / K) 1 * F w ≤ min δ₁ δ₂ / K * F w := mul_le_mul_of_nonneg_right (min_le_left _ _) (hF w)
      _ ≤ min δ₁ δ₂ / K * (K * (w.1 ^ 2 + w.2 ^ 2)) := mul_le_mul_of_nonneg_left (hle w) (by positivity)
      _ = min δ₁ δ₂ * (w.1 ^ 2 + w.2 ^ 2) := by field_simp
  refine ⟨1 - min (min δ₁ δ₂ / K) 1, 1 / δ₀, ?_, ?_, by positivity, fun w => ?_, fun w => ?_, fun w => ?_⟩
  · linarith [min_le_right (min δ₁ δ₂ / K) 1]
  · linarith [lt_min (div_pos hδ hK) one_pos]
  · rw [div_mul_eq_mul_div, one_mul, le_div_iff₀ h0]
    linarith [hge w]
  · have := mul_le_mul_of_nonneg_right (min_le_left δ₁ δ₂) (by positivity : 0 ≤ w.1 ^ 2 + w.2 ^ 2)
    linarith [ho w, hkey w]
  · have := mul_le_mul_of_nonneg_right (min_le_right δ₁ δ₂) (by positivity : 0 ≤ w.1 ^ 2 + w.2 ^ 2)
    linarith [hn w, hkey w]

/-- Little friction: the form that the old order multiplies by its determinant. -/
theorem decreases_light {α h : ℝ} (hα : 0 < α) (hα1 : α ≤ 1) (hlow : α ^ 2 / 2 < h) (hhigh : h ≤ α - α ^ 2 / 4) :
    ∃ ρ k F, BothDecrease α h ρ k F := by
  have hh : 0 < h := (by positivity : 0 < α ^ 2 / 2).trans hlow
  have hlt : h < α := by nlinarith
  have hdisc : α ^ 4 < 4 * (h * ((α + h) * (α - h))) := by
    -- h = α² / 2 + x, h = α - α² / 4 - y
    have e : 4 * (h * ((α + h) * (α - h))) - α ^ 4 = 4 * h * (α + h) * (α - α ^ 2 / 4 - h) + α ^ 2 * (h * (α + h) - α ^ 2) := by ring
    have e1 : h * (α + h) * (α - h) = h * α ^ 2 - h ^ 3 := by ring
    have c1 : h * α ^ 2 - h ^ 3 ≥ (α ^ 2 / 2) * α ^ 2 - (α ^ 2 / 2) ^ 3 ∨ h * α ^ 2 - h ^ 3 ≥ (α - α ^ 2 / 4) * α ^ 2 - (α - α ^ 2 / 4) ^ 3 := by
      set l := α ^ 2 / 2
      set u := α - α ^ 2 / 4
      rcases le_total (h ^ 2 + h * l + l ^ 2) (α ^ 2) with hc | hc
      · left
        have : (h - l) * (α ^ 2 - (h ^ 2 + h * l + l ^ 2)) ≥ 0 := mul_nonneg (by linarith) (by linarith)
        nlinarith
      · right
        have hlu : l ≤ u := by linarith
        have hl0 : 0 ≤ l := by positivity
        have : (u - h) * ((u ^ 2 + u * h + h ^ 2) - α ^ 2) ≥ 0 :=
          mul_nonneg (by linarith) (by nlinarith [mul_nonneg hh.le (sub_nonneg.mpr hlu), mul_nonneg hl0 (sub_nonneg.mpr hlu)])
        nlinarith
    have hα4 : 0 < α ^ 4 := by positivity
    have hα2 : α ^ 2 ≤ 1 := by nlinarith
    rcases c1 with c | c
    · have : (α ^ 2 / 2) * α ^ 2 - (α ^ 2 / 2) ^ 3 = α ^ 4 * (1 / 2 - α ^ 2 / 8) := by ring
      nlinarith
    · have : (α - α ^ 2 / 4) * α ^ 2 - (α - α ^ 2 / 4) ^ 3 = α ^ 4 * ((1 - α / 4) * (1 / 2 - α / 16)) := by ring
      have h3 : (1 - α / 4) * (1 / 2 - α / 16) > 1 / 4 := by nlinarith
      nlinarith
  have hαh : 0 < h * (α - h) := mul_pos hh (by linarith)
  obtain ⟨δ₀, h0, hge⟩ := form_ge (a := 1) (b := -α / 2) hh (by nlinarith)
  obtain ⟨δ, hδ, hn⟩ := form_ge (a := α + h) (b := -α ^ 2 / 2) hαh (by nlinarith)
  refine ⟨_, _, fun w => 1 * w.1 ^ 2 + 2 * (-α / 2) * (w.1 * w.2) + h * w.2 ^ 2,
    (decreases_of (K := 1 + α + h) (δ₀ := δ₀) (δ₁ := (α - h) * δ₀) (δ₂ := δ / 3) (by positivity) h0 (mul_pos (by linarith) h0) (by positivity)
      (fun w => ?_) (fun w => hge w.1 w.2) (fun w => ?_) (fun w => ?_)).choose_spec.choose_spec⟩
  · nlinarith [mul_nonneg hα.le (sq_nonneg (w.1 + w.2)), mul_nonneg hα.le (add_nonneg (sq_nonneg w.1) (sq_nonneg w.2)),
      mul_nonneg hh.le (sq_nonneg w.1), sq_nonneg w.2]
  · have := mul_le_mul_of_nonneg_left (hge w.1 w.2) (by linarith : 0 ≤ α - h)
    simp only [oldMap]
    nlinarith
  · have h1 := hn w.1 (w.1 + w.2)
    have h2 : δ / 3 * (w.1 ^ 2 + w.2 ^ 2) ≤ δ * (w.1 ^ 2 + (w.1 + w.2) ^ 2) := by
      have : w.1 ^ 2 + w.2 ^ 2 ≤ 3 * (w.1 ^ 2 + (w.1 + w.2) ^ 2) := by nlinarith [sq_nonneg (2 * w.1 + 1.5 * w.2), sq_nonneg w.2, sq_nonneg (w.1 + w.2)]
      nlinarith
    simp only [newMap]
    nlinarith

theorem heavy_pos {α θ : ℝ} (hα : 0 < α) (hα1 : α ≤ 1) (hθ : 0 < θ) (hθ1 : θ ≤ 1 / 2) : 0 < 2 * (1 - θ) - α * (1 - θ + θ ^ 2) := by
  nlinarith [mul_nonneg hα.le hθ.le, sq_nonneg θ, mul_nonneg hθ.le hθ.le]

theorem heavy_old {α θ : ℝ} (hα : 0 < α) (hα1 : α ≤ 1) (hθ : 0 < θ) (hθ1 : θ ≤ 1 / 2) :
    (θ * α ^ 2 * (1 - θ - θ ^ 2 * α)) ^ 2 < θ * α * (2 - θ * α - θ ^ 2 * α) * (θ * α ^ 3 * (2 * (1 - θ) - α * (1 - θ + θ ^ 2))) := by
  have hR := heavy_pos hα hα1 hθ hθ1
  have h1 : 1 - θ - θ ^ 2 * α ≤ 1 - θ := by nlinarith [mul_nonneg (sq_nonneg θ) hα.le]
  have h2 : 0 ≤ 1 - θ - θ ^ 2 * α := by nlinarith [mul_nonneg (sq_nonneg θ) (sub_nonneg.mpr hα1)]
  have h3 : (1 - θ - θ ^ 2 * α) ^ 2 ≤ (1 - θ) ^ 2 := pow_le_pow_left₀ h2 h1 2
  have h4 : 5 / 4 ≤ 2 - θ * α - θ ^ 2 * α := by nlinarith [mul_nonneg hθ.le (sub_nonneg.mpr hα1), mul_nonneg (sq_nonneg θ) (sub_nonneg.mpr hα1)]
  have h5 : (1 - θ - θ ^ 2 * α) ^ 2 < (2 - θ * α - θ ^ 2 * α) * (2 * (1 - θ) - α * (1 - θ + θ ^ 2)) := by
    have h6 : (1 - θ) ^ 2 < 5 / 4 * (2 * (1 - θ) - α * (1 - θ + θ ^ 2)) := by
      have : 1 - θ - θ ^ 2 ≤ 2 * (1 - θ) - α * (1 - θ + θ ^ 2) := by
        nlinarith [mul_nonneg (sub_nonneg.mpr hα1) (by nlinarith : 0 ≤ 1 - θ + θ ^ 2)]
      nlinarith
    have := mul_le_mul_of_nonneg_right h4 hR.le
    linarith
  have hp : 0 < θ ^ 2 * α ^ 4 := by positivity
  have := mul_lt_mul_of_pos_left h5 hp
  calc _ = θ ^ 2 * α ^ 4 * (1 - θ - θ ^ 2 * α) ^ 2 := by ring
    _ < _ := this
    _ = _ := by ring

theorem heavy_bound {α θ : ℝ} (hα1 : α ≤ 1) (hθ : 0 < θ) (hθ1 : θ ≤ 1 / 2) :
    (25 / 16) * (1 - θ) ^ 2 < 2 * (2 * (1 - θ) - α * (1 - θ + θ ^ 2)) := by
  have hR1 : 2 * (1 - θ) - 2 * α * θ ^ 2 ≤ 2 * (2 * (1 - θ) - α * (1 - θ + θ ^ 2)) := by nlinarith
  have : (25 / 16) * (1 - θ) ^ 2 < 2 * (1 - θ) - 2 * θ ^ 2 := by nlinarith
  nlinarith [mul_nonneg (sub_nonneg.mpr hα1) (sq_nonneg θ)]

theorem heavy_new {α θ : ℝ} (hα : 0 < α) (hα1 : α ≤ 1) (hθ : 0 < θ) (hθ1 : θ ≤ 1 / 2) :
    (θ * α ^ 2 * ((1 - θ) * (1 + α - α ^ 2) - θ ^ 2 * α * (1 + α))) ^ 2 <
      θ * α * ((1 + α) * (2 - θ * α * (1 + α)) - α * (α - θ * (1 + α)) ^ 2) * (θ * α ^ 3 * (2 * (1 - θ) - α * (1 - θ + θ ^ 2))) := by
  have hR := heavy_pos hα hα1 hθ hθ1
  have hRθ := heavy_bound hα1 hθ hθ1
  have hP : 2 ≤ (1 + α) * (2 - θ * α * (1 + α)) - α * (α - θ * (1 + α)) ^ 2 := by
    have e : (1 + α) * (2 - θ * α * (1 + α)) - α * (α - θ * (1 + α)) ^ 2 - 2 = α * (2 - α ^ 2 - θ * (1 - α ^ 2) - θ ^ 2 * (1 + α) ^ 2) := by ring
    have hα2 : α ^ 2 ≤ 1 := by nlinarith
    have h1 : θ * (1 - α ^ 2) ≤ 1 / 2 * (1 - α ^ 2) := mul_le_mul_of_nonneg_right hθ1 (by linarith)
    have h2 : θ ^ 2 * (1 + α) ^ 2 ≤ 1 / 4 * (1 + α) ^ 2 := mul_le_mul_of_nonneg_right (by nlinarith) (by positivity)
    have h3 : 0 ≤ 2 - α ^ 2 - θ * (1 - α ^ 2) - θ ^ 2 * (1 + α) ^ 2 := by nlinarith
    nlinarith [mul_nonneg hα.le h3]
  have h1 : (1 - θ) * (1 + α - α ^ 2) - θ ^ 2 * α * (1 + α) ≤ (1 - θ) * (5 / 4) := by
    have : 1 + α - α ^ 2 ≤ 5 / 4 := by nlinarith [sq_nonneg (α - 1 / 2)]
    nlinarith [mul_nonneg (mul_nonneg (sq_nonneg θ) hα.le) (by linarith : 0 ≤ 1 + α), mul_le_mul_of_nonneg_left this (by linarith : 0 ≤ 1 - θ)]
  have h2 : 0 ≤ (1 - θ) * (1 + α - α ^ 2) - θ ^ 2 * α * (1 + α) := by
    have h3 : (1 - θ) * (1 + α - α ^ 2) ≥ 1 / 2 * (1 + α - α ^ 2) := mul_le_mul_of_nonneg_right (by linarith) (by nlinarith)
    have h4 : θ ^ 2 * (α * (1 + α)) ≤ 1 / 4 * (α * (1 + α)) := mul_le_mul_of_nonneg_right (by nlinarith) (by positivity)
    nlinarith
  have h3 := pow_le_pow_left₀ h2 h1 2
  have h5 : ((1 - θ) * (1 + α - α ^ 2) - θ ^ 2 * α * (1 + α)) ^ 2 <
      ((1 + α) * (2 - θ * α * (1 + α)) - α * (α - θ * (1 + α)) ^ 2) * (2 * (1 - θ) - α * (1 - θ + θ ^ 2)) := by
    have := mul_le_mul_of_nonneg_right hP hR.le
    nlinarith
  have hp : 0 < θ ^ 2 * α ^ 4 := by positivity
  have := mul_lt_mul_of_pos_left h5 hp
  calc _ = θ ^ 2 * α ^ 4 * ((1 - θ) * (1 + α - α ^ 2) - θ ^ 2 * α * (1 + α)) ^ 2 := by ring
    _ < _ := this
    _ = _ := by ring

/-- Much friction. -/
theorem decreases_heavy {α θ : ℝ} (hα : 0 < α) (hα1 : α ≤ 1) (hθ : 0 < θ) (hθ1 : θ ≤ 1 / 2) :
    ∃ ρ k F, BothDecrease α (θ * α ^ 2) ρ k F := by
  have hR := heavy_pos hα hα1 hθ hθ1
  have hc : 0 < θ * α ^ 3 * (2 * (1 - θ) - α * (1 - θ + θ ^ 2)) := by positivity
  have hold := heavy_old hα hα1 hθ hθ1
  have hnew := heavy_new hα hα1 hθ hθ1
  obtain ⟨δ₁, h1, ho⟩ := form_ge hc hold
  obtain ⟨δ₂, h2, hn⟩ := form_ge hc hnew
  -- in the coordinates `p = w.1` and `r = w.2 - w.1 / α`
  have hrel : ∀ w : ℝ × ℝ, α ^ 2 / 3 * (w.1 ^ 2 + w.2 ^ 2) ≤ w.1 ^ 2 + (w.2 - w.1 / α) ^ 2 := fun w => by
    have e : w.2 = (w.2 - w.1 / α) + w.1 / α := by ring
    set r := w.2 - w.1 / α
    have e2 : α * w.2 = α * r + w.1 := by rw [e]; field_simp
    have e3 : α ^ 2 * w.2 ^ 2 = (α * r + w.1) ^ 2 := by rw [← e2]; ring
    have h4 : (α * r + w.1) ^ 2 ≤ 2 * (α ^ 2 * r ^ 2) + 2 * w.1 ^ 2 := by nlinarith [sq_nonneg (α * r - w.1)]
    have hα2 : α ^ 2 ≤ 1 := by nlinarith
    have h5 : α ^ 2 * r ^ 2 ≤ r ^ 2 := by nlinarith [sq_nonneg r]
    have h6 : α ^ 2 * w.1 ^ 2 ≤ w.1 ^ 2 := by nlinarith [sq_nonneg w.1]
    nlinarith [sq_nonneg r]
  have hα3 : 0 < α ^ 2 / 3 := by positivity
  have hθα : 0 < θ * α ^ 2 := by positivity
  have hθα1 : θ * α ^ 2 ≤ 1 := by nlinarith
  refine ⟨_, _, fun w => w.1 ^ 2 + θ * α ^ 2 * (w.2 - w.1 / α) ^ 2,
    (decreases_of (K := 3 + 2 / α ^ 2) (δ₀ := θ * α ^ 2 * (α ^ 2 / 3)) (δ₁ := δ₁ * (α ^ 2 / 3)) (δ₂ := δ₂ * (α ^ 2 / 3)) (by positivity)
      (by positivity) (by positivity) (by positivity) (fun w => ?_) (fun w => ?_) (fun w => ?_) (fun w => ?_)).choose_spec.choose_spec⟩
  · have h3 : (w.2 - w.1 / α) ^ 2 ≤ 2 * w.2 ^ 2 + 2 * (w.1 ^ 2 / α ^ 2) := by
      rw [← div_pow]; nlinarith [sq_nonneg (w.2 + w.1 / α)]
    have h4 : θ * α ^ 2 * (w.2 - w.1 / α) ^ 2 ≤ 1 * (w.2 - w.1 / α) ^ 2 := mul_le_mul_of_nonneg_right hθα1 (sq_nonneg _)
    have h5 : (3 + 2 / α ^ 2) * (w.1 ^ 2 + w.2 ^ 2) = 3 * w.1 ^ 2 + 3 * w.2 ^ 2 + 2 * (w.1 ^ 2 / α ^ 2) + 2 * (w.2 ^ 2 / α ^ 2) := by field_simp; ring
    have h6 : 0 ≤ w.2 ^ 2 / α ^ 2 := by positivity
    linarith [sq_nonneg w.1, sq_nonneg w.2]
  · have := mul_le_mul_of_nonneg_left (hrel w) hθα.le
    have h7 : θ * α ^ 2 * (w.1 ^ 2) ≤ 1 * w.1 ^ 2 := mul_le_mul_of_nonneg_right hθα1 (sq_nonneg _)
    linarith
  · have h3 := ho w.1 (w.2 - w.1 / α)
    have h4 := mul_le_mul_of_nonneg_left (hrel w) h1.le
    have e : (w.1 ^ 2 + θ * α ^ 2 * (w.2 - w.1 / α) ^ 2) -
        ((oldMap α (θ * α ^ 2) w).1 ^ 2 + θ * α ^ 2 * ((oldMap α (θ * α ^ 2) w).2 - (oldMap α (θ * α ^ 2) w).1 / α) ^ 2) =
        θ * α * (2 - θ * α - θ ^ 2 * α) * w.1 ^ 2 + 2 * (θ * α ^ 2 * (1 - θ - θ ^ 2 * α)) * (w.1 * (w.2 - w.1 / α)) +
          θ * α ^ 3 * (2 * (1 - θ) - α * (1 - θ + θ ^ 2)) * (w.2 - w.1 / α) ^ 2 := by
      simp only [oldMap]; field_simp; ring
    linarith
  · have h3 := hn w.1 (w.2 - w.1 / α)
    have h4 := mul_le_mul_of_nonneg_left (hrel w) h2.le
    have e : (w.1 ^ 2 + θ * α ^ 2 * (w.2 - w.1 / α) ^ 2) -
        ((newMap α (θ * α ^ 2) w).1 ^ 2 + θ * α ^ 2 * ((newMap α (θ * α ^ 2) w).2 - (newMap α (θ * α ^ 2) w).1 / α) ^ 2) =
        θ * α * ((1 + α) * (2 - θ * α * (1 + α)) - α * (α - θ * (1 + α)) ^ 2) * w.1 ^ 2 +
          2 * (θ * α ^ 2 * ((1 - θ) * (1 + α - α ^ 2) - θ ^ 2 * α * (1 + α))) * (w.1 * (w.2 - w.1 / α)) +
          θ * α ^ 3 * (2 * (1 - θ) - α * (1 - θ + θ ^ 2)) * (w.2 - w.1 / α) ^ 2 := by
      simp only [newMap]; field_simp; ring
    linarith

theorem decreases_exists {α h : ℝ} (hα : 0 < α) (hα1 : α ≤ 1) (hh : 0 < h) (hhigh : h ≤ α - α ^ 2 / 4) : ∃ ρ k F, BothDecrease α h ρ k F := by
  rcases le_or_gt h (α ^ 2 / 2) with hc | hc
  · have hα2 : 0 < α ^ 2 := by positivity
    have := decreases_heavy (θ := h / α ^ 2) hα hα1 (by positivity) (by rw [div_le_iff₀ hα2]; linarith)
    rwa [div_mul_cancel₀ _ hα2.ne'] at this
  · exact decreases_light hα hα1 hc hhigh

/-! ### The sampler -/

section
variable {ι : Type} [Fintype ι] [DecidableEq ι]

open Classical in
/-- An update, without noise, where the samples of `A` take the new velocity. -/
noncomputable def mixedStep (A : Set ι) (α η : ℝ) (H : Matrix ι ι ℝ) : ((ι → ℝ) × (ι → ℝ)) →ₗ[ℝ] ((ι → ℝ) × (ι → ℝ)) :=
  (LinearMap.fst ℝ _ _ + LinearMap.pi fun i => if i ∈ A then LinearMap.proj i ∘ₗ velL α η H else LinearMap.proj i ∘ₗ LinearMap.snd ℝ _ _).prod
    (velL α η H)

open Classical in
noncomputable def mixedNoise (A : Set ι) (σ : ℝ) (j : ι) : (ι → ℝ) × (ι → ℝ) := (if j ∈ A then σ • Pi.single j 1 else 0, σ • Pi.single j 1)

variable {G : (ι → ℝ) → ι → ℝ} {c : ℝ} {m : ι → ℝ} {l : ℕ → List (HOp ι)} {step friction : ℝ} {H : Matrix ι ι ℝ}

theorem mixedNoise_sum (A : Set ι) (σ : ℝ) (ξ : ι → ℝ) (i : ι) [Decidable (i ∈ A)] :
    (∑ j, ξ j • mixedNoise A σ j).1 i = (if i ∈ A then σ * ξ i else 0) ∧ (∑ j, ξ j • mixedNoise A σ j).2 i = σ * ξ i := by
  constructor
  · rw [Prod.fst_sum, Finset.sum_apply, Finset.sum_eq_single i]
    · by_cases h : i ∈ A <;> simp [mixedNoise, h, mul_comm]
    · intro j _ hj
      by_cases h : j ∈ A <;> simp [mixedNoise, h, hj.symm]
    · simp
  · rw [Prod.snd_sum, Finset.sum_apply, Finset.sum_eq_single i]
    · simp [mixedNoise, mul_comm]
    · intro j _ hj
      simp [mixedNoise, hj.symm]
    · simp

/-- The chain of `SGHMC` for any orders of the ops. -/
theorem sghmc_mixed_eq (hH : Hᵀ = H) (hG : IsGradient (quadLog c m H) G) (hl : ∀ t, HSchedule (l t)) (hall : ∀ t o, o ∈ l t)
    (x0 v0 : ι → ℝ) (ξ : ℕ → ι → ℝ) (n : ℕ) :
    chain (sghmcKernel l step friction G) x0 v0 ξ n = ((m, 0) : (ι → ℝ) × (ι → ℝ)) +
      linChain (fun t => mixedStep {i | AssignedFirst (l t) i} (friction / 2) (step * 0.01) H)
      (fun t => mixedNoise {i | AssignedFirst (l t) i} (Real.sqrt (step * 0.01 * friction))) (x0 - m, v0) ξ n := by
  classical
  induction n with
  | zero => simp [chain, linChain]
  | succ n ih =>
    rw [linChain]
    simp only [chain, sghmcKernel, ih]
    set s := linChain (fun t => mixedStep {i | AssignedFirst (l t) i} (friction / 2) (step * 0.01) H)
      (fun t => mixedNoise {i | AssignedFirst (l t) i} (Real.sqrt (step * 0.01 * friction))) (x0 - m, v0) ξ n with hs
    have ho := fun i => C42_outcomes ⟨step, friction, G, (((m, 0) : (ι → ℝ) × (ι → ℝ)) + s).1, ξ n⟩ (((m, 0) : (ι → ℝ) × (ι → ℝ)) + s).2 (l n) (hl n) (hall n) i
    have hn := mixedNoise_sum {i | AssignedFirst (l n) i} (Real.sqrt (step * 0.01 * friction)) (ξ n)
    refine Prod.ext (funext fun i => ?_) (funext fun i => ?_)
    · by_cases hf : AssignedFirst (l n) i
      · simp only
        rw [(ho i).2.2 hf]
        simp only [sghmcVelocity]
        rw [IsGradient.eq hH hG]
        simp only [Prod.fst_add, Pi.add_apply, (hn i).1]
        simp [mixedStep, velL, hf]
        ring
      · simp only
        rw [(ho i).2.1 hf]
        simp only [Prod.fst_add, Pi.add_apply, (hn i).1]
        simp [sghmcSample, mixedStep, hf]
        ring
    · simp only
      rw [(ho i).1]
      simp only [sghmcVelocity]
      rw [IsGradient.eq hH hG]
      simp only [Prod.snd_add, Pi.add_apply, (hn i).2]
      simp [mixedStep, velL]
      ring

variable {lam : ι → ℝ}

theorem phaseL_mixed (A : Set ι) (α η : ℝ) (i : ι) (w : ℝ × ℝ) [Decidable (i ∈ A)] :
    phaseL (Pi.single i 1) w ∘ₗ mixedStep A α η (diagonal lam) =
      phaseL (Pi.single i 1) (if i ∈ A then newMap α (η * lam i) w else oldMap α (η * lam i) w) := by
  refine LinearMap.ext fun s => ?_
  rw [LinearMap.comp_apply, phaseL_apply, phaseL_apply]
  simp only [single_one_dotProduct]
  by_cases h : i ∈ A
  · simp [mixedStep, h, velL, mulVec_diagonal, newMap]
    ring
  · simp [mixedStep, h, velL, mulVec_diagonal, oldMap]
    ring

theorem mixedNoise_le (A : Set ι) (σ : ℝ) (i : ι) (w : ℝ × ℝ) :
    ∑ j, phaseL (Pi.single i 1) w (mixedNoise A σ j) ^ 2 ≤ 2 * σ ^ 2 * (w.1 ^ 2 + w.2 ^ 2) := by
  classical
  rw [Finset.sum_eq_single i]
  · rw [phaseL_apply]
    simp only [single_one_dotProduct]
    have h0 := mul_nonneg (sq_nonneg σ) (sq_nonneg (w.1 - w.2))
    have h1 := mul_nonneg (sq_nonneg σ) (sq_nonneg w.1)
    have h2 := mul_nonneg (sq_nonneg σ) (sq_nonneg w.2)
    by_cases h : i ∈ A
    · simp [mixedNoise, h]
      nlinarith
    · simp [mixedNoise, h]
      nlinarith
  · intro j _ hj
    rw [phaseL_apply]
    simp only [single_one_dotProduct]
    by_cases h : j ∈ A <;> simp [mixedNoise, h, hj.symm]
  · simp

omit [DecidableEq ι] in
/-- Means and variances when the orders vary: `P t` tells which one update `t` has. -/
theorem mixed_moments {T : ℕ → ((ι → ℝ) × (ι → ℝ)) →ₗ[ℝ] ((ι → ℝ) × (ι → ℝ))} {b : ℕ → ι → (ι → ℝ) × (ι → ℝ)} {P : ℕ → Prop} [DecidablePred P] {α h ρ k κ : ℝ}
    {F : ℝ × ℝ → ℝ} (hF : BothDecrease α h ρ k F) {u : ι → ℝ} (hT : ∀ t w, phaseL u w ∘ₗ T t = phaseL u (if P t then newMap α h w else oldMap α h w)) (hκ : 0 ≤ κ)
    (hb : ∀ t w, ∑ j, phaseL u w (b t j) ^ 2 ≤ κ * (w.1 ^ 2 + w.2 ^ 2)) (s0 : (ι → ℝ) × (ι → ℝ)) (n : ℕ) (w : ℝ × ℝ) :
    linVar T b n (phaseL u w) ≤ κ * k / (1 - ρ) * F w ∧
      (phaseL u w (linMean T s0 n)) ^ 2 ≤ ((u ⬝ᵥ s0.1) ^ 2 + (u ⬝ᵥ s0.2) ^ 2) * k * F w * ρ ^ n := by
  have hρ : 0 < 1 - ρ := by linarith [hF.ρ1]
  have hk := hF.k0
  have hmap : ∀ t w, F (if P t then newMap α h w else oldMap α h w) ≤ ρ * F w := fun t w => by
    split_ifs
    · exact hF.new w
    · exact hF.old w
  have hkF : ∀ w, 0 ≤ k * F w := fun w => (by positivity : 0 ≤ w.1 ^ 2 + w.2 ^ 2).trans (hF.ge w)
  induction n generalizing w with
  | zero =>
    refine ⟨?_, ?_⟩
    · have := mul_nonneg (by positivity : 0 ≤ κ / (1 - ρ)) (hkF w)
      simp only [linVar]
      calc (0 : ℝ) ≤ κ / (1 - ρ) * (k * F w) := this
        _ = _ := by ring
    · simp only [linMean, phaseL_apply, pow_zero, mul_one]
      have h1 := mul_le_mul_of_nonneg_left (hF.ge w) (by positivity : 0 ≤ (u ⬝ᵥ s0.1) ^ 2 + (u ⬝ᵥ s0.2) ^ 2)
      nlinarith [sq_nonneg (w.1 * (u ⬝ᵥ s0.2) - w.2 * (u ⬝ᵥ s0.1))]
  | succ n ih =>
    have hi := ih (if P n then newMap α h w else oldMap α h w)
    refine ⟨?_, ?_⟩
    · rw [linVar, hT]
      have h1 := mul_le_mul_of_nonneg_left (hmap n w) (by positivity : 0 ≤ κ * k / (1 - ρ))
      have h2 := mul_le_mul_of_nonneg_left (hF.ge w) hκ
      have h3 := hb n w
      have e : κ * k / (1 - ρ) * F w = κ * k / (1 - ρ) * (ρ * F w) + κ * (k * F w) := by
        field_simp
        ring
      linarith [hi.1]
    · rw [linMean]
      have e : phaseL u w (T n (linMean T s0 n)) = (phaseL u w ∘ₗ T n) (linMean T s0 n) := rfl
      rw [e, hT]
      refine hi.2.trans ?_
      have := mul_le_mul_of_nonneg_left (hmap n w) (mul_nonneg (by positivity : 0 ≤ ((u ⬝ᵥ s0.1) ^ 2 + (u ⬝ᵥ s0.2) ^ 2) * k) (pow_nonneg hF.ρ0 n))
      calc _ = ((u ⬝ᵥ s0.1) ^ 2 + (u ⬝ᵥ s0.2) ^ 2) * k * ρ ^ n * F (if P n then newMap α h w else oldMap α h w) := by ring
        _ ≤ _ := this
        _ = _ := by ring

end

section
variable {ι : Type} [Fintype ι] [DecidableEq ι] {Ω : Type} [MeasurableSpace Ω] {Pr : Measure Ω} [IsProbabilityMeasure Pr] {d : ℕ → Ω → (ι → ℝ)}
  {c step friction : ℝ} {m : ι → ℝ} {G : (ι → ℝ) → ι → ℝ} {l : ℕ → List (HOp ι)} {lam : ι → ℝ}

/-- Normal variables with vanishing means and bounded variances. -/
theorem normal_limit {Y : ℕ → Ω → ℝ} {a ρ C V : ℝ} {μ v : ℕ → ℝ} (hlaw : ∀ n, HasLaw (fun ω => Y n ω - a) (gaussianReal (μ n) (Real.toNNReal (v n))) Pr)
    (hv0 : ∀ n, 0 ≤ v n) (hv : ∀ n, v n ≤ V) (hμ : ∀ n, μ n ^ 2 ≤ C * ρ ^ n) (hρ0 : 0 ≤ ρ) (hρ1 : ρ < 1) :
    Tendsto (fun n => ∫ ω, Y n ω ∂Pr) atTop (𝓝 a) ∧ ∃ K, ∀ n, ∫ ω, (Y n ω - a) ^ 2 ∂Pr ≤ K := by
  have hid : ∀ n, Integrable (fun x : ℝ => x) (gaussianReal (μ n) (Real.toNNReal (v n))) := fun n => (memLp_id_gaussianReal 1).integrable le_rfl
  have hm : ∀ n, ∫ ω, Y n ω ∂Pr = μ n + a := fun n => by
    have h1 := (hlaw n).integral_eq
    rw [integral_id_gaussianReal] at h1
    have hi : Integrable (fun ω => Y n ω - a) Pr := by
      have := hid n
      rw [← (hlaw n).map_eq] at this
      exact (integrable_map_measure (by fun_prop) (hlaw n).aemeasurable).mp this
    calc _ = ∫ ω, (Y n ω - a) + a ∂Pr := by simp
      _ = _ := by rw [integral_add hi (integrable_const _), h1]; simp
  have hsq : ∀ n, ∫ ω, (Y n ω - a) ^ 2 ∂Pr = v n + μ n ^ 2 := fun n => by
    have h1 : ∫ ω, (Y n ω - a) ^ 2 ∂Pr = ∫ x, x ^ 2 ∂gaussianReal (μ n) (Real.toNNReal (v n)) := by
      rw [← (hlaw n).map_eq, integral_map (hlaw n).aemeasurable (by fun_prop)]
    have h2 := variance_eq_sub (memLp_id_gaussianReal (μ := μ n) (v := Real.toNNReal (v n)) 2)
    rw [variance_id_gaussianReal] at h2
    simp only [Pi.pow_apply, id_eq] at h2
    rw [integral_id_gaussianReal, Real.coe_toNNReal _ (hv0 n)] at h2
    rw [h1]
    linarith
  have hC : 0 ≤ C := by simpa using (sq_nonneg _).trans (hμ 0)
  refine ⟨?_, V + C, fun n => ?_⟩
  · simp only [hm]
    have h0 : Tendsto (fun n => C * ρ ^ n) atTop (𝓝 0) := by
      simpa using (tendsto_pow_atTop_nhds_zero_of_lt_one hρ0 hρ1).const_mul C
    have h1 : Tendsto (fun n => μ n ^ 2) atTop (𝓝 0) :=
      tendsto_of_tendsto_of_tendsto_of_le_of_le tendsto_const_nhds h0 (fun n => sq_nonneg _) hμ
    have h2 : Tendsto μ atTop (𝓝 0) := by
      have := (Real.continuous_sqrt.tendsto 0).comp h1
      rw [Real.sqrt_zero] at this
      exact (tendsto_zero_iff_abs_tendsto_zero _).mpr (this.congr fun n => by simp [Real.sqrt_sq_eq_abs])
    simpa using h2.add_const a
  · rw [hsq]
    have h1 : C * ρ ^ n ≤ C := by
      have := mul_le_mul_of_nonneg_left (pow_le_one₀ (n := n) hρ0 hρ1.le) hC
      linarith
    linarith [hv n, hμ n]

theorem mixed_limit {H : Matrix ι ι ℝ} (hH : Hᵀ = H) (hG : IsGradient (quadLog c m H) G) (hl : ∀ t, HSchedule (l t)) (hall : ∀ t o, o ∈ l t) (x0 v0 : ι → ℝ)
    (hd : NormalDraws Pr d) {P : ℕ → Prop} [DecidablePred P] {u : ι → ℝ} {h κ : ℝ} (hfr0 : 0 < friction) (hfr : friction ≤ 2) (hh : 0 < h)
    (hstep : h ≤ friction / 2 - friction ^ 2 / 16) (hκ : 0 ≤ κ)
    (hT : ∀ t w, phaseL u w ∘ₗ mixedStep {i | AssignedFirst (l t) i} (friction / 2) (step * 0.01) H =
      phaseL u (if P t then newMap (friction / 2) h w else oldMap (friction / 2) h w))
    (hb : ∀ t w, ∑ j, phaseL u w (mixedNoise {i | AssignedFirst (l t) i} (Real.sqrt (step * 0.01 * friction)) j) ^ 2 ≤ κ * (w.1 ^ 2 + w.2 ^ 2)) :
    Tendsto (fun n => ∫ ω, u ⬝ᵥ (chain (sghmcKernel l step friction G) x0 v0 (fun t => d t ω) n).1 ∂Pr) atTop (𝓝 (u ⬝ᵥ m)) ∧
      ∃ K, ∀ n, ∫ ω, (u ⬝ᵥ (chain (sghmcKernel l step friction G) x0 v0 (fun t => d t ω) n).1 - u ⬝ᵥ m) ^ 2 ∂Pr ≤ K := by
  obtain ⟨ρ, k, F, hF⟩ := decreases_exists (α := friction / 2) (h := h) (by linarith) (by linarith) hh
    (by linarith [(by ring : (friction / 2) ^ 2 / 4 = friction ^ 2 / 16)])
  have hmom := fun n => mixed_moments hF hT hκ hb (x0 - m, v0) n (1, 0)
  refine normal_limit (fun n => ?_) (fun n => linVar_nonneg _ _ n _) (fun n => (hmom n).1) (fun n => (hmom n).2) hF.ρ0 hF.ρ1
  have e : (fun ω => u ⬝ᵥ (chain (sghmcKernel l step friction G) x0 v0 (fun t => d t ω) n).1 - u ⬝ᵥ m) = fun ω => phaseL u (1, 0)
      (linChain (fun t => mixedStep {i | AssignedFirst (l t) i} (friction / 2) (step * 0.01) H)
      (fun t => mixedNoise {i | AssignedFirst (l t) i} (Real.sqrt (step * 0.01 * friction))) (x0 - m, v0) (fun t => d t ω) n) := by
    funext ω
    rw [sghmc_mixed_eq hH hG hl hall, phaseL_apply]
    simp [dotProduct_add]
  rw [e]
  exact ⟨((linChain_past _ _ _ n _).mono (past_le hd.meas n) le_rfl).aemeasurable, linChain_law _ _ _ hd.meas hd.law hd.indep n _⟩

/-- C118 where the order of the ops differs between variables and between updates, in any way, and the variables are independent given the data:
the mean of the samples converges to that of the posterior, and their mean squared error stays bounded, below an explicit precision (19.75 for
the default parameters). -/
theorem C118_mixed_partial (hlam : ∀ k, 0 < lam k) (hG : IsGradient (quadLog c m (diagonal lam)) G) (hl : ∀ t, HSchedule (l t)) (hall : ∀ t o, o ∈ l t)
    (hs : 0 < step) (hfr0 : 0 < friction) (hfr : friction ≤ 2) (hstep : ∀ k, step * 0.01 * lam k ≤ friction / 2 - friction ^ 2 / 16)
    (x0 v0 : ι → ℝ) (hd : NormalDraws Pr d) (i : ι) :
    Tendsto (fun n => ∫ ω, (chain (sghmcKernel l step friction G) x0 v0 (fun t => d t ω) n).1 i ∂Pr) atTop (𝓝 (m i)) ∧
      ∃ K, ∀ n, ∫ ω, ((chain (sghmcKernel l step friction G) x0 v0 (fun t => d t ω) n).1 i - m i) ^ 2 ∂Pr ≤ K := by
  classical
  have := mixed_limit (Pr := Pr) (step := step) (friction := friction) (u := Pi.single i 1) (P := fun t => AssignedFirst (l t) i) (h := step * 0.01 * lam i)
    (κ := 2 * Real.sqrt (step * 0.01 * friction) ^ 2) (diagonal_transpose lam) hG hl hall x0 v0 hd hfr0 hfr (mul_pos (by positivity) (hlam i)) (hstep i)
    (by positivity) (fun t w => phaseL_mixed _ _ _ i w) (fun t w => mixedNoise_le _ _ i w)
  simpa only [single_one_dotProduct] using this

/-- C118 where all variables have the same order, which differs between updates in any way: the same along the principal directions `u` of any
normal posterior. -/
theorem C118_varying_partial {H : Matrix ι ι ℝ} {u : ι → ℝ} {a : ℝ} (hH : Hᵀ = H) (hu : H *ᵥ u = a • u) (ha : 0 < a)
    (hG : IsGradient (quadLog c m H) G) (hl : ∀ t, HSchedule (l t)) (hall : ∀ t o, o ∈ l t)
    (hsame : ∀ t, (∀ i, AssignedFirst (l t) i) ∨ ∀ i, ¬ AssignedFirst (l t) i)
    (hs : 0 < step) (hfr0 : 0 < friction) (hfr : friction ≤ 2) (hstep : step * 0.01 * a ≤ friction / 2 - friction ^ 2 / 16)
    (x0 v0 : ι → ℝ) (hd : NormalDraws Pr d) :
    Tendsto (fun n => ∫ ω, u ⬝ᵥ (chain (sghmcKernel l step friction G) x0 v0 (fun t => d t ω) n).1 ∂Pr) atTop (𝓝 (u ⬝ᵥ m)) ∧
      ∃ K, ∀ n, ∫ ω, (u ⬝ᵥ (chain (sghmcKernel l step friction G) x0 v0 (fun t => d t ω) n).1 - u ⬝ᵥ m) ^ 2 ∂Pr ≤ K := by
  classical
  have huu : 0 ≤ u ⬝ᵥ u := Finset.sum_nonneg fun i _ => mul_self_nonneg _
  have hn : ∀ t, (∀ i, AssignedFirst (l t) i) → mixedStep {i | AssignedFirst (l t) i} (friction / 2) (step * 0.01) H = newStep (friction / 2) (step * 0.01) H ∧
      ∀ σ, mixedNoise {i | AssignedFirst (l t) i} σ = newNoise σ := fun t ht => by
    refine ⟨LinearMap.ext fun s => ?_, fun σ => ?_⟩
    · refine Prod.ext (funext fun i => ?_) rfl
      simp [mixedStep, newStep, ht]
    · funext j
      simp [mixedNoise, newNoise, ht]
  have ho : ∀ t, (∀ i, ¬ AssignedFirst (l t) i) → mixedStep {i | AssignedFirst (l t) i} (friction / 2) (step * 0.01) H = oldStep (friction / 2) (step * 0.01) H ∧
      ∀ σ, mixedNoise {i | AssignedFirst (l t) i} σ = oldNoise σ := fun t ht => by
    refine ⟨LinearMap.ext fun s => ?_, fun σ => ?_⟩
    · refine Prod.ext (funext fun i => ?_) rfl
      simp [mixedStep, oldStep, ht]
    · funext j
      simp [mixedNoise, oldNoise, ht]
  by_cases hne : Nonempty ι
  · refine mixed_limit (Pr := Pr) (step := step) (friction := friction) (u := u) (P := fun t => ∀ i, AssignedFirst (l t) i) (h := step * 0.01 * a)
      (κ := 2 * Real.sqrt (step * 0.01 * friction) ^ 2 * (u ⬝ᵥ u)) hH hG hl hall x0 v0 hd hfr0 hfr (by positivity) hstep
      (by positivity) (fun t w => ?_) (fun t w => ?_)
    · rcases hsame t with ht | ht
      · rw [(hn t ht).1, if_pos ht, phaseL_new hH hu]
      · rw [(ho t ht).1, if_neg fun h => ht hne.some (h _), phaseL_old hH hu]
    · have hσu : 0 ≤ Real.sqrt (step * 0.01 * friction) ^ 2 * (u ⬝ᵥ u) := by positivity
      rcases hsame t with ht | ht
      · rw [(hn t ht).2, newNoise_sq]
        have : (w.1 + w.2) ^ 2 ≤ 2 * (w.1 ^ 2 + w.2 ^ 2) := by nlinarith [sq_nonneg (w.1 - w.2)]
        have := mul_le_mul_of_nonneg_left this hσu
        linarith
      · rw [(ho t ht).2, oldNoise_sq]
        have : w.2 ^ 2 ≤ 2 * (w.1 ^ 2 + w.2 ^ 2) := by nlinarith [sq_nonneg w.1, sq_nonneg w.2]
        have := mul_le_mul_of_nonneg_left this hσu
        linarith
  · have : IsEmpty ι := not_nonempty_iff.mp hne
    simp only [dotProduct, Finset.univ_eq_empty, Finset.sum_empty]
    exact ⟨by simp, 0, fun n => by simp⟩

end

/-- The default parameters, precision 19, the orders alternating. -/
example : Tendsto (fun n => ∫ ω, (chain (sghmcKernel (fun t => if Even t then hsched₁ else hsched₂) 0.25 0.1 (fun x => -(precOne 19 *ᵥ (x - 3)))) 0 0
    (fun i => (ω : ℕ → Unit → ℝ) i) n).1 () ∂Measure.infinitePi (fun _ : ℕ => Measure.pi (fun _ : Unit => gaussianReal 0 1))) atTop (𝓝 3) :=
  (C118_mixed_partial (lam := fun _ => 19) (fun _ => by norm_num) (quadLog_gradient 0 3 (diagonal_transpose _))
    (fun t => by split_ifs; exacts [hsched₁_valid, hsched₂_valid]) (fun t => by split_ifs; exacts [hsched₁_all, hsched₂_all])
    (by norm_num) (by norm_num) (by norm_num) (fun _ => by norm_num) 0 0 normalDraws_ex ()).1

/-- The same for the principal direction 1. -/
example : ∃ K, ∀ n, ∫ ω, ((fun _ => 1) ⬝ᵥ (chain (sghmcKernel (fun t => if Even t then hsched₁ else hsched₂) 0.25 0.1 (fun x => -(precOne 19 *ᵥ (x - 3)))) 0 0
    (fun i => (ω : ℕ → Unit → ℝ) i) n).1 - (fun _ : Unit => (1 : ℝ)) ⬝ᵥ 3) ^ 2 ∂Measure.infinitePi (fun _ : ℕ => Measure.pi (fun _ : Unit => gaussianReal 0 1)) ≤ K :=
  (C118_varying_partial (u := fun _ => 1) (a := 19) (H := precOne 19) (diagonal_transpose _) (by funext i; simp [precOne, mulVec_diagonal]) (by norm_num)
    (quadLog_gradient 0 3 (diagonal_transpose _))
    (fun t => by split_ifs; exacts [hsched₁_valid, hsched₂_valid]) (fun t => by split_ifs; exacts [hsched₁_all, hsched₂_all])
    (fun t => by split_ifs; exacts [.inr hsched₁_old, .inl hsched₂_new])
    (by norm_num) (by norm_num) (by norm_num) (by norm_num) 0 0 normalDraws_ex).2

end Edward
