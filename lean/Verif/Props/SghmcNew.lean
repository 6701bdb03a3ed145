/-
C118, second order: samples take the new velocity, beyond the stability limit.
-/
import Verif.Props.SghmcChain

namespace Edward
open MeasureTheory ProbabilityTheory Filter Topology Matrix

/-- With `h ≥ 4 - 2 α` the second order amplifies the noise without bound. -/
theorem new_diverges {α h : ℝ} (hα2 : α < 2) (hlt : 4 - 2 * α ≤ h) :
    Tendsto (fun n => orbitSum (newMap α h) (fun w => w.1 + w.2) n (1, 0)) atTop atTop := by
  set b := h + α - 2 with hb
  have hb2 : 2 - α ≤ b := by rw [hb]; linarith
  set q : ℕ → ℝ := fun k => ((newMap α h)^[k] (1, 0)).1 + ((newMap α h)^[k] (1, 0)).2 with hq
  have hit : ∀ n, (newMap α h)^[n + 1] (1, 0) = newMap α h ((newMap α h)^[n] (1, 0)) := fun n => Function.iterate_succ_apply' _ n _
  have hrec : ∀ k, q (k + 2) = -b * q (k + 1) - (1 - α) * q k := by
    intro k
    simp only [hq]
    rw [hit (k + 1), hit k]
    simp only [newMap, hb]
    ring
  set r : ℕ → ℝ := fun k => (-1) ^ k * q k with hr
  have hrec' : ∀ k, r (k + 2) = b * r (k + 1) - (1 - α) * r k := by
    intro k
    simp only [hr, hrec, pow_succ]
    ring
  have h0 : r 0 = 1 := by simp [hr, hq]
  have h1 : r 1 = b := by simp [hr, hq, newMap, hb]; ring
  have hlow : ∃ δ > 0, ∀ k, δ ≤ r k := by
    rcases le_or_gt α 1 with hα | hα
    · have : ∀ k, 1 ≤ r k ∧ r k ≤ r (k + 1) := by
        intro k
        induction k with
        | zero => rw [h0, h1]; exact ⟨le_rfl, by linarith⟩
        | succ k ih =>
          refine ⟨ih.1.trans ih.2, ?_⟩
          rw [hrec' k]
          nlinarith [mul_nonneg (sub_nonneg.mpr hα) (sub_nonneg.mpr ih.2), mul_nonneg (sub_nonneg.mpr hb2) (show 0 ≤ r (k + 1) by linarith)]
      exact ⟨1, one_pos, fun k => (this k).1⟩
    · have : ∀ k, 2 - α ≤ r k ∧ 2 - α ≤ r (k + 1) := by
        intro k
        induction k with
        | zero => rw [h0, h1]; exact ⟨by linarith, hb2⟩
        | succ k ih =>
          refine ⟨ih.2, ?_⟩
          rw [hrec' k]
          nlinarith [mul_nonneg (sub_nonneg.mpr hα.le) (sub_nonneg.mpr ih.1), mul_nonneg (show 0 ≤ 2 - α by linarith) (sub_nonneg.mpr ih.2),
            mul_nonneg (sub_nonneg.mpr hb2) (show 0 ≤ r (k + 1) by linarith)]
      exact ⟨2 - α, by linarith, fun k => (this k).1⟩
  obtain ⟨δ, hδ, hlow⟩ := hlow
  have hsq : ∀ k, δ ^ 2 ≤ q k ^ 2 := by
    intro k
    have e : q k ^ 2 = r k ^ 2 := by simp only [hr, mul_pow, ← pow_mul]; rw [mul_comm k 2, pow_mul]; simp
    rw [e]
    exact pow_le_pow_left₀ hδ.le (hlow k) 2
  have hT : Tendsto (fun n : ℕ => (n : ℝ) * δ ^ 2) atTop atTop := tendsto_natCast_atTop_atTop.atTop_mul_const (by positivity)
  refine tendsto_atTop_mono (fun n => ?_) hT
  have := Finset.card_nsmul_le_sum (Finset.range n) (fun k => q k ^ 2) _ (fun k _ => hsq k)
  simpa [orbitSum] using this

section
variable {ι : Type} [Fintype ι] [DecidableEq ι] {Ω : Type} [MeasurableSpace Ω] {Pr : Measure Ω} [IsProbabilityMeasure Pr] {d : ℕ → Ω → (ι → ℝ)}
variable {u : ι → ℝ} {a : ℝ} {G : (ι → ℝ) → ι → ℝ} {c : ℝ} {m : ι → ℝ} {l : ℕ → List (HOp ι)} {step friction : ℝ}

/-- C118 fails: where samples take the new velocity and the posterior is very narrow along `u`
(`step · 0.01 · a ≥ 4 - friction`: precision 1560 and up for the default parameters), the samples
leave every interval. -/
theorem C118_new_diverges_fails {H : Matrix ι ι ℝ} (hH : Hᵀ = H) (hu : H *ᵥ u = a • u) (hu0 : u ≠ 0)
    (hG : IsGradient (quadLog c m H) G) (hl : ∀ t, HSchedule (l t)) (hall : ∀ t o, o ∈ l t) (hfirst : ∀ t i, AssignedFirst (l t) i)
    (hs : 0 < step) (hfr0 : 0 < friction) (hfr : friction < 4) (hstep : 4 - friction ≤ step * 0.01 * a)
    (x0 v0 : ι → ℝ) (hd : NormalDraws Pr d) (K : ℝ) :
    Tendsto (fun n => Pr {ω | |u ⬝ᵥ (chain (sghmcKernel l step friction G) x0 v0 (fun i => d i ω) n).1| ≤ K}) atTop (𝓝 0) := by
  rcases lt_or_ge K 0 with hK | hK
  · have : ∀ x : ℝ, ¬ |x| ≤ K := fun x => not_le.mpr (hK.trans_le (abs_nonneg x))
    simp [this]
  have huu : 0 < u ⬝ᵥ u := by
    have h1 : 0 ≤ u ⬝ᵥ u := Finset.sum_nonneg fun i _ => mul_self_nonneg _
    exact lt_of_le_of_ne h1 fun h => hu0 (dotProduct_self_eq_zero.mp h.symm)
  have hσ : Real.sqrt (step * 0.01 * friction) ^ 2 = step * 0.01 * friction := Real.sq_sqrt (by positivity)
  have hlaw := phase_law (m := m) hd (fun w => phaseL_new hH hu (friction / 2) (step * 0.01) w) (newNoise_sq (Real.sqrt (step * 0.01 * friction))) (x0 - m, v0)
  have hdiv := (new_diverges (α := friction / 2) (h := step * 0.01 * a) (by linarith) (by linarith)).const_mul_atTop
    (show 0 < Real.sqrt (step * 0.01 * friction) ^ 2 * (u ⬝ᵥ u) by rw [hσ]; positivity)
  set V := fun n => Real.sqrt (step * 0.01 * friction) ^ 2 * (u ⬝ᵥ u) * orbitSum (newMap (friction / 2) (step * 0.01 * a)) (fun w => w.1 + w.2) n (1, 0) with hV
  have hlim : Tendsto (fun n => ENNReal.ofReal (2 * K / Real.sqrt (V n))) atTop (𝓝 0) := by
    have h1 : Tendsto (fun n => 2 * K / Real.sqrt (V n)) atTop (𝓝 0) := (Real.tendsto_sqrt_atTop.comp hdiv).const_div_atTop (2 * K)
    have := ENNReal.tendsto_ofReal h1
    simpa using this
  refine tendsto_of_tendsto_of_tendsto_of_le_of_le' tendsto_const_nhds hlim (Eventually.of_forall fun _ => zero_le) ?_
  filter_upwards [hdiv.eventually_gt_atTop 0] with n hn
  have h2 := hlaw n
  have hset : {ω | |u ⬝ᵥ (chain (sghmcKernel l step friction G) x0 v0 (fun i => d i ω) n).1| ≤ K} =
      (fun ω => u ⬝ᵥ (((m, 0) : (ι → ℝ) × (ι → ℝ)) + linChain (fun _ => newStep (friction / 2) (step * 0.01) H)
        (fun _ => newNoise (Real.sqrt (step * 0.01 * friction))) (x0 - m, v0) (fun i => d i ω) n).1) ⁻¹' Set.Icc (-K) K := by
    ext ω
    simp only [sghmc_new_eq hH hG hl hall hfirst, Set.mem_ofPred_eq, Set.mem_preimage, Set.mem_Icc, abs_le]
  have hmeas : Measurable (fun ω => u ⬝ᵥ (((m, 0) : (ι → ℝ) × (ι → ℝ)) + linChain (fun _ => newStep (friction / 2) (step * 0.01) H)
        (fun _ => newNoise (Real.sqrt (step * 0.01 * friction))) (x0 - m, v0) (fun i => d i ω) n).1) := by
    have h1 : Measurable (fun ω => phaseL u (1, 0) (linChain (fun _ => newStep (friction / 2) (step * 0.01) H)
        (fun _ => newNoise (Real.sqrt (step * 0.01 * friction))) (x0 - m, v0) (fun i => d i ω) n)) :=
      (linChain_past _ _ _ n _).mono (past_le hd.meas n) le_rfl
    have h3 := h1.const_add (u ⬝ᵥ m)
    simpa [phaseL_apply, dotProduct_add] using h3
  rw [hset, ← Measure.map_apply hmeas measurableSet_Icc, h2]
  exact gaussian_interval_le _ hn hK

end

example (K : ℝ) : Tendsto (fun n => Measure.infinitePi (fun _ : ℕ => Measure.pi (fun _ : Unit => gaussianReal 0 1))
    {ω | |(fun _ => 1) ⬝ᵥ (chain (sghmcKernel (fun _ => hsched₂) 0.25 0.1 (fun x => -(precOne 1560 *ᵥ (x - 3)))) 0 0 (fun i => (ω : ℕ → Unit → ℝ) i) n).1| ≤ K})
    atTop (𝓝 0) :=
  C118_new_diverges_fails (u := fun _ => 1) (a := 1560) (H := precOne 1560) (diagonal_transpose _)
    (by funext i; simp [precOne, mulVec_diagonal]) (by intro h; simpa using congrFun h ()) (quadLog_gradient 0 3 (diagonal_transpose _))
    (fun _ => hsched₂_valid) (fun _ => hsched₂_all) (fun _ => hsched₂_new) (by norm_num) (by norm_num) (by norm_num) (by norm_num) 0 0 normalDraws_ex K

end Edward
