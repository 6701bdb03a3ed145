/-
C143 for HMC.
-/
import Verif.Props.Hmc
import Verif.Model.HmcConditional

namespace Edward
open MeasureTheory ENNReal

section
variable {ι : Type} [DecidableEq ι] {E : ι → Type} [∀ i, AddCommGroup (E i)] [∀ i, Module ℝ (E i)]

theorem redrawnLoop_const (h : ℝ) (G : (∀ i, E i) → ∀ i, E i) (keys : List ι) (n k : ℕ) (g : ∀ i, E i) (zr : (∀ i, E i) × (∀ i, E i)) :
    redrawnLoop h (fun _ => G) keys n k g zr = leapfrogLoop h G keys n g zr := by
  induction n generalizing k g zr with
  | zero => rfl
  | succ n ih => exact ih _ _ _

theorem redrawnLeapfrog_const (h : ℝ) (G : (∀ i, E i) → ∀ i, E i) (keys : List ι) (n : ℕ) (zr : (∀ i, E i) × (∀ i, E i)) :
    redrawnLeapfrog h (fun _ => G) keys n zr = leapfrog h G keys n zr := redrawnLoop_const h G keys n 1 _ zr

/-- C143, HMC: the trajectory. The gradient at the `k`-th point is that of the `k`-th call, in both half kicks that use it. -/
theorem C143_hmc_trajectory (h : ℝ) (Gs : ℕ → (∀ i, E i) → ∀ i, E i) (keys : List ι) (hn : keys.Nodup) (hk : ∀ i, i ∈ keys)
    (z r : ℕ → ∀ i, E i) (hz : ∀ k, z (k + 1) = z k + h • (r k + (0.5 * h : ℝ) • Gs k (z k)))
    (hr : ∀ k, r (k + 1) = r k + (0.5 * h : ℝ) • Gs k (z k) + (0.5 * h : ℝ) • Gs (k + 1) (z (k + 1))) (n : ℕ) :
    redrawnLeapfrog h Gs keys n (z 0, r 0) = (z n, r n) := by
  have key : ∀ n k, redrawnLoop h Gs keys n (k + 1) (Gs k (z k)) (z k, r k) = (z (k + n), r (k + n)) := by
    intro n
    induction n with
    | zero => intro k; rfl
    | succ n ih =>
      intro k
      have h1 : (kickDrift h (Gs k (z k)) keys (z k, r k)).1 = z (k + 1) := by
        funext i
        rw [(kickDrift_apply h _ keys hn _ i).2, if_pos (hk i), hz k]
        rfl
      have h2 : kick h (Gs (k + 1) (z (k + 1))) keys (kickDrift h (Gs k (z k)) keys (z k, r k)).2 = r (k + 1) := by
        funext i
        rw [kick_apply h _ keys hn, if_pos (hk i), (kickDrift_apply h _ keys hn _ i).1, if_pos (hk i), hr k]
        rfl
      simp only [redrawnLoop, h1, h2]
      rw [ih (k + 1), show k + 1 + n = k + (n + 1) by omega]
  have := key n 0
  rw [Nat.zero_add, Nat.zero_add] at this
  exact this

/-- Gradients `2 k` at the `k`-th call, step one: the momentum after `n` steps is `n²` and the position `(n³ - n) / 3`. -/
example (n : ℕ) : redrawnLeapfrog (ι := Unit) (E := fun _ => ℝ) 1 (fun k _ _ => 2 * (k : ℝ)) [()] n (fun _ => 0, fun _ => 0) =
    (fun _ => ((n : ℝ) ^ 3 - n) / 3, fun _ => (n : ℝ) ^ 2) := by
  have := C143_hmc_trajectory (ι := Unit) (E := fun _ => ℝ) 1 (fun k _ _ => 2 * (k : ℝ)) [()] (by simp) (by simp)
    (fun k _ => ((k : ℝ) ^ 3 - k) / 3) (fun k _ => (k : ℝ) ^ 2)
    (by intro k; funext i; simp only [Pi.add_apply, Pi.smul_apply, smul_eq_mul]; push_cast; ring)
    (by intro k; funext i; simp only [Pi.add_apply, Pi.smul_apply, smul_eq_mul]; push_cast; ring) n
  simpa using this

end
section
variable {ι : Type} [Fintype ι] [DecidableEq ι] {κ : ι → Type} [∀ i, Fintype (κ i)] {B : Type} [Fintype B]

/-- Probability of accepting the end of the trajectory from `(z, r)`. -/
noncomputable def redrawnAccept (t : Pos κ → ℝ≥0∞) (c q : B → ℝ≥0∞) (G : Pos κ → Pos κ) (h : ℝ) (n : ℕ) (keys : List ι)
    (x : Pos κ × Pos κ) : ℝ≥0∞ :=
  ∑ b, ∑ b', q b * q b' * acceptProb (redrawnRatio (fun z b => c b * t z) b b' x (leapfrog h G keys n x))

omit [Fintype B] in
theorem redrawn_ratio (t : Pos κ → ℝ≥0∞) (ht : ∀ z, t z ≠ ∞) (c : B → ℝ≥0∞) (hc0 : ∀ b, c b ≠ 0) (hc1 : ∀ b, c b ≠ ∞) (b b' : B)
    (old new : Pos κ × Pos κ) (h0 : t old.1 ≠ 0) :
    redrawnRatio (fun z b => c b * t z) b b' old new =
      log (c b' / c b * (t new.1 * momentum new.2) / (t old.1 * momentum old.2)) := by
  have e : redrawnRatio (fun z b => c b * t z) b b' old new = hmcRatio t old new + log (c b') - log (c b) := by
    unfold redrawnRatio hmcRatio
    obtain ⟨k, hk⟩ : ∃ k : ℝ, (kinetic old.2 - kinetic new.2 : ℝ) = k := ⟨_, rfl⟩
    rw [hk]
    have hl : (k : EReal) = log (ENNReal.ofReal (Real.exp k)) := by rw [← EReal.exp_coe, EReal.log_exp]
    simp only [hl, sub_eq_add_neg, ← log_inv, ← log_mul_add]
    rw [ENNReal.mul_inv (Or.inl (hc0 b)) (Or.inl (hc1 b))]
    congr 1
    ring
  rw [e, hmc_ratio t ht old new h0, sub_eq_add_neg, ← log_inv, ← log_mul_add, ← log_mul_add]
  congr 1
  simp only [div_eq_mul_inv]
  ring

/-- If `beta` is independent of the latent variables, the trajectories are those without `beta`, but the acceptance is another. -/
theorem redrawnExpect_eq (t : Pos κ → ℝ≥0∞) (c q : B → ℝ≥0∞) (hq : ∑ b, q b = 1) (G : Pos κ → Pos κ)
    (h : ℝ) (n : ℕ) (keys : List ι) (f : Pos κ → ℝ≥0∞) (z : Pos κ) :
    redrawnExpect (fun z b => c b * t z) (fun _ => G) q h n keys f z = ∑ b, ∑ b', q b * q b' * ∫⁻ r, momentum r *
      (acceptProb (redrawnRatio (fun z b => c b * t z) b b' (z, r) (leapfrog h G keys n (z, r))) * f (leapfrog h G keys n (z, r)).1 +
      (1 - acceptProb (redrawnRatio (fun z b => c b * t z) b b' (z, r) (leapfrog h G keys n (z, r)))) * f z) := by
  classical
  unfold redrawnExpect
  simp only [redrawnLeapfrog_const]
  rw [← Finset.sum_mul]
  have : ∑ d : Fin (n + 1) → B, ∏ i, q (d i) = 1 := by
    rw [← Fintype.prod_sum]; simp [hq]
  rw [this, one_mul]
  refine Finset.sum_congr rfl fun b _ => Finset.sum_congr rfl fun b' _ => ?_
  congr 2
  funext r
  congr 1
  rw [← lintegral_accept]
  congr 1
  funext u
  split <;> rfl

/-- C143, HMC: the posterior is preserved if all values of `beta` have the same density and the latent variables are independent of
it. -/
theorem C143_hmc_partial (t : Pos κ → ℝ≥0∞) (hm : Measurable t) (ht : ∀ z, t z ≠ ∞) (c : ℝ≥0∞) (hc0 : c ≠ 0) (hc1 : c ≠ ∞) (q : B → ℝ≥0∞)
    (hq : ∑ b, q b = 1) (G : Pos κ → Pos κ) (hG : Measurable G) (h : ℝ) (n : ℕ) (keys : List ι) (hn : keys.Nodup)
    (hk : ∀ i, i ∈ keys) (f : Pos κ → ℝ≥0∞) (hf : Measurable f) :
    ∫⁻ z, t z * redrawnExpect (fun z (_ : B) => c * t z) (fun _ => G) q h n keys f z = ∫⁻ z, t z * f z := by
  rw [← C35_hmc_invariant t hm ht G hG h n keys hn hk f hf]
  congr 1
  funext z
  by_cases h0 : t z = 0
  · rw [h0, zero_mul, zero_mul]
  congr 1
  rw [redrawnExpect_eq t (fun _ => c) q hq, hmcExpect_eq]
  have e : ∀ (b b' : B) r, redrawnRatio (fun z (_ : B) => c * t z) b b' (z, r) (leapfrog h G keys n (z, r)) =
      hmcRatio t (z, r) (leapfrog h G keys n (z, r)) := by
    intro b b' r
    rw [redrawn_ratio t ht (fun _ => c) (fun _ => hc0) (fun _ => hc1) b b' _ _ h0, hmc_ratio t ht _ _ h0,
      ENNReal.div_self hc0 hc1, one_mul]
  simp only [e]
  simp_rw [← Finset.sum_mul, ← Finset.mul_sum, hq, mul_one, hq, one_mul]

end

section
variable {B : Type} [Fintype B]

/-- With independent noise in the two densities more mass flows from the larger to the smaller density than back. -/
theorem noisy_flow (q c : B → ℝ) (hq : ∀ b, 0 < q b) (hc : ∀ b, 0 < c b) (hne : ∃ b b', c b ≠ c b') {P P' : ℝ} (hP : 0 < P') (hlt : P' < P) :
    ∑ b, ∑ b', q b * q b' * min P' (c b' / c b * P) < ∑ b, ∑ b', q b * q b' * min P (c b' / c b * P') := by
  set F : B → B → ℝ := fun b b' => min P (c b' / c b * P') - min P' (c b' / c b * P) with hF
  have hinv : ∀ b b', F b' b = -(F b b') / (c b' / c b) := by
    intro b b'
    have h1 := hc b
    have h2 := hc b'
    have hs : 0 < c b' / c b := div_pos h2 h1
    have e : c b / c b' = (c b' / c b)⁻¹ := by rw [inv_div]
    simp only [hF, e]
    rw [eq_div_iff hs.ne', sub_mul, min_mul_of_nonneg _ _ hs.le, min_mul_of_nonneg _ _ hs.le]
    have e1 : (c b' / c b)⁻¹ * P' * (c b' / c b) = P' := by field_simp
    have e2 : (c b' / c b)⁻¹ * P * (c b' / c b) = P := by field_simp
    rw [e1, e2, min_comm, mul_comm P, min_comm (P' * _), mul_comm P']
    ring
  have hpair : ∀ b b', 0 ≤ F b b' + F b' b ∧ (c b ≠ c b' → 0 < F b b' + F b' b) := by
    intro b b'
    have hs : 0 < c b' / c b := div_pos (hc b') (hc b)
    have hfac : F b b' + F b' b = F b b' * (1 - (c b' / c b)⁻¹) := by rw [hinv b b', div_eq_mul_inv]; ring
    rw [hfac]
    rcases lt_trichotomy (c b') (c b) with hlt' | heq | hgt
    · have s1 : c b' / c b < 1 := (div_lt_one (hc b)).mpr hlt'
      have hneg : F b b' < 0 := by
        simp only [hF]
        have : min P (c b' / c b * P') ≤ c b' / c b * P' := min_le_right _ _
        have h2 : c b' / c b * P' < min P' (c b' / c b * P) := lt_min (by nlinarith) (by nlinarith)
        linarith
      have hi : 1 < (c b' / c b)⁻¹ := (one_lt_inv₀ hs).mpr s1
      have := mul_pos_of_neg_of_neg hneg (sub_neg.mpr hi)
      exact ⟨this.le, fun _ => this⟩
    · rw [heq, div_self (hc b).ne']
      simp
    · have s1 : 1 < c b' / c b := (one_lt_div (hc b)).mpr hgt
      have hpos : 0 < F b b' := by
        simp only [hF]
        have h1 : min P' (c b' / c b * P) ≤ P' := min_le_left _ _
        have h2 : P' < min P (c b' / c b * P') := lt_min hlt (by nlinarith)
        linarith
      have hi : (c b' / c b)⁻¹ < 1 := inv_lt_one_of_one_lt₀ s1
      have := mul_pos hpos (sub_pos.mpr hi)
      exact ⟨this.le, fun _ => this⟩
  have hsum : 0 < ∑ b, ∑ b', q b * q b' * (F b b' + F b' b) := by
    obtain ⟨b0, b0', h0⟩ := hne
    refine Finset.sum_pos' (fun b _ => Finset.sum_nonneg fun b' _ => mul_nonneg (mul_pos (hq b) (hq b')).le (hpair b b').1)
      ⟨b0, Finset.mem_univ _, Finset.sum_pos' (fun b' _ => mul_nonneg (mul_pos (hq b0) (hq b')).le (hpair b0 b').1)
        ⟨b0', Finset.mem_univ _, mul_pos (mul_pos (hq b0) (hq b0')) ((hpair b0 b0').2 h0)⟩⟩
  have hswap : ∑ b, ∑ b', q b * q b' * F b' b = ∑ b, ∑ b', q b * q b' * F b b' := by
    rw [Finset.sum_comm]
    refine Finset.sum_congr rfl fun b _ => Finset.sum_congr rfl fun b' _ => ?_
    ring
  simp_rw [mul_add, Finset.sum_add_distrib] at hsum
  rw [hswap] at hsum
  have hdiff : ∑ b, ∑ b', q b * q b' * F b b' =
      ∑ b, ∑ b', q b * q b' * min P (c b' / c b * P') - ∑ b, ∑ b', q b * q b' * min P' (c b' / c b * P) := by
    simp only [hF, mul_sub, Finset.sum_sub_distrib]
  linarith

end

section
variable {ι : Type} [Fintype ι] [DecidableEq ι] {κ : ι → Type} [∀ i, Fintype (κ i)] {B : Type} [Fintype B]

theorem redrawn_flow (t : Pos κ → ℝ) (ht : ∀ z, 0 ≤ t z) (c q : B → ℝ) (hc : ∀ b, 0 < c b) (hq : ∀ b, 0 ≤ q b) (G : Pos κ → Pos κ) (h : ℝ)
    (n : ℕ) (keys : List ι) (x : Pos κ × Pos κ) (hx : 0 < t x.1) :
    ENNReal.ofReal (t x.1) * momentum x.2 *
        redrawnAccept (fun z => ENNReal.ofReal (t z)) (fun b => ENNReal.ofReal (c b)) (fun b => ENNReal.ofReal (q b)) G h n keys x =
      ENNReal.ofReal (∑ b, ∑ b', q b * q b' * min (t x.1 * (momentum x.2).toReal)
        (c b' / c b * (t (leapfrog h G keys n x).1 * (momentum (leapfrog h G keys n x).2).toReal))) := by
  have hm : ∀ r : Pos κ, momentum r = ENNReal.ofReal (momentum r).toReal := fun r => (ENNReal.ofReal_toReal (momentum_ne_top r)).symm
  have hm0 : ∀ r : Pos κ, 0 < (momentum r).toReal := fun r => ENNReal.toReal_pos (momentum_ne_zero r) (momentum_ne_top r)
  have hP : 0 < t x.1 * (momentum x.2).toReal := mul_pos hx (hm0 _)
  have hP' : 0 ≤ t (leapfrog h G keys n x).1 * (momentum (leapfrog h G keys n x).2).toReal := mul_nonneg (ht _) (hm0 _).le
  set L := leapfrog h G keys n x with hL
  unfold redrawnAccept
  rw [Finset.mul_sum, ENNReal.ofReal_sum_of_nonneg fun b _ => Finset.sum_nonneg fun b' _ =>
    mul_nonneg (mul_nonneg (hq b) (hq b')) (le_min hP.le (mul_nonneg (div_pos (hc b') (hc b)).le hP'))]
  refine Finset.sum_congr rfl fun b _ => ?_
  rw [Finset.mul_sum, ENNReal.ofReal_sum_of_nonneg fun b' _ =>
    mul_nonneg (mul_nonneg (hq b) (hq b')) (le_min hP.le (mul_nonneg (div_pos (hc b') (hc b)).le hP'))]
  refine Finset.sum_congr rfl fun b' _ => ?_
  rw [redrawn_ratio (fun z => ENNReal.ofReal (t z)) (fun _ => ENNReal.ofReal_ne_top) (fun b => ENNReal.ofReal (c b))
    (fun b => by simp [hc b]) (fun _ => ENNReal.ofReal_ne_top) b b' x L (by simp [hx]), acceptProb_log]
  have e : ENNReal.ofReal (t x.1) * momentum x.2 = ENNReal.ofReal (t x.1 * (momentum x.2).toReal) := by
    rw [ENNReal.ofReal_mul hx.le, ← hm]
  have e' : ENNReal.ofReal (c b') / ENNReal.ofReal (c b) * (ENNReal.ofReal (t L.1) * momentum L.2) =
      ENNReal.ofReal (c b' / c b * (t L.1 * (momentum L.2).toReal)) := by
    rw [ENNReal.ofReal_mul (div_pos (hc b') (hc b)).le, ENNReal.ofReal_div_of_pos (hc b), ENNReal.ofReal_mul (ht _), ← hm]
  rw [e, e']
  calc _ = ENNReal.ofReal (q b) * ENNReal.ofReal (q b') * (ENNReal.ofReal (t x.1 * (momentum x.2).toReal) *
        min 1 (ENNReal.ofReal (c b' / c b * (t L.1 * (momentum L.2).toReal)) / ENNReal.ofReal (t x.1 * (momentum x.2).toReal))) := by ring
    _ = _ := by
      rw [mul_min_one_div (by simpa using hP) ENNReal.ofReal_ne_top, ← ENNReal.ofReal_min, ← ENNReal.ofReal_mul (hq b),
        ← ENNReal.ofReal_mul (mul_nonneg (hq b) (hq b'))]

/-- C143, HMC: even if `beta` is independent of the latent variables, detailed balance fails along every trajectory whose end has
another density: more mass flows towards the smaller density than back. -/
theorem C143_hmc_fails (t : Pos κ → ℝ) (ht : ∀ z, 0 < t z) (c q : B → ℝ) (hc : ∀ b, 0 < c b) (hq : ∀ b, 0 < q b)
    (hne : ∃ b b', c b ≠ c b') (G : Pos κ → Pos κ) (h : ℝ) (n : ℕ) (keys : List ι) (hn : keys.Nodup) (hk : ∀ i, i ∈ keys)
    (z r z' r' : Pos κ) (hL : leapfrog h G keys n (z, r) = (z', r'))
    (hlt : ENNReal.ofReal (t z') * momentum r' < ENNReal.ofReal (t z) * momentum r) :
    ENNReal.ofReal (t z') * momentum r' *
        redrawnAccept (fun z => ENNReal.ofReal (t z)) (fun b => ENNReal.ofReal (c b)) (fun b => ENNReal.ofReal (q b)) G h n keys (z', -r') <
      ENNReal.ofReal (t z) * momentum r *
        redrawnAccept (fun z => ENNReal.ofReal (t z)) (fun b => ENNReal.ofReal (c b)) (fun b => ENNReal.ofReal (q b)) G h n keys (z, r) := by
  have hm : ∀ r : Pos κ, momentum r = ENNReal.ofReal (momentum r).toReal := fun r => (ENNReal.ofReal_toReal (momentum_ne_top r)).symm
  have hm0 : ∀ r : Pos κ, 0 < (momentum r).toReal := fun r => ENNReal.toReal_pos (momentum_ne_zero r) (momentum_ne_top r)
  have hback : leapfrog h G keys n (z', -r') = (z, -r) := by
    have := C33_leapfrog_reversible h G keys hn hk n z r
    simp only [hL] at this
    exact this
  have h1 := redrawn_flow t (fun z => (ht z).le) c q hc (fun b => (hq b).le) G h n keys (z, r) (ht z)
  have h2 := redrawn_flow t (fun z => (ht z).le) c q hc (fun b => (hq b).le) G h n keys (z', -r') (ht z')
  rw [hL] at h1
  rw [hback] at h2
  simp only [momentum_neg] at h2
  simp only at h1
  rw [h1, h2]
  have hlt' : t z' * (momentum r').toReal < t z * (momentum r).toReal := by
    rw [hm r, hm r', ← ENNReal.ofReal_mul (ht z).le, ← ENNReal.ofReal_mul (ht z').le] at hlt
    exact (ENNReal.ofReal_lt_ofReal_iff (mul_pos (ht z) (hm0 r))).mp hlt
  have key := noisy_flow q c hq hc hne (mul_pos (ht z') (hm0 r')) hlt'
  refine (ENNReal.ofReal_lt_ofReal_iff (lt_of_le_of_lt ?_ key)).mpr key
  exact Finset.sum_nonneg fun b _ => Finset.sum_nonneg fun b' _ => mul_nonneg (mul_pos (hq b) (hq b')).le
    (le_min (mul_pos (ht z') (hm0 r')).le (mul_nonneg (div_pos (hc b') (hc b)).le (mul_pos (ht z) (hm0 r)).le))

end

/-! Concrete case: a standard normal target, one step of size 1 from 0 with momentum 1. -/
section
noncomputable def lineTarget (z : Pos (fun _ : Unit => Unit)) : ℝ := Real.exp (-kinetic z)

example : leapfrog 1 (fun z : Pos (fun _ : Unit => Unit) => -z) [()] 1 (0, fun _ _ => 1) = (fun _ _ => 1, fun _ _ => 1 / 2) ∧
    ENNReal.ofReal (lineTarget fun _ _ => 1) * momentum (κ := fun _ : Unit => Unit) (fun _ _ => 1 / 2) <
      ENNReal.ofReal (lineTarget 0) * momentum (κ := fun _ : Unit => Unit) (fun _ _ => 1) := by
  constructor
  · simp only [leapfrog, leapfrogLoop, kickDrift, kick, List.foldl_cons, List.foldl_nil]
    ext i j <;> norm_num [Function.update]
  · obtain ⟨c, hc, hm⟩ := momentum_eq (κ := fun _ : Unit => Unit)
    unfold lineTarget
    rw [hm, hm, ← ENNReal.ofReal_mul (Real.exp_pos _).le, ← ENNReal.ofReal_mul (Real.exp_pos _).le]
    refine (ENNReal.ofReal_lt_ofReal_iff (mul_pos (Real.exp_pos _) (mul_pos hc (Real.exp_pos _)))).mpr ?_
    rw [mul_left_comm, mul_left_comm _ c]
    refine mul_lt_mul_of_pos_left ?_ hc
    rw [← Real.exp_add, ← Real.exp_add]
    apply Real.exp_lt_exp.mpr
    norm_num [kinetic]

end
end Edward
