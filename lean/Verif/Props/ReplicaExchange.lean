/-
Properties C36 (exchange permutes replicas) and C37 (the joint tempered target is
preserved; fails for asymmetric proposals).
-/
import Mathlib.MeasureTheory.Integral.Marginal
import Mathlib.MeasureTheory.Function.SpecialFunctions.Basic
import Mathlib.Logic.Equiv.Fin.Basic
import Verif.Model.ReplicaExchange
import Verif.Props.MetropolisHastings

set_option linter.unusedSectionVars false

namespace Edward

open MeasureTheory ENNReal

/-! ### C36 -/

/-- Result of the loop from position `i`: an involution moving by at most one that
leaves everything below `i` alone. -/
structure IsExchange {n : ℕ} (i : ℕ) (idx : Fin n → Fin n) : Prop where
  invol : ∀ j, idx (idx j) = j
  near : ∀ j, (idx j : ℕ) ≤ j + 1 ∧ (j : ℕ) ≤ idx j + 1
  fixed : ∀ j : Fin n, i ≤ j → idx j = j
  below : ∀ j : Fin n, (j : ℕ) < i → (idx j : ℕ) < i

theorem IsExchange.swap {n : ℕ} {i : ℕ} {idx : Fin n → Fin n} (h : IsExchange i idx) (hi : i + 1 < n) :
    IsExchange (i + 2) (scatterSwap idx ⟨i, by omega⟩ ⟨i + 1, hi⟩) := by
  set x : Fin n := ⟨i, by omega⟩ with hx
  set y : Fin n := ⟨i + 1, hi⟩ with hy
  have hxy : x ≠ y := by simp [hx, hy]
  have ex : scatterSwap idx x y x = y := by simp [scatterSwap, Function.update_of_ne hxy]
  have ey : scatterSwap idx x y y = x := by simp [scatterSwap]
  have eo : ∀ j, j ≠ x → j ≠ y → scatterSwap idx x y j = idx j := by
    intro j h1 h2; simp [scatterSwap, Function.update_of_ne h1, Function.update_of_ne h2]
  have hval : ∀ j : Fin n, j ≠ x → j ≠ y → (j : ℕ) < i ∨ i + 2 ≤ j := by
    intro j h1 h2
    have h1' : (j : ℕ) ≠ i := fun e => h1 (Fin.ext e)
    have h2' : (j : ℕ) ≠ i + 1 := fun e => h2 (Fin.ext e)
    omega
  refine ⟨?_, ?_, ?_, ?_⟩
  · intro j
    by_cases h1 : j = x
    · rw [h1, ex, ey]
    by_cases h2 : j = y
    · rw [h2, ey, ex]
    rw [eo j h1 h2]
    rcases hval j h1 h2 with hlt | hge
    · have hb := h.below j hlt
      rw [eo _ (fun e => by rw [e] at hb; simp [hx] at hb) (fun e => by rw [e] at hb; simp [hy] at hb)]
      exact h.invol j
    · rw [h.fixed j (by omega), eo j h1 h2, h.fixed j (by omega)]
  · intro j
    by_cases h1 : j = x
    · rw [h1, ex]; simp [hx, hy]; omega
    by_cases h2 : j = y
    · rw [h2, ey]; simp [hx, hy]; omega
    rw [eo j h1 h2]; exact h.near j
  · intro j hj
    have h1 : j ≠ x := fun e => by rw [e] at hj; simp [hx] at hj
    have h2 : j ≠ y := fun e => by rw [e] at hj; simp [hy] at hj
    rw [eo j h1 h2]; exact h.fixed j (by omega)
  · intro j hj
    by_cases h1 : j = x
    · rw [h1, ex]; simp [hy]
    by_cases h2 : j = y
    · rw [h2, ey]; simp [hx]
    rw [eo j h1 h2]
    rcases hval j h1 h2 with hlt | hge
    · have := h.below j hlt; omega
    · omega

theorem IsExchange.mono {n : ℕ} {i : ℕ} {idx : Fin n → Fin n} (h : IsExchange i idx) :
    IsExchange (i + 2) idx := by
  refine ⟨h.invol, h.near, fun j hj => h.fixed j (by omega), fun j hj => ?_⟩
  by_cases hlt : (j : ℕ) < i
  · have := h.below j hlt; omega
  · rw [h.fixed j (by omega)]; omega

theorem exchangeLoop_isExchange {n : ℕ} (us : ℕ → ℝ) (lr : Fin n → EReal) (b : Fin n → ℝ)
    (i : ℕ) (idx : Fin n → Fin n) (h : IsExchange i idx) :
    ∃ i', IsExchange i' (exchangeLoop (fun i g => g (us i)) lr b id i idx) := by
  classical
  induction hm : n - i using Nat.strong_induction_on generalizing i idx with
  | _ m ih =>
    rw [exchangeLoop]
    split
    · rename_i hi
      apply ih (n - (i + 2)) (by omega) _ _ _ rfl
      split
      · exact h.swap hi
      · exact h.mono
    · exact ⟨i, h⟩

/-- C36: for every outcome of the draws and all log probabilities and temperatures
(any number of replicas), the exchange step rearranges the replicas by a permutation
which is an involution and moves each replica by at most one position. -/
theorem C36_exchange_permutes {S : Type} {n : ℕ} (m : MHModel S) (b : Fin n → ℝ) (freq u : ℝ)
    (us : ℕ → ℝ) (start : Fin 2) (z : Fin n → S) :
    ∃ σ : Equiv.Perm (Fin n), (∀ i, exchangeStep m b freq u us start z i = z (σ i)) ∧
      (∀ i, σ (σ i) = i) ∧ ∀ i, (σ i : ℕ) ≤ i + 1 ∧ (i : ℕ) ≤ σ i + 1 := by
  classical
  unfold exchangeStep
  split
  · have h0 : IsExchange (start : ℕ) (id : Fin n → Fin n) :=
      ⟨fun _ => rfl, fun j => by simp, fun _ _ => rfl, fun _ h => h⟩
    obtain ⟨i', h⟩ := exchangeLoop_isExchange us (fun j => replicaRatio m (z j)) b start id h0
    refine ⟨⟨_, _, h.invol, h.invol⟩, fun i => rfl, h.invol, h.near⟩
  · exact ⟨Equiv.refl _, fun i => rfl, fun i => rfl, fun i => by simp⟩

/-- C36: no state is lost or duplicated. -/
theorem C36_multiset {S : Type} {n : ℕ} (m : MHModel S) (b : Fin n → ℝ) (freq u : ℝ)
    (us : ℕ → ℝ) (start : Fin 2) (z : Fin n → S) :
    (List.ofFn (exchangeStep m b freq u us start z)).Perm (List.ofFn z) := by
  obtain ⟨σ, h, -⟩ := C36_exchange_permutes m b freq u us start z
  rw [show exchangeStep m b freq u us start z = fun i => z (σ i) from funext h]
  exact Equiv.Perm.ofFn_comp_perm σ z

/-- C36: the step exchanges exactly when its draw is strictly below the frequency: with
frequency zero the replicas never meet, with frequency one they always may. -/
theorem C36_frequency {S : Type} {n : ℕ} (m : MHModel S) (b : Fin n → ℝ) (freq u : ℝ)
    (us : ℕ → ℝ) (start : Fin 2) (z : Fin n → S) :
    (freq ≤ u → exchangeStep m b freq u us start z = z) ∧
    (u < freq → ∀ i, exchangeStep m b freq u us start z i =
      z (exchangeIdx us (fun j => replicaRatio m (z j)) b start i)) := by
  unfold exchangeStep
  exact ⟨fun h => by rw [if_neg (not_lt.mpr h)], fun h i => by rw [if_pos h]⟩

/-- Concrete case: three replicas, the exchange of the first two is accepted. -/
example : exchangeIdx (n := 3) (fun _ => 1/2) (fun i => if i = 0 then 0 else 5)
    (fun i => if i = 0 then 1 else 0.5) 0 = ![1, 0, 2] := by
  classical
  unfold exchangeIdx
  rw [exchangeLoop, dif_pos (by decide)]
  dsimp only
  rw [exchangeLoop, dif_neg (by decide), if_pos]
  · funext i; fin_cases i <;> rfl
  · unfold accepts
    simp only [Fin.val_zero, Fin.mk_zero, if_true]
    have h1 : log (ENNReal.ofReal (1/2)) < 0 := by
      rw [← log_one, log_lt_log_iff]
      rw [ENNReal.ofReal_lt_one]; norm_num
    refine h1.trans ?_
    rw [if_neg (by decide), if_neg (by decide)]
    have : ((0 : EReal) - 5) * ((0.5 - 1 : ℝ) : EReal) = ((2.5 : ℝ) : EReal) := by
      have e5 : (5 : EReal) = ((5 : ℝ) : EReal) := rfl
      rw [e5, ← EReal.coe_zero, ← EReal.coe_sub, ← EReal.coe_mul]
      norm_num
    rw [this]
    exact_mod_cast (by norm_num : (0:ℝ) < 2.5)

/-! ### C37: specification -/

/-- Joint target of the replicas: replica `i` has density `p(x, z)^(b i)`. -/
noncomputable def temperedTarget {S : Type} {n : ℕ} (m : MHModel S) (b : Fin n → ℝ) (z : Fin n → S) : ℝ≥0∞ :=
  ∏ i, (m.joint (z i)) ^ (b i)

/-! ### Exchange -/

section
variable {S : Type} {n : ℕ}

theorem replicaRatio_eq (m : MHModel S) (z : S) : replicaRatio m z = log (m.joint z) := by
  unfold replicaRatio MHModel.joint
  rw [← log_one, foldl_add_log m.priors (fun p => p z), foldl_add_log m.liks (fun p => p z), one_mul]

theorem pair_ratio_eq (a c : ℝ≥0∞) (t : ℝ) :
    (log a - log c) * ((t : ℝ) : EReal) = log ((a * c⁻¹) ^ t) := by
  rw [log_rpow, log_mul_add, log_inv, sub_eq_add_neg, mul_comm]

/-- Swapping two entries. -/
def swapAt (x y : Fin n) (z : Fin n → S) : Fin n → S := fun i => z (Equiv.swap x y i)

theorem swapAt_swapAt (x y : Fin n) (z : Fin n → S) : swapAt x y (swapAt x y z) = z := by
  funext i; simp [swapAt]

theorem target_split (m : MHModel S) (b : Fin n → ℝ) (x y : Fin n) (hxy : x ≠ y) (z : Fin n → S) :
    temperedTarget m b z = m.joint (z x) ^ b x * (m.joint (z y) ^ b y *
      ∏ i ∈ (Finset.univ.erase x).erase y, m.joint (z i) ^ b i) := by
  unfold temperedTarget
  rw [← Finset.mul_prod_erase Finset.univ _ (Finset.mem_univ x),
    ← Finset.mul_prod_erase (Finset.univ.erase x) _ (Finset.mem_erase.mpr ⟨hxy.symm, Finset.mem_univ y⟩)]

theorem target_swap_split (m : MHModel S) (b : Fin n → ℝ) (x y : Fin n) (hxy : x ≠ y) (z : Fin n → S) :
    temperedTarget m b (swapAt x y z) = m.joint (z y) ^ b x * (m.joint (z x) ^ b y *
      ∏ i ∈ (Finset.univ.erase x).erase y, m.joint (z i) ^ b i) := by
  rw [target_split m b x y hxy]
  simp only [swapAt, Equiv.swap_apply_left, Equiv.swap_apply_right]
  congr 2
  refine Finset.prod_congr rfl fun i hi => ?_
  rw [Finset.mem_erase, Finset.mem_erase] at hi
  rw [Equiv.swap_apply_of_ne_of_ne hi.2.1 hi.1]

theorem target_ne_top (m : MHModel S) (hf : ∀ s, m.joint s ≠ ∞) (b : Fin n → ℝ) (hb : ∀ i, 0 < b i)
    (z : Fin n → S) : temperedTarget m b z ≠ ∞ := by
  unfold temperedTarget
  exact ENNReal.prod_ne_top fun i _ => ENNReal.rpow_ne_top_of_nonneg (hb i).le (hf _)

/-- Acceptance probability of the exchange of `x` and `y`. -/
noncomputable def pairAccept (m : MHModel S) (b : Fin n → ℝ) (x y : Fin n) (z : Fin n → S) : ℝ≥0∞ :=
  acceptProb ((replicaRatio m (z x) - replicaRatio m (z y)) * ((b y - b x : ℝ) : EReal))

theorem pairAccept_eq (m : MHModel S) (b : Fin n → ℝ) (x y : Fin n) (z : Fin n → S) :
    pairAccept m b x y z = min 1 ((m.joint (z x) * (m.joint (z y))⁻¹) ^ (b y - b x)) := by
  unfold pairAccept
  rw [replicaRatio_eq, replicaRatio_eq, pair_ratio_eq, acceptProb_log]

theorem pair_balance (m : MHModel S) (hf : ∀ s, m.joint s ≠ ∞) (b : Fin n → ℝ) (hb : ∀ i, 0 < b i)
    (x y : Fin n) (hxy : x ≠ y) (z : Fin n → S) :
    temperedTarget m b z * pairAccept m b x y z =
      min (temperedTarget m b z) (temperedTarget m b (swapAt x y z)) := by
  by_cases h0 : temperedTarget m b z = 0
  · simp [h0]
  have hz : ∀ i, m.joint (z i) ≠ 0 := by
    intro i hi
    apply h0
    unfold temperedTarget
    refine Finset.prod_eq_zero (Finset.mem_univ i) ?_
    rw [hi, ENNReal.zero_rpow_of_pos (hb i)]
  rw [pairAccept_eq, ← mul_min_one_div h0 (target_ne_top m hf b hb z)]
  congr 2
  set c := ∏ i ∈ (Finset.univ.erase x).erase y, m.joint (z i) ^ b i with hc
  rw [target_split m b x y hxy z, target_swap_split m b x y hxy z, ← hc]
  have hc0 : c ≠ 0 := by
    rw [hc, Finset.prod_ne_zero_iff]
    intro i _
    rw [ne_eq, ENNReal.rpow_eq_zero_iff]
    rintro (⟨h, -⟩ | ⟨h, -⟩)
    · exact hz i h
    · exact hf _ h
  have hct : c ≠ ∞ := ENNReal.prod_ne_top fun i _ => ENNReal.rpow_ne_top_of_nonneg (hb i).le (hf _)
  rw [ENNReal.eq_div_iff]
  · rw [ENNReal.mul_rpow_of_ne_top (hf _) (ENNReal.inv_ne_top.mpr (hz y)), ENNReal.inv_rpow, ← ENNReal.rpow_neg,
      show -(b y - b x) = b x - b y by ring, ENNReal.rpow_sub _ _ (hz x) (hf _), ENNReal.rpow_sub _ _ (hz y) (hf _)]
    have e : ∀ s t, m.joint s ^ t = m.joint s ^ t := fun _ _ => rfl
    have nz : ∀ i (t : ℝ), m.joint (z i) ^ t ≠ 0 := by
      intro i t
      rw [ne_eq, ENNReal.rpow_eq_zero_iff]
      rintro (⟨h, -⟩ | ⟨h, -⟩)
      · exact hz i h
      · exact hf _ h
    have nt : ∀ i j, m.joint (z i) ^ b j ≠ ∞ := fun i j => ENNReal.rpow_ne_top_of_nonneg (hb j).le (hf _)
    rw [div_eq_mul_inv, div_eq_mul_inv]
    calc _ = (m.joint (z x) ^ b x * (m.joint (z x) ^ b x)⁻¹) * (m.joint (z y) ^ b y * (m.joint (z y) ^ b y)⁻¹) *
          (m.joint (z y) ^ b x * (m.joint (z x) ^ b y * c)) := by ring
      _ = _ := by rw [ENNReal.mul_inv_cancel (nz _ _) (nt _ _), ENNReal.mul_inv_cancel (nz _ _) (nt _ _)]; ring
  · rw [← target_split m b x y hxy z]; exact h0
  · rw [← target_split m b x y hxy z]; exact target_ne_top m hf b hb z

variable [MeasurableSpace S]

theorem measurable_swapAt (x y : Fin n) : Measurable (swapAt x y : (Fin n → S) → Fin n → S) :=
  measurable_pi_lambda _ fun _ => measurable_pi_apply _

theorem swapAt_measurePreserving (ρ : Measure S) [SigmaFinite ρ] (x y : Fin n) :
    MeasurePreserving (swapAt x y : (Fin n → S) → Fin n → S) (Measure.pi fun _ => ρ) (Measure.pi fun _ => ρ) := by
  have := measurePreserving_piCongrLeft (fun _ : Fin n => ρ) (Equiv.swap x y)
  convert this using 1
  funext z i
  rw [MeasurableEquiv.coe_piCongrLeft]
  conv_rhs => rw [← Equiv.apply_symm_apply (Equiv.swap x y) i]
  rw [Equiv.piCongrLeft_apply_apply]
  simp [swapAt]

theorem measurable_target (m : MHModel S) (hm : Measurable m.joint) (b : Fin n → ℝ) :
    Measurable (temperedTarget m b) := by
  unfold temperedTarget
  exact Finset.measurable_prod _ fun i _ => (hm.comp (measurable_pi_apply i)).pow_const _

theorem measurable_pairAccept (m : MHModel S) (hm : Measurable m.joint) (b : Fin n → ℝ) (x y : Fin n) :
    Measurable (pairAccept m b x y) := by
  have : pairAccept m b x y = fun z => min 1 ((m.joint (z x) * (m.joint (z y))⁻¹) ^ (b y - b x)) :=
    funext (pairAccept_eq m b x y)
  rw [this]
  exact measurable_const.min (((hm.comp (measurable_pi_apply x)).mul
    (hm.comp (measurable_pi_apply y)).inv).pow_const _)

/-- Exchange of one pair preserves the target. -/
theorem pair_invariant (m : MHModel S) (hm : Measurable m.joint) (hf : ∀ s, m.joint s ≠ ∞)
    (b : Fin n → ℝ) (hb : ∀ i, 0 < b i) (ρ : Measure S) [SigmaFinite ρ] (x y : Fin n) (hxy : x ≠ y)
    (f : (Fin n → S) → ℝ≥0∞) (hfm : Measurable f) :
    ∫⁻ z, temperedTarget m b z * (pairAccept m b x y z * f (swapAt x y z) +
      (1 - pairAccept m b x y z) * f z) ∂(Measure.pi fun _ => ρ) =
    ∫⁻ z, temperedTarget m b z * f z ∂(Measure.pi fun _ => ρ) := by
  have := involutive_reversible (Measure.pi fun _ : Fin n => ρ) (swapAt x y)
    (swapAt_measurePreserving ρ x y) (swapAt_swapAt x y) (temperedTarget m b) (measurable_target m hm b)
    (target_ne_top m hf b hb) (pairAccept m b x y) (pair_balance m hf b hb x y hxy) f (fun _ => 1)
    hfm measurable_const
  simp only [mul_one] at this
  rw [this]
  congr 1
  funext z
  have h1 : pairAccept m b x y z + (1 - pairAccept m b x y z) = 1 :=
    add_tsub_cancel_of_le (acceptProb_le_one _)
  rw [h1, mul_one]

/-- Loop on permuted replicas. -/
theorem exchangeLoop_shift {R : Type} (draw : ℕ → (ℝ → R) → R) (m : MHModel S) (b : Fin n → ℝ)
    (f : (Fin n → S) → R) (i : ℕ) (idx : Fin n → Fin n) (z : Fin n → S)
    (hid : ∀ j : Fin n, i ≤ j → idx j = j) :
    exchangeLoop draw (fun j => replicaRatio m (z j)) b (fun k => f (fun j => z (k j))) i idx =
    exchangeLoop draw (fun j => replicaRatio m (z (idx j))) b (fun k => f (fun j => z (idx (k j)))) i id := by
  classical
  induction hk : n - i using Nat.strong_induction_on generalizing i idx z with
  | _ k ih =>
    rw [exchangeLoop, exchangeLoop]
    by_cases hi : i + 1 < n
    · rw [dif_pos hi, dif_pos hi]
      dsimp only
      set x : Fin n := ⟨i, by omega⟩ with hx
      set y : Fin n := ⟨i + 1, hi⟩ with hy
      have ex : idx x = x := hid x (by simp [hx])
      have ey : idx y = y := hid y (by simp [hy])
      rw [ex, ey]
      congr 1
      funext u
      have hlt : n - (i + 2) < k := by omega
      by_cases hacc : accepts u ((replicaRatio m (z x) - replicaRatio m (z y)) * ((b y - b x : ℝ) : EReal))
      · rw [if_pos hacc, if_pos hacc]
        have hfix : ∀ w : Fin n → Fin n, (∀ j : Fin n, i ≤ j → w j = j) → ∀ j : Fin n, i + 2 ≤ j →
            scatterSwap w x y j = j := by
          intro w hw j hj
          have h1 : j ≠ x := fun e => by rw [e] at hj; simp [hx] at hj
          have h2 : j ≠ y := fun e => by rw [e] at hj; simp [hy] at hj
          simp only [scatterSwap, Function.update_of_ne h1, Function.update_of_ne h2]
          exact hw j (by omega)
        rw [ih _ hlt _ _ _ (hfix idx hid) rfl,
          ih _ hlt (i + 2) (scatterSwap id x y) (fun j => z (idx j)) (hfix id (fun _ _ => rfl)) rfl]
        have e : ∀ j, scatterSwap idx x y j = idx (scatterSwap id x y j) := by
          intro j
          unfold scatterSwap
          by_cases h2 : j = y
          · subst h2; simp [ex]
          · rw [Function.update_of_ne h2, Function.update_of_ne h2]
            by_cases h1 : j = x
            · subst h1; simp [ey]
            · rw [Function.update_of_ne h1, Function.update_of_ne h1]; rfl
        simp only [e]
      · rw [if_neg hacc, if_neg hacc]
        rw [ih _ hlt _ _ _ (fun j hj => hid j (by omega)) rfl]
    · rw [dif_neg hi, dif_neg hi]; rfl

theorem scatterSwap_id (x y : Fin n) (hxy : x ≠ y) : scatterSwap id x y = fun j => Equiv.swap x y j := by
  funext j
  unfold scatterSwap
  by_cases h2 : j = y
  · subst h2; simp
  · rw [Function.update_of_ne h2]
    by_cases h1 : j = x
    · subst h1; simp
    · rw [Function.update_of_ne h1, Equiv.swap_apply_of_ne_of_ne h1 h2]; rfl

/-- The loop in expectation. -/
noncomputable def loopExpect (m : MHModel S) (b : Fin n → ℝ) (f : (Fin n → S) → ℝ≥0∞) (i : ℕ)
    (z : Fin n → S) : ℝ≥0∞ :=
  exchangeLoop (fun _ => unif) (fun j => replicaRatio m (z j)) b (fun k => f (fun j => z (k j))) i id

theorem loopExpect_step (m : MHModel S) (b : Fin n → ℝ) (f : (Fin n → S) → ℝ≥0∞) (i : ℕ) (hi : i + 1 < n)
    (z : Fin n → S) :
    loopExpect m b f i z = pairAccept m b ⟨i, by omega⟩ ⟨i + 1, hi⟩ z *
        loopExpect m b f (i + 2) (swapAt ⟨i, by omega⟩ ⟨i + 1, hi⟩ z) +
      (1 - pairAccept m b ⟨i, by omega⟩ ⟨i + 1, hi⟩ z) * loopExpect m b f (i + 2) z := by
  classical
  set x : Fin n := ⟨i, by omega⟩ with hx
  set y : Fin n := ⟨i + 1, hi⟩ with hy
  have hxy : x ≠ y := by simp [hx, hy]
  unfold pairAccept
  rw [← lintegral_accept]
  conv_lhs => unfold loopExpect
  rw [exchangeLoop, dif_pos hi]
  dsimp only
  rw [← hx, ← hy]
  unfold unif
  congr 1
  funext u
  dsimp only
  by_cases hacc : accepts u ((replicaRatio m (z x) - replicaRatio m (z y)) * ((b y - b x : ℝ) : EReal))
  · rw [if_pos hacc, if_pos hacc]
    have hfix : ∀ j : Fin n, i + 2 ≤ j → scatterSwap id x y j = j := by
      intro j hj
      have h1 : j ≠ x := fun e => by rw [e] at hj; simp [hx] at hj
      have h2 : j ≠ y := fun e => by rw [e] at hj; simp [hy] at hj
      simp [scatterSwap, Function.update_of_ne h1, Function.update_of_ne h2]
    have := exchangeLoop_shift (fun _ => unif) m b f (i + 2) (scatterSwap id x y) z hfix
    rw [scatterSwap_id x y hxy] at this ⊢
    exact this
  · rw [if_neg hacc, if_neg hacc]; rfl

theorem loopExpect_stop (m : MHModel S) (b : Fin n → ℝ) (f : (Fin n → S) → ℝ≥0∞) (i : ℕ) (hi : ¬ i + 1 < n)
    (z : Fin n → S) : loopExpect m b f i z = f z := by
  unfold loopExpect
  rw [exchangeLoop, dif_neg hi]; rfl

theorem measurable_loopExpect (m : MHModel S) (hm : Measurable m.joint) (b : Fin n → ℝ)
    (f : (Fin n → S) → ℝ≥0∞) (hf : Measurable f) (i : ℕ) : Measurable (loopExpect m b f i) := by
  induction hk : n - i using Nat.strong_induction_on generalizing i with
  | _ k ih =>
    by_cases hi : i + 1 < n
    · rw [show loopExpect m b f i = _ from funext (loopExpect_step m b f i hi)]
      have h2 := ih (n - (i + 2)) (by omega) (i + 2) rfl
      exact ((measurable_pairAccept m hm b _ _).mul (h2.comp (measurable_swapAt _ _))).add
        ((measurable_const.sub (measurable_pairAccept m hm b _ _)).mul h2)
    · rw [show loopExpect m b f i = _ from funext (loopExpect_stop m b f i hi)]; exact hf

theorem loopExpect_invariant (m : MHModel S) (hm : Measurable m.joint) (hf : ∀ s, m.joint s ≠ ∞)
    (b : Fin n → ℝ) (hb : ∀ i, 0 < b i) (ρ : Measure S) [SigmaFinite ρ]
    (f : (Fin n → S) → ℝ≥0∞) (hfm : Measurable f) (i : ℕ) :
    ∫⁻ z, temperedTarget m b z * loopExpect m b f i z ∂(Measure.pi fun _ => ρ) =
    ∫⁻ z, temperedTarget m b z * f z ∂(Measure.pi fun _ => ρ) := by
  induction hk : n - i using Nat.strong_induction_on generalizing i with
  | _ k ih =>
    by_cases hi : i + 1 < n
    · simp only [loopExpect_step m b f i hi]
      rw [pair_invariant m hm hf b hb ρ _ _ (by simp) (loopExpect m b f (i + 2))
        (measurable_loopExpect m hm b f hfm (i + 2))]
      exact ih (n - (i + 2)) (by omega) (i + 2) rfl
    · simp only [loopExpect_stop m b f i hi]

theorem exchangeExpect_eq (m : MHModel S) (b : Fin n → ℝ) (freq : ℝ) (f : (Fin n → S) → ℝ≥0∞) :
    ∃ q r : ℝ≥0∞, q + r = 1 ∧ ∀ z, exchangeExpect m b freq f z =
      q * (2⁻¹ * (loopExpect m b f 0 z + loopExpect m b f 1 z)) + r * f z := by
  classical
  have hms : MeasurableSet {u : ℝ | u < freq} := measurableSet_Iio
  refine ⟨(volume.restrict (Set.Ico (0 : ℝ) 1)) {u | u < freq},
    (volume.restrict (Set.Ico (0 : ℝ) 1)) {u | u < freq}ᶜ, ?_, fun z => ?_⟩
  · rw [measure_add_measure_compl hms]; simp
  · unfold exchangeExpect unif
    have e : (fun u : ℝ => if u < freq then 2⁻¹ * ∑ start : Fin 2, exchangeLoop
        (fun _ (g : ℝ → ℝ≥0∞) => ∫⁻ u in Set.Ico (0 : ℝ) 1, g u) (fun j => replicaRatio m (z j)) b
        (fun idx => f (fun i => z (idx i))) start id else f z) =
        fun u => Set.indicator {u | u < freq} (fun _ => 2⁻¹ * (loopExpect m b f 0 z + loopExpect m b f 1 z)) u +
          Set.indicator {u | u < freq}ᶜ (fun _ => f z) u := by
      funext u
      by_cases hu : u < freq
      · simp only [hu, if_true, Fin.sum_univ_two]
        simp [hu]; rfl
      · simp [hu]
    rw [e, lintegral_add_left (measurable_const.indicator hms),
      lintegral_indicator_const hms, lintegral_indicator_const hms.compl]
    ring

/-- C37: the exchange step preserves the joint tempered target, for any number of
replicas, positive inverse temperatures, exchange frequency and model. -/
theorem C37_exchange_invariant (m : MHModel S) (hm : Measurable m.joint) (hf : ∀ s, m.joint s ≠ ∞)
    (b : Fin n → ℝ) (hb : ∀ i, 0 < b i) (freq : ℝ) (ρ : Measure S) [SigmaFinite ρ]
    (f : (Fin n → S) → ℝ≥0∞) (hfm : Measurable f) :
    ∫⁻ z, temperedTarget m b z * exchangeExpect m b freq f z ∂(Measure.pi fun _ => ρ) =
    ∫⁻ z, temperedTarget m b z * f z ∂(Measure.pi fun _ => ρ) := by
  obtain ⟨q, r, hqr, he⟩ := exchangeExpect_eq m b freq f
  have mt := measurable_target m hm b
  have m0 := measurable_loopExpect m hm b f hfm 0
  have m1 := measurable_loopExpect m hm b f hfm 1
  have e : ∀ z, temperedTarget m b z * exchangeExpect m b freq f z =
      (q * 2⁻¹) * (temperedTarget m b z * loopExpect m b f 0 z) +
      ((q * 2⁻¹) * (temperedTarget m b z * loopExpect m b f 1 z) + r * (temperedTarget m b z * f z)) := by
    intro z; rw [he]; ring
  simp only [e]
  have p0 : Measurable (fun z => temperedTarget m b z * loopExpect m b f 0 z) := mt.mul m0
  have p1 : Measurable (fun z => temperedTarget m b z * loopExpect m b f 1 z) := mt.mul m1
  have pf : Measurable (fun z => temperedTarget m b z * f z) := mt.mul hfm
  rw [lintegral_add_left (p0.const_mul _), lintegral_add_left (p1.const_mul _),
    lintegral_const_mul _ p0, lintegral_const_mul _ p1, lintegral_const_mul _ pf,
    loopExpect_invariant m hm hf b hb ρ f hfm, loopExpect_invariant m hm hf b hb ρ f hfm, ← add_assoc,
    ← add_mul, ← mul_add, ENNReal.inv_two_add_inv_two, mul_one, ← add_mul, hqr, one_mul]

end

/-! ### Moves of the replicas -/

section
variable {Y W : Type} [MeasurableSpace Y] [MeasurableSpace W] {n : ℕ}

/-- The exponential of the accumulated ratio, for all states. -/
noncomputable def ratioE {S : Type} (m : MHModel S) (old new : S) : ℝ≥0∞ :=
  1 * (m.proposals.map (fun g => (g old new)⁻¹)).prod * (m.proposals.map (fun g => g new old)).prod *
    (m.priors.map (fun p => p new * (p old)⁻¹)).prod * (m.liks.map (fun p => p new * (p old)⁻¹)).prod

theorem ratio_eq_log {S : Type} (m : MHModel S) (old new : S) : m.ratio old new = log (ratioE m old new) := by
  unfold MHModel.ratio ratioE
  dsimp only
  rw [show (0 : EReal) = log 1 from log_one.symm, foldl_sub_log, foldl_add_log, foldl_add_sub_log,
    foldl_add_sub_log]

theorem temperedRatio_eq {S : Type} (m : MHModel S) (b : ℝ) (old new : S) :
    temperedRatio m b old new = log (ratioE m old new ^ b) := by
  unfold temperedRatio; rw [ratio_eq_log, log_rpow, mul_comm]

theorem measurable_ratioE {m : MHModel (Y × W)} (hm : m.Meas) :
    Measurable (fun q : (Y × W) × (Y × W) => ratioE m q.1 q.2) := by
  unfold ratioE
  refine Measurable.mul (Measurable.mul (Measurable.mul (measurable_const.mul ?_) ?_) ?_) ?_
  · exact measurable_list_prod m.proposals (fun g (q : (Y × W) × (Y × W)) => (g q.1 q.2)⁻¹)
      fun g hg => (hm.proposals g hg).inv
  · exact measurable_list_prod m.proposals (fun g (q : (Y × W) × (Y × W)) => g q.2 q.1)
      fun g hg => (hm.proposals g hg).comp measurable_swap
  · exact measurable_list_prod m.priors (fun p (q : (Y × W) × (Y × W)) => p q.2 * (p q.1)⁻¹)
      fun p hp => ((hm.priors p hp).comp measurable_snd).mul ((hm.priors p hp).comp measurable_fst).inv
  · exact measurable_list_prod m.liks (fun p (q : (Y × W) × (Y × W)) => p q.2 * (p q.1)⁻¹)
      fun p hp => ((hm.liks p hp).comp measurable_snd).mul ((hm.liks p hp).comp measurable_fst).inv

theorem measurable_temperedAccept {m : MHModel (Y × W)} (hm : m.Meas) (b : ℝ) :
    Measurable (fun q : (Y × W) × (Y × W) => acceptProb (temperedRatio m b q.1 q.2)) := by
  simp only [temperedRatio_eq, acceptProb_log]
  exact measurable_const.min ((measurable_ratioE hm).pow_const _)

/-- The joint proposal density is symmetric (random walk proposals). -/
def MHModel.Symmetric {S : Type} (m : MHModel S) : Prop := ∀ s s', m.propose s s' = m.propose s' s

/-- With symmetric proposals the tempered ratio is the Metropolis-Hastings ratio of the
tempered density. -/
theorem tempered_isMH {m : MHModel (Y × W)} (hf : m.Finite) (hm : m.Meas) (hs : m.Symmetric) (b : ℝ) (hb : 0 < b) :
    IsMH (fun s => m.joint s ^ b) m.propose (temperedRatio m b) where
  joint_meas := (m.measurable_joint hm).pow_const _
  joint_fin := fun s => ENNReal.rpow_ne_top_of_nonneg hb.le (m.finite_joint hf s)
  prop_meas := m.measurable_propose hm
  prop_fin := m.finite_propose hf
  ratio_eq := by
    intro old new h0 hg
    have h0' : m.joint old ≠ 0 := by
      intro h; apply h0; rw [h, ENNReal.zero_rpow_of_pos hb]
    unfold temperedRatio
    rw [mh_ratio m hf old new h0' hg, mul_comm, ← log_rpow, hs new old]
    congr 1
    have hg' := m.finite_propose hf old new
    rw [ENNReal.mul_div_mul_right _ _ hg hg', ENNReal.mul_div_mul_right _ _ hg hg']
    exact ENNReal.div_rpow_of_nonneg _ _ hb.le

theorem measurable_update_pair (i : Fin n) :
    Measurable (fun q : (Fin n → Y × W) × (Y × W) => Function.update q.1 i q.2) := by
  refine measurable_pi_lambda _ fun j => ?_
  by_cases h : j = i
  · subst h; simp only [Function.update_self]; exact measurable_snd
  · simp only [Function.update_of_ne h]; exact (measurable_pi_apply j).comp measurable_fst

theorem measurable_replicaMoves {m : MHModel (Y × W)} (hm : m.Meas) (μ : Measure Y) [SFinite μ]
    (b : Fin n → ℝ) (f : (Fin n → Y × W) → ℝ≥0∞) (hf : Measurable f) (l : List (Fin n)) :
    Measurable (replicaMoves m μ b f l) := by
  induction l with
  | nil => exact hf
  | cons i l ih =>
    have e : replicaMoves m μ b f (i :: l) = fun z => ∫⁻ y', m.propose (z i) (y', (z i).2) *
        (acceptProb (temperedRatio m (b i) (z i) (y', (z i).2)) *
          replicaMoves m μ b f l (Function.update z i (y', (z i).2)) +
        (1 - acceptProb (temperedRatio m (b i) (z i) (y', (z i).2))) *
          replicaMoves m μ b f l (Function.update z i (z i))) ∂μ := by
      funext z; simp only [replicaMoves, acceptReject_eq]
    rw [e]
    refine Measurable.lintegral_prod_right' (f := fun q : (Fin n → Y × W) × Y =>
      m.propose (q.1 i) (q.2, (q.1 i).2) *
        (acceptProb (temperedRatio m (b i) (q.1 i) (q.2, (q.1 i).2)) *
          replicaMoves m μ b f l (Function.update q.1 i (q.2, (q.1 i).2)) +
        (1 - acceptProb (temperedRatio m (b i) (q.1 i) (q.2, (q.1 i).2))) *
          replicaMoves m μ b f l (Function.update q.1 i (q.1 i)))) ?_
    have hold : Measurable (fun q : (Fin n → Y × W) × Y => q.1 i) := (measurable_pi_apply i).comp measurable_fst
    have hnew : Measurable (fun q : (Fin n → Y × W) × Y => ((q.2, (q.1 i).2) : Y × W)) :=
      measurable_snd.prodMk (measurable_snd.comp hold)
    have hp : Measurable (fun q : (Fin n → Y × W) × Y => m.propose (q.1 i) (q.2, (q.1 i).2)) :=
      (m.measurable_propose hm).comp (hold.prodMk hnew)
    have ha : Measurable (fun q : (Fin n → Y × W) × Y =>
        acceptProb (temperedRatio m (b i) (q.1 i) (q.2, (q.1 i).2))) :=
      Measurable.comp (g := fun q : (Y × W) × (Y × W) => acceptProb (temperedRatio m (b i) q.1 q.2))
        (f := fun q : (Fin n → Y × W) × Y => (q.1 i, ((q.2, (q.1 i).2) : Y × W)))
        (measurable_temperedAccept hm (b i)) (hold.prodMk hnew)
    have hu1 : Measurable (fun q : (Fin n → Y × W) × Y =>
        replicaMoves m μ b f l (Function.update q.1 i (q.2, (q.1 i).2))) :=
      ih.comp ((measurable_update_pair i).comp (measurable_fst.prodMk hnew))
    have hu2 : Measurable (fun q : (Fin n → Y × W) × Y =>
        replicaMoves m μ b f l (Function.update q.1 i (q.1 i))) :=
      ih.comp ((measurable_update_pair i).comp (measurable_fst.prodMk hold))
    generalize replicaMoves m μ b f l = F at hu1 hu2 ⊢
    exact hp.mul ((ha.mul hu1).add ((measurable_const.sub ha).mul hu2))

theorem target_update {S : Type} (m : MHModel S) (b : Fin n → ℝ) (z : Fin n → S) (i : Fin n) (s : S) :
    temperedTarget m b (Function.update z i s) =
      m.joint s ^ b i * ∏ j ∈ Finset.univ.erase i, m.joint (z j) ^ b j := by
  unfold temperedTarget
  rw [← Finset.mul_prod_erase Finset.univ _ (Finset.mem_univ i), Function.update_self]
  congr 1
  refine Finset.prod_congr rfl fun j hj => ?_
  rw [Function.update_of_ne (Finset.ne_of_mem_erase hj)]

/-- The moves preserve the joint tempered target if the proposals are symmetric. -/
theorem replicaMoves_invariant {m : MHModel (Y × W)} (hf : m.Finite) (hm : m.Meas) (hs : m.Symmetric)
    (b : Fin n → ℝ) (hb : ∀ i, 0 < b i) (μ : Measure Y) [SigmaFinite μ] (ν : Measure W) [SigmaFinite ν]
    (hnorm : ∀ s : Y × W, ∫⁻ y', m.propose s (y', s.2) ∂μ = 1)
    (f : (Fin n → Y × W) → ℝ≥0∞) (hfm : Measurable f) (l : List (Fin n)) :
    ∫⁻ z, temperedTarget m b z * replicaMoves m μ b f l z ∂(Measure.pi fun _ => μ.prod ν) =
    ∫⁻ z, temperedTarget m b z * f z ∂(Measure.pi fun _ => μ.prod ν) := by
  have mt := measurable_target m (m.measurable_joint hm) b
  induction l with
  | nil => rfl
  | cons i l ih =>
    rw [← ih]
    have hk := measurable_replicaMoves hm μ b f hfm l
    have hk' := measurable_replicaMoves hm μ b f hfm (i :: l)
    refine lintegral_eq_of_lmarginal_eq {i} (mt.mul hk') (mt.mul hk) ?_
    rw [lmarginal_singleton, lmarginal_singleton]
    funext z
    set c := ∏ j ∈ Finset.univ.erase i, m.joint (z j) ^ b j with hc
    have hi := tempered_isMH hf hm hs (b i) (hb i)
    set F : Y × W → ℝ≥0∞ := fun s => replicaMoves m μ b f l (Function.update z i s) with hF
    have hFm : Measurable F := hk.comp ((measurable_update_pair i).comp (measurable_const.prodMk measurable_id))
    have e1 : ∀ s, (temperedTarget m b * replicaMoves m μ b f (i :: l)) (Function.update z i s) =
        c * (m.joint s ^ b i * acceptReject μ m.propose (temperedRatio m (b i)) F s) := by
      intro s
      simp only [Pi.mul_apply, target_update, replicaMoves, Function.update_self, Function.update_idem, hF]
      ring
    have e2 : ∀ s, (temperedTarget m b * replicaMoves m μ b f l) (Function.update z i s) =
        c * (m.joint s ^ b i * F s) := by
      intro s
      simp only [Pi.mul_apply, target_update, hF]
      ring
    have hct : c ≠ ∞ := ENNReal.prod_ne_top fun j _ =>
      ENNReal.rpow_ne_top_of_nonneg (hb j).le (m.finite_joint hf _)
    change ∫⁻ s, (temperedTarget m b * replicaMoves m μ b f (i :: l)) (Function.update z i s) ∂(μ.prod ν) =
      ∫⁻ s, (temperedTarget m b * replicaMoves m μ b f l) (Function.update z i s) ∂(μ.prod ν)
    have hup : Measurable (fun s : Y × W => Function.update z i s) :=
      (measurable_update_pair i).comp (measurable_const.prodMk measurable_id)
    have m1 : Measurable (fun s => c * (m.joint s ^ b i * acceptReject μ m.propose (temperedRatio m (b i)) F s)) := by
      have := (mt.mul hk').comp hup
      simpa only [Function.comp_def, e1] using this
    have m2 : Measurable (fun s => c * (m.joint s ^ b i * F s)) := by
      have := (mt.mul hk).comp hup
      simpa only [Function.comp_def, e2] using this
    simp only [e1, e2]
    rw [lintegral_prod_symm _ m1.aemeasurable, lintegral_prod_symm _ m2.aemeasurable]
    have hinner : ∀ G : Y × W → ℝ≥0∞, ∫⁻ w, ∫⁻ y, c * G (y, w) ∂μ ∂ν = c * ∫⁻ w, ∫⁻ y, G (y, w) ∂μ ∂ν := by
      intro G
      simp only [lintegral_const_mul' c _ hct]
    rw [hinner (fun s => m.joint s ^ b i * acceptReject μ m.propose (temperedRatio m (b i)) F s),
      hinner (fun s => m.joint s ^ b i * F s)]
    congr 1
    exact hi.invariant μ ν hnorm F hFm

theorem measurable_exchangeExpect {S : Type} [MeasurableSpace S] (m : MHModel S) (hm : Measurable m.joint)
    (b : Fin n → ℝ) (freq : ℝ) (f : (Fin n → S) → ℝ≥0∞) (hf : Measurable f) :
    Measurable (exchangeExpect m b freq f) := by
  obtain ⟨q, r, -, he⟩ := exchangeExpect_eq m b freq f
  rw [show exchangeExpect m b freq f = _ from funext he]
  exact ((((measurable_loopExpect m hm b f hf 0).add (measurable_loopExpect m hm b f hf 1)).const_mul _).const_mul _).add
    (hf.const_mul _)

/-- C37, for symmetric proposals: one update (moves of all replicas, then exchange)
preserves the product of the tempered densities. Without symmetry the claim is false:
see `C37_fails`. -/
theorem C37_update_partial {m : MHModel (Y × W)} (hf : m.Finite) (hm : m.Meas) (hs : m.Symmetric)
    (b : Fin n → ℝ) (hb : ∀ i, 0 < b i) (freq : ℝ) (μ : Measure Y) [SigmaFinite μ]
    (ν : Measure W) [SigmaFinite ν] (hnorm : ∀ s : Y × W, ∫⁻ y', m.propose s (y', s.2) ∂μ = 1)
    (f : (Fin n → Y × W) → ℝ≥0∞) (hfm : Measurable f) :
    ∫⁻ z, temperedTarget m b z * replicaExpect m μ b freq f z ∂(Measure.pi fun _ => μ.prod ν) =
    ∫⁻ z, temperedTarget m b z * f z ∂(Measure.pi fun _ => μ.prod ν) := by
  unfold replicaExpect
  rw [replicaMoves_invariant hf hm hs b hb μ ν hnorm _
      (measurable_exchangeExpect m (m.measurable_joint hm) b freq f hfm),
    C37_exchange_invariant m (m.measurable_joint hm) (m.finite_joint hf) b hb freq (μ.prod ν) f hfm]

end

/-! ### Asymmetric proposals -/

/-- Uniform target on two states; the proposal is `true` with probability 4/5,
whatever the state. -/
noncomputable def exAsym : MHModel (Bool × Unit) where
  proposals := [fun _ s' => if s'.1 then 4/5 else 1/5]
  priors := [fun _ => 1]
  liks := []

/-- C37 fails for asymmetric proposals: the move of a replica at inverse temperature 1/2
does not preserve its tempered density, although the proposal is a probability and all
densities are positive. `ratio *= inverse_temperature` also tempers the proposal terms. -/
theorem C37_fails : exAsym.Finite ∧ (∀ s, ∫⁻ y', exAsym.propose s (y', s.2) ∂Measure.count = 1) ∧
    ∃ f : Bool → ℝ≥0∞,
    ∑ y : Bool, exAsym.joint (y, ()) ^ (1/2 : ℝ) *
      acceptReject Measure.count exAsym.propose (temperedRatio exAsym (1/2)) (fun s => f s.1) (y, ()) ≠
    ∑ y : Bool, exAsym.joint (y, ()) ^ (1/2 : ℝ) * f y := by
  have h54 : (4/5 : ℝ≥0∞) + 1/5 = 1 := by
    rw [← ENNReal.add_div]; norm_num; exact ENNReal.div_self (by norm_num) (by norm_num)
  have hp : ∀ s s' : Bool × Unit, exAsym.propose s s' = if s'.1 then 4/5 else 1/5 := by
    intro s s'; simp [MHModel.propose, exAsym]
  have hfin : exAsym.Finite := by
    refine ⟨?_, ?_, ?_⟩
    · intro p hp
      simp only [exAsym, List.mem_singleton] at hp
      subst hp
      intro s s'; dsimp only; split_ifs <;> exact ENNReal.div_ne_top (by simp) (by simp)
    · intro p hp
      simp only [exAsym, List.mem_singleton] at hp
      subst hp
      intro s; exact ENNReal.one_ne_top
    · intro p hp; simp [exAsym] at hp
  refine ⟨hfin, ?_, fun y => if y then 1 else 0, ?_⟩
  · intro s
    simp only [hp, lintegral_count, tsum_fintype, Fintype.sum_bool]
    simpa using h54
  · have hj : ∀ s, exAsym.joint s = 1 := by intro s; simp [MHModel.joint, exAsym]
    have hr : ∀ s s', ratioE exAsym s s' = exAsym.propose s' s * (exAsym.propose s s')⁻¹ := by
      intro s s'
      simp [ratioE, exAsym, MHModel.propose, mul_comm]
    have hacc1 : acceptProb (temperedRatio exAsym (1/2) (true, ()) (true, ())) = 1 := by
      rw [temperedRatio_eq, acceptProb_log, hr, hp]
      simp only [if_true]
      rw [ENNReal.mul_inv_cancel (by norm_num) (ENNReal.div_ne_top (by norm_num) (by norm_num))]
      simp
    have hacc2 : acceptProb (temperedRatio exAsym (1/2) (true, ()) (false, ())) = 1 := by
      rw [temperedRatio_eq, acceptProb_log, hr, hp, hp]
      simp only [if_true, Bool.false_eq_true, if_false]
      rw [min_eq_left]
      refine ENNReal.one_le_rpow ?_ (by norm_num)
      rw [← div_eq_mul_inv, ENNReal.le_div_iff_mul_le (by simp) (by simp), one_mul]
      exact ENNReal.div_le_div_right (by norm_num) _
    have hacc3 : acceptProb (temperedRatio exAsym (1/2) (false, ()) (true, ())) = 1/2 := by
      rw [temperedRatio_eq, acceptProb_log, hr, hp, hp]
      simp only [if_true, Bool.false_eq_true, if_false]
      have e : (1/5 : ℝ≥0∞) * (4/5)⁻¹ = (1/2) ^ (2:ℝ) := by
        rw [← ENNReal.toReal_eq_toReal_iff' (by
          refine ENNReal.mul_ne_top (ENNReal.div_ne_top (by simp) (by simp)) ?_
          simp [ENNReal.div_eq_zero_iff]) (by simp)]
        simp [ENNReal.toReal_mul, ENNReal.toReal_inv, ENNReal.toReal_div]
        norm_num
      rw [e, ← ENNReal.rpow_mul]
      norm_num
    have hacc4 : acceptProb (temperedRatio exAsym (1/2) (false, ()) (false, ())) = 1 := by
      rw [temperedRatio_eq, acceptProb_log, hr, hp]
      simp only [Bool.false_eq_true, if_false]
      rw [ENNReal.mul_inv_cancel (by norm_num) (ENNReal.div_ne_top (by norm_num) (by norm_num))]
      simp
    simp only [acceptReject_eq, lintegral_count, tsum_fintype, Fintype.sum_bool, hj, hp, hacc1, hacc2, hacc3, hacc4]
    simp only [ENNReal.one_rpow, if_true, Bool.false_eq_true, if_false, one_mul, mul_one, mul_zero, add_zero,
      tsub_self]
    intro h
    have h2 := congrArg ENNReal.toReal h
    rw [ENNReal.toReal_add, ENNReal.toReal_mul] at h2
    · simp [ENNReal.toReal_div] at h2
      norm_num at h2
    · exact ENNReal.div_ne_top (by simp) (by simp)
    · exact ENNReal.mul_ne_top (ENNReal.div_ne_top (by simp) (by simp)) (by simp)

/-! Concrete case for the partial theorem: two states, a symmetric proposal, three
replicas. -/
noncomputable def exSym : MHModel (Bool × Unit) where
  proposals := [fun s s' => if s.1 = s'.1 then 1/4 else 3/4]
  priors := [fun s => if s.1 then 1/3 else 2/3]
  liks := [fun s => if s.1 then 1/2 else 1/5]

example (f : (Fin 3 → Bool × Unit) → ℝ≥0∞) :
    ∫⁻ z, temperedTarget exSym ![1, 1/2, 1/4] z * replicaExpect exSym Measure.count ![1, 1/2, 1/4] 0.1 f z
      ∂(Measure.pi fun _ => Measure.count.prod Measure.count) =
    ∫⁻ z, temperedTarget exSym ![1, 1/2, 1/4] z * f z ∂(Measure.pi fun _ => Measure.count.prod Measure.count) := by
  refine C37_update_partial ?_ ?_ ?_ _ ?_ _ _ _ ?_ f (measurable_of_countable _)
  · refine ⟨?_, ?_, ?_⟩
    all_goals
      intro p hp
      simp only [exSym, List.mem_singleton] at hp
      subst hp
    · intro s s'; dsimp only; split_ifs <;> exact ENNReal.div_ne_top (by simp) (by simp)
    · intro s; dsimp only; split_ifs <;> exact ENNReal.div_ne_top (by simp) (by simp)
    · intro s; dsimp only; split_ifs <;> exact ENNReal.div_ne_top (by simp) (by simp)
  · exact ⟨fun g _ => measurable_of_countable _, fun p _ => measurable_of_countable _,
      fun p _ => measurable_of_countable _⟩
  · rintro ⟨y, w⟩ ⟨y', w'⟩
    unfold MHModel.propose exSym
    simp only [List.map_cons, List.map_nil]
    rw [if_congr (eq_comm : y = y' ↔ y' = y) rfl rfl]
  · intro i; fin_cases i <;> simp
  · rintro ⟨y, w⟩
    rw [lintegral_count, tsum_fintype]
    cases y
    all_goals
      simp only [MHModel.propose, exSym, List.map_cons, List.map_nil, List.prod_cons, List.prod_nil,
        Fintype.sum_bool]
      simp only [if_true, Bool.false_eq_true, if_false, mul_one, reduceCtorEq]
      rw [← ENNReal.add_div]
      norm_num
      exact ENNReal.div_self (by norm_num) (by norm_num)

end Edward
