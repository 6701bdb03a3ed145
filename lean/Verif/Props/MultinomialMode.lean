/-
Properties C26-C29 of `compute_multinomial_mode`.
-/
import Mathlib.Tactic.Linarith
import Mathlib.Tactic.FieldSimp
import Mathlib.Tactic.FinCases
import Mathlib.Algebra.Order.BigOperators.Ring.Finset
import Mathlib.Algebra.Order.BigOperators.Group.Finset
import Mathlib.Data.Fin.VecNotation
import Mathlib.Algebra.BigOperators.Field
import Verif.Model.MultinomialMode
import Verif.Spec.Multinomial

namespace Edward

open Finset

/-- `choice(S, k, replace=False)` returns `k` distinct members of `S`. -/
def ValidChoice {K : ℕ} (cold : ℕ → Choice K) : Prop :=
  ∀ j S k, k ≤ S.card → cold j S k ⊆ S ∧ (cold j S k).card = k

/-- `am` is where `argmax` found the maximum. -/
def IsArgmax {K : ℕ} (p : Fin K → ℝ) (am : Fin K) : Prop := ∀ i, p i ≤ p am

section
variable {K : ℕ}

noncomputable def hotSet (n : ℕ) (s : ModeState K) : Finset (Fin K) :=
  open Classical in univ.filter (fun i => 1 / (n : ℝ) ≤ s.probs i)

theorem modeMask_def (n : ℕ) (cold : Choice K) (s : ModeState K) :
    modeMask n cold s = if 0 < ((hotSet n s).card : ℤ) - s.remaining then
      hotSet n s \ cold (hotSet n s) (((hotSet n s).card : ℤ) - s.remaining).toNat else hotSet n s := rfl

theorem modeMask_subset (n : ℕ) (cold : Choice K) (s : ModeState K) :
    modeMask n cold s ⊆ hotSet n s := by
  rw [modeMask_def]
  split
  · exact sdiff_subset
  · exact Subset.rfl

theorem mem_hotSet {n : ℕ} {s : ModeState K} {i : Fin K} :
    i ∈ hotSet n s ↔ 1 / (n : ℝ) ≤ s.probs i := by
  classical
  simp [hotSet]

theorem modeMask_card {n : ℕ} {cold : ℕ → Choice K} (hc : ValidChoice cold) (j : ℕ)
    (s : ModeState K) (hr : 0 < s.remaining) :
    ((modeMask n (cold j) s).card : ℤ) ≤ s.remaining ∧
    ((hotSet n s).Nonempty → 0 < (modeMask n (cold j) s).card) ∧
    (((hotSet n s).card : ℤ) ≤ s.remaining → modeMask n (cold j) s = hotSet n s) := by
  rw [modeMask_def]
  split
  · rename_i h
    have hk : (((hotSet n s).card : ℤ) - s.remaining).toNat ≤ (hotSet n s).card := by omega
    obtain ⟨h1, h2⟩ := hc j (hotSet n s) _ hk
    rw [card_sdiff_of_subset h1, h2]
    refine ⟨by omega, fun _ => by omega, fun h => by omega⟩
  · rename_i h
    exact ⟨by omega, fun hn => card_pos.mpr hn, fun _ => rfl⟩

theorem modeRescale_remaining (n : ℕ) (s : ModeState K) : (modeRescale n s).remaining = s.remaining := by
  unfold modeRescale; split <;> rfl

theorem modeRescale_mode (n : ℕ) (s : ModeState K) : (modeRescale n s).mode = s.mode := by
  unfold modeRescale; split <;> rfl

theorem modeRescale_of_hot {n : ℕ} {s : ModeState K} {i : Fin K} (h : 1 / (n : ℝ) ≤ s.probs i) :
    modeRescale n s = s := by
  unfold modeRescale
  rw [if_neg]
  intro hh
  exact absurd (hh i) (not_lt.mpr h)

theorem modeLoop_succ_pos {n : ℕ} {cold : ℕ → Choice K} {k : ℕ} {s : ModeState K}
    (h : 0 < (modeLoop n cold k s).remaining) :
    modeLoop n cold (k + 1) s = modeBody n (cold k) (modeLoop n cold k s) := by
  rw [modeLoop]; exact if_pos h

theorem modeLoop_succ_stop {n : ℕ} {cold : ℕ → Choice K} {k : ℕ} {s : ModeState K}
    (h : ¬ 0 < (modeLoop n cold k s).remaining) :
    modeLoop n cold (k + 1) s = modeLoop n cold k s := by
  rw [modeLoop]; exact if_neg h

/-- Counts and remaining trials always add up. -/
theorem modeBody_total {n : ℕ} {cold : ℕ → Choice K} (hc : ValidChoice cold) (j : ℕ)
    (s : ModeState K) (hr : 0 < s.remaining) :
    (∑ i, ((modeBody n (cold j) s).mode i : ℤ)) + (modeBody n (cold j) s).remaining =
      (∑ i, (s.mode i : ℤ)) + s.remaining ∧ 0 ≤ (modeBody n (cold j) s).remaining := by
  classical
  have hr' : 0 < (modeRescale n s).remaining := by rw [modeRescale_remaining]; exact hr
  have hcard := (modeMask_card (n := n) hc j _ hr').1
  unfold modeBody modeApply
  dsimp only
  constructor
  · rw [modeRescale_remaining, modeRescale_mode]
    have : (∑ i, ((if i ∈ modeMask n (cold j) (modeRescale n s) then s.mode i + 1 else s.mode i : ℕ) : ℤ))
        = (∑ i, (s.mode i : ℤ)) + (modeMask n (cold j) (modeRescale n s)).card := by
      have : ∀ i, ((if i ∈ modeMask n (cold j) (modeRescale n s) then s.mode i + 1 else s.mode i : ℕ) : ℤ)
          = (s.mode i : ℤ) + (if i ∈ modeMask n (cold j) (modeRescale n s) then 1 else 0) := by
        intro i; split <;> simp
      simp only [this, sum_add_distrib]
      congr 1
      rw [sum_ite_mem]
      simp
    rw [this]; ring
  · omega

theorem modeLoop_total {n : ℕ} {cold : ℕ → Choice K} (hc : ValidChoice cold) (p : Fin K → ℝ) (k : ℕ) :
    (∑ i, ((modeLoop n cold k (modeInit n p)).mode i : ℤ)) + (modeLoop n cold k (modeInit n p)).remaining = n
      ∧ 0 ≤ (modeLoop n cold k (modeInit n p)).remaining := by
  induction k with
  | zero => simp [modeLoop, modeInit]
  | succ k ih =>
    simp only [modeLoop]
    split
    · rename_i h
      have := modeBody_total (n := n) hc k _ h
      rw [this.1]
      exact ⟨ih.1, this.2⟩
    · exact ih

/-- C27: whatever is returned has non-negative entries (natural numbers), one per
class, that sum to `total_count`. -/
theorem C27_sums_to_total {n : ℕ} {cold : ℕ → Choice K} (hc : ValidChoice cold) (p : Fin K → ℝ)
    (am : Fin K) (m : Fin K → ℕ) (p' : Fin K → ℝ) (h : ModeReturns p n am cold m p') :
    ∑ i, m i = n := by
  unfold ModeReturns at h
  split at h
  · rename_i h1
    rw [h.1, h1]
    simp
  · obtain ⟨k, hk, rfl, -⟩ := h
    obtain ⟨h1, h2⟩ := modeLoop_total hc p k
    have : (modeLoop n cold k (modeInit n p)).remaining = 0 := le_antisymm hk h2
    rw [this, add_zero] at h1
    exact_mod_cast h1

/-! ### Termination -/

theorem softmax_max (v : Fin K → ℝ) (hK : 0 < K) : ∃ i, 1 / (K : ℝ) ≤ modeSoftmax v i := by
  by_contra hcon
  push Not at hcon
  have hpos : 0 < ∑ j, Real.exp (v j) :=
    sum_pos (fun _ _ => Real.exp_pos _) ⟨⟨0, hK⟩, mem_univ _⟩
  have h1 : ∑ i, modeSoftmax v i = 1 := by
    unfold modeSoftmax
    rw [← Finset.sum_div, div_self hpos.ne']
  have h2 : ∑ i, modeSoftmax v i < ∑ _i : Fin K, 1 / (K : ℝ) :=
    sum_lt_sum_of_nonempty ⟨⟨0, hK⟩, mem_univ _⟩ (fun i _ => hcon i)
  rw [h1, sum_const, card_univ, Fintype.card_fin, nsmul_eq_mul] at h2
  have : (K : ℝ) ≠ 0 := by exact_mod_cast hK.ne'
  rw [mul_one_div_cancel this] at h2
  exact lt_irrefl _ h2

theorem rescale_hot {n : ℕ} (hK : 0 < K) (hKn : K ≤ n) (s : ModeState K) :
    (hotSet n (modeRescale n s)).Nonempty := by
  by_cases h : ∀ i, s.probs i < 1 / (n : ℝ)
  · obtain ⟨i, hi⟩ := softmax_max s.probs hK
    refine ⟨i, mem_hotSet.mpr ?_⟩
    have : (modeRescale n s).probs = modeSoftmax s.probs := by
      unfold modeRescale; rw [if_pos h]
    rw [this]
    refine le_trans ?_ hi
    exact one_div_le_one_div_of_le (by exact_mod_cast hK) (by exact_mod_cast hKn)
  · push Not at h
    obtain ⟨i, hi⟩ := h
    rw [modeRescale_of_hot hi]
    exact ⟨i, mem_hotSet.mpr hi⟩

/-- One body strictly decreases the remaining count if something is hot. -/
theorem modeBody_decreases {n : ℕ} {cold : ℕ → Choice K} (hc : ValidChoice cold) (j : ℕ)
    (s : ModeState K) (hr : 0 < s.remaining) (hh : (hotSet n (modeRescale n s)).Nonempty) :
    (modeBody n (cold j) s).remaining ≤ s.remaining - 1 := by
  have hr' : 0 < (modeRescale n s).remaining := by rw [modeRescale_remaining]; exact hr
  have := (modeMask_card (n := n) hc j _ hr').2.1 hh
  unfold modeBody modeApply
  dsimp only
  rw [modeRescale_remaining]
  omega

theorem loop_terminates {n : ℕ} {cold : ℕ → Choice K} (hc : ValidChoice cold) (s : ModeState K)
    (hs : 0 ≤ s.remaining)
    (hh : ∀ k, 0 < (modeLoop n cold k s).remaining →
      (hotSet n (modeRescale n (modeLoop n cold k s))).Nonempty) :
    (modeLoop n cold s.remaining.toNat s).remaining ≤ 0 := by
  have : ∀ k : ℕ, (modeLoop n cold k s).remaining ≤ 0 ∨ (modeLoop n cold k s).remaining ≤ s.remaining - k := by
    intro k
    induction k with
    | zero => right; simp [modeLoop]
    | succ k ih =>
      simp only [modeLoop]
      split
      · rename_i h
        right
        have := modeBody_decreases hc k _ h (hh k h)
        push_cast
        omega
      · rename_i h; left; omega
  rcases this s.remaining.toNat with h | h
  · exact h
  · omega

theorem returns_of_terminates {n : ℕ} {cold : ℕ → Choice K} {p : Fin K → ℝ} {am : Fin K}
    (h : n = 1 ∨ ∃ k, (modeLoop n cold k (modeInit n p)).remaining ≤ 0) :
    ∃ m p', ModeReturns p n am cold m p' := by
  unfold ModeReturns
  by_cases h1 : n = 1
  · exact ⟨_, p, by rw [if_pos h1]; exact ⟨rfl, rfl⟩⟩
  · rcases h with h | ⟨k, hk⟩
    · exact absurd h h1
    · exact ⟨_, _, by rw [if_neg h1]; exact ⟨k, hk, rfl, rfl⟩⟩

/-- C26 (part): with at most as many classes as trials the call returns, for every
real vector and every outcome of the random choices. -/
theorem C26_terminates_partial {n : ℕ} {cold : ℕ → Choice K} (hc : ValidChoice cold)
    (hK : 0 < K) (hKn : K ≤ n) (p : Fin K → ℝ) (am : Fin K) :
    ∃ m p', ModeReturns p n am cold m p' :=
  returns_of_terminates (Or.inr ⟨_, loop_terminates hc (modeInit n p) (by simp [modeInit])
    (fun _ _ => rescale_hot hK hKn _)⟩)

/-- A state from which the loop never leaves. -/
def Stuck (n : ℕ) (s : ModeState K) : Prop :=
  0 < s.remaining ∧ ∀ i, 0 ≤ s.probs i ∧ s.probs i < 1 / (n : ℝ)

theorem softmax_small {n : ℕ} (hn : 0 < n) (hKn : n < K) (v : Fin K → ℝ)
    (hv : ∀ i, 0 ≤ v i ∧ v i < 1 / (n : ℝ)) (i : Fin K) :
    0 ≤ modeSoftmax v i ∧ modeSoftmax v i < 1 / (n : ℝ) := by
  have hn' : (0 : ℝ) < n := by exact_mod_cast hn
  have hsum : Real.exp (v i) + n ≤ ∑ j, Real.exp (v j) := by
    rw [← add_sum_erase univ (fun j => Real.exp (v j)) (mem_univ i)]
    have : (n : ℝ) ≤ ∑ j ∈ univ.erase i, Real.exp (v j) := by
      calc (n : ℝ) ≤ ((univ.erase i).card : ℝ) := by
            rw [card_erase_of_mem (mem_univ _), card_univ, Fintype.card_fin]
            exact_mod_cast Nat.le_sub_one_of_lt hKn
        _ = ∑ j ∈ univ.erase i, (1 : ℝ) := by simp
        _ ≤ _ := sum_le_sum (fun j _ => by
            have := Real.add_one_le_exp (v j); have := (hv j).1; linarith)
    linarith
  have hpos : 0 < ∑ j, Real.exp (v j) := lt_of_lt_of_le (by positivity) hsum
  unfold modeSoftmax
  refine ⟨by positivity, ?_⟩
  rw [div_lt_div_iff₀ hpos hn']
  have h1 : (1 - 1 / (n : ℝ)) * Real.exp (v i) < 1 := by
    have ha : -(1 / (n : ℝ)) + 1 ≤ Real.exp (-(1 / (n : ℝ))) := Real.add_one_le_exp _
    calc (1 - 1 / (n : ℝ)) * Real.exp (v i) ≤ Real.exp (-(1 / (n : ℝ))) * Real.exp (v i) := by
          apply mul_le_mul_of_nonneg_right _ (Real.exp_pos _).le
          linarith
      _ = Real.exp (v i - 1 / n) := by rw [← Real.exp_add]; congr 1; ring
      _ < 1 := by rw [Real.exp_lt_one_iff]; linarith [(hv i).2]
  have h2 : Real.exp (v i) * n - Real.exp (v i) < n := by
    have := mul_lt_mul_of_pos_right h1 hn'
    have e : (1 - 1 / (n : ℝ)) * Real.exp (v i) * n = Real.exp (v i) * n - Real.exp (v i) := by
      field_simp
    linarith
  linarith

theorem stuck_body {n : ℕ} (hn : 0 < n) (hKn : n < K) (cold : Choice K) (s : ModeState K)
    (h : Stuck n s) : Stuck n (modeBody n cold s) := by
  have hp : (modeRescale n s).probs = modeSoftmax s.probs := by
    unfold modeRescale; rw [if_pos (fun i => (h.2 i).2)]
  have hs := softmax_small hn hKn s.probs h.2
  have hhot : hotSet n (modeRescale n s) = ∅ := by
    ext i
    simp only [mem_hotSet, hp, notMem_empty, iff_false, not_le]
    exact (hs i).2
  have hmask : modeMask n cold (modeRescale n s) = ∅ :=
    subset_empty.mp (hhot ▸ modeMask_subset n cold (modeRescale n s))
  unfold modeBody
  dsimp only
  rw [hmask]
  refine ⟨?_, fun i => ?_⟩
  · simp only [modeApply, modeRescale_remaining, card_empty, Nat.cast_zero, sub_zero]; exact h.1
  · simp only [modeApply, notMem_empty, if_false, hp]
    exact hs i

/-- Before the first softmax: what is left of each probability. -/
def Fresh (n : ℕ) (p : Fin K → ℝ) (s : ModeState K) : Prop :=
  s.own = false ∧ ∀ i, s.probs i = p i - s.mode i / n ∧ 0 ≤ s.probs i

theorem fresh_init (n : ℕ) {p : Fin K → ℝ} (hp : ∀ i, 0 ≤ p i) : Fresh n p (modeInit n p) :=
  ⟨rfl, fun i => by simp [modeInit, hp i]⟩

theorem fresh_body {n : ℕ} {p : Fin K → ℝ} {cold : Choice K} {s : ModeState K} (h : Fresh n p s)
    {i : Fin K} (hi : 1 / (n : ℝ) ≤ s.probs i) : Fresh n p (modeBody n cold s) := by
  unfold modeBody
  rw [modeRescale_of_hot hi]
  refine ⟨h.1, fun j => ?_⟩
  unfold modeApply
  dsimp only
  split
  · rename_i hj
    have hj' := mem_hotSet.mp (modeMask_subset n cold s hj)
    refine ⟨?_, by linarith⟩
    rw [(h.2 j).1]
    push_cast
    ring
  · exact h.2 j

/-- The mass still to be distributed is what remains of the probabilities. -/
theorem fresh_mass {n : ℕ} (hn : 0 < n) {p : Fin K → ℝ} (hp : ∑ i, p i = 1) {s : ModeState K}
    (h : Fresh n p s) (ht : (∑ i, (s.mode i : ℤ)) + s.remaining = n) :
    ∑ i, s.probs i = s.remaining / n := by
  have hn' : (n : ℝ) ≠ 0 := by exact_mod_cast hn.ne'
  have h1 : ∑ i, s.probs i = 1 - (∑ i, (s.mode i : ℝ)) / n := by
    rw [sum_congr rfl (fun i _ => (h.2 i).1), sum_sub_distrib, hp, Finset.sum_div]
  have h2 : (∑ i, (s.mode i : ℝ)) + s.remaining = n := by exact_mod_cast ht
  rw [h1, eq_sub_of_add_eq h2]
  field_simp
  ring

/-- Alternatives for every state of the loop when there are more classes than trials. -/
theorem fresh_or_stuck {n : ℕ} (hn : 0 < n) (hKn : n < K) {cold : ℕ → Choice K}
    {p : Fin K → ℝ} (hp : IsProb p) (k : ℕ) :
    Fresh n p (modeLoop n cold k (modeInit n p)) ∨ Stuck n (modeLoop n cold k (modeInit n p)) := by
  induction k with
  | zero => exact Or.inl (fresh_init n hp.1)
  | succ k ih =>
    simp only [modeLoop]
    split
    · rename_i hr
      rcases ih with ih | ih
      · by_cases hall : ∀ i, (modeLoop n cold k (modeInit n p)).probs i < 1 / (n : ℝ)
        · exact Or.inr (stuck_body hn hKn _ _ ⟨hr, fun i => ⟨(ih.2 i).2, hall i⟩⟩)
        · push Not at hall
          obtain ⟨i, hi⟩ := hall
          exact Or.inl (fresh_body ih hi)
      · exact Or.inr (stuck_body hn hKn _ _ ih)
    · exact ih

theorem fresh_end {n : ℕ} (hn : 0 < n) {cold : ℕ → Choice K} (hc : ValidChoice cold)
    {p : Fin K → ℝ} (hp : IsProb p) {k : ℕ} (h : Fresh n p (modeLoop n cold k (modeInit n p)))
    (hr : (modeLoop n cold k (modeInit n p)).remaining ≤ 0) (i : Fin K) :
    p i = (modeLoop n cold k (modeInit n p)).mode i / n := by
  obtain ⟨ht, h0⟩ := modeLoop_total (n := n) hc p k
  have hm := fresh_mass hn hp.2 h ht
  rw [le_antisymm hr h0, Int.cast_zero, zero_div] at hm
  have := (sum_eq_zero_iff_of_nonneg (fun i _ => (h.2 i).2)).mp hm i (mem_univ i)
  have h2 := (h.2 i).1
  rw [this] at h2
  linarith

/-- All entries are multiples of `1/n`: no softmax is ever taken. -/
theorem fresh_of_multiples {n : ℕ} (hn : 0 < n) {cold : ℕ → Choice K} (hc : ValidChoice cold)
    {p : Fin K → ℝ} (hp : IsProb p) (hm : ∀ i, ∃ a : ℕ, p i = a / n) (k : ℕ) :
    Fresh n p (modeLoop n cold k (modeInit n p)) ∧
      (0 < (modeLoop n cold k (modeInit n p)).remaining →
        ∃ i, 1 / (n : ℝ) ≤ (modeLoop n cold k (modeInit n p)).probs i) := by
  have hn' : (0 : ℝ) < n := by exact_mod_cast hn
  have key : ∀ k, Fresh n p (modeLoop n cold k (modeInit n p)) →
      0 < (modeLoop n cold k (modeInit n p)).remaining →
        ∃ i, 1 / (n : ℝ) ≤ (modeLoop n cold k (modeInit n p)).probs i := by
    intro k hf hr
    obtain ⟨ht, -⟩ := modeLoop_total (n := n) hc p k
    have hmass := fresh_mass hn hp.2 hf ht
    have hpos : 0 < ∑ i, (modeLoop n cold k (modeInit n p)).probs i := by
      rw [hmass]; exact div_pos (by exact_mod_cast hr) hn'
    obtain ⟨i, -, hi⟩ := exists_lt_of_sum_lt (s := univ) (f := fun _ => (0 : ℝ))
      (g := (modeLoop n cold k (modeInit n p)).probs) (by simpa using hpos)
    refine ⟨i, ?_⟩
    obtain ⟨a, ha⟩ := hm i
    have h2 := (hf.2 i).1
    rw [ha, ← sub_div] at h2
    rw [h2] at hi ⊢
    have h3 : (0 : ℝ) < (a : ℝ) - (modeLoop n cold k (modeInit n p)).mode i := by
      by_contra hcon
      exact absurd hi (not_lt.mpr (div_nonpos_of_nonpos_of_nonneg (not_lt.mp hcon) hn'.le))
    apply div_le_div_of_nonneg_right _ hn'.le
    have h4 : (modeLoop n cold k (modeInit n p)).mode i < a := by
      have : ((modeLoop n cold k (modeInit n p)).mode i : ℝ) < a := by linarith
      exact_mod_cast this
    have h5 : ((modeLoop n cold k (modeInit n p)).mode i : ℝ) + 1 ≤ a := by exact_mod_cast h4
    linarith
  have hall : ∀ k, Fresh n p (modeLoop n cold k (modeInit n p)) := by
    intro k
    induction k with
    | zero => exact fresh_init n hp.1
    | succ k ih =>
      simp only [modeLoop]
      split
      · rename_i hr
        obtain ⟨i, hi⟩ := key k ih hr
        exact fresh_body ih hi
      · exact ih
  exact ⟨hall k, key k (hall k)⟩

/-- C26, exactly: on a probability vector the call returns iff there is one trial,
or at most as many classes as trials, or every probability is a multiple of
`1/total_count`. In all other cases it loops forever. -/
theorem C26_returns_iff {n : ℕ} (hn : 0 < n) {cold : ℕ → Choice K} (hc : ValidChoice cold)
    {p : Fin K → ℝ} (hp : IsProb p) (am : Fin K) :
    (∃ m p', ModeReturns p n am cold m p') ↔
      n = 1 ∨ K ≤ n ∨ ∀ i, ∃ a : ℕ, p i = a / n := by
  constructor
  · rintro ⟨m, p', h⟩
    by_cases h1 : n = 1
    · exact Or.inl h1
    right
    by_cases hKn : K ≤ n
    · exact Or.inl hKn
    right
    intro i
    unfold ModeReturns at h
    rw [if_neg h1] at h
    obtain ⟨k, hk, -, -⟩ := h
    rcases fresh_or_stuck hn (not_le.mp hKn) (cold := cold) hp k with hf | hf
    · exact ⟨_, fresh_end hn hc hp hf hk i⟩
    · exact absurd hf.1 (not_lt.mpr hk)
  · rintro (h | h | h)
    · exact returns_of_terminates (Or.inl h)
    · exact C26_terminates_partial hc am.pos h p am
    · refine returns_of_terminates (Or.inr ⟨_, loop_terminates hc (modeInit n p) (by simp [modeInit]) ?_⟩)
      intro k hr
      obtain ⟨i, hi⟩ := (fresh_of_multiples hn hc hp h k).2 hr
      rw [modeRescale_of_hot hi]
      exact ⟨i, mem_hotSet.mpr hi⟩

/-- C26 fails: two trials, three classes with probabilities 0.6, 0.2, 0.2. -/
theorem C26_terminates_fails : ∃ p : Fin 3 → ℝ, IsProb p ∧
    ∀ (cold : ℕ → Choice 3), ValidChoice cold → ∀ am, ¬ ∃ m p', ModeReturns p 2 am cold m p' := by
  refine ⟨![3/5, 1/5, 1/5], ⟨?_, ?_⟩, ?_⟩
  · intro i; fin_cases i <;> norm_num
  · rw [Fin.sum_univ_three]; norm_num [Matrix.cons_val_two]
  · intro cold hc am
    rw [C26_returns_iff (by norm_num) hc]
    · push Not
      refine ⟨by norm_num, by norm_num, 0, fun a ha => ?_⟩
      have h1 : (3 / 5 : ℝ) = a / 2 := by simpa using ha
      have h2 : (6 : ℝ) = 5 * a := by linarith
      have h3 : 6 = 5 * a := by exact_mod_cast h2
      omega
    · refine ⟨?_, ?_⟩
      · intro i; fin_cases i <;> norm_num
      · rw [Fin.sum_univ_three]; norm_num [Matrix.cons_val_two]

/-! ### The caller's array -/

theorem caller_own {n : ℕ} {cold : ℕ → Choice K} {s : ModeState K} (h : s.own = true) (j : ℕ) :
    (modeBody n (cold j) s).own = true ∧ (modeBody n (cold j) s).caller = s.caller := by
  have h1 : (modeRescale n s).own = true := by unfold modeRescale; split <;> simp [h]
  have h2 : (modeRescale n s).caller = s.caller := by unfold modeRescale; split <;> rfl
  unfold modeBody modeApply
  simp [h1, h2]

/-- C28, exactly: a call that returns leaves the caller's array alone iff there is
one trial or every entry is below `1/total_count`. -/
theorem C28_caller_unchanged_iff {n : ℕ} (hn : 0 < n) {cold : ℕ → Choice K} (hc : ValidChoice cold)
    {p : Fin K → ℝ} {am : Fin K} {m : Fin K → ℕ} {p' : Fin K → ℝ}
    (h : ModeReturns p n am cold m p') : p' = p ↔ n = 1 ∨ ∀ i, p i < 1 / (n : ℝ) := by
  unfold ModeReturns at h
  by_cases h1 : n = 1
  · rw [if_pos h1] at h
    exact ⟨fun _ => Or.inl h1, fun _ => h.2⟩
  rw [if_neg h1] at h
  obtain ⟨k, hk, -, rfl⟩ := h
  have hn' : (0 : ℝ) < n := by exact_mod_cast hn
  cases k with
  | zero => simp [modeLoop, modeInit] at hk; omega
  | succ k =>
  by_cases hall : ∀ i, p i < 1 / (n : ℝ)
  · refine ⟨fun _ => Or.inr hall, fun _ => ?_⟩
    have : ∀ k, (modeLoop n cold (k + 1) (modeInit n p)).own = true ∧
        (modeLoop n cold (k + 1) (modeInit n p)).caller = p := by
      intro k
      induction k with
      | zero =>
        have hre : modeRescale n (modeInit n p) =
            { modeInit n p with probs := modeSoftmax p, own := true } := by
          unfold modeRescale; exact if_pos hall
        have hr0 : 0 < (modeInit n p).remaining := by simp [modeInit]; omega
        rw [modeLoop_succ_pos (k := 0) (s := modeInit n p) (cold := cold) hr0, modeLoop]
        unfold modeBody
        rw [hre]
        exact ⟨rfl, rfl⟩
      | succ k ih =>
        by_cases hr : 0 < (modeLoop n cold (k + 1) (modeInit n p)).remaining
        · rw [modeLoop_succ_pos hr]
          have := caller_own (n := n) (cold := cold) ih.1 (k + 1)
          exact ⟨this.1, this.2.trans ih.2⟩
        · rw [modeLoop_succ_stop hr]; exact ih
    exact (this k).2
  · refine ⟨fun heq => ?_, fun hh => ?_⟩
    · exfalso
      push Not at hall
      obtain ⟨i, hi⟩ := hall
      -- some index is subtracted in the first iteration; the array never grows again
      have : ∀ k, (∃ i, (modeLoop n cold (k + 1) (modeInit n p)).caller i < p i) ∧
          ((modeLoop n cold (k + 1) (modeInit n p)).own = false →
            (modeLoop n cold (k + 1) (modeInit n p)).caller =
              (modeLoop n cold (k + 1) (modeInit n p)).probs) := by
        intro k
        induction k with
        | zero =>
          have hr0 : 0 < (modeInit n p).remaining := by simp [modeInit]; omega
          rw [modeLoop_succ_pos (k := 0) (s := modeInit n p) (cold := cold) hr0, modeLoop]
          unfold modeBody
          have hi' : 1 / (n : ℝ) ≤ (modeInit n p).probs i := hi
          rw [modeRescale_of_hot hi']
          have hne := (modeMask_card (n := n) hc 0 _ hr0).2.1 ⟨i, mem_hotSet.mpr hi'⟩
          obtain ⟨j, hj⟩ := card_pos.mp hne
          refine ⟨⟨j, ?_⟩, fun _ => rfl⟩
          have hcal : (modeApply n (modeMask n (cold 0) (modeInit n p)) (modeInit n p)).caller j =
              p j - 1 / (n : ℝ) := if_pos hj
          have : 0 < 1 / (n : ℝ) := by positivity
          linarith
        | succ k ih =>
          by_cases hr : 0 < (modeLoop n cold (k + 1) (modeInit n p)).remaining
          · rw [modeLoop_succ_pos hr]
            obtain ⟨⟨j, hj⟩, hcp⟩ := ih
            cases hown : (modeLoop n cold (k + 1) (modeInit n p)).own with
            | true =>
              have := caller_own (n := n) (cold := cold) hown (k + 1)
              refine ⟨⟨j, by rw [this.2]; exact hj⟩, fun hf => ?_⟩
              rw [this.1] at hf; exact absurd hf (by simp)
            | false =>
              have hcp := hcp hown
              by_cases hre : ∀ i, (modeLoop n cold (k + 1) (modeInit n p)).probs i < 1 / (n : ℝ)
              · have hR : modeRescale n (modeLoop n cold (k + 1) (modeInit n p)) =
                    { modeLoop n cold (k + 1) (modeInit n p) with
                      probs := modeSoftmax (modeLoop n cold (k + 1) (modeInit n p)).probs, own := true } := by
                  unfold modeRescale; rw [if_pos hre]
                unfold modeBody
                rw [hR]
                refine ⟨⟨j, ?_⟩, fun hf => ?_⟩
                · simp only [modeApply, if_true]; exact hj
                · simp [modeApply] at hf
              · push Not at hre
                obtain ⟨i', hi'⟩ := hre
                unfold modeBody
                rw [modeRescale_of_hot hi']
                refine ⟨⟨j, ?_⟩, fun _ => ?_⟩
                · simp only [modeApply, hown, Bool.false_eq_true, if_false]
                  rw [hcp] at hj
                  have : 0 < 1 / (n : ℝ) := by positivity
                  split <;> linarith
                · simp only [modeApply, hown, Bool.false_eq_true, if_false]
          · rw [modeLoop_succ_stop hr]; exact ih
      obtain ⟨⟨j, hj⟩, -⟩ := this k
      rw [heq] at hj
      exact lt_irrefl _ hj
    · rcases hh with hh | hh
      · exact absurd hh h1
      · exact absurd hh hall

/-! ### Is it a mode? -/

/-- `m! ≥ a! a^(m-a)` in a form without subtraction. -/
theorem factorial_mul_pow_le (a m : ℕ) : a.factorial * a ^ m ≤ m.factorial * a ^ a := by
  rcases le_total a m with h | h
  · obtain ⟨d, rfl⟩ := Nat.exists_eq_add_of_le h
    rw [pow_add, ← mul_assoc, mul_right_comm]
    apply Nat.mul_le_mul_right
    induction d with
    | zero => simp
    | succ d ih =>
      rw [pow_succ, ← mul_assoc, ← Nat.add_assoc, Nat.factorial_succ]
      calc a.factorial * a ^ d * a ≤ (a + d).factorial * a :=
            Nat.mul_le_mul_right _ (ih (Nat.le_add_right _ _))
        _ ≤ (a + d).factorial * (a + d + 1) := Nat.mul_le_mul_left _ (by omega)
        _ = _ := mul_comm _ _
  · obtain ⟨d, rfl⟩ := Nat.exists_eq_add_of_le h
    have : ∀ e ≤ d, (m + d).factorial ≤ (m + (d - e)).factorial * (m + d) ^ e := by
      intro e he
      induction e with
      | zero => simp
      | succ e ih =>
        refine (ih (by omega)).trans ?_
        have h1 : m + (d - e) = (m + (d - (e + 1))) + 1 := by omega
        rw [h1, Nat.factorial_succ, pow_succ]
        calc (m + (d - (e + 1)) + 1) * (m + (d - (e + 1))).factorial * (m + d) ^ e
            ≤ (m + d) * (m + (d - (e + 1))).factorial * (m + d) ^ e :=
              Nat.mul_le_mul_right _ (Nat.mul_le_mul_right _ (by omega))
          _ = _ := by ring
    have := this d le_rfl
    simp only [Nat.sub_self, Nat.add_zero] at this
    calc (m + d).factorial * (m + d) ^ m ≤ m.factorial * (m + d) ^ d * (m + d) ^ m :=
          Nat.mul_le_mul_right _ this
      _ = m.factorial * (m + d) ^ (m + d) := by rw [pow_add]; ring

/-- Expected counts that are whole numbers are a mode. -/
theorem isMode_of_multiples {n : ℕ} (hn : 0 < n) {p : Fin K → ℝ} {a : Fin K → ℕ}
    (ha : ∀ i, p i = a i / n) (hs : ∑ i, a i = n) : IsMultinomialMode n p a := by
  refine ⟨hs, fun m hm => ?_⟩
  have hn' : (0 : ℝ) < n := by exact_mod_cast hn
  have hprod : ∀ b : Fin K → ℕ, ∑ i, b i = n → ∏ i, p i ^ b i = (∏ i, (a i : ℝ) ^ b i) / (n : ℝ) ^ n := by
    intro b hb
    simp only [ha, div_pow]
    rw [prod_div_distrib, prod_pow_eq_pow_sum, hb]
  unfold multinomialPmf
  rw [hprod m hm, hprod a hs]
  have hf : ∀ b : Fin K → ℕ, (0 : ℝ) < ∏ i, ((b i).factorial : ℝ) :=
    fun b => prod_pos (fun i _ => by exact_mod_cast Nat.factorial_pos _)
  have key : (∏ i, ((a i).factorial : ℝ)) * ∏ i, (a i : ℝ) ^ m i ≤
      (∏ i, ((m i).factorial : ℝ)) * ∏ i, (a i : ℝ) ^ a i := by
    rw [← prod_mul_distrib, ← prod_mul_distrib]
    apply prod_le_prod
    · intro i _; positivity
    · intro i _; exact_mod_cast factorial_mul_pow_le (a i) (m i)
  rw [div_mul_div_comm, div_mul_div_comm, div_le_div_iff₀ (by have := hf m; positivity)
    (by have := hf a; positivity)]
  have := mul_le_mul_of_nonneg_left key (by positivity : (0 : ℝ) ≤ n.factorial * n ^ n)
  nlinarith [this]

/-- C29 (part): the result is a mode when every expected count is a whole number
and when there is one trial. -/
theorem C29_mode_partial {n : ℕ} (hn : 0 < n) {cold : ℕ → Choice K} (hc : ValidChoice cold)
    {p : Fin K → ℝ} (hp : IsProb p) {am : Fin K} (ham : IsArgmax p am) {m : Fin K → ℕ}
    {p' : Fin K → ℝ} (h : ModeReturns p n am cold m p')
    (hm : n = 1 ∨ ∀ i, ∃ a : ℕ, p i = a / n) : IsMultinomialMode n p m := by
  have hsum := C27_sums_to_total hc p am m p' h
  unfold ModeReturns at h
  by_cases h1 : n = 1
  · subst h1
    rw [if_pos rfl] at h
    refine ⟨hsum, fun m' hm' => ?_⟩
    obtain ⟨j, hj⟩ : ∃ j, m' = fun i => if i = j then 1 else 0 := by
      have : ∃ j, m' j ≠ 0 := by
        by_contra hcon
        push Not at hcon
        simp [hcon] at hm'
      obtain ⟨j, hj⟩ := this
      refine ⟨j, funext fun i => ?_⟩
      have hle : ∀ s : Finset (Fin K), ∑ i ∈ s, m' i ≤ 1 := fun s => by
        rw [← hm']; exact sum_le_univ_sum_of_nonneg (fun _ => Nat.zero_le _)
      split
      · rename_i hij; subst hij
        have := hle {i}; simp at this; omega
      · rename_i hij
        have := hle {i, j}; rw [sum_pair hij] at this; omega
    rw [hj, h.1]
    have hpm : ∀ j : Fin K, multinomialPmf 1 p (fun i => if i = j then 1 else 0) = p j := by
      intro j
      unfold multinomialPmf
      have h1 : ∏ i, ((if i = j then 1 else 0 : ℕ).factorial : ℝ) = 1 :=
        prod_eq_one (fun i _ => by split <;> simp)
      rw [h1]
      simp only [pow_ite, pow_one, pow_zero]
      rw [prod_ite_eq' univ j]
      simp
    rw [hpm, hpm]
    exact ham j
  · have hm : ∀ i, ∃ a : ℕ, p i = a / n := hm.resolve_left h1
    rw [if_neg h1] at h
    obtain ⟨k, hk, rfl, -⟩ := h
    exact isMode_of_multiples hn
      (fun i => fresh_end hn hc hp (fresh_of_multiples hn hc hp hm k).1 hk i) hsum

theorem mode_mono {n : ℕ} (cold : Choice K) (s : ModeState K) (i : Fin K) :
    s.mode i ≤ (modeBody n cold s).mode i := by
  unfold modeBody modeApply
  dsimp only
  rw [modeRescale_mode]
  split <;> omega

/-- C29 (part): every class gets at least the integer part of its expected count. -/
theorem C29_floor_partial {n : ℕ} (hn : 1 < n) {cold : ℕ → Choice K} (hc : ValidChoice cold)
    {p : Fin K → ℝ} (hp : IsProb p) {am : Fin K} {m : Fin K → ℕ} {p' : Fin K → ℝ}
    (h : ModeReturns p n am cold m p') (i : Fin K) : n * p i < m i + 1 := by
  have hn0 : (0 : ℝ) < n := by exact_mod_cast (by omega : 0 < n)
  unfold ModeReturns at h
  rw [if_neg (by omega)] at h
  obtain ⟨k, hk, rfl, -⟩ := h
  have : Fresh n p (modeLoop n cold k (modeInit n p)) ∨
      ∀ i, (n : ℝ) * p i < (modeLoop n cold k (modeInit n p)).mode i + 1 := by
    clear hk
    induction k with
    | zero => exact Or.inl (fresh_init n hp.1)
    | succ k ih =>
      simp only [modeLoop]
      split
      · rcases ih with ih | ih
        · by_cases hall : ∀ i, (modeLoop n cold k (modeInit n p)).probs i < 1 / (n : ℝ)
          · right
            intro i
            have h1 := (ih.2 i).1 ▸ hall i
            have h2 := mode_mono (n := n) (cold k) (modeLoop n cold k (modeInit n p)) i
            have h3 : ((modeLoop n cold k (modeInit n p)).mode i : ℝ) ≤
              (modeBody n (cold k) (modeLoop n cold k (modeInit n p))).mode i := by exact_mod_cast h2
            have h4 : p i < ((modeLoop n cold k (modeInit n p)).mode i + 1) / n := by
              rw [add_div]; linarith
            rw [lt_div_iff₀ hn0] at h4
            linarith
          · push Not at hall
            obtain ⟨i, hi⟩ := hall
            exact Or.inl (fresh_body ih hi)
        · right
          intro i
          have h2 := mode_mono (n := n) (cold k) (modeLoop n cold k (modeInit n p)) i
          have h3 : ((modeLoop n cold k (modeInit n p)).mode i : ℝ) ≤
            (modeBody n (cold k) (modeLoop n cold k (modeInit n p))).mode i := by exact_mod_cast h2
          linarith [ih i]
      · exact ih
  rcases this with hf | hf
  · have := fresh_end (by omega) hc hp hf hk i
    rw [this, mul_div_cancel₀ _ hn0.ne']
    linarith
  · exact hf i

end

/-! ### Concrete cases -/

/-- Valid choices exist. -/
theorem exists_validChoice (K : ℕ) : ∃ cold : ℕ → Choice K, ValidChoice cold := by
  classical
  have : ∀ (S : Finset (Fin K)) (k : ℕ), ∃ T : Finset (Fin K), k ≤ S.card → T ⊆ S ∧ T.card = k := by
    intro S k
    by_cases h : k ≤ S.card
    · obtain ⟨T, hT⟩ := exists_subset_card_eq h
      exact ⟨T, fun _ => hT⟩
    · exact ⟨∅, fun h' => absurd h' h⟩
  choose f hf using this
  exact ⟨fun _ => f, fun _ => hf⟩

/-- Valid choices can make any particular valid choice in one place. -/
theorem exists_validChoice_with {K : ℕ} (j₀ : ℕ) (S₀ T₀ : Finset (Fin K)) (h : T₀ ⊆ S₀) :
    ∃ cold : ℕ → Choice K, ValidChoice cold ∧ cold j₀ S₀ T₀.card = T₀ := by
  classical
  obtain ⟨cold, hc⟩ := exists_validChoice K
  refine ⟨fun j S k => if j = j₀ ∧ S = S₀ ∧ k = T₀.card then T₀ else cold j S k, ?_, by simp⟩
  intro j S k hk
  dsimp only
  split
  · rename_i hh; obtain ⟨-, rfl, rfl⟩ := hh; exact ⟨h, rfl⟩
  · exact hc j S k hk

/-- Witness for `C29_mode_fails`. -/
noncomputable def exProbs : Fin 3 → ℝ := ![9/20, 3/10, 1/4]

theorem exProbs_isProb : IsProb exProbs := by
  refine ⟨?_, ?_⟩
  · intro i; fin_cases i <;> norm_num [exProbs]
  · rw [Fin.sum_univ_three]; norm_num [exProbs, Matrix.cons_val_two]

/-- The first iteration of the loop on `exProbs`. -/
theorem exProbs_step {cold : ℕ → Choice 3} (hc : ValidChoice cold) :
    modeLoop 4 cold 1 (modeInit 4 exProbs) =
      { mode := fun _ => 1, probs := ![1/5, 1/20, 0], caller := ![1/5, 1/20, 0], own := false,
        remaining := 1 } := by
  have hr : 0 < (modeInit 4 exProbs).remaining := by simp [modeInit]
  have hhot : hotSet 4 (modeInit 4 exProbs) = univ := by
    ext i
    simp only [mem_hotSet, mem_univ, iff_true, modeInit]
    fin_cases i <;> norm_num [exProbs]
  have hmask : modeMask 4 (cold 0) (modeInit 4 exProbs) = univ := by
    rw [(modeMask_card hc 0 _ hr).2.2 (by rw [hhot]; simp [modeInit]), hhot]
  have hre : modeRescale 4 (modeInit 4 exProbs) = modeInit 4 exProbs :=
    modeRescale_of_hot (i := 0) (mem_hotSet.mp (by rw [hhot]; exact mem_univ _))
  have hpr : (fun i => exProbs i - 1 / ((4 : ℕ) : ℝ)) = ![1/5, 1/20, 0] := by
    funext i; fin_cases i <;> norm_num [exProbs]
  rw [modeLoop_succ_pos (k := 0) (s := modeInit 4 exProbs) (cold := cold) hr, modeLoop]
  unfold modeBody
  dsimp only
  rw [hre, hmask]
  simp only [modeApply, mem_univ, if_true, modeInit, hpr, Bool.false_eq_true, if_false]
  simp

/-- C29 fails: with four trials and probabilities 0.45, 0.3, 0.25 the counts
(1, 1, 2) can be returned though (2, 1, 1) is more probable. -/
theorem C29_mode_fails : ∃ (cold : ℕ → Choice 3) (m : Fin 3 → ℕ) (p' : Fin 3 → ℝ),
    ValidChoice cold ∧ ModeReturns exProbs 4 0 cold m p' ∧ ¬ IsMultinomialMode 4 exProbs m := by
  classical
  obtain ⟨cold, hc, hcold⟩ := exists_validChoice_with (K := 3) 1 univ {0, 1} (subset_univ _)
  have hcard : ({0, 1} : Finset (Fin 3)).card = 2 := by decide
  rw [hcard] at hcold
  set s1 : ModeState 3 :=
    { mode := fun _ => 1, probs := ![1/5, 1/20, 0], caller := ![1/5, 1/20, 0], own := false,
      remaining := 1 } with hs1
  have h1 := exProbs_step hc
  rw [← hs1] at h1
  have hall : ∀ i, s1.probs i < 1 / ((4 : ℕ) : ℝ) := by
    intro i; fin_cases i <;> norm_num [hs1]
  have hre : modeRescale 4 s1 = { s1 with probs := modeSoftmax s1.probs, own := true } := by
    unfold modeRescale; exact if_pos hall
  have hb : ∀ i, 0 ≤ s1.probs i ∧ s1.probs i ≤ 1 / 5 := by
    intro i; fin_cases i <;> norm_num [hs1]
  have hexp : Real.exp (1 / 5) ≤ 5 / 4 := by
    have h := Real.add_one_le_exp (-(1 / 5 : ℝ))
    rw [Real.exp_neg] at h
    have hp := Real.exp_pos (1 / 5 : ℝ)
    have h2 : (4 / 5 : ℝ) ≤ (Real.exp (1 / 5))⁻¹ := by linarith
    have h3 := mul_le_mul_of_nonneg_right h2 hp.le
    rw [inv_mul_cancel₀ hp.ne'] at h3
    linarith
  have hhot : hotSet 4 (modeRescale 4 s1) = univ := by
    ext i
    simp only [mem_hotSet, mem_univ, iff_true, hre, modeSoftmax]
    have hle : ∀ j, Real.exp (s1.probs j) ≤ 5 / 4 := fun j =>
      (Real.exp_le_exp.mpr (hb j).2).trans hexp
    have hge : 1 ≤ Real.exp (s1.probs i) := by
      have := Real.add_one_le_exp (s1.probs i); linarith [(hb i).1]
    have hpos : 0 < ∑ j, Real.exp (s1.probs j) :=
      sum_pos (fun _ _ => Real.exp_pos _) ⟨0, mem_univ _⟩
    rw [div_le_div_iff₀ (by norm_num) hpos, Fin.sum_univ_three]
    push_cast
    linarith [hle 0, hle 1, hle 2]
  have hmask : modeMask 4 (cold 1) (modeRescale 4 s1) = {2} := by
    rw [modeMask_def, hhot, modeRescale_remaining]
    have : ((univ : Finset (Fin 3)).card : ℤ) - s1.remaining = 2 := by simp [hs1]
    rw [this, if_pos (by norm_num)]
    have : (2 : ℤ).toNat = 2 := rfl
    rw [this, hcold]
    decide
  have h2 : modeLoop 4 cold 2 (modeInit 4 exProbs) = modeApply 4 {2} (modeRescale 4 s1) := by
    have hr1 : 0 < (modeLoop 4 cold 1 (modeInit 4 exProbs)).remaining := by rw [h1]; simp [hs1]
    rw [modeLoop_succ_pos (k := 1) hr1, h1]
    unfold modeBody
    dsimp only
    rw [hmask]
  refine ⟨cold, ![1, 1, 2], (modeLoop 4 cold 2 (modeInit 4 exProbs)).caller, hc, ?_, ?_⟩
  · unfold ModeReturns
    rw [if_neg (by norm_num)]
    refine ⟨2, ?_, ?_, rfl⟩
    · rw [h2]; simp [modeApply, modeRescale_remaining, hs1]
    · rw [h2]
      funext i
      simp only [modeApply, modeRescale_mode, hs1, mem_singleton]
      fin_cases i <;> rfl
  · intro h
    have := h.2 ![2, 1, 1] (by decide)
    unfold multinomialPmf at this
    simp only [Fin.prod_univ_three, exProbs] at this
    norm_num [Nat.factorial, Matrix.cons_val_two] at this

/-- A case where everything works: three equally likely classes, three trials. -/
noncomputable def thirds : Fin 3 → ℝ := fun _ => 1 / 3

theorem thirds_isProb : IsProb thirds :=
  ⟨fun _ => by norm_num [thirds], by simp [thirds]⟩

example : ∃ cold m p', ValidChoice cold ∧ ModeReturns thirds 3 0 cold m p' ∧
    IsMultinomialMode 3 thirds m ∧ p' ≠ thirds := by
  obtain ⟨cold, hc⟩ := exists_validChoice 3
  obtain ⟨m, p', h⟩ := C26_terminates_partial (n := 3) hc (by norm_num) le_rfl thirds 0
  refine ⟨cold, m, p', hc, h, ?_, ?_⟩
  · exact C29_mode_partial (by norm_num) hc thirds_isProb (fun _ => le_rfl) h
      (Or.inr fun i => ⟨1, by norm_num [thirds]⟩)
  · rw [Ne, C28_caller_unchanged_iff (by norm_num) hc h]
    push Not
    exact ⟨by norm_num, 0, by norm_num [thirds]⟩

/-- C28 fails: the caller's probabilities are changed. -/
theorem C28_caller_fails : ∃ (cold : ℕ → Choice 3) (m : Fin 3 → ℕ) (p' : Fin 3 → ℝ),
    ValidChoice cold ∧ ModeReturns thirds 3 0 cold m p' ∧ p' ≠ thirds := by
  obtain ⟨cold, hc⟩ := exists_validChoice 3
  obtain ⟨m, p', h⟩ := C26_terminates_partial (n := 3) hc (by norm_num) le_rfl thirds 0
  refine ⟨cold, m, p', hc, h, ?_⟩
  rw [Ne, C28_caller_unchanged_iff (by norm_num) hc h]
  push Not
  exact ⟨by norm_num, 0, by norm_num [thirds]⟩

end Edward
