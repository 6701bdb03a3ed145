/-
Properties C30 and C31: MCMC bookkeeping and the reported acceptance rate.
-/
import Mathlib.Data.List.Basic
import Mathlib.Algebra.Order.Field.Rat
import Mathlib.Algebra.Order.Field.Basic
import Mathlib.Tactic.Linarith
import Mathlib.Tactic.NormNum
import Mathlib.Tactic.IntervalCases
import Verif.Spec.MonteCarlo

set_option linter.unusedSectionVars false

namespace Edward

variable {Z V H W : Type} [Fintype Z] [DecidableEq Z]

theorem nAcc_succ (K : Kernel Z V H W) (x0 : Z → V) (h0 : H) (ws : Nat → W) (k : Nat) :
    nAcc K x0 h0 ws (k + 1) =
      nAcc K x0 h0 ws k + (if accepted K x0 h0 ws k then 1 else 0) := by
  unfold nAcc
  rw [List.range_succ, List.countP_append]
  simp [List.countP_singleton]

/-- State after `k` updates of the chain started from row 0. -/
structure MCInv (K : Kernel Z V H W) (p0 : Z → List V) (x0 : Z → V) (h0 : H) (ws : Nat → W)
    (k : Nat) (s : MCState Z V H) : Prop where
  t : s.t = k
  hidden : s.hidden = (chain K x0 h0 ws k).2
  acc : s.nAccept = nAcc K x0 h0 ws k
  rows : ∀ z (i : Nat), (s.params z)[i]? =
    if i < k then some ((chain K x0 h0 ws (i + 1)).1 z) else (p0 z)[i]?

theorem mcinv_len {K : Kernel Z V H W} {p0 : Z → List V} {x0 : Z → V} {h0 : H} {ws : Nat → W}
    {k : Nat} {s : MCState Z V H} (h : MCInv K p0 x0 h0 ws k s) (hk : ∀ z, k ≤ (p0 z).length) (z : Z) :
    (s.params z).length = (p0 z).length := by
  apply Nat.le_antisymm
  · have := h.rows z (p0 z).length
    rw [if_neg (by have := hk z; omega), List.getElem?_eq_none (le_refl _)] at this
    exact List.getElem?_eq_none_iff.mp this
  · have := h.rows z (s.params z).length
    rw [List.getElem?_eq_none (le_refl _)] at this
    split at this
    · exact absurd this (by simp)
    · exact List.getElem?_eq_none_iff.mp this.symm

theorem mcUpdate_inv {K : Kernel Z V H W} {p0 : Z → List V} {x0 : Z → V} {h0 : H} {ws : Nat → W}
    {k : Nat} {s : MCState Z V H} (h0r : ∀ z, (p0 z)[0]? = some (x0 z))
    (h : MCInv K p0 x0 h0 ws k s) (hk : ∀ z, k < (p0 z).length) (late : Bool) :
    ∃ s', mcUpdate K (ws k) late s =
        some (s', (k + 1, Rate.div (if late then nAcc K x0 h0 ws (k + 1) else nAcc K x0 h0 ws k) k)) ∧
      MCInv K p0 x0 h0 ws (k + 1) s' := by
  have hlen := mcinv_len h (fun z => (hk z).le)
  have h1 : ∀ z, s.t - 1 < (s.params z).length := by
    intro z; rw [hlen, h.t]; have := hk z; omega
  have h2 : ∀ z, s.t < (s.params z).length := by
    intro z; rw [hlen, h.t]; exact hk z
  have hold : (fun z => (s.params z)[s.t - 1]'(h1 z)) = (chain K x0 h0 ws k).1 := by
    funext z
    have hr : some ((s.params z)[s.t - 1]'(h1 z)) = if k - 1 < k then
        some ((chain K x0 h0 ws (k - 1 + 1)).1 z) else (p0 z)[k - 1]? := by
      rw [← h.t, ← List.getElem?_eq_getElem (h1 z), h.rows, h.t]
    rcases Nat.eq_zero_or_pos k with rfl | hkpos
    · simp only [Nat.not_lt_zero, if_false] at hr
      rw [h0r z] at hr
      exact Option.some.inj hr
    · rw [if_pos (by omega), Nat.sub_add_cancel hkpos] at hr
      exact Option.some.inj hr
  have hstep : K s.t (fun z => (s.params z)[s.t - 1]'(h1 z)) s.hidden (ws k) =
      K k (chain K x0 h0 ws k).1 (chain K x0 h0 ws k).2 (ws k) := by
    rw [hold, h.hidden, h.t]
  have hacc : s.nAccept + (if (K k (chain K x0 h0 ws k).1 (chain K x0 h0 ws k).2 (ws k)).2.2
      then 1 else 0) = nAcc K x0 h0 ws (k + 1) := by
    rw [nAcc_succ, h.acc]; rfl
  refine ⟨_, by
    unfold mcUpdate trainRun
    rw [dif_pos h1]
    dsimp only
    rw [if_pos h2, hstep, hacc]
    dsimp only
    rw [h.t, h.acc], ?_⟩
  refine ⟨rfl, rfl, rfl, ?_⟩
  intro z i
  simp only [List.getElem?_set]
  by_cases hi : k = i
  · subst hi
    rw [if_pos rfl, if_pos (by have := h2 z; rwa [h.t] at this), if_pos (by omega)]
    rfl
  · rw [if_neg hi, h.rows z i]
    by_cases hik : i < k
    · rw [if_pos hik, if_pos (by omega)]
    · rw [if_neg hik, if_neg (by omega)]

theorem mcRun_inv {K : Kernel Z V H W} {p0 : Z → List V} {x0 : Z → V} {h0 : H}
    {ws : Nat → W} (late : Nat → Bool) (h0r : ∀ z, (p0 z)[0]? = some (x0 z)) (n : Nat) :
    ∀ (k : Nat) (s : MCState Z V H), MCInv K p0 x0 h0 ws k s → (∀ z, k + n ≤ (p0 z).length) →
    ∃ s', mcRun K ((List.range' k n).map (fun i => (ws i, late i))) s = some (s',
        (List.range' k n).map (fun i => (i + 1,
          Rate.div (if late i then nAcc K x0 h0 ws (i + 1) else nAcc K x0 h0 ws i) i))) ∧
      MCInv K p0 x0 h0 ws (k + n) s' := by
  induction n with
  | zero => intro k s h _; exact ⟨s, rfl, h⟩
  | succ n ih =>
    intro k s h hk
    obtain ⟨s1, e1, h1⟩ := mcUpdate_inv h0r h (fun z => by have := hk z; omega) (late k)
    obtain ⟨s2, e2, h2⟩ := ih (k + 1) s1 h1 (fun z => by have := hk z; omega)
    refine ⟨s2, ?_, by rw [show k + (n + 1) = k + 1 + n by omega]; exact h2⟩
    rw [List.range'_succ, List.map_cons, List.map_cons, mcRun, e1]
    dsimp only
    rw [e2]

theorem le_nIter_iff [Nonempty Z] (p0 : Z → List V) (n : Nat) :
    n ≤ nIter p0 ↔ ∀ z, n ≤ (p0 z).length := by
  unfold nIter
  rw [Finset.le_inf'_iff]
  simp

/-- C30: `k ≤ n_iter` updates succeed, whatever the kernel, the random draws and
the read orders. Afterwards row `i < k` of every `Empirical` is the chain's state
after step `i + 1` (the chain starting from row 0), later rows are untouched,
`t = k`, `n_accept` counts the accepted steps and the `i`-th update reported
`t = i + 1`. -/
theorem C30_bookkeeping [Nonempty Z] (K : Kernel Z V H W) (p0 : Z → List V) (h0 : H) (x0 : Z → V)
    (h0r : ∀ z, (p0 z)[0]? = some (x0 z)) (ws : Nat → W) (late : Nat → Bool) (k : Nat)
    (hk : k ≤ nIter p0) :
    ∃ s infos, mcRun K ((List.range k).map (fun i => (ws i, late i))) (mcInit p0 h0) = some (s, infos) ∧
      (∀ z, (s.params z).length = (p0 z).length) ∧
      (∀ z i, i < k → (s.params z)[i]? = some ((chain K x0 h0 ws (i + 1)).1 z)) ∧
      (∀ z i, k ≤ i → (s.params z)[i]? = (p0 z)[i]?) ∧
      s.t = k ∧ s.nAccept = nAcc K x0 h0 ws k ∧ s.hidden = (chain K x0 h0 ws k).2 ∧
      infos.map Prod.fst = (List.range k).map (· + 1) := by
  have hk' := (le_nIter_iff p0 k).mp hk
  obtain ⟨s, e, h⟩ := mcRun_inv (K := K) (p0 := p0) (x0 := x0) (h0 := h0) (ws := ws) late h0r k 0
    (mcInit p0 h0) ⟨rfl, rfl, rfl, by intro z i; simp [mcInit]⟩ (fun z => by have := hk' z; omega)
  rw [Nat.zero_add] at h
  refine ⟨s, _, by rw [List.range_eq_range']; exact e, mcinv_len h hk', ?_, ?_, h.t, h.acc, h.hidden, ?_⟩
  · intro z i hi; rw [h.rows, if_pos hi]
  · intro z i hi; rw [h.rows, if_neg (by omega)]
  · rw [List.range_eq_range']; simp

/-- C30: one update more than the smallest `Empirical` size raises. -/
theorem C30_overrun_raises [Nonempty Z] (K : Kernel Z V H W) (s : MCState Z V H) (w : W) (late : Bool)
    (h : s.t = nIter s.params) : mcUpdate K w late s = none := by
  have : ¬ ∀ z, s.t < (s.params z).length := by
    intro hh
    have := (le_nIter_iff s.params (s.t + 1)).mpr hh
    omega
  have ht : trainRun K w late s = none := by
    unfold trainRun
    split <;> simp
  unfold mcUpdate
  rw [ht]

/-- The rates reported by the first `k` updates. -/
theorem rates_of_run [Nonempty Z] (K : Kernel Z V H W) (p0 : Z → List V) (h0 : H) (x0 : Z → V)
    (h0r : ∀ z, (p0 z)[0]? = some (x0 z)) (ws : Nat → W) (late : Nat → Bool) (k : Nat)
    (hk : k ≤ nIter p0) :
    ∃ s, mcRun K ((List.range k).map (fun i => (ws i, late i))) (mcInit p0 h0) = some (s,
      (List.range k).map (fun i => (i + 1,
          Rate.div (if late i then nAcc K x0 h0 ws (i + 1) else nAcc K x0 h0 ws i) i))) := by
  have hk' := (le_nIter_iff p0 k).mp hk
  obtain ⟨s, e, _⟩ := mcRun_inv (K := K) (p0 := p0) (x0 := x0) (h0 := h0) (ws := ws) late h0r k 0
    (mcInit p0 h0) ⟨rfl, rfl, rfl, by intro z i; simp [mcInit]⟩ (fun z => by have := hk' z; omega)
  exact ⟨s, by rw [List.range_eq_range']; exact e⟩

theorem nAcc_le (K : Kernel Z V H W) (x0 : Z → V) (h0 : H) (ws : Nat → W) (k : Nat) :
    nAcc K x0 h0 ws k ≤ k := by
  unfold nAcc
  have := List.countP_le_length (p := accepted K x0 h0 ws) (l := List.range k)
  simpa using this

/-- C31 does not hold: the first update of *every* run reports a rate which is not
a number between 0 and 1 (it divides by `t = 0`). -/
theorem C31_first_rate_fails [Nonempty Z] (K : Kernel Z V H W) (p0 : Z → List V) (h0 : H)
    (h1 : 1 ≤ nIter p0) (w : W) (late : Bool) :
    ∃ s r, mcUpdate K w late (mcInit p0 h0) = some (s, (1, r)) ∧ ¬ r.proper := by
  have hk' := (le_nIter_iff p0 1).mp h1
  obtain ⟨s, e⟩ := rates_of_run K p0 h0 (fun z => (p0 z)[0]'(hk' z))
    (fun z => List.getElem?_eq_getElem (hk' z)) (fun _ => w) (fun _ => late) 1 h1
  simp only [List.range_one, List.map_cons, List.map_nil, mcRun] at e
  cases hu : mcUpdate K w late (mcInit p0 h0) with
  | none => rw [hu] at e; simp at e
  | some p =>
    rw [hu] at e
    simp only [Option.some.injEq, Prod.mk.injEq, List.cons.injEq, and_true] at e
    refine ⟨p.1, _, by rw [← Prod.eta p, e.2], ?_⟩
    have hz : ∀ n, ¬ (Rate.div n 0).proper := by
      intro n; unfold Rate.div; rw [if_pos rfl]; split <;> simp [Rate.proper]
    exact hz _

/-- C31: what the first update reports: infinity if the sample was accepted and the counter
is read after its increment, otherwise not a number. -/
theorem C31_first_rate_value_fails [Nonempty Z] (K : Kernel Z V H W) (p0 : Z → List V) (h0 : H) (x0 : Z → V)
    (h0r : ∀ z, (p0 z)[0]? = some (x0 z)) (h1 : 1 ≤ nIter p0) (w : W) (late : Bool) :
    ∃ s, mcUpdate K w late (mcInit p0 h0) =
      some (s, (1, if late = true ∧ (K 0 x0 h0 w).2.2 = true then .inf else .nan)) := by
  obtain ⟨s, e⟩ := rates_of_run K p0 h0 x0 h0r (fun _ => w) (fun _ => late) 1 h1
  simp only [List.range_one, List.map_cons, List.map_nil, mcRun] at e
  cases hu : mcUpdate K w late (mcInit p0 h0) with
  | none => rw [hu] at e; simp at e
  | some p =>
    rw [hu] at e
    simp only [Option.some.injEq, Prod.mk.injEq, List.cons.injEq, and_true] at e
    refine ⟨p.1, ?_⟩
    rw [← Prod.eta p, e.2]
    have h : nAcc K x0 h0 (fun _ => w) 1 = if (K 0 x0 h0 w).2.2 = true then 1 else 0 := by
      rw [nAcc_succ]; simp [accepted, nAcc, chain]
      split <;> simp_all
    have h' : nAcc K x0 h0 (fun _ => w) 0 = 0 := rfl
    cases late <;> cases hb : (K 0 x0 h0 w).2.2 <;> simp_all [Rate.div]

/-- C31 does not hold: with all steps accepted and the counter read after its
increment, the second update reports the rate 2. -/
theorem C31_above_one_fails :
    ∃ (K : Kernel Unit Unit Unit Unit) (p0 : Unit → List Unit) (s : MCState Unit Unit Unit)
      (infos : List (Nat × Rate)),
      mcRun K [((), true), ((), true)] (mcInit p0 ()) = some (s, infos) ∧
      infos[1]? = some (2, .val 2) := by
  refine ⟨fun _ x h _ => (x, h, true), fun _ => [(), ()], ?_⟩
  obtain ⟨s, e⟩ := rates_of_run (Z := Unit) (fun _ x h _ => (x, h, true)) (fun _ => [(), ()]) ()
    (fun _ => ()) (by simp) (fun _ : Nat => ()) (fun _ => true) 2 (by decide)
  refine ⟨s, _, e, ?_⟩
  have : nAcc (Z := Unit) (V := Unit) (H := Unit) (W := Unit) (fun _ x h _ => (x, h, true))
      (fun _ => ()) () (fun _ => ()) 2 = 2 := by
    rw [nAcc_succ, nAcc_succ]; simp [accepted, nAcc]
  simp [List.range_succ, this, Rate.div]

/-- C31, the part that holds: from the second update on, if `n_accept` is read
before its increment, the reported rate is the fraction of accepted samples among
the `t` samples drawn *before* this update, a number in `[0, 1]`. Missing: the
first update, the sample of the present update, and any read order. -/
theorem C31_rate_partial [Nonempty Z] (K : Kernel Z V H W) (p0 : Z → List V) (h0 : H) (x0 : Z → V)
    (h0r : ∀ z, (p0 z)[0]? = some (x0 z)) (ws : Nat → W) (late : Nat → Bool) (k : Nat)
    (hk : k ≤ nIter p0) (s : MCState Z V H) (infos : List (Nat × Rate))
    (h : mcRun K ((List.range k).map (fun i => (ws i, late i))) (mcInit p0 h0) = some (s, infos))
    (i : Nat) (hi : i < k) (hpos : 0 < i) (hl : late i = false) :
    ∃ r, infos[i]? = some (i + 1, r) ∧ r = .val ((nAcc K x0 h0 ws i : ℚ) / i) ∧ r.proper := by
  obtain ⟨s', e⟩ := rates_of_run K p0 h0 x0 h0r ws late k hk
  rw [h] at e
  obtain ⟨_, rfl⟩ := Prod.mk.inj (Option.some.inj e)
  refine ⟨_, by rw [List.getElem?_map, List.getElem?_range hi]; rfl, ?_, ?_⟩
  · simp [hl, Rate.div, Nat.pos_iff_ne_zero.mp hpos]
  · simp only [hl, Bool.false_eq_true, if_false, Rate.div, Nat.pos_iff_ne_zero.mp hpos, Rate.proper]
    have hq : (0 : ℚ) < i := by exact_mod_cast hpos
    constructor
    · exact div_nonneg (by exact_mod_cast Nat.zero_le _) hq.le
    · rw [div_le_one hq]; exact_mod_cast nAcc_le K x0 h0 ws i

/-- C31, any read order: a late read can exceed 1, but never `(t + 1) / t`. -/
theorem C31_rate_bound_partial [Nonempty Z] (K : Kernel Z V H W) (p0 : Z → List V) (h0 : H) (x0 : Z → V)
    (h0r : ∀ z, (p0 z)[0]? = some (x0 z)) (ws : Nat → W) (late : Nat → Bool) (k : Nat)
    (hk : k ≤ nIter p0) (s : MCState Z V H) (infos : List (Nat × Rate))
    (h : mcRun K ((List.range k).map (fun i => (ws i, late i))) (mcInit p0 h0) = some (s, infos))
    (i : Nat) (hi : i < k) (hpos : 0 < i) :
    ∃ q : ℚ, infos[i]? = some (i + 1, .val q) ∧ 0 ≤ q ∧ q ≤ ((i : ℚ) + 1) / i := by
  obtain ⟨s', e⟩ := rates_of_run K p0 h0 x0 h0r ws late k hk
  rw [h] at e
  obtain ⟨_, rfl⟩ := Prod.mk.inj (Option.some.inj e)
  have hq : (0 : ℚ) < i := by exact_mod_cast hpos
  refine ⟨_, by
    rw [List.getElem?_map, List.getElem?_range hi]
    simp only [Option.map_some, Rate.div, Nat.pos_iff_ne_zero.mp hpos, if_false]
    rfl, ?_, ?_⟩
  · exact div_nonneg (by exact_mod_cast Nat.zero_le _) hq.le
  · rw [div_le_div_iff_of_pos_right hq]
    have h1 := nAcc_le K x0 h0 ws i
    have h2 := nAcc_le K x0 h0 ws (i + 1)
    have : (if late i then nAcc K x0 h0 ws (i + 1) else nAcc K x0 h0 ws i) ≤ i + 1 := by
      split <;> omega
    exact_mod_cast this

/-! ### Concrete case: two latent variables, three and four rows -/

def exKernel : Kernel Bool Nat Unit Nat := fun t x h w => (fun z => x z + w + t, h, w % 2 = 0)
def exRows : Bool → List Nat := fun z => if z then [5, 0, 0] else [7, 0, 0, 0]

example : nIter exRows = 3 := by decide

example (late : Nat → Bool) : ∃ s infos,
    mcRun exKernel ((List.range 3).map (fun i => (i, late i))) (mcInit exRows ()) = some (s, infos) ∧
    s.params true = [5, 7, 11] ∧ s.params false = [7, 9, 13, 0] ∧ s.nAccept = 2 := by
  have h := C30_bookkeeping exKernel exRows () (fun z => if z then 5 else 7) (by decide) (fun i => i)
    late 3 (by decide)
  obtain ⟨s, infos, e, hl, h1, h2, _, h4, _⟩ := h
  refine ⟨s, infos, e, ?_, ?_, ?_⟩
  · apply List.ext_getElem?
    intro i
    by_cases hi : i < 3
    · rw [h1 true i hi]
      interval_cases i <;> rfl
    · rw [h2 true i (by omega), List.getElem?_eq_none, List.getElem?_eq_none]
      · simpa using by omega
      · simp [exRows]; omega
  · apply List.ext_getElem?
    intro i
    by_cases hi : i < 3
    · rw [h1 false i hi]
      interval_cases i <;> rfl
    · rw [h2 false i (by omega)]
      rcases Nat.eq_or_lt_of_le (by omega : 3 ≤ i) with rfl | hi4
      · rfl
      · rw [List.getElem?_eq_none, List.getElem?_eq_none]
        · simpa using by omega
        · simp [exRows]; omega
  · rw [h4]; decide

end Edward
