/-
C97: the data inference uses are the data it was given.
-/
import Mathlib.Tactic.Linarith
import Mathlib.Tactic.NormNum
import Mathlib.Data.Rat.Floor
import Verif.Model.StoreCast
import Verif.Props.CheckData

namespace Edward

/-- The numbers a dtype can hold (floats: all, rounding is not modelled). -/
def Spec.Representable : DType → ℚ → Prop
  | .int32, q => ∃ n : ℤ, q = n ∧ -2 ^ 31 ≤ n ∧ n < 2 ^ 31
  | .int64, q => ∃ n : ℤ, q = n ∧ -2 ^ 63 ≤ n ∧ n < 2 ^ 63
  | .bool, q => q = 0 ∨ q = 1
  | _, _ => True

theorem truncRat_intCast (n : ℤ) : truncRat (n : ℚ) = n := by
  unfold truncRat; split <;> simp

theorem wrapInt_range (w : ℕ) (hw : 0 < w) (n : ℤ) : -2 ^ (w - 1) ≤ wrapInt w n ∧ wrapInt w n < 2 ^ (w - 1) := by
  have h2 : (2 : ℤ) ^ w = 2 * 2 ^ (w - 1) := by
    rw [← pow_succ', Nat.sub_add_cancel hw]
  have hp : (0 : ℤ) < 2 ^ w := by positivity
  have h3 := Int.emod_nonneg (n + 2 ^ (w - 1)) hp.ne'
  have h4 := Int.emod_lt_of_pos (n + 2 ^ (w - 1)) hp
  unfold wrapInt
  constructor <;> linarith

theorem wrapInt_eq (w : ℕ) (hw : 0 < w) (n : ℤ) (h : -2 ^ (w - 1) ≤ n ∧ n < 2 ^ (w - 1)) : wrapInt w n = n := by
  have h2 : (2 : ℤ) ^ w = 2 * 2 ^ (w - 1) := by
    rw [← pow_succ', Nat.sub_add_cancel hw]
  unfold wrapInt
  rw [Int.emod_eq_of_lt (by linarith) (by linarith)]
  ring

/-- An entry survives the cast exactly if the dtype can hold it. -/
theorem castEntry_iff (d : DType) (q : ℚ) : castEntry d q = q ↔ Spec.Representable d q := by
  have key : ∀ w, 0 < w → (((wrapInt w (truncRat q) : ℤ) : ℚ) = q ↔
      ∃ n : ℤ, q = n ∧ -2 ^ (w - 1) ≤ n ∧ n < 2 ^ (w - 1)) := by
    intro w hw
    constructor
    · intro h
      exact ⟨_, h.symm, wrapInt_range w hw _⟩
    · rintro ⟨n, rfl, h⟩
      rw [truncRat_intCast, wrapInt_eq w hw n h]
  cases d with
  | int32 => exact key 32 (by norm_num)
  | int64 => exact key 64 (by norm_num)
  | bool =>
    simp only [castEntry, Spec.Representable]
    split
    · rename_i h; simp [h]
    · rename_i h; simp [h, eq_comm]
  | _ => simp [castEntry, Spec.Representable]

/-- C97: what is stored for accepted data is what was given exactly when the key's dtype can
hold every entry. -/
theorem C97_partial (key : NodeInfo) (v : HostData) (out : List ℚ) (h : storeHost key v = .ok out) :
    (out = v.entries ↔ ∀ q ∈ v.entries, Spec.Representable key.dtype q) ∧
    out.length = v.entries.length := by
  unfold storeHost at h
  split at h
  case isFalse => cases h
  have hmap : ∀ l : List ℚ, l.map (castEntry key.dtype) = l ↔ ∀ q ∈ l, Spec.Representable key.dtype q := by
    intro l
    simp only [← castEntry_iff]
    constructor
    · intro hl q hq
      obtain ⟨i, hi, rfl⟩ := List.mem_iff_getElem.mp hq
      have := List.getElem_map (castEntry key.dtype) (l := l) (i := i) (h := by simpa using hi)
      rw [← this]
      simp only [hl]
    · intro hl
      rw [List.map_congr_left hl, List.map_id']
  cases v with
  | pyInt n =>
    simp only [feedHost] at h
    split at h
    · cases h
    · simp only [Except.ok.injEq] at h
      subst h
      exact ⟨hmap [(n : ℚ)], rfl⟩
  | pyFloat q =>
    simp only [feedHost, Except.ok.injEq] at h
    subst h
    exact ⟨hmap [q], rfl⟩
  | array s np l =>
    simp only [feedHost, Except.ok.injEq] at h
    subst h
    exact ⟨hmap l, by simp [HostData.entries]⟩

/-- C97: a Python integer is stored unchanged or refused. -/
theorem C97_int (key : NodeInfo) (n : ℤ) (out : List ℚ) (h : storeHost key (.pyInt n) = .ok out) :
    out = [(n : ℚ)] := by
  unfold storeHost feedHost at h
  split at h
  · simp only at h
    split at h
    · cases h
    · rename_i hn
      simp only [ne_eq, not_not] at hn
      rw [hn] at h
      simpa [eq_comm] using h
  · cases h

/-- C97 fails: for a variable of integer dtype (Bernoulli, Poisson, Categorical, ...) any
data array of the right shape is accepted and stored without its fractional parts, so that
arrays which agree after truncation are the same data to inference. -/
theorem C97_fails (key : NodeInfo) (hk : key.dtype = .int32) (s : List ℕ) (np : Bool) (l : List ℚ)
    (hs : shapeCompat key.shape (hostShape s) = true) (hl : ∀ q ∈ l, -2 ^ 31 < q ∧ q < 2 ^ 31) :
    storeHost key (.array s np l) = .ok (l.map fun q => ((truncRat q : ℤ) : ℚ)) := by
  have hacc : checkPair (.rv key) (HostData.array s np l).kind = true := by
    cases np <;> simp [HostData.kind, checkPair, checkPair.checkNode, hs]
  unfold storeHost
  rw [if_pos hacc]
  simp only [feedHost, hk, Except.ok.injEq]
  apply List.map_congr_left
  intro q hq
  obtain ⟨h1, h2⟩ := hl q hq
  simp only [castEntry]
  rw [wrapInt_eq 32 (by norm_num)]
  unfold truncRat
  split
  · rename_i h0
    have hf : (0 : ℤ) ≤ ⌊q⌋ := Int.floor_nonneg.mpr h0
    constructor
    · have : (-2 ^ (32 - 1) : ℤ) ≤ 0 := by norm_num
      linarith
    · have : (⌊q⌋ : ℚ) < 2 ^ 31 := lt_of_le_of_lt (Int.floor_le q) h2
      exact_mod_cast this
  · rename_i h0
    have hf : ⌈q⌉ ≤ 0 := Int.ceil_le.mpr (by push_cast; linarith)
    constructor
    · have : (-2 ^ 31 : ℚ) < ⌈q⌉ := lt_of_lt_of_le h1 (Int.le_ceil q)
      have h3 : (-2 ^ 31 : ℤ) < ⌈q⌉ := by exact_mod_cast this
      exact h3.le
    · have : (0 : ℤ) < 2 ^ (32 - 1) := by norm_num
      linarith

/-- C97 fails: 64 bit integers are stored modulo 2^32. -/
theorem C97_overflow_fails :
    storeHost ⟨some [some 1], .int32⟩ (.array [1] true [2 ^ 32 + 5]) = .ok [5] := by
  decide +kernel

-- Counts 0.7 and 2.9 for a Poisson variable become 0 and 2; integer counts are kept.
example : storeHost ⟨some [some 2], .int32⟩ (.array [2] true [7 / 10, 29 / 10]) = .ok [0, 2] ∧
    storeHost ⟨some [some 2], .int32⟩ (.array [2] true [3, 4]) = .ok [3, 4] ∧
    storeHost ⟨some [some 2], .float32⟩ (.array [2] true [7 / 10, 3]) = .ok [7 / 10, 3] := by
  decide +kernel

end Edward
