/-
Meaning of static shapes: the concrete shapes they describe.
-/
import Mathlib.Data.List.Forall2
import Verif.Model.Shape

namespace Edward

/-- The concrete shape `l` is one that the static shape describes: same rank and the
known dimensions agree. -/
def Describes (s : Shape) (l : List Nat) : Prop :=
  match s with
  | none => True
  | some ds => List.Forall₂ (fun (d : Dim) n => ∀ k, d = some k → n = k) ds l

/-- Two static shapes can be shapes of one and the same array. -/
def Consistent (s t : Shape) : Prop := ∃ l, Describes s l ∧ Describes t l

theorem dimsCompat_iff : ∀ (a b : List Dim),
    dimsCompat a b = true ↔ Consistent (some a) (some b)
  | [], [] => by
    simp only [dimsCompat, Consistent, Describes, true_iff]
    exact ⟨[], List.Forall₂.nil, List.Forall₂.nil⟩
  | [], _ :: _ => by
    simp only [dimsCompat, Consistent, Describes, Bool.false_eq_true, false_iff]
    rintro ⟨l, h1, h2⟩
    cases h1; cases h2
  | _ :: _, [] => by
    simp only [dimsCompat, Consistent, Describes, Bool.false_eq_true, false_iff]
    rintro ⟨l, h1, h2⟩
    cases h2; cases h1
  | a :: as, b :: bs => by
    rw [dimsCompat, Bool.and_eq_true, dimsCompat_iff as bs]
    constructor
    · rintro ⟨h, l, h1, h2⟩
      have : ∃ n : Nat, (∀ k, a = some k → n = k) ∧ ∀ k, b = some k → n = k := by
        cases a with
        | none =>
          cases b with
          | none => exact ⟨0, by simp, by simp⟩
          | some b => exact ⟨b, by simp, by simp⟩
        | some a =>
          cases b with
          | none => exact ⟨a, by simp, by simp⟩
          | some b =>
            have hab : a = b := by simpa [dimCompat] using h
            exact ⟨a, by simp, by simp [hab]⟩
      obtain ⟨n, hn1, hn2⟩ := this
      exact ⟨n :: l, List.Forall₂.cons hn1 h1, List.Forall₂.cons hn2 h2⟩
    · rintro ⟨l, h1, h2⟩
      cases h1 with
      | cons ha hl1 =>
        cases h2 with
        | cons hb hl2 =>
          refine ⟨?_, _, hl1, hl2⟩
          cases a with
          | none => simp [dimCompat]
          | some a =>
            cases b with
            | none => simp [dimCompat]
            | some b => simp [dimCompat, ← ha a rfl, ← hb b rfl]

theorem exists_describes (s : Shape) : ∃ l, Describes s l := by
  cases s with
  | none => exact ⟨[], trivial⟩
  | some ds =>
    refine ⟨ds.map (fun d => d.getD 0), ?_⟩
    unfold Describes
    dsimp only
    induction ds with
    | nil => exact List.Forall₂.nil
    | cons d ds ih => exact List.Forall₂.cons (by rintro k rfl; rfl) ih

/-- `is_compatible_with` says exactly whether some array has both shapes. -/
theorem shapeCompat_iff (s t : Shape) : shapeCompat s t = true ↔ Consistent s t := by
  cases s with
  | none =>
    obtain ⟨l, hl⟩ := exists_describes t
    simp only [shapeCompat, true_iff]
    exact ⟨l, trivial, hl⟩
  | some a =>
    cases t with
    | none =>
      obtain ⟨l, hl⟩ := exists_describes (some a)
      simp only [shapeCompat, true_iff]
      exact ⟨l, hl, trivial⟩
    | some b => exact dimsCompat_iff a b

theorem describes_hostShape (m l : List Nat) : Describes (hostShape m) l ↔ l = m := by
  unfold hostShape Describes
  dsimp only
  induction m generalizing l with
  | nil => simp
  | cons a m ih =>
    cases l with
    | nil => simp
    | cons b l => simp [ih]

end Edward
