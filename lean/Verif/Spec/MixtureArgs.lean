/-
Spec for C144: static shapes, and what a mixture's value is.
-/
import Mathlib.Data.List.Forall2

namespace Edward.Spec

/-- Two dimensions, unknown if `none`, can be the same. -/
def DimFits (a b : Option ℕ) : Prop := ∀ m n, a = some m → b = some n → m = n

/-- The components, with batch shape `k :: b`, are as many as the last axis of the weights, and the other axes agree. -/
def ShapesFit (weights batch : List (Option ℕ)) : Prop :=
  ∃ (w : List (Option ℕ)) (n : Option ℕ) (k : Option ℕ) (b : List (Option ℕ)),
    weights = w ++ [n] ∧ batch = k :: b ∧ DimFits n k ∧ List.Forall₂ DimFits w b

/-- An index of a tensor of this shape. -/
def IndexOf (ix shape : List ℕ) : Prop := List.Forall₂ (· < ·) ix shape

end Edward.Spec
