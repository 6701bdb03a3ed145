/- What TensorBoard shows (C145). -/
import Verif.Spec.VarList
import Mathlib.Order.Interval.Finset.Nat

namespace Edward.Spec

/-- The variable holds one number, and is not a matrix or array of higher rank. -/
def Single : Option (List (Option ℕ)) → Prop
  | some s => s = [] ∨ s = [some 1]
  | none => False

/-- The names which TensorFlow gives to variables: a name without colon, and the number of the output, which is 0. -/
def VariableName (n : List Char) : Prop := ∃ x : List Char, ':' ∉ x ∧ n = x ++ [':', '0']

/-- The updates among the first `n` for which a summary is due: the first, and the multiples of `p`. -/
def due (p n : ℕ) : Finset ℕ := (Finset.Icc 1 n).filter fun t => t = 1 ∨ p ∣ t

end Edward.Spec
