/-
Specification for C146: the objective with a scale per data variable.
-/
import Mathlib.Data.Real.Basic

namespace Edward.Spec

/-- The scale of a data variable: the one it is bound to, or else 1. -/
def scaleOf (scale : List (ℕ × ℝ)) (k : ℕ) : ℝ := (scale.lookup k).getD 1

/-- The sum of the log ratios of all data variables, each with its scale. -/
def scaledSum (scale : List (ℕ × ℝ)) (r : List (ℕ × List ℝ)) : ℝ := (r.map fun kv => scaleOf scale kv.1 * kv.2.sum).sum

end Edward.Spec
