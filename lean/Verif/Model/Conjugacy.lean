/-
Model of edward/inferences/conjugacy/conjugacy.py: splitting simplified expressions into
multipliers and sufficient statistics, and rebuilding the multipliers.
-/
import Mathlib.Analysis.SpecialFunctions.Pow.Real
import Verif.Model.Simplify

namespace Edward

open Expr

/-- An element of a tuple: the first element of an expression, or an argument. -/
abbrev Item := Head ⊕ Expr

/-- An expression as the tuple it is. -/
def tupleOf : Expr → List Item
  | node h as => .inl h :: as.map .inr

mutual
/-- `extract_s_stat_multipliers` (conjugacy.py:205-217): the multipliers and the tuple used
as dictionary key. The factors' tuples are concatenated (`s_stats += s_stat`), not nested. -/
def extractMultipliers : Expr → List Expr × List Item
  | node .mul as => extractArgs as
  | node h as => ([], tupleOf (node h as))
/-- The loop of conjugacy.py:210-216. -/
def extractArgs : List Expr → List Expr × List Item
  | [] => ([], [])
  | a :: as =>
    if containsX a then
      let r := extractMultipliers a
      let rs := extractArgs as
      (r.1 ++ rs.1, r.2 ++ rs.2)
    else
      let rs := extractArgs as
      (a :: rs.1, rs.2)
end

/-- `tf_fn(*args)` for the entries of `_extractable_nodes` (simplify.py:16-30, 69-72), on the
values of the arguments. `tf.add_n(*args)` and `_mul_n(*args)` are called with the arguments
unpacked although they expect one list: no number of arguments is accepted
(`add_n` of a tensor and `len` of a tensor raise, too). The error is TypeError except for
`tf.add_n` of a Python number, where it is ValueError; both are modelled by the former.
A wrong number of arguments is a TypeError (the optional `name` argument is ignored).
`oneHot` is `tf.one_hot`. -/
noncomputable def applyTf (oneHot : List ℝ → ℝ) : Head → List ℝ → Except PyErr ℝ
  | .sub, [a, b] => .ok (a - b)
  | .log, [a] => .ok (Real.log a)
  | .exp, [a] => .ok (Real.exp a)
  | .pow, [a, b] => .ok (a ^ b)
  | .square, [a] => .ok (a ^ (2 : ℕ))
  | .reciprocal, [a] => .ok a⁻¹
  | .sqrt, [a] => .ok √a
  | .identity, [a] => .ok a
  | .oneMinus, [a] => .ok (1 - a)
  | .oneHot, [a] => .ok (oneHot [a])
  | _, _ => .error .typeError

mutual
/-- `reconstruct_expr` (simplify.py:61-73), as the value of the tensor it builds. `val` is the
value of a tensor of the graph: a tensor head is returned as it is, whatever its
arguments. -/
noncomputable def reconstruct (oneHot : List ℝ → ℝ) (val : TfNode → ℝ) : Expr → Except PyErr ℝ
  | node (.num c) _ => .ok c
  | node (.tensor t) _ => .ok (val t)
  | node .x _ => .error .valueError
  | node (.cpow p) as => do
    match ← reconstructs oneHot val as with
    | a :: _ => .ok (a ^ (p : ℝ))
    | [] => .error .indexError
  | node h as => do applyTf oneHot h (← reconstructs oneHot val as)
/-- The comprehension of simplify.py:66. -/
noncomputable def reconstructs (oneHot : List ℝ → ℝ) (val : TfNode → ℝ) : List Expr → Except PyErr (List ℝ)
  | [] => .ok []
  | a :: as => do
    let v ← reconstruct oneHot val a
    let vs ← reconstructs oneHot val as
    return v :: vs
end

/-- `reconstruct_multiplier` (conjugacy.py:220-224). -/
noncomputable def reconstructMultiplier (oneHot : List ℝ → ℝ) (val : TfNode → ℝ) (ms : List Expr) : Except PyErr ℝ :=
  ms.foldlM (fun r m => do return r * (← reconstruct oneHot val m)) 1

end Edward
