/-
Specification for C140: a copy is constructed with the values of the nodes that replace those in the arguments.
-/
import Verif.Model.CopyArgs

namespace Edward.Spec
variable {V W : Type}

/-- All nodes in an argument replaced by values. -/
def argAt (e : V → W) : CtorArg V → CtorArg W
  | .node v => .node (e v)
  | .list vs => .list (vs.map e)
  | .dict vs => .dict (vs.map fun p => (p.1, e p.2))
  | .other n => .other n

/-- Log likelihood of data at component parameters and assignments that are bound. -/
noncomputable def boundLogLik {K N : ℕ} {A : Type} (logF : List (String × ℝ) → Fin K → A → ℝ) (params : List (String × ℝ))
    (cat : Fin N → Fin K) (x : Fin N → A) : ℝ := ∑ i, logF params (cat i) (x i)

end Edward.Spec
