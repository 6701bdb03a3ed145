/- What a random variable depends on (C135). -/
import Verif.Spec.Graph

namespace Edward.Spec
variable {T O R V S : Type}

/-- The tensor of the variable `v`, which carries its name, is an ancestor of the tensor `t`, or `t` itself. -/
def DependsOn (g : Graph T O R) (tname : T → S) (vname : V → S) (v : V) (t : T) : Prop :=
  ∃ u, tname u = vname v ∧ g.Reaches u t

/-- The log density of `r` depends on `v`: some parameter of its distribution does. -/
def DensityDependsOn (g : Graph T O R) (tname : T → S) (vname : V → S) (params : R → List T) (v : V) (r : R) : Prop :=
  ∃ t ∈ params r, DependsOn g tname vname v t

end Edward.Spec
