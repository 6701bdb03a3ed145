/-
Model of how `copy` copies the arguments of a random variable (edward/util/random_variables.py:132-136, 278-305), and of what
`ParamMixture` makes of its own (edward/models/param_mixture.py:66-92).

Model/Copy.lean has arguments that are nodes only. Here an argument may hold nodes in a list or in a dict. `c v` is the node that
`copy` returns for the node `v` (C15). Not modelled: lists in lists and dicts in lists, which behave as dicts do here.
-/
import Verif.Model.MixtureInference

namespace Edward
variable {V V' : Type}

/-- An argument of a constructor: a RandomVariable, Tensor, Variable or Operation; a list of such; a dict of such; anything else. -/
inductive CtorArg (V : Type)
  | node (v : V)
  | list (vs : List V)
  | dict (vs : List (String × V))
  | other (n : ℕ)
  deriving DecidableEq

/-- `_copy_default` (random_variables.py:132-136). -/
def copyDefault (c : V → V) : CtorArg V → CtorArg V
  | .node v => .node (c v)
  | a => a

/-- The copies of `rv._args` (random_variables.py:281-283). -/
def copyPositional (c : V → V) (args : List (CtorArg V)) : List (CtorArg V) := args.map (copyDefault c)

/-- The copy of a value in `rv._kwargs` (random_variables.py:285-292). -/
def copyKeyword (c : V → V) : CtorArg V → CtorArg V
  | .list vs => .list (vs.map c)
  | a => copyDefault c a

/-- The arguments the copy is constructed with (random_variables.py:281-297); `name` is left out. -/
def copyCall (c : V → V) (args : List (CtorArg V)) (kwargs : List (String × CtorArg V)) :
    List (CtorArg V) × List (String × CtorArg V) :=
  (copyPositional c args, kwargs.map fun p => (p.1, copyKeyword c p.2))

/-- `component_params` of `ParamMixture(mixing_weights, component_params, component_dist)` (param_mixture.py:46-92), given by
position. -/
def componentParams (args : List (CtorArg V)) : List (String × V) :=
  match args with
  | _ :: .dict ps :: _ => ps
  | _ => []

/-- Inference with data `x` bound to a ParamMixture constructed with `args`, for a dictionary under which `copy` maps nodes by `c`. A
draw holds the values of all nodes in the run of the session and the `cat` of the copy, which its constructor creates
(param_mixture.py:83-86): an entry of the dictionary for the `cat` of the original is not used. -/
noncomputable def boundMixtureVi {K N : ℕ} {A Z : Type} (latents : List Z) (logPrior logQ : Z → (V → ℝ) → ℝ) (c : V → V)
    (args : List (CtorArg V)) (logF : List (String × ℝ) → Fin K → A → ℝ) (x : Fin N → A) :
    ViProblem Z Unit (Option (Fin N)) ((V → ℝ) × (Fin N → Fin K)) :=
  observedMixtureVi latents logPrior logQ
    (fun value => logF ((componentParams (copyPositional c args)).map fun p => (p.1, value p.2))) x

end Edward
