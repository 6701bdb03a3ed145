/-
Model of the variables trained by default: `VariationalInference.initialize`
(edward/inferences/variational_inference.py:53-68), and the lists of `BiGANInference`
(bigan_inference.py:83-86); those of `GANInference` are in Model/Gan.lean.
-/
import Verif.Model.GraphQuery
import Verif.Model.Gan

namespace Edward

section
variable {T O R V : Type} [Fintype T] [Fintype R] [DecidableEq T] [DecidableEq R] [DecidableEq V]

/-- An item of `self.data`: whether the key is a random variable, the key, and whether the value is a random variable. -/
structure DataItem (T R : Type) where
  keyRandom : Bool
  key : Node T R
  valueRandom : Bool

/-- `var_list` if the argument is `None` (variational_inference.py:55-66): `order` is the order in which `list` iterates over the
set; `sched k` the schedule of the `k`-th call of `get_variables`. -/
def defaultVarList (g : Graph T O R) {S : Type} [DecidableEq S] (tname : T → S) (vname : V → S) (sched : Nat → Nat → Nat)
    (order : List V → List V) (latents : List (Node T R × Node T R)) (data : List (DataItem T R)) (trainables : List V) : List V :=
  let s := latents.zipIdx.foldl (fun s p =>
    let s := setUpdate s (getVariables g tname vname (sched (2 * p.2)) p.1.1 trainables)
    setUpdate s (getVariables g tname vname (sched (2 * p.2 + 1)) p.1.2 trainables)) []
  let s := data.zipIdx.foldl (fun s p =>
    if p.1.keyRandom && !p.1.valueRandom then
      setUpdate s (getVariables g tname vname (sched (2 * latents.length + p.2)) p.1.key trainables)
    else s) s
  order s

end

/-- `var_list` of `BiGANInference` (bigan_inference.py:85-86): the argument is overwritten; `scope` matches the beginning of the
name. -/
def biganVarList (trainables : List String) (_varList : Option (List String)) : List String :=
  trainables.filter (fun n => "Gen".toList.isPrefixOf n.toList)

end Edward
