/-
Model of the arguments of `ImplicitKLqp` (edward/inferences/implicit_klqp.py:55-106) and of the use that
`build_loss_and_gradients` makes of `latent_vars`, `global_vars` and `scale` (implicit_klqp.py:149-207).

Dictionaries are lists of items in the order of iteration, with distinct keys. Keys are compared by identity
(edward/models/random_variable.py:162-166).
-/
import Verif.Model.CheckData
import Verif.Model.Transform

namespace Edward

/-- An argument that should be a dictionary: left out or `None`, a dictionary, or some other object. -/
inductive DictArg
  | absent
  | dict (items : List (DKey × DVal))
  | notDict

/-- What the checks are called with after `None` is replaced by `{}` (implicit_klqp.py:78-79, inference.py:72-75). -/
def DictArg.orEmpty : DictArg → Option (List (DKey × DVal))
  | .absent => some []
  | .dict items => some items
  | .notDict => none

/-- `ImplicitKLqp.__init__` (implicit_klqp.py:74-84) and `Inference.__init__` (inference.py:71-80), which it calls, up to the
storing of the data (Model/CheckData.lean). All the checks raise `TypeError`. -/
def implicitInit (discriminatorCallable : Bool) (globalVars latentVars data : DictArg) : Except PyErr Unit :=
  if !discriminatorCallable then .error .typeError
  else match checkLatentVars globalVars.orEmpty with
    | .error _ => .error .typeError
    | .ok _ => match checkLatentVars latentVars.orEmpty with
      | .error _ => .error .typeError
      | .ok _ => match checkData data.orEmpty with
        | .error _ => .error .typeError
        | .ok _ => .ok ()

/-- The argument `ratio_loss`: a callable object, a string, or something else. -/
inductive RatioArg
  | callable (f : ℕ)
  | str (s : String)
  | other

/-- `self.ratio_loss`: the user's function, `log_loss` or `hinge_loss`. -/
inductive RatioFn
  | user (f : ℕ)
  | log
  | hinge
  deriving DecidableEq

/-- implicit_klqp.py:97-104 -/
def ratioLoss : RatioArg → Except PyErr RatioFn
  | .callable f => .ok (.user f)
  | .str s => if s = "log" then .ok .log else if s = "hinge" then .ok .hinge else .error .valueError
  | .other => .error .valueError

/-- The pairs of which `build_loss_and_gradients` draws samples: those of the loop over `self.global_vars`
(implicit_klqp.py:154-159) and those of the loop over `self.latent_vars` (163-169). -/
def implicitUsed (globalVars latentVars : List (RVar × RVar)) : List (RVar × RVar) × List (RVar × RVar) :=
  (globalVars, latentVars.filter fun p => !(globalVars.map Prod.fst).contains p.1)

/-- `initialize` up to the drawing of samples: `Inference.initialize` (inference.py:222-264) replaces `self.latent_vars` if
`auto_transform`; `self.global_vars` stays. -/
def implicitInitialize (auto : Bool) (next : ℕ) (globalVars latentVars : List (RVar × RVar)) :
    Except PyErr (List (RVar × RVar) × List (RVar × RVar)) :=
  if auto then
    match autoTransform next latentVars with
    | (st, none) => .ok (implicitUsed globalVars st.latentVars)
    | (_, some e) => .error e
  else .ok (implicitUsed globalVars latentVars)

/-- What the discriminator returns for the data: a tensor, given by its entries, or a dictionary of tensors by data variable. -/
inductive RatioOut
  | tensor (r : List ℝ)
  | dict (r : List (ℕ × List ℝ))

/-- `scaled_ratio` (implicit_klqp.py:196-207). The scales are numbers and the data variables are numbered. `none` stands for an
exception: a dictionary in place of a tensor, an absent key, or a tensor indexed by a random variable. -/
noncomputable def scaledRatio (scale : List (ℕ × ℝ)) : RatioOut → Option ℝ
  | .tensor r => if scale.length ≤ 1 then
      let s := match scale with
        | [] => 1
        | (_, s) :: _ => s
      some (r.map fun x => s * x).sum
    else none
  | .dict r => if scale.length ≤ 1 then none
    else (scale.mapM fun ks => (r.lookup ks.1).map fun v => (v.map fun x => ks.2 * x).sum).map List.sum

end Edward
