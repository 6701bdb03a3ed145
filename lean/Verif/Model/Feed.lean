/-
Model of the feed dictionaries of `update` (edward/inferences/inference.py:302-313, variational_inference.py:146-157,
monte_carlo.py:131-143, gan_inference.py:176-200, laplace.py:144-152, gibbs.py:84-127).

A dictionary is the function giving the value of each key, `none` for a key which is not in it. Keys and values are
arbitrary. Running a session does not change a feed dictionary; of a Gibbs update only the handling of the feed
dictionary is modelled here (the draws are modelled in `Verif.Model.Gibbs`). `OrderedDict` and `dict` are alike.
-/
import Mathlib.Data.Nat.Notation
import Mathlib.Logic.Function.Basic

namespace Edward.Feeds
variable {K V : Type} [DecidableEq K]

abbrev Dict (K V : Type) := K → Option V

/-- `d[k] = v` -/
def Dict.set (d : Dict K V) (k : K) (v : V) : Dict K V := fun j => if j = k then some v else d j

/-- The kinds of keys of `data` (inference.py:80-95). -/
inductive KeyKind
  | placeholder
  | tensor
  | rv
  deriving DecidableEq

/-- The values in `self.data` after `Inference.__init__` (inference.py:80-95): placeholders keep the host value they
were given; other keys are bound to a tensor (or `tf.Variable`) or to a random variable, whose value depends on the
moment `n` it is evaluated. -/
inductive DataVal (V : Type)
  | host (v : V)
  | tensor (cur : ℕ → V)
  | rv (cur : ℕ → V)

structure DataItem (K V : Type) where
  key : K
  kind : KeyKind
  val : DataVal V

/-- A pass of the loop over `self.data` in `update`: `if isinstance(key, tf.Tensor) and "Placeholder" in
key.op.type: feed_dict[key] = value` (inference.py:305-307). -/
def feedItem (d : Dict K V) (it : DataItem K V) : Dict K V :=
  match it.kind, it.val with
  | .placeholder, .host v => d.set it.key v
  | _, _ => d

/-- The loop, on the dictionary object passed by the caller. -/
def feedLoop (data : List (DataItem K V)) (d : Dict K V) : Dict K V := data.foldl feedItem d

/-- What a call of `update` does with the dictionary object of the caller. -/
structure Call (K V : Type) where
  /-- the dictionary given to the session -/
  used : Dict K V
  /-- the contents of the caller's object afterwards -/
  after : Dict K V

/-- `update(feed_dict)` of `Inference`, `VariationalInference`, `MonteCarlo`, `GANInference`, and `finalize` of
`Laplace`: the loop writes into the object of the caller, and the session gets that object. -/
def update (data : List (DataItem K V)) (d : Dict K V) : Call K V := ⟨feedLoop data d, feedLoop data d⟩

/-- Calls of `update` of several inferences, one after the other, with the same dictionary object. -/
def sharedCalls : List (List (DataItem K V)) → Dict K V → List (Dict K V)
  | [], _ => []
  | data :: rest, d => (update data d).used :: sharedCalls rest (update data d).after

/-! ### Gibbs -/

/-- `self.feed_dict` of `Gibbs`. It is empty after `initialize` (gibbs.py:67), `none`; afterwards it has the latent
variables as keys. -/
abbrev GibbsState (K V : Type) := Option (Dict K V)

/-- A pass of the loop over `self.data` in the first update (gibbs.py:92-97), at the moment `n`. -/
def gibbsItem (n : ℕ) (d : Dict K V) (it : DataItem K V) : Dict K V :=
  match it.kind, it.val with
  | .placeholder, .host v => d.set it.key v
  | .rv, .tensor cur => d.set it.key (cur n)
  | _, _ => d

/-- gibbs.py:85-97: fill `self.feed_dict` if it is empty; `inits` are the latent variables and the first rows of
their approximations. -/
def gibbsInit (inits : List (K × V)) (data : List (DataItem K V)) (n : ℕ) : GibbsState K V → Dict K V
  | some d => d
  | none => data.foldl (gibbsItem n) (inits.foldl (fun d p => d.set p.1 p.2) (fun _ => none))

/-- `d.update(e)` -/
def Dict.merge (d e : Dict K V) : Dict K V := fun k => (e k).or (d k)

/-- The dictionary with which the conditionals of update `n` are first evaluated (gibbs.py:85-102). -/
def gibbsUsed (inits : List (K × V)) (data : List (DataItem K V)) (n : ℕ) (s : GibbsState K V) (feed : Dict K V) :
    Dict K V := (gibbsInit inits data n s).merge feed

/-- The state after update `n`, in which the latent variables got the values `draws` (gibbs.py:111-123). -/
def gibbsAfter (inits : List (K × V)) (data : List (DataItem K V)) (n : ℕ) (s : GibbsState K V) (feed : Dict K V)
    (draws : List (K × V)) : GibbsState K V :=
  some (draws.foldl (fun d p => d.set p.1 p.2) (gibbsUsed inits data n s feed))

/-- The state before update `n`, the earlier updates having got the dictionaries `feeds` and made the draws
`draws`. -/
def gibbsBefore (inits : List (K × V)) (data : List (DataItem K V)) (feeds : ℕ → Dict K V)
    (draws : ℕ → List (K × V)) : ℕ → GibbsState K V
  | 0 => none
  | n + 1 => gibbsAfter inits data n (gibbsBefore inits data feeds draws n) (feeds n) (draws n)

/-- The dictionary used by update `n`. -/
def gibbsRun (inits : List (K × V)) (data : List (DataItem K V)) (feeds : ℕ → Dict K V)
    (draws : ℕ → List (K × V)) (n : ℕ) : Dict K V :=
  gibbsUsed inits data n (gibbsBefore inits data feeds draws n) (feeds n)

end Edward.Feeds
