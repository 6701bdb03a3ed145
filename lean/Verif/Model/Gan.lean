/-
Model of the parameter updates of `GANInference` (gan_inference.py:98-207) and
`WGANInference` (wgan_inference.py:44-116).

Trainable variables are real weights (a weight array is a family of names). The
values the optimisers compute are arbitrary functions of the store (`gen`, `disc`).
-/
import Mathlib.Data.Real.Basic
import Mathlib.Data.List.Basic

namespace Edward

abbrev Weights := String → ℝ

/-- `var_list_d` (gan_inference.py:143-144): trainable variables in the collection
scope "Disc", i.e. those whose *name starts with* "Disc". -/
def varListD (trainables : List String) : List String :=
  trainables.filter (fun n => "Disc".toList.isPrefixOf n.toList)

/-- `var_list` (gan_inference.py:145-146): by default all other trainable variables. -/
def varListG (trainables : List String) : Option (List String) → List String
  | none => trainables.filter (fun n => n ∉ varListD trainables)
  | some l => l

/-- What one session run assigns: the optimiser steps of the variables listed. -/
def assignVars (l : List String) (step : Weights → Weights) (s : Weights) : Weights :=
  fun n => if n ∈ l then step s n else s n

structure GanState where
  w : Weights
  t : Nat

/-- An inference object after `initialize`. -/
structure Gan where
  trainables : List String
  varList : Option (List String)
  gen : Weights → Weights
  disc : Weights → Weights

/-- `GANInference.update` (gan_inference.py:154-207); `none` is the
`NotImplementedError`. With `variables=None` both optimisers run in one session
run; they assign disjoint lists in the default configuration. -/
def ganUpdate (g : Gan) (vars : Option String) (s : GanState) : Option GanState :=
  let dl := varListD g.trainables
  let gl := varListG g.trainables g.varList
  match vars with
  | none => some { w := fun n => if n ∈ dl then g.disc s.w n else if n ∈ gl then g.gen s.w n else s.w n
                   t := s.t + 1 }
  | some v =>
    if v = "Gen" then some { w := assignVars gl g.gen s.w, t := s.t + 1 }
    else if v = "Disc" then some { w := assignVars dl g.disc s.w, t := s.t + 1 }
    else none

/-- `tf.clip_by_value(w, -clip, clip)`: first the minimum with the upper bound,
then the maximum with the lower one. -/
noncomputable def clipByValue (w lo hi : ℝ) : ℝ := max (min w hi) lo

/-- `WGANInference.update` (wgan_inference.py:109-116). `clip = none` means no
clipping. -/
noncomputable def wganUpdate (g : Gan) (clip : Option ℝ) (vars : Option String) (s : GanState) :
    Option GanState :=
  match ganUpdate g vars s with
  | none => none
  | some s' =>
    match clip with
    | none => some s'
    | some c =>
      if vars = none ∨ vars = some "Disc" then
        some { s' with w := fun n =>
          if n ∈ varListD g.trainables then clipByValue (s'.w n) (-c) c else s'.w n }
      else some s'

end Edward
