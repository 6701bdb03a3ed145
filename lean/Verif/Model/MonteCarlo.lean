/-
Model of the bookkeeping of `MonteCarlo` (edward/inferences/monte_carlo.py) and
of the way its subclasses store samples:
metropolis_hastings.py:78-80,148-156, hmc.py:81-85,120-130, sgld.py:61-62,79-87,
sghmc.py:65-66,87-96, gibbs.py:143-153, replica_exchange_mc.py:117-134.

What happens between reading the old row and writing the new one is a parameter
(`Kernel`); particular kernels are modelled in their own files.
-/
import Mathlib.Data.Fintype.Basic
import Mathlib.Data.Rat.Defs
import Mathlib.Data.Finset.Lattice.Fold

namespace Edward

/-- One sampling step: iteration number, old sample, hidden state (momenta,
replicas, feed dictionaries), random draws ↦ new sample, hidden state, accepted? -/
abbrev Kernel (Z V H W : Type) := Nat → (Z → V) → H → W → (Z → V) × H × Bool

/-- TensorFlow variables of a `MonteCarlo` object. `params z` are the rows of the
`Empirical` approximation of `z`. -/
structure MCState (Z V H : Type) where
  params : Z → List V
  hidden : H
  t : Nat
  nAccept : Nat

/-- A floating point quotient of two integers (monte_carlo.py:101). -/
inductive Rate where
  | nan
  | inf
  | val (q : ℚ)
  deriving DecidableEq

def Rate.div (n d : Nat) : Rate :=
  if d = 0 then (if n = 0 then .nan else .inf) else .val ((n : ℚ) / d)

section
variable {Z V H W : Type} [Fintype Z] [DecidableEq Z]

/-- `n_iter` (monte_carlo.py:96-97): the smallest number of rows. -/
def nIter [Nonempty Z] (params : Z → List V) : Nat :=
  Finset.univ.inf' Finset.univ_nonempty (fun z => (params z).length)

/-- `sess.run([self.train, self.n_accept_over_t])` (monte_carlo.py:139).
The old sample is row `max (t - 1) 0`, the new one goes to row `t`; both raise
when out of range (`none`). `late` tells whether the quotient reads `n_accept`
after the increment made by the same run: TensorFlow does not order the two. -/
def trainRun (K : Kernel Z V H W) (w : W) (late : Bool) (s : MCState Z V H) :
    Option (MCState Z V H × Rate) :=
  if h : ∀ z, s.t - 1 < (s.params z).length then
    let old := fun z => (s.params z)[s.t - 1]'(h z)
    let r := K s.t old s.hidden w
    if ∀ z, s.t < (s.params z).length then
      let nAccept := s.nAccept + (if r.2.2 then 1 else 0)
      some ({ s with params := fun z => (s.params z).set s.t (r.1 z)
                     hidden := r.2.1
                     nAccept := nAccept },
            Rate.div (if late then nAccept else s.nAccept) s.t)
    else none
  else none

/-- `MonteCarlo.update` (monte_carlo.py:111-150): the run above, then
`increment_t`. Returns the state and the dictionary `{'t', 'accept_rate'}`. -/
def mcUpdate (K : Kernel Z V H W) (w : W) (late : Bool) (s : MCState Z V H) :
    Option (MCState Z V H × (Nat × Rate)) :=
  match trainRun K w late s with
  | none => none
  | some (s', r) =>
    let s'' := { s' with t := s'.t + 1 }
    some (s'', (s''.t, r))

/-- A sequence of updates; each item holds the draws and the read order. -/
def mcRun (K : Kernel Z V H W) : List (W × Bool) → MCState Z V H →
    Option (MCState Z V H × List (Nat × Rate))
  | [], s => some (s, [])
  | (w, late) :: ws, s =>
    match mcUpdate K w late s with
    | none => none
    | some (s', i) =>
      match mcRun K ws s' with
      | none => none
      | some (s'', is) => some (s'', i :: is)

/-- State after `initialize` and variable initialisation
(monte_carlo.py:98-104, inference.py:211-213). -/
def mcInit (params : Z → List V) (hidden : H) : MCState Z V H :=
  { params, hidden, t := 0, nAccept := 0 }

end
end Edward
