/-
Model of the runs of the session made by one `update`, with `debug` and `logdir` (edward/inferences/inference.py:287-323,
variational_inference.py:148-164, monte_carlo.py:134-150, gan_inference.py:176-208), and of what they take from operations with
a state: random operations and readers of queues (the docstring of `run`, inference.py:127-130, names "batch training with file
readers").

Each run of the session that evaluates such an operation takes its next element: the next numbers of the generator of the
operation, the next batch of the queue. `A` holds the elements; `src s i` is element `i` of source `s`. Sources are those which
the training op evaluates. The increment of `t` evaluates none. Feeding a value in the place of a source is not modelled, nor
are sources shared with another inference.
-/
import Verif.Model.Run

namespace Edward
variable {S A Θ : Type}

/-- What is built by `initialize`. `checked s`: `self.op_check` evaluates source `s` (it was in the graph when
`tf.add_check_numerics_ops()` was called, inference.py:279-281). `summarized s`: the merged summary does
(variational_inference.py:70-84: it contains the loss and the gradients; monte_carlo.py:107-110: it contains variables only).
`train θ a`: the variables after the training op, from the elements `a` that it takes. -/
structure Observed (S A Θ : Type) where
  checked : S → Bool
  summarized : S → Bool
  train : Θ → (S → A) → Θ

/-- The arguments `debug`, `n_print`, and whether `logdir` is given. -/
structure ObserveArgs where
  debug : Bool
  logging : Bool
  nPrint : Int

/-- `self.logging and self.n_print != 0`, `t == 1 or t % self.n_print == 0` (variational_inference.py:159-160). -/
def ObserveArgs.logs (c : ObserveArgs) (t : ℕ) : Bool := c.logging && showsProgress c.nPrint t

/-- The counter, the variables, how many elements were taken from each source, and the states in which summaries were
evaluated, each with the elements taken. -/
structure ObserveState (S A Θ : Type) where
  t : ℕ
  θ : Θ
  pos : S → ℕ
  trained : List (S → A)
  logged : List (Θ × (S → A))

/-- A run of the session that evaluates the sources in `reach`. -/
def takeFrom (reach : S → Bool) (pos : S → ℕ) : S → ℕ := fun s => if reach s then pos s + 1 else pos s

/-- One `update` (variational_inference.py:154-164). -/
def Observed.update (o : Observed S A Θ) (c : ObserveArgs) (src : S → ℕ → A) (st : ObserveState S A Θ) : ObserveState S A Θ :=
  let a := fun s => src s (st.pos s)
  let θ := o.train st.θ a
  let pos := takeFrom (fun _ => true) st.pos
  let t := st.t + 1
  let pos := if c.debug then takeFrom o.checked pos else pos
  let st := { st with t := t, θ := θ, trained := st.trained ++ [a] }
  if c.logs t then
    { st with pos := takeFrom o.summarized pos, logged := st.logged ++ [(θ, fun s => src s (pos s))] }
  else { st with pos := pos }

/-- `k` updates. -/
def Observed.updates (o : Observed S A Θ) (c : ObserveArgs) (src : S → ℕ → A) (θ : Θ) : ℕ → ObserveState S A Θ
  | 0 => ⟨0, θ, fun _ => 0, [], []⟩
  | k + 1 => o.update c src (o.updates c src θ k)

end Edward
