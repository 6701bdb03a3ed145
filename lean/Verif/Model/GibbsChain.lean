/-
`Gibbs.update` with its random numbers explicit (edward/inferences/gibbs.py:71-136): the
program of Model/Gibbs.lean, run on a stream of random numbers.
-/
import Verif.Model.Gibbs
import Verif.Model.MonteCarlo

namespace Edward

section
variable {ι E R : Type} [DecidableEq ι] {X : ι → Type}

/-- `sess.run(self.proposal_vars[z], self.feed_dict)` (lines 115, 118): the sampling op of the
conditional turns the next random number into a value. A run of several conditionals (line
118) takes several numbers. -/
def drawFrom (samp : (i : ι) → (∀ i, X i) → E → X i) (i : ι) (z : ∀ i, X i) (k : X i → (ℕ → E) → R) : (ℕ → E) → R :=
  fun w => k (samp i z (w 0)) (fun n => w (n + 1))

/-- One `update` (lines 107-125): the state is the fed values of the latent variables and the
row stored last; `d.1` decides the scan order (line 108, the shuffle), `d.2` the draws. -/
def gibbsMove {O : Type} (samp : (i : ι) → (∀ i, X i) → E → X i) (order : O → List (ScanEntry ι)) (keys : List ι)
    (s : (∀ i, X i) × (∀ i, X i)) (d : O × (ℕ → E)) : (∀ i, X i) × (∀ i, X i) :=
  gibbsUpdate (drawFrom samp) (order d.1) keys s.1 s.2 (fun z' row' _ => (z', row')) d.2

end

/-- The step in the form used by the bookkeeping (Model/MonteCarlo.lean): the feed dictionary
is the hidden state; `n_accept` is incremented by every update (line 152). -/
def gibbsKernel {Z V E O : Type} [DecidableEq Z] (samp : Z → (Z → V) → E → V) (order : O → List (ScanEntry Z)) (keys : List Z) :
    Kernel Z V (Z → V) (O × (ℕ → E)) := fun _ old feed d =>
  ((gibbsMove (X := fun _ => V) samp order keys (feed, old) d).2, (gibbsMove (X := fun _ => V) samp order keys (feed, old) d).1, true)

end Edward
