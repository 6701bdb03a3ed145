/-
Model of `Gibbs.update` and `Gibbs.build_update` (edward/inferences/gibbs.py:71-153).

The state of the chain is `self.feed_dict` restricted to the latent variables: a value
for every latent variable. `sess.run(self.proposal_vars[z], self.feed_dict)` draws from
the complete conditional of `z` at the fed values; every `sess.run` draws afresh.
What a draw does is a parameter (`draw i z k`: draw variable `i` with the feed `z`, pass
it to `k`), so that the same code gives expectations. Logging, debug checks and the
returned dictionary are not modelled (see C30, C31).
-/
import Mathlib.MeasureTheory.Measure.Prod

namespace Edward

open MeasureTheory ENNReal

/-- An element of `scan_order`: a random variable or a list of them (lines 113-121). -/
inductive ScanEntry (ι : Type)
  | single (i : ι)
  | block (is : List ι)

section
variable {ι : Type} [DecidableEq ι] {X : ι → Type} {R : Type}

/-- `draws = sess.run([...], self.feed_dict)` followed by the loop storing them
(lines 118-121): all draws use the feed `z0`; they are stored in `z`. -/
def gibbsBlock (draw : (i : ι) → (∀ i, X i) → (X i → R) → R) (z0 : ∀ i, X i) :
    List ι → (∀ i, X i) → ((∀ i, X i) → R) → R
  | [], z, k => k z
  | i :: is, z, k => draw i z0 (fun x => gibbsBlock draw z0 is (Function.update z i x) k)

/-- The loop over `scan_order` (lines 113-121). -/
def gibbsScan (draw : (i : ι) → (∀ i, X i) → (X i → R) → R) :
    List (ScanEntry ι) → (∀ i, X i) → ((∀ i, X i) → R) → R
  | [], z, k => k z
  | .single i :: es, z, k => draw i z (fun x => gibbsScan draw es (Function.update z i x) k)
  | .block is :: es, z, k => gibbsBlock draw z is z (fun z' => gibbsScan draw es z' k)

/-- One `update`: the scan, then `sess.run([self.train, ...], self.feed_dict)` (lines
124-125), which writes `self.proposal_vars[z]` (lines 147-149) to row `t` of every
latent variable in `keys`. The continuation receives the chain and the stored row (given
as an overlay of the previous content `row`). -/
def gibbsUpdate (draw : (i : ι) → (∀ i, X i) → (X i → R) → R) (order : List (ScanEntry ι))
    (keys : List ι) (z row : ∀ i, X i) (k : (∀ i, X i) → (∀ i, X i) → R) : R :=
  gibbsScan draw order z (fun z' => gibbsBlock draw z' keys row (fun row' => k z' row'))

end

/-- Draw from the density `q i z` with respect to `μ i`, in expectation. -/
noncomputable def drawExpect {ι : Type} {X : ι → Type} [∀ i, MeasurableSpace (X i)]
    (μ : ∀ i, Measure (X i)) (q : ∀ i, (∀ i, X i) → X i → ℝ≥0∞) (i : ι) (z : ∀ i, X i)
    (k : X i → ℝ≥0∞) : ℝ≥0∞ := ∫⁻ x, q i z x * k x ∂μ i

end Edward
