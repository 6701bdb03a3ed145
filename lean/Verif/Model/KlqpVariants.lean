/-
Model of the classes of edward/inferences/klqp.py:166-639: which loss each builds, and what it checks. `latent_vars` is a dict
here; lists are in Model/ListInit.lean. Not modelled: TensorFlow's own `NotImplementedError` for an entropy or a divergence that
it does not know.
-/
import Verif.Model.Variational

namespace Edward

/-- The classes. -/
inductive KlqpClass
  | klqp
  | reparam
  | reparamKl
  | reparamEntropy
  | score
  | scoreKl
  | scoreEntropy
  | scoreRb
  deriving DecidableEq

/-- The functions `build_*_loss_and_gradients` (klqp.py:642-1152). -/
inductive KlqpBuilder
  | reparam
  | reparamKl
  | reparamEntropy
  | score
  | scoreKl
  | scoreEntropy
  | scoreRb
  deriving DecidableEq

/-- `initialize` and `build_loss_and_gradients` of each class (klqp.py:86-163, 210-226, 273-303, 350-367, 414-430, 477-506, 553-569,
623-639). Only `KLqp` looks at the latent variables and at `kl_scaling`. -/
def klqpBuild (cls : KlqpClass) (nSamples : ℤ) (klScaling : Bool) (pairs : List LatentPair) : Except PyErr KlqpBuilder :=
  match cls with
  | .klqp =>
    match klqpDispatch nSamples klScaling pairs with
    | .error e => .error e
    | .ok .reparamKl => .ok .reparamKl
    | .ok .reparam => .ok .reparam
    | .ok .scoreRb => .ok .scoreRb
  | .reparam => if nSamples ≤ 0 then .error .valueError else .ok .reparam
  | .reparamKl => if nSamples ≤ 0 then .error .valueError else .ok .reparamKl
  | .reparamEntropy => if nSamples ≤ 0 then .error .valueError else .ok .reparamEntropy
  | .score => if nSamples ≤ 0 then .error .valueError else .ok .score
  | .scoreKl => if nSamples ≤ 0 then .error .valueError else .ok .scoreKl
  | .scoreEntropy => if nSamples ≤ 0 then .error .valueError else .ok .scoreEntropy
  | .scoreRb => if nSamples ≤ 0 then .error .valueError else .ok .scoreRb

/-- The loss of the builders that differentiate it through the samples, at given draws (klqp.py:700-702, 765-767, 833-835). `ks` is
`kl_scaling`, `kl` and `h` are the analytic divergences and entropies. Samples of an approximation that is not reparameterizable have
no gradient: they are constants. -/
noncomputable def builderLoss {Z X I Ω : Type} [Fintype I] (b : KlqpBuilder) (v : ViProblem Z X I Ω) (n : ℕ) (d : Fin n → Ω)
    (ks kl h : Z → I → ℝ) (reg : ℝ) : Option ℝ :=
  match b with
  | .reparam => some (reparamLoss v n d reg)
  | .reparamKl => some (reparamKlLoss v n d ks kl reg)
  | .reparamEntropy => some (reparamEntropyLoss v n d h reg)
  | _ => none

end Edward
