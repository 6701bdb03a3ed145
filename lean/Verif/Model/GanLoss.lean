/-
Model of the adversarial losses: edward/inferences/gan_inference.py:116-141,
wgan_inference.py:67-96, bigan_inference.py:54-81.

The discriminator (critic) is a function of one data point with one output; the outputs of a
batch form a list. Dictionaries are lists of items in iteration order. The collection of
regularisation losses is a list of named scalars.
-/
import Mathlib.Analysis.Calculus.FDeriv.Basic
import Mathlib.Analysis.SpecialFunctions.Pow.Real
import Mathlib.Analysis.Calculus.FDeriv.Pi
import Verif.Model.Distributions
import Verif.Model.Variational

namespace Edward

/-! ### What is compared -/

/-- A key of `data`. -/
inductive GanKey
  /-- a random variable or a tensor computed by the model -/
  | observed (id : ℕ)
  /-- a placeholder -/
  | placeholder (id : ℕ)
  deriving DecidableEq

/-- `x_true`, `x_fake` (gan_inference.py:117-118, wgan_inference.py:68-69): the value and the key of the first item.
`data` without items raises IndexError. -/
def ganPair {V : Type} (data : List (GanKey × V)) : Except PyErr (V × GanKey) :=
  match data with
  | [] => .error .indexError
  | (k, v) :: _ => .ok (v, k)

/-! ### Losses -/

/-- The sum of tensors of shapes `[m]` and `[n]`; a tensor of one element is added to each element of the other. -/
def broadcastAdd (a b : List ℝ) : Except PyErr (List ℝ) :=
  if a.length = b.length then .ok (List.zipWith (· + ·) a b)
  else if a.length = 1 then .ok (b.map fun y => a.sum + y)
  else if b.length = 1 then .ok (a.map fun x => x + b.sum)
  else .error .valueError

/-- `tf.losses.get_regularization_losses(scope=s)`: those whose name starts with `s`. -/
def regsIn (scope : String) (regs : List (String × ℝ)) : List (String × ℝ) :=
  regs.filter fun r => scope.toList.isPrefixOf r.1.toList

/-- `reg_terms = [r for r in reg_terms_all if r not in reg_terms_d]` -/
def regsOut (scope : String) (regs : List (String × ℝ)) : List (String × ℝ) :=
  regs.filter fun r => !scope.toList.isPrefixOf r.1.toList

/-- `tf.reduce_sum` of the values. -/
def regSum (regs : List (String × ℝ)) : ℝ := (regs.map (·.2)).sum

/-- `loss` and `loss_d` of `GANInference` (gan_inference.py:130-141). -/
noncomputable def ganLosses (dTrue dFake : List ℝ) (regs : List (String × ℝ)) : Except PyErr (ℝ × ℝ) :=
  match broadcastAdd (dTrue.map (sigmoidCrossEntropy 1)) (dFake.map (sigmoidCrossEntropy 0)) with
  | .error e => .error e
  | .ok lossD => .ok (listMean (dFake.map (sigmoidCrossEntropy 1)) + regSum (regsOut "Disc" regs),
      listMean lossD + regSum (regsIn "Disc" regs))

/-- `loss` and `loss_d` of `BiGANInference` (bigan_inference.py:68-81), of the discriminator's outputs on the pairs
(x_fake, z_true) and (x_true, z_fake). -/
noncomputable def biganLosses (dXfZt dXtZf : List ℝ) (regs : List (String × ℝ)) : Except PyErr (ℝ × ℝ) :=
  match broadcastAdd (dXfZt.map (sigmoidCrossEntropy 1)) (dXtZf.map (sigmoidCrossEntropy 0)),
      broadcastAdd (dXfZt.map (sigmoidCrossEntropy 0)) (dXtZf.map (sigmoidCrossEntropy 1)) with
  | .ok lossD, .ok loss => .ok (listMean loss + regSum (regsIn "Gen" regs), listMean lossD + regSum (regsIn "Disc" regs))
  | .error e, _ => .error e
  | _, .error e => .error e

/-! ### The gradient penalty of WGANInference -/

section
variable {N d : ℕ}

/-- The gradient of the critic at a point, by entries: `tf.gradients(d_interpolated, [x_interpolated])`. -/
noncomputable def criticGrad (f : (Fin d → ℝ) → ℝ) (x : Fin d → ℝ) (i : Fin d) : ℝ := fderiv ℝ f x (Pi.single i 1)

/-- `slopes` for one data point (wgan_inference.py:84-86). -/
noncomputable def slope (g : Fin d → ℝ) : ℝ := √(∑ i, g i ^ 2)

/-- `x_interpolated` (wgan_inference.py:79-80): `eps` has the shape of `x_true`, a number per entry of each data
point. -/
def interpolated (xTrue xFake eps : Fin N → Fin d → ℝ) (n : Fin N) (i : Fin d) : ℝ :=
  eps n i * xTrue n i + (1 - eps n i) * xFake n i

/-- `penalty` (wgan_inference.py:76-87). -/
noncomputable def gradientPenalty (penalty : Option ℝ) (f : (Fin d → ℝ) → ℝ) (xTrue xFake eps : Fin N → Fin d → ℝ) : ℝ :=
  match penalty with
  | none => 0
  | some c =>
    if c = 0 then 0
    else c * ((∑ n, (slope (criticGrad f (interpolated xTrue xFake eps n)) - 1) ^ 2) / N)

/-- `loss` and `loss_d` (wgan_inference.py:89-96). -/
noncomputable def wganLosses (penalty : Option ℝ) (f : (Fin d → ℝ) → ℝ) (xTrue xFake eps : Fin N → Fin d → ℝ)
    (regs : List (String × ℝ)) : ℝ × ℝ :=
  let meanTrue := (∑ n, f (xTrue n)) / N
  let meanFake := (∑ n, f (xFake n)) / N
  (-meanFake + regSum (regsOut "Disc" regs),
    meanFake - meanTrue + gradientPenalty penalty f xTrue xFake eps + regSum (regsIn "Disc" regs))

/-! ### The gradient of the penalty as computed -/

/-- `SqrtGrad`: `dy * 0.5 / y`, with the results of floating point for `y = 0`. -/
noncomputable def sqrtGrad (y dy : ℝ) : XNum :=
  if y = 0 then (if dy = 0 then .nan else if 0 < dy then .val ⊤ else .val ⊥)
  else .val ((dy * 0.5 / y : ℝ) : EReal)

/-- What `tf.gradients` propagates from `penalty` to entry `i` of `gradients` for data point `n`: through
`reduce_mean`, `square`, `sqrt`, `reduce_sum` and `square` (wgan_inference.py:84-87). -/
noncomputable def penaltyBackprop (c : ℝ) (g : Fin N → Fin d → ℝ) (n : Fin N) (i : Fin d) : XNum :=
  (sqrtGrad (slope (g n)) (c / N * (2 * (slope (g n) - 1)))).mul (.val ((2 * g n i : ℝ) : EReal))

/-- The gradient of `penalty` with respect to a weight of the critic: the sum over the entries of what is propagated
times the derivative `J n i` of entry `i` of the gradient for data point `n`. -/
noncomputable def penaltyGrad (c : ℝ) (g J : Fin N → Fin d → ℝ) : XNum :=
  XNum.sum ((List.finRange N).flatMap fun n => (List.finRange d).map fun i =>
    (penaltyBackprop c g n i).mul (.val ((J n i : ℝ) : EReal)))

end

end Edward
