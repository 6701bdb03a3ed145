/-
Model of the updates of all parameters together when the optimiser is a
`tf.train.GradientDescentOptimizer` (edward/inferences/variational_inference.py:68, 118-121,
133-164): the gradients returned by `build_loss_and_gradients`, then `apply_gradients`, run once
per `update`.

The parameters are one vector. A draw `w` stands for everything random in one session run. The
learning rate of update `n` is `lr n`. Numbers are real.
-/
import Mathlib.Analysis.Calculus.Gradient.Basic
import Verif.Model.Variational

namespace Edward

/-- The parameters after `n` updates: `G x w` is the gradient built by the inference, evaluated
at the parameters `x` and the draws `w`. -/
def descend {E W : Type} [AddCommGroup E] [Module ℝ E] (lr : ℕ → ℝ) (G : E → W → E) (x : E) (w : ℕ → W) : ℕ → E
  | 0 => x
  | n + 1 => descend lr G x w n - lr n • G (descend lr G x w n) (w n)

section
variable {E : Type} [NormedAddCommGroup E] [InnerProductSpace ℝ E] [CompleteSpace E] {Z X I Θ N : Type} [Fintype I]

/-- The gradient `KLqp` builds for reparameterised draws: the loss at `n` draws `T l ε` made from noise `ε`, differentiated in the
parameters `l` (klqp.py:688-704). -/
noncomputable def reparamGradient (v : E → ViProblem Z X I Θ) (T : E → N → Θ) (n : ℕ) (l : E) (d : Fin n → N) : E :=
  gradient (fun l => reparamLoss (v l) n (fun s => T l (d s)) 0) l

/-- The gradient `KLqp` builds for the parameters of the approximation when it uses score functions: the draws and the values
multiplied with `q_log_prob` are held fixed (klqp.py:894-907). -/
noncomputable def scoreGradient (v : E → ViProblem Z X I Θ) (n : ℕ) (l : E) (d : Fin n → Θ) : E :=
  gradient (fun l' => scoreSurrogate (v l') (v l) n d 0) l

/-- The gradient `MAP` builds: the loss at the values `T l` of the point masses, differentiated in their parameters `l`
(map.py:133-153). -/
noncomputable def mapGradient (v : ViProblem Z X I Θ) (T : E → Θ) (l : E) : E := gradient (fun l => mapLoss v (T l) 0) l

/-- The parameters after each update of `MAP` with a gradient descent optimiser. -/
noncomputable def mapRun (lr : ℕ → ℝ) (v : ViProblem Z X I Θ) (T : E → Θ) (x : E) : ℕ → E :=
  descend lr (fun l (_ : Unit) => mapGradient v T l) x fun _ => ()

end

end Edward
