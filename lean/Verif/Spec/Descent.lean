/-
What it takes for gradient descent with random gradients to find a minimum: Robbins and Monro's conditions on the learning
rates, and random gradients that are right on average and not too variable.
-/
import Mathlib.Analysis.Calculus.Gradient.Basic
import Mathlib.MeasureTheory.Function.LpSpace.Basic
import Mathlib.MeasureTheory.Integral.Bochner.Basic

namespace Edward.Spec
open MeasureTheory

/-- Robbins and Monro's conditions on the learning rates. -/
structure RobbinsMonro (lr : ℕ → ℝ) : Prop where
  pos : ∀ n, 0 ≤ lr n
  sum : ¬ Summable lr
  sq : Summable fun n => lr n ^ 2

/-- Random gradients `G` of a function `F` bounded below by `c`: their mean is the gradient, which is Lipschitz, and their mean
square grows at most like `F`. -/
structure GradientNoise {E W : Type} [NormedAddCommGroup E] [InnerProductSpace ℝ E] [CompleteSpace E] [MeasurableSpace E] [MeasurableSpace W]
    (F : E → ℝ) (G : E → W → E) (ν : Measure W) (c : ℝ) : Prop where
  meas : Measurable fun p : E × W => G p.1 p.2
  grad : ∀ x, HasGradientAt F (∫ w, G x w ∂ν) x
  lip : ∃ K, ∀ x y, ‖∫ w, G x w ∂ν - ∫ w, G y w ∂ν‖ ≤ K * ‖x - y‖
  low : ∀ x, c ≤ F x
  sq : ∀ x, MemLp (G x) 2 ν
  bound : ∃ A B, ∀ x, ∫ w, ‖G x w‖ ^ 2 ∂ν ≤ A + B * (F x - c)

end Edward.Spec
