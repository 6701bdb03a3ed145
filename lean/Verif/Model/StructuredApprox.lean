/-
Model of the score-function losses for approximations with dependent factors:
edward/inferences/klqp.py:863-874, 934-946, 1005-1022, 1084-1095, klpq.py:142-151,
wake_sleep.py:98-111.

`copy(qz, scope=scope)` copies `qz` together with the factors its parameters depend on, all
within one scope (C18), so the parameters of `qz_copy` are functions of the copied values of
those factors. `tf.stop_gradient` is applied to the value at which `log_prob` is evaluated,
not to the values the parameters are computed from.
-/
import Verif.Model.Variational

namespace Edward

/-- The log densities of the factors. `logQ l z own par`: parameters `l`, factor `z`, evaluated
at the value in `own`, with parameters computed from the values in `par`. `path l`: the draw
obtained for parameters `l` from the noise that gives `ω` for the current parameters;
values whose sampling op is not differentiable stay as they are. -/
structure StructuredQ (Z I Ω E : Type) where
  logQ : E → Z → Ω → Ω → I → ℝ
  path : E → Ω → Ω

/-- `qz_copy.log_prob(tf.stop_gradient(dict_swap[z]))` as a function of the parameters (klqp.py:866-869):
the value is fixed, the values of other factors follow their sampling ops. -/
def structuredProblem {Z X I Ω E : Type} (v : ViProblem Z X I Ω) (S : StructuredQ Z I Ω E) (l : E) :
    ViProblem Z X I Ω :=
  { v with logQ := fun z ω i => S.logQ l z ω (S.path l ω) i }

end Edward
