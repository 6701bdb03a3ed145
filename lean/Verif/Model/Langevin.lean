/-
Model of the updates of `SGLD` (edward/inferences/sgld.py:52-87) and `SGHMC`
(edward/inferences/sghmc.py:58-96).

SGHMC: the ops of one `sess.run(self.train)` and their data dependencies; TensorFlow may
execute them in any order compatible with the dependencies. `self.v[z]` is a reference
variable: the tensor read from it shares the variable's buffer (`aliased = true`), so an
op consuming it sees the buffer's content when the op runs; `aliased = false` is a read
that copies. `tf.gather` copies. Values are scalars (one coordinate).
-/
import Mathlib.Analysis.SpecialFunctions.Pow.Real
import Mathlib.Analysis.SpecialFunctions.Sqrt

namespace Edward

/-- `learning_rate` at the update with counter `t` (sgld.py:65-66). -/
noncomputable def sgldRate (step : ℝ) (t : ℕ) : ℝ := step / ((t + 1 : ℕ) : ℝ) ^ (0.55 : ℝ)

/-- New sample of one latent variable (sgld.py:73-77). -/
noncomputable def sgldSample (step : ℝ) (t : ℕ) (old grad normal : ℝ) : ℝ :=
  old + 0.5 * sgldRate step t * grad + Real.sqrt (sgldRate step t) * normal

/-- The ops built by `SGHMC.build_update`, per latent variable `i`. -/
inductive HOp (ι : Type)
  | gather (i : ι)   -- old_sample[z], sghmc.py:65-66
  | readV (i : ι)    -- old_v_sample[z], sghmc.py:67
  | grad             -- tf.gradients(self._log_joint(old_sample), ...), sghmc.py:71-72
  | normal (i : ι)   -- sghmc.py:81
  | addS (i : ι)     -- sample[z], sghmc.py:82
  | addV (i : ι)     -- v_sample[z], sghmc.py:83-85
  | scatter (i : ι)  -- sghmc.py:91
  | assignV (i : ι)  -- sghmc.py:92
  deriving DecidableEq

/-- Inputs of each op. -/
def HOp.Dep {ι : Type} : HOp ι → HOp ι → Prop
  | .grad, .gather _ => True
  | .addS i, .gather j => i = j
  | .addS i, .readV j => i = j
  | .addV i, .readV j => i = j
  | .addV _, .grad => True
  | .addV i, .normal j => i = j
  | .scatter i, .addS j => i = j
  | .assignV i, .addV j => i = j
  | _, _ => False

/-- Tensors computed so far, the variables `v`, and the row being written. -/
structure HState (ι : Type) where
  old : ι → Option ℝ
  rd : ι → Option ℝ
  gr : Option (ι → ℝ)
  nrm : ι → Option ℝ
  smp : ι → Option ℝ
  vnew : ι → Option ℝ
  v : ι → ℝ
  row : ι → Option ℝ

/-- Parameters of the update: step size, friction, gradient of the log joint, previous
samples, and the normal draws. -/
structure HParams (ι : Type) where
  step : ℝ
  friction : ℝ
  G : (ι → ℝ) → ι → ℝ
  x : ι → ℝ
  eps : ι → ℝ

variable {ι : Type} [DecidableEq ι]

/-- The value an op gets from the tensor `old_v_sample[z]`. -/
def HState.velocity (aliased : Bool) (s : HState ι) (i : ι) : Option ℝ :=
  if aliased then (s.rd i).map (fun _ => s.v i) else s.rd i

/-- Execution of one op. An op whose inputs are missing does nothing (it never happens
in a valid schedule). -/
noncomputable def hexec (aliased : Bool) (P : HParams ι) (s : HState ι) : HOp ι → HState ι
  | .gather i => { s with old := Function.update s.old i (some (P.x i)) }
  | .readV i => { s with rd := Function.update s.rd i (some (s.v i)) }
  | .grad => { s with gr := some (P.G (fun i => (s.old i).getD 0)) }
  | .normal i => { s with nrm := Function.update s.nrm i (some (P.eps i)) }
  | .addS i =>
    match s.old i, s.velocity aliased i with
    | some o, some w => { s with smp := Function.update s.smp i (some (o + w)) }
    | _, _ => s
  | .addV i =>
    match s.velocity aliased i, s.gr, s.nrm i with
    | some w, some g, some e =>
      { s with vnew := Function.update s.vnew i (some ((1 - 0.5 * P.friction) * w +
          (P.step * 0.01) * g i + Real.sqrt ((P.step * 0.01) * P.friction) * e)) }
    | _, _, _ => s
  | .scatter i => { s with row := Function.update s.row i (s.smp i) }
  | .assignV i =>
    match s.vnew i with
    | some w => { s with v := Function.update s.v i w }
    | none => s

/-- State at the beginning of the session run. -/
def HState.init (v : ι → ℝ) : HState ι :=
  ⟨fun _ => none, fun _ => none, none, fun _ => none, fun _ => none, fun _ => none, v, fun _ => none⟩

/-- Execution of a schedule. -/
noncomputable def hrun (aliased : Bool) (P : HParams ι) (v : ι → ℝ) (l : List (HOp ι)) : HState ι :=
  l.foldl (hexec aliased P) (HState.init v)

/-- Prefixes of schedules: each op runs once, after its inputs. -/
inductive HSchedule : List (HOp ι) → Prop
  | nil : HSchedule []
  | snoc (l : List (HOp ι)) (o : HOp ι) : HSchedule l → o ∉ l → (∀ d, o.Dep d → d ∈ l) →
      HSchedule (l ++ [o])

end Edward
