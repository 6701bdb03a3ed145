/-
What a log joint must look like for `complete_conditional` to be right, and the environment in which one entry of a
statistic is evaluated.
-/
import Verif.Model.CompleteConditional
import Verif.Spec.NaturalParams

namespace Edward.Spec

open Expr

/-- `s` occurs in `t`. -/
inductive Within (s : Sub) : Sub → Prop
  | refl : Within s s
  | step (n : GNode) (cs : List Sub) (c : Sub) : c ∈ cs → Within s c → Within s (.node n cs)

/-- `t` is computed from the tensor `base`. -/
def Depends (base : ℕ) (t : Sub) : Prop := ∃ s, Within s t ∧ s.root.id = base

/-- A shape that can be broadcast to another one. -/
def Fits : List ℕ → List ℕ → Prop
  | [], _ => True
  | _ :: _, [] => False
  | a :: s, b :: t => (a = 1 ∨ a = b) ∧ Fits s t

/-- What holds of a graph that TensorFlow accepted and of what `extract_subgraph` makes of it: a tensor has one id, the
random variables of `stop` are leaves, shapes are the ones that operations produce, and elementwise operations can be
broadcast. -/
structure GraphOk (S : Sem) (base : ℕ) (stop : ℕ → Bool) (T : Sub) : Prop where
  unique : ∀ s t, Within s T → Within t T → s.root.id = t.root.id → s = t
  leaf : ∀ s, Within s T → s.root.id = base ∨ stop s.root.id = true → s.inputs = []
  base : stop base = true
  shape : ∀ s, Within s T → s.inputs ≠ [] → s.root.shape = S.opShape s.root (s.inputs.map (·.root.shape))
  fits : ∀ s, Within s T → s.root.type.elementwise = true → ∀ c ∈ s.inputs, Fits c.root.shape s.root.shape

/-- Linear operations down to statistics, with at most one factor of a product that depends on `base`. -/
inductive Lin (base : ℕ) : Sub → Prop
  | indep (t : Sub) : ¬ Depends base t → Lin base t
  | base (n : GNode) (cs : List Sub) : n.id = base → Lin base (.node n cs)
  | stat (n : GNode) (cs : List Sub) : n.type.linear = false → Lin base (.node n cs)
  | sum (n : GNode) (c : Sub) (cs : List Sub) : n.type = .sum → (∀ a ∈ cs, ¬ Depends base a) →
      Lin base c → Lin base (.node n (c :: cs))
  | mul (n : GNode) (l r : List Sub) (c : Sub) : n.type = .mul → (∀ a ∈ l, ¬ Depends base a) → (∀ a ∈ r, ¬ Depends base a) →
      Lin base c → Lin base (.node n (l ++ c :: r))
  | lin (n : GNode) (cs : List Sub) : n.type.linear = true → n.type ≠ .sum → n.type ≠ .mul → (∀ c ∈ cs, Lin base c) →
      Lin base (.node n cs)

/-- A tensor computed entry by entry by operations the simplifier knows, from the random variable and tensors that do
not depend on it. -/
inductive Built (base : ℕ) (stop : ℕ → Bool) : Sub → Prop
  | base (n : GNode) : n.id = base → Built base stop (.node n [])
  | stop (n : GNode) : n.id ≠ base → stop n.id = true → Built base stop (.node n [])
  | tensor (n : GNode) (cs : List Sub) : ¬ Depends base (.node n cs) → n.type.head = none → n.type ≠ .cast →
      Built base stop (.node n cs)
  | elem (n : GNode) (c : Sub) (cs : List Sub) : n.type.elementwise = true → (n.type.head ≠ none ∨ n.type = .cast) →
      (∀ a ∈ c :: cs, Built base stop a) → Built base stop (.node n (c :: cs))

/-- Such a statistic, or a one-hot encoding of a scalar random variable. -/
inductive BuiltStat (base : ℕ) (stop : ℕ → Bool) : Sub → Prop
  | elem (s : Sub) : Built base stop s → BuiltStat base stop s
  | oneHot (n b : GNode) (cs : List Sub) : n.type = .oneHot → n.shape.length = 1 → b.id = base → b.shape = [] →
      BuiltStat base stop (.node n (.node b [] :: cs))

/-- The values of the symbols for entry `j` of a statistic, where the random variable has the value `v`. -/
noncomputable def nodeEnv (S : Sem) (base : ℕ) (x : Arr) (T : Sub) (j : List ℕ) (v : ℝ) : Env where
  x := v
  tensor t vs := match t.isCast, vs with
    | true, a :: _ => a
    | _, _ => nodeEntry S base x T j t
  oneHot := oneHotEntry j

/-- The entries of the random variable, whose tensor has shape `xs`, at the entries of a distribution of shape `sh`. -/
def entries (xs sh : List ℕ) (x : Arr) (i : Fin (indices sh).length) : ℝ := x (bidx xs ((indices sh)[i]))

end Edward.Spec
