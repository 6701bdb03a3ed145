/-
What a graph computes, and what it computes when nodes are replaced.
-/
import Verif.Model.Copy

namespace Edward.Spec

open Copy

variable {V : Type}

/-- Values of tensors. `ρ` gives the values of variables, placeholders and queues, `I`
what each type of operation computes. -/
inductive Eval (G : Graph) (ρ : ℕ → ℕ → V) (I : ℕ → List V → ℕ → V) : Tensor → V → Prop
  | source (o i : ℕ) (op : Op) (h : G.ops[o]? = some op) (hk : ∀ k, op.kind ≠ .compute k) (hi : i < op.nOut) :
    Eval G ρ I (o, i) (ρ o i)
  | compute (o i : ℕ) (op : Op) (k : ℕ) (vs : List V) (h : G.ops[o]? = some op) (hk : op.kind = .compute k)
    (hi : i < op.nOut) (hl : vs.length = op.inputs.length)
    (hv : ∀ (j : ℕ) (t : Tensor) (v : V), op.inputs[j]? = some t → vs[j]? = some v → Eval G ρ I t v) : Eval G ρ I (o, i) (I k vs i)

/-- `dict_swap` replaces the tensor `t` by `t'`: it is a key, it is the value of a random
variable that is a key, it is the tensor of a variable that is a key, or its operation is a key. -/
inductive SwapTo (G : Graph) (swap : List (Node × Node)) : Tensor → Tensor → Prop
  | tensor (t t' : Tensor) (n : Node) (h : (.tensor t, n) ∈ swap) (hc : G.convert n = some t') : SwapTo G swap t t'
  | rv (r : ℕ) (t t' : Tensor) (n : Node) (h : (.rv r, n) ∈ swap) (hv : G.valueOf r = some t)
    (hc : G.convert n = some t') : SwapTo G swap t t'
  | var (o : ℕ) (t' : Tensor) (n : Node) (h : (.var o, n) ∈ swap) (hc : G.convert n = some t') : SwapTo G swap (o, 0) t'
  | op (o o' i : ℕ) (h : (.op o, .op o') ∈ swap) : SwapTo G swap (o, i) (o', i)

/-- Values when every replaced tensor has the value of its replacement. -/
inductive EvalSub (G : Graph) (swap : List (Node × Node)) (ρ : ℕ → ℕ → V) (I : ℕ → List V → ℕ → V) : Tensor → V → Prop
  | swapped (t t' : Tensor) (v : V) (h : SwapTo G swap t t') (he : Eval G ρ I t' v) : EvalSub G swap ρ I t v
  | source (o i : ℕ) (op : Op) (hn : ∀ t', ¬ SwapTo G swap (o, i) t') (h : G.ops[o]? = some op)
    (hk : ∀ k, op.kind ≠ .compute k) (hi : i < op.nOut) : EvalSub G swap ρ I (o, i) (ρ o i)
  | compute (o i : ℕ) (op : Op) (k : ℕ) (vs : List V) (hn : ∀ t', ¬ SwapTo G swap (o, i) t') (h : G.ops[o]? = some op)
    (hk : op.kind = .compute k) (hi : i < op.nOut) (hl : vs.length = op.inputs.length)
    (hv : ∀ (j : ℕ) (t : Tensor) (v : V), op.inputs[j]? = some t → vs[j]? = some v → EvalSub G swap ρ I t v) :
    EvalSub G swap ρ I (o, i) (I k vs i)

/-- The same for a tensor that is not itself replaced, only what it depends on. -/
inductive EvalTop (G : Graph) (swap : List (Node × Node)) (ρ : ℕ → ℕ → V) (I : ℕ → List V → ℕ → V) : Tensor → V → Prop
  | source (o i : ℕ) (op : Op) (h : G.ops[o]? = some op) (hk : ∀ k, op.kind ≠ .compute k) (hi : i < op.nOut) :
    EvalTop G swap ρ I (o, i) (ρ o i)
  | compute (o i : ℕ) (op : Op) (k : ℕ) (vs : List V) (h : G.ops[o]? = some op)
    (hk : op.kind = .compute k) (hi : i < op.nOut) (hl : vs.length = op.inputs.length)
    (hv : ∀ (j : ℕ) (t : Tensor) (v : V), op.inputs[j]? = some t → vs[j]? = some v → EvalSub G swap ρ I t v) :
    EvalTop G swap ρ I (o, i) (I k vs i)

/-- Every operation and random variable of `G` is in `G'`, unchanged, at the same place. -/
def Extends (G G' : Graph) : Prop := G.ops <+: G'.ops ∧ G.rvs <+: G'.rvs

/-- References point into the graph. -/
structure Closed (G : Graph) : Prop where
  inputs : ∀ op ∈ G.ops, ∀ t ∈ op.inputs, t.1 < G.ops.length
  control : ∀ op ∈ G.ops, ∀ o ∈ op.control, o < G.ops.length
  values : ∀ rv ∈ G.rvs, rv.value < G.ops.length

/-- A node of the graph. Variables are in `tf.global_variables()`. -/
def Mem (G : Graph) : Node → Prop
  | .op o => o < G.ops.length
  | .tensor t => ∃ op : Op, G.ops[t.1]? = some op ∧ t.2 < op.nOut
  | .var o => (G.ops[o]?.map (·.kind)) = some (.variable true)
  | .rv r => r < G.rvs.length

/-- Graphs as TensorFlow and edward build them: names identify operations and random variables,
and the value of a random variable is a tensor of its own, computed from its arguments. All variables are
global, and there are no control dependencies on variables or placeholders. -/
structure Proper (G : Graph) : Prop where
  opNames : ∀ (i j : ℕ) (op op' : Op), G.ops[i]? = some op → G.ops[j]? = some op' → op.name = op'.name → i = j
  rvNames : ∀ (i j : ℕ) (rv rv' : RV), G.rvs[i]? = some rv → G.rvs[j]? = some rv' → rv.name = rv'.name → i = j
  values : ∀ (i j : ℕ) (rv rv' : RV), G.rvs[i]? = some rv → G.rvs[j]? = some rv' → rv.value = rv'.value → i = j
  inputs : ∀ op ∈ G.ops, ∀ t ∈ op.inputs, Mem G (.tensor t)
  control : ∀ op ∈ G.ops, ∀ o ∈ op.control, ∃ op' : Op, G.ops[o]? = some op' ∧ ((∃ k, op'.kind = .compute k) ∨ op'.kind = .queue)
  args : ∀ rv ∈ G.rvs, ∀ x ∈ rv.args, Mem G x
  sample : ∀ rv ∈ G.rvs, ∃ op : Op, G.ops[rv.value]? = some op ∧ op.name = rv.name ++ sampleSuffix ∧ op.kind = .compute rv.cls ∧
    op.nOut = 1 ∧ rv.args.mapM G.convert = some op.inputs
  vars : ∀ op ∈ G.ops, ∀ g, op.kind = .variable g → g = true ∧ op.nOut = 1

/-- No name starts with the scope. -/
structure Unused (G : Graph) (scope : Name) : Prop where
  ops : ∀ op ∈ G.ops, ¬ scope <+: op.name
  rvs : ∀ rv ∈ G.rvs, ¬ scope <+: rv.name

/-- The keys of a `dict_swap`: different, replaced by nodes that can take their place, and none of
them part of another: neither a random variable's tensor or operation, nor a variable's, nor
both an operation and its output. -/
structure KeysOk (G : Graph) (swap : List (Node × Node)) : Prop where
  nodup : ∀ x n n', (x, n) ∈ swap → (x, n') ∈ swap → n = n'
  tensor : ∀ (t : Tensor) (n : Node), (.tensor t, n) ∈ swap → (∀ rv ∈ G.rvs, rv.value ≠ t.1) ∧
    (∀ op : Op, G.ops[t.1]? = some op → ∀ g, op.kind ≠ .variable g) ∧ (G.convert n).isSome
  rv : ∀ (r : ℕ) (n : Node), (.rv r, n) ∈ swap → r < G.rvs.length ∧ (G.convert n).isSome
  var : ∀ (o : ℕ) (n : Node), (.var o, n) ∈ swap → Mem G (.var o) ∧ (G.convert n).isSome
  op : ∀ (o : ℕ) (n : Node), (.op o, n) ∈ swap → (∃ o', n = .op o') ∧ (∀ rv ∈ G.rvs, rv.value ≠ o) ∧
    (∃ op : Op, G.ops[o]? = some op ∧ ((∃ k, op.kind = .compute k) ∨ op.kind = .queue)) ∧ ∀ i m, (.tensor (o, i), m) ∉ swap

/-- TensorFlow's choice of a name for the sample of a new random variable: if it is not the name asked for,
it is not the name another node will have when copied. -/
def UniqOk (G : Graph) (uniq : Graph → Name → Name) (scope : Name) : Prop :=
  ∀ H n, ∀ op ∈ G.ops, uniq H n = scope ++ op.name → n = scope ++ op.name

/-- The hypotheses on the arguments. -/
structure Setting (uniq : Graph → Name → Name) (parents : Node → List ℕ) (swap : List (Node × Node)) (scope : Name) (G : Graph) :
    Prop where
  proper : Proper G
  unused : Unused G scope
  keys : KeysOk G swap
  uniq : UniqOk G uniq scope
  parents : ∀ x r, r ∈ parents x → r < G.rvs.length

/-- The graph has no cycles: the rank decreases from an operation to what it depends on, also
for the random variables `get_parents` finds. Operations are replaced by operations with at least as many outputs. -/
structure Acyclic (G : Graph) (parents : Node → List ℕ) (swap : List (Node × Node)) (rank : ℕ → ℕ) : Prop where
  inputs : ∀ (o : ℕ) (op : Op), G.ops[o]? = some op → ∀ t ∈ op.inputs, rank t.1 < rank o
  control : ∀ (o : ℕ) (op : Op), G.ops[o]? = some op → ∀ c ∈ op.control, rank c < rank o
  parentsRV : ∀ (r r' : ℕ) (rv rv' : RV), r' ∈ parents (.rv r) → G.rvs[r]? = some rv → G.rvs[r']? = some rv' →
    rank rv'.value < rank rv.value
  parentsTensor : ∀ (t : Tensor) (r' : ℕ) (rv' : RV), r' ∈ parents (.tensor t) → G.rvs[r']? = some rv' →
    rank rv'.value ≤ rank t.1
  outputs : ∀ (o o' : ℕ) (op : Op), (.op o, .op o') ∈ swap → G.ops[o]? = some op →
    ∃ op' : Op, G.ops[o']? = some op' ∧ op.nOut ≤ op'.nOut

/-- No operation depends on itself. -/
def NoCycle (G : Graph) : Prop :=
  ∃ rank : ℕ → ℕ, ∀ (o : ℕ) (op : Op), G.ops[o]? = some op → ∀ t ∈ op.inputs, rank t.1 < rank o

end Edward.Spec
