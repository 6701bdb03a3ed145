/-
Model of the graph queries of `edward/util/random_variables.py`.

Assumed of TensorFlow: a graph is a finite set of operations and tensors;
`tensor.op` is the producing operation, `op.inputs`, `op.outputs` and
`tensor.consumers()` are lists. Python sets are duplicate-free lists whose
`pop` removes an arbitrary element: the schedule `sched k` names the position
popped in the `k`-th iteration of the loop.
-/
import Mathlib.Data.Fintype.Card
import Mathlib.Data.Fintype.Sum

namespace Edward

/-- A TensorFlow graph together with the random variables created on it.
`T` are tensors, `O` operations, `R` random variables (identity is Python object
identity, `RandomVariable.__eq__`/`__hash__`, edward/models/random_variable.py:162-166). -/
structure Graph (T O R : Type) where
  /-- `tensor.op` -/
  op : T → O
  /-- `op.inputs` -/
  inputs : O → List T
  /-- `op.outputs` -/
  outputs : O → List T
  /-- `tensor.consumers()` -/
  consumers : T → List O
  /-- `rv.value()`, edward/models/random_variable.py:218-220 -/
  value : R → T

/-- A query node: `RandomVariable or tf.Tensor`. -/
inductive Node (T R : Type) where
  | tensor (t : T)
  | rv (r : R)
  deriving DecidableEq

namespace Node
variable {T R : Type}

/-- Nodes are tensors or random variables: a finite type when these are. -/
def equivSum : Node T R ≃ T ⊕ R where
  toFun | .tensor t => .inl t | .rv r => .inr r
  invFun | .inl t => .tensor t | .inr r => .rv r
  left_inv := by intro n; cases n <;> rfl
  right_inv := by intro n; cases n <;> rfl

instance [Fintype T] [Fintype R] : Fintype (Node T R) := Fintype.ofEquiv _ equivSum.symm

end Node

section Query
variable {T O R V : Type} [DecidableEq T] [DecidableEq R] [DecidableEq V]

/-- `if isinstance(node, RandomVariable): node = node.value()`
(random_variables.py:487-488, 576-577, 629-630, 682-683, 765-766). -/
def Graph.toTensor (g : Graph T O R) : Node T R → T
  | .tensor t => t
  | .rv r => g.value r

/-- `node_dict = {node.value(): node for node in collection}` followed by
`node_dict.get(t, None)` (random_variables.py:474, 490): a dict comprehension, so
a later element with the same key overwrites an earlier one. -/
def nodeDict {K W : Type} [DecidableEq K] (key : W → K) (collection : List W) : K → Option W :=
  collection.foldl (fun d w => fun k => if k = key w then some w else d k) (fun _ => none)

/-- Variables of the loop `while nodes:`. -/
structure WState (N W : Type) where
  visited : List N
  output : List W
  nodes : List N

/-- `set.add` / `set.update` for one optional element. -/
def addOpt {W : Type} [DecidableEq W] (o : Option W) (s : List W) : List W :=
  match o with
  | some w => s.insert w
  | none => s

/-- `nodes.update(new)`. -/
def setUpdate {N : Type} [DecidableEq N] (s new : List N) : List N :=
  new.foldl (fun s n => s.insert n) s

/-- One iteration of the loop at `random_variables.py:480-494` (and its siblings
at 569-584, 622-637, 675-689, 758-772). `body node` is what the iteration does
with an unvisited node: the random variable added to `output`, if any, and the
nodes added to the work list. `i` is the position popped. -/
def wstep {N W : Type} [DecidableEq N] [DecidableEq W]
    (body : N → Option W × List N) (i : Nat) (s : WState N W) : WState N W :=
  match s.nodes[i % s.nodes.length]? with
  | none => s
  | some node =>
    let rest := s.nodes.eraseIdx (i % s.nodes.length)
    if node ∈ s.visited then
      { s with nodes := rest }
    else
      let r := body node
      { visited := node :: s.visited
        output := addOpt r.1 s.output
        nodes := setUpdate rest r.2 }

/-- The loop `while nodes: ...`; `k` counts iterations. Lean's acceptance of this
definition rests on the termination lemma `wstep_decreases`. -/
def wmeasure {N W : Type} [DecidableEq N] [Fintype N] (s : WState N W) : Nat × Nat :=
  ((Finset.univ.filter (· ∉ s.visited)).card, s.nodes.length)

theorem wstep_decreases {N W : Type} [DecidableEq N] [Fintype N] [DecidableEq W]
    (body : N → Option W × List N) (i : Nat) (s : WState N W) (h : s.nodes ≠ []) :
    Prod.Lex (· < ·) (· < ·) (wmeasure (wstep body i s)) (wmeasure s) := by
  have hl : 0 < s.nodes.length := List.length_pos_iff.mpr h
  have hi : i % s.nodes.length < s.nodes.length := Nat.mod_lt _ hl
  unfold wstep
  rw [List.getElem?_eq_getElem hi]
  dsimp only
  split
  · apply Prod.Lex.right'
    · exact le_refl _
    · simp only [List.length_eraseIdx, hi, if_true]; omega
  · rename_i hv
    apply Prod.Lex.left
    apply Finset.card_lt_card
    constructor
    · intro n; simp only [Finset.mem_filter, Finset.mem_univ, true_and, List.mem_cons, not_or]
      exact fun h => h.2
    · intro hs
      have := hs (Finset.mem_filter.mpr ⟨Finset.mem_univ _, hv⟩)
      simp at this

/-- The loop `while nodes: ...` run to its end; `k` counts iterations. -/
def wloop {N W : Type} [DecidableEq N] [Fintype N] [DecidableEq W]
    (body : N → Option W × List N) (sched : Nat → Nat) (k : Nat) (s : WState N W) : WState N W :=
  if h : s.nodes = [] then s
  else wloop body sched (k + 1) (wstep body (sched k) s)
termination_by wmeasure s
decreasing_by exact wstep_decreases body (sched k) s h

/-- `output = set(); visited = set(); nodes = {x}` (random_variables.py:477-479). -/
def winit {N W : Type} (x : N) : WState N W := { visited := [], output := [], nodes := [x] }

variable [Fintype T] [Fintype R]

/-- Loop body of `get_ancestors` (random_variables.py:487-494). -/
def ancestorsBody (g : Graph T O R) (collection : List R) (x : Node T R) (node : Node T R) :
    Option R × List (Node T R) :=
  let t := g.toTensor node
  let candidate := nodeDict g.value collection t
  let out := match candidate with
    | some c => if Node.rv c ≠ x then some c else none
    | none => none
  (out, (g.inputs (g.op t)).map .tensor)

/-- `get_ancestors` (random_variables.py:448-496). -/
def getAncestors (g : Graph T O R) (sched : Nat → Nat) (x : Node T R) (collection : List R) :
    List R :=
  (wloop (ancestorsBody g collection x) sched 0 (winit x)).output

/-- Loop body of `get_descendants` (random_variables.py:629-637). -/
def descendantsBody (g : Graph T O R) (collection : List R) (x : Node T R) (node : Node T R) :
    Option R × List (Node T R) :=
  let t := g.toTensor node
  let candidate := nodeDict g.value collection t
  let out := match candidate with
    | some c => if Node.rv c ≠ x then some c else none
    | none => none
  (out, (g.consumers t).flatMap (fun o => (g.outputs o).map .tensor))

/-- `get_descendants` (random_variables.py:589-639). -/
def getDescendants (g : Graph T O R) (sched : Nat → Nat) (x : Node T R) (collection : List R) :
    List R :=
  (wloop (descendantsBody g collection x) sched 0 (winit x)).output

/-- Loop body of `get_parents` (random_variables.py:682-689). -/
def parentsBody (g : Graph T O R) (collection : List R) (x : Node T R) (node : Node T R) :
    Option R × List (Node T R) :=
  let t := g.toTensor node
  match nodeDict g.value collection t with
  | some c =>
    if Node.rv c ≠ x then (some c, [])
    else (none, (g.inputs (g.op t)).map .tensor)
  | none => (none, (g.inputs (g.op t)).map .tensor)

/-- `get_parents` (random_variables.py:642-691). -/
def getParents (g : Graph T O R) (sched : Nat → Nat) (x : Node T R) (collection : List R) :
    List R :=
  (wloop (parentsBody g collection x) sched 0 (winit x)).output

/-- Loop body of `get_children` (random_variables.py:576-584). -/
def childrenBody (g : Graph T O R) (collection : List R) (x : Node T R) (node : Node T R) :
    Option R × List (Node T R) :=
  let t := g.toTensor node
  match nodeDict g.value collection t with
  | some c =>
    if Node.rv c ≠ x then (some c, [])
    else (none, (g.consumers t).flatMap (fun o => (g.outputs o).map .tensor))
  | none => (none, (g.consumers t).flatMap (fun o => (g.outputs o).map .tensor))

/-- `get_children` (random_variables.py:536-586). -/
def getChildren (g : Graph T O R) (sched : Nat → Nat) (x : Node T R) (collection : List R) :
    List R :=
  (wloop (childrenBody g collection x) sched 0 (winit x)).output

/-- `siblings.discard(x)` / `output.discard(x)`: a tensor is never equal to a
random variable, so discarding a tensor query does nothing. -/
def discardNode (x : Node T R) (s : List R) : List R :=
  s.filter (fun r => Node.rv r ≠ x)

/-- `get_siblings` (random_variables.py:694-723). `sched 0` schedules the call of
`get_parents`, `sched (i+1)` the `i`-th call of `get_children`. -/
def getSiblings (g : Graph T O R) (sched : Nat → Nat → Nat) (x : Node T R) (collection : List R) :
    List R :=
  let parents := getParents g (sched 0) x collection
  let siblings := parents.zipIdx.foldl
    (fun s (p : R × Nat) => setUpdate s (getChildren g (sched (p.2 + 1)) (.rv p.1) collection)) []
  discardNode x siblings

/-- `get_blanket` (random_variables.py:499-533). -/
def getBlanket (g : Graph T O R) (sched : Nat → Nat → Nat) (x : Node T R) (collection : List R) :
    List R :=
  let output := setUpdate [] (getParents g (sched 0) x collection)
  let children := getChildren g (sched 1) x collection
  let output := setUpdate output children
  let output := children.zipIdx.foldl
    (fun s (c : R × Nat) => setUpdate s (getParents g (sched (c.2 + 2)) (.rv c.1) collection)) output
  discardNode x output

/-- A query node of `get_variables`, whose collection has elements of another
type (`tf.Variable`). -/
def variablesBody (g : Graph T O R) {S : Type} [DecidableEq S] (tname : T → S) (vname : V → S)
    (collection : List V) (node : Node T R) : Option V × List (Node T R) :=
  let t := g.toTensor node
  -- `candidate_node != x` always holds: x is not a tf.Variable (line 769)
  (nodeDict vname collection (tname t), (g.inputs (g.op t)).map .tensor)

/-- `get_variables` (random_variables.py:726-774); variables are found by name. -/
def getVariables (g : Graph T O R) {S : Type} [DecidableEq S] (tname : T → S) (vname : V → S)
    (sched : Nat → Nat) (x : Node T R) (collection : List V) : List V :=
  (wloop (variablesBody g tname vname collection) sched 0 (winit x)).output

end Query
end Edward
