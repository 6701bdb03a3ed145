/-
Model of `complete_conditional` (edward/inferences/conjugacy/conjugacy.py:61-172, 227-284) and
`symbolic_suff_stat` (simplify.py:33-48), from the log joint tensor to the distribution.

Simplifications:
* the log joint is given as the tree that `extract_subgraph` returns; equal tensors have equal ids;
* shapes and indices are listed last dimension first, so that broadcasting aligns them at the front. Tensors are
  functions of the index;
* the random variables conditioned on are leaves with fixed values. That the code replaces them by placeholders and
  puts them back (lines 156-162, 169-171) changes no value;
* `tf.gradients` is the partial derivative;
* index arguments (of Sum, Slice, Gather, ...) are part of the semantics of the operation, not computed from the
  inputs.
-/
import Mathlib.Analysis.Calculus.Deriv.Basic
import Verif.Model.NaturalParams

namespace Edward

open Expr

/-- `tensor.op.type`. The types before `log` are `_linear_types` (conjugacy.py:259-261); `other` is any type that is
neither linear nor extractable nor Cast. -/
inductive OpType
  | add | addN | sub | mul | neg | identity | sum | assert | reshape | slice | stridedSlice | gather | gatherNd
  | squeeze | concat | expandDims
  | log | exp | pow | square | reciprocal | sqrt | oneHot | cast | other
  deriving DecidableEq

/-- `op_type in _linear_types` -/
def OpType.linear : OpType → Bool
  | .log | .exp | .pow | .square | .reciprocal | .sqrt | .oneHot | .cast | .other => false
  | _ => true

/-- The string `'#%s' % op.type` for the types in `_extractable_nodes` (simplify.py:16-30, 41-42). -/
def OpType.head : OpType → Option Head
  | .add => some .add
  | .sub => some .sub
  | .mul => some .mul
  | .log => some .log
  | .exp => some .exp
  | .pow => some .pow
  | .square => some .square
  | .reciprocal => some .reciprocal
  | .sqrt => some .sqrt
  | .identity => some .identity
  | .oneHot => some .oneHot
  | _ => none

/-- A tensor: identity, type of its operation, shape, and `tf.contrib.util.constant_value`. -/
structure GNode where
  id : ℕ
  type : OpType
  shape : List ℕ
  const : ConstVal
  deriving DecidableEq

/-- What the simplifier sees of it. -/
def GNode.tf (n : GNode) : TfNode := ⟨n.id, decide (n.type = .cast), n.const⟩

/-- What `extract_subgraph` returns (conjugacy.py:227-236): a tensor and the trees of its inputs. -/
inductive Sub
  | node (n : GNode) (inputs : List Sub)

/-- `subgraph[0]` -/
def Sub.root : Sub → GNode
  | .node n _ => n

/-- `subgraph[1:]` -/
def Sub.inputs : Sub → List Sub
  | .node _ cs => cs

mutual
/-- `is_child` (conjugacy.py:250-256). The test `input not in stop_nodes` compares a tuple with random variables and
always succeeds. -/
def isChild (base : ℕ) : Sub → Bool
  | .node n [] => decide (n.id = base)
  | .node _ (c :: cs) => isChild base c || anyChild base cs
def anyChild (base : ℕ) : List Sub → Bool
  | [] => false
  | c :: cs => isChild base c || anyChild base cs
end

mutual
/-- `suff_stat_nodes` (conjugacy.py:265-284). -/
def suffStatNodes (base : ℕ) : Sub → List Sub
  | .node n cs =>
    if n.id = base then [.node n cs]
    else
      match cs with
      | [] => []
      | c :: cs =>
        if n.type.linear then
          if n.type = .sum then suffStatNodes base c else suffStatNodes base c ++ suffStatsOf base cs
        else if isChild base (.node n (c :: cs)) then [.node n (c :: cs)] else []
def suffStatsOf (base : ℕ) : List Sub → List Sub
  | [] => []
  | c :: cs => suffStatNodes base c ++ suffStatsOf base cs
end

mutual
/-- `symbolic_suff_stat` (simplify.py:33-48). -/
def symbolic (base : ℕ) (stop : ℕ → Bool) : Sub → Expr
  | .node n cs =>
    if n.id = base then X
    else if stop n.id then leaf (.tensor n.tf)
    else .node (match n.type.head with | some h => h | none => .tensor n.tf) (symbolics base stop cs)
def symbolics (base : ℕ) (stop : ℕ → Bool) : List Sub → List Expr
  | [] => []
  | c :: cs => symbolic base stop c :: symbolics base stop cs
end

/-! ### Values -/

/-- A tensor's value. -/
abbrev Arr := List ℕ → ℝ

/-- The index into a tensor of shape `sh` that is broadcast, at index `j` of the result. -/
def bidx : List ℕ → List ℕ → List ℕ
  | s :: sh, i :: j => (if s = 1 then 0 else i) :: bidx sh j
  | _, _ => []

/-- The shape of an elementwise operation on two tensors. -/
def bcast : List ℕ → List ℕ → List ℕ
  | [], t => t
  | s, [] => s
  | a :: s, b :: t => (if a = 1 then b else a) :: bcast s t

/-- The shape of an elementwise operation on a list of tensors. -/
def bcasts (l : List (List ℕ)) : List ℕ := l.foldr bcast []

/-- All indices of a shape. -/
def indices : List ℕ → List (List ℕ)
  | [] => [[]]
  | s :: sh => (indices sh).flatMap fun j => (List.range s).map (· :: j)

/-- Elementwise operations, on the entries of their arguments. -/
noncomputable def OpType.elem : OpType → List ℝ → ℝ
  | .add, vs => vs.sum
  | .addN, vs => vs.sum
  | .mul, vs => vs.prod
  | .sub, a :: b :: _ => a - b
  | .neg, a :: _ => -a
  | .log, a :: _ => Real.log a
  | .exp, a :: _ => Real.exp a
  | .pow, a :: b :: _ => a ^ b
  | .square, a :: _ => a ^ (2 : ℕ)
  | .reciprocal, a :: _ => a⁻¹
  | .sqrt, a :: _ => √a
  | .identity, a :: _ => a
  | .cast, a :: _ => a
  | _, _ => 0

/-- A tensor's shape and value. -/
abbrev TVal := List ℕ × Arr

/-- The entries of a shape; there are no others. -/
def mask (sh : List ℕ) (a : Arr) : Arr := fun i => if i ∈ indices sh then a i else 0

/-- What the environment of the model provides: the values of leaves, the shapes of results that are not
elementwise, which entries an operation sums up or picks, and what other operations compute. -/
structure Sem where
  leaf : GNode → Arr
  /-- The shape of the result, given those of the arguments. -/
  outShape : GNode → List (List ℕ) → List ℕ
  /-- The entries of the first argument that Sum adds up, given its shape. -/
  group : GNode → List ℕ → List ℕ → List (List ℕ)
  /-- The argument and entry that Reshape, Slice, Gather, Concat, ... return, given the shapes of the arguments. -/
  pick : GNode → List (List ℕ) → List ℕ → ℕ × List ℕ
  other : GNode → List Arr → Arr

/-- The operations that work entry by entry, with broadcasting. -/
def OpType.elementwise : OpType → Bool
  | .add | .addN | .sub | .mul | .neg | .identity | .log | .exp | .pow | .square | .reciprocal | .sqrt | .cast => true
  | _ => false

/-- The operations that return entries of their arguments. -/
def OpType.picks : OpType → Bool
  | .reshape | .slice | .stridedSlice | .gather | .gatherNd | .squeeze | .concat | .expandDims => true
  | _ => false

/-- Entry `p.2` of argument `p.1`. -/
def entryOf (args : List TVal) (p : ℕ × List ℕ) : ℝ :=
  match args[p.1]? with
  | some a => a.2 p.2
  | none => 0

/-- The value of Sum. -/
def sumOf (group : List ℕ → List (List ℕ)) : List TVal → ℝ
  | a :: _ => ((group a.1).map a.2).sum
  | [] => 0

open Classical in
/-- The value of OneHot at class `j.head`. The classes are along the last dimension. -/
noncomputable def oneHotOf (j : List ℕ) : List TVal → ℝ
  | a :: _ => if a.2 j.tail = ((j.headD 0 : ℕ) : ℝ) then 1 else 0
  | [] => 0

/-- The value of an operation. (Assert has none.) -/
noncomputable def Sem.op (S : Sem) (n : GNode) (args : List TVal) : Arr := fun j =>
  if n.type.elementwise then n.type.elem (args.map fun a => a.2 (bidx a.1 j))
  else if n.type.picks then entryOf args (S.pick n (args.map (·.1)) j)
  else if n.type = .sum then sumOf (fun sh => S.group n sh j) args
  else if n.type = .oneHot then oneHotOf j args
  else if n.type = .assert then 0
  else S.other n (args.map (·.2)) j

/-- The shape of the result of an operation. -/
def Sem.opShape (S : Sem) (n : GNode) (args : List (List ℕ)) : List ℕ :=
  if n.type.elementwise then bcasts args else S.outShape n args

mutual
/-- The value of a tensor when the tensors with an `F` are replaced by it, and the random variable has the value
`x`. -/
noncomputable def evalWith (S : Sem) (base : ℕ) (F : ℕ → Option TVal) (x : Arr) : Sub → TVal
  | .node n cs =>
    match F n.id with
    | some a => (a.1, mask a.1 a.2)
    | none =>
      if n.id = base then (n.shape, mask n.shape x)
      else if cs.isEmpty then (n.shape, mask n.shape (S.leaf n))
      else
        let args := evalsWith S base F x cs
        let sh := S.opShape n (args.map (·.1))
        (sh, mask sh (S.op n args))
noncomputable def evalsWith (S : Sem) (base : ℕ) (F : ℕ → Option TVal) (x : Arr) : List Sub → List TVal
  | [] => []
  | c :: cs => evalWith S base F x c :: evalsWith S base F x cs
end

/-- The value of a tensor. -/
noncomputable def valueAt (S : Sem) (base : ℕ) (x : Arr) (s : Sub) : Arr := (evalWith S base (fun _ => none) x s).2

mutual
/-- The tensor with this id. -/
def Sub.find (id : ℕ) : Sub → Option Sub
  | .node n cs => if n.id = id then some (.node n cs) else Sub.finds id cs
def Sub.finds (id : ℕ) : List Sub → Option Sub
  | [] => none
  | c :: cs => match Sub.find id c with
    | some s => some s
    | none => Sub.finds id cs
end

/-! ### Natural parameters -/

/-- The entry of the tensor with this id that is broadcast to entry `j`. -/
noncomputable def nodeEntry (S : Sem) (base : ℕ) (x : Arr) (T : Sub) (j : List ℕ) (t : TfNode) : ℝ :=
  (T.find t.id).elim 0 fun s => valueAt S base x s (bidx s.root.shape j)

open Classical in
/-- `tf.one_hot` at entry `j`. (The code chooses the number of classes as one more than the largest; entries beyond
would be 0.) -/
noncomputable def oneHotEntry (j : List ℕ) (l : List ℝ) : ℝ := if l.head? = some ((j.headD 0 : ℕ) : ℝ) then 1 else 0

mutual
/-- The shape of what `reconstruct_expr` builds. (Of one-hot encodings the last dimension is missing.) -/
def exprShape (T : Sub) : Expr → List ℕ
  | .node (.num _) _ => []
  | .node (.tensor t) _ => (T.find t.id).elim [] (·.root.shape)
  | .node _ as => exprShapes T as
def exprShapes (T : Sub) : List Expr → List ℕ
  | [] => []
  | a :: as => bcast (exprShape T a) (exprShapes T as)
end

/-- A node with a sufficient statistic, as found in lines 118-123: the tensor, its key and its multipliers. -/
structure Stat where
  sub : Sub
  key : Key
  ms : List Expr

/-- The identity of the tensor. -/
def Stat.id (s : Stat) : ℕ := s.sub.root.id

open Classical in
/-- The shape of the placeholder for a key (conjugacy.py:139-147): that of the first node with this key. -/
noncomputable def phShape (stats : List Stat) (k : Key) : List ℕ :=
  ((stats.find? fun s => s.key = k).elim [] (·.sub.root.shape))

/-- The shape of `fake_node = s_stat_placeholder * multiplier` (conjugacy.py:151). -/
noncomputable def fakeShape (T : Sub) (stats : List Stat) (s : Stat) : List ℕ := bcast (phShape stats s.key) (exprShapes T s.ms)

/-- The graph after `swap_dict` (conjugacy.py:139-153, 164): every node is replaced by its `fake_node`. `swap_back` gives it
the value of the node; entry `j` of the one with identity `id'` is changed to `v`. -/
noncomputable def swapped (S : Sem) (base : ℕ) (x : Arr) (T : Sub) (stats : List Stat) (id' : ℕ) (j : List ℕ) (v : ℝ) (id : ℕ) :
    Option TVal :=
  (stats.find? (·.id = id)).map fun s =>
    let a : Arr := fun i => valueAt S base x s.sub (bidx s.sub.root.shape i)
    (fakeShape T stats s, if id = id' then Function.update a j v else a)

open Classical in
/-- Entry `j` of the natural parameter of key `k` (conjugacy.py:139-170): the gradient with respect to the placeholder.
The gradient with respect to each `fake_node` with this key is multiplied by its multiplier, and summed over the entries
to which the placeholder is broadcast. `mult s i` is the multiplier, broadcast to entry `i`. -/
noncomputable def natParam (S : Sem) (base : ℕ) (x : Arr) (T : Sub) (stats : List Stat) (mult : Stat → Arr) (k : Key) (j : List ℕ) :
    ℝ :=
  ((stats.filter fun s => s.key = k).map fun s =>
    (((indices (fakeShape T stats s)).filter fun i => bidx (phShape stats k) i = j).map fun i =>
      mult s i * deriv (fun v => (evalWith S base (swapped S base x T stats s.id i v) x T).2 [])
        (valueAt S base x s.sub (bidx s.sub.root.shape i))).sum).sum

/-- `complete_conditional` (conjugacy.py:105-172) on the log joint `T` of a random variable with tensor `base` and support
`sup`, at the value `x`, returns `d`, a distribution of shape `sh`. The orders of `list(set(s_stats))` and of `np.argsort`
are arbitrary: `stats` lists the nodes, `keys` their keys. -/
structure Returns (S : Sem) (base : ℕ) (stop : ℕ → Bool) (T : Sub) (sup : Support) (x : Arr) (stats : List Stat) (keys : List Key)
    (mult : Stat → Arr) (fam : Family) (sh : List ℕ) (d : CondDist (indices sh).length) : Prop where
  /-- lines 109-114 -/
  nodup : (stats.map (·.id)).Nodup
  nodes : ∀ t, (∃ s ∈ stats, s.sub = t) ↔ t ∈ suffStatNodes base T
  /-- lines 118-121 -/
  expr : ∀ s ∈ stats, ∃ inner outer e, fullSimplify inner outer (symbolic base stop s.sub) = .ok e ∧
    extractMultipliers e = (s.ms, s.key)
  /-- lines 122-123 -/
  mult_eq : ∀ s ∈ stats, ∀ j ∈ indices (fakeShape T stats s),
    reconstructMultiplier (oneHotEntry j) (nodeEntry S base x T j) s.ms = .ok (mult s j)
  /-- lines 126-128 -/
  keys_nodup : keys.Nodup
  keys_eq : ∀ k, k ∈ keys ↔ ∃ s ∈ stats, s.key = k
  /-- lines 129-135 -/
  family : suffStatToDist sup keys = some fam
  /-- lines 166-178 -/
  shape : sh = bcasts (keys.map (phShape stats))
  dist : constructDist fam (keys.map fun k (i : Fin (indices sh).length) =>
    natParam S base x T stats mult k (bidx (phShape stats k) ((indices sh)[i]))) = .ok d

end Edward
