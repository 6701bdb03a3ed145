/-
Python expressions with random variables (edward/models/random_variable.py:162-323): overloaded operators, conversion to tensors, sessions, and what is not
allowed.

Assumed of TensorFlow: a binary operator of `tf.Tensor` converts the other operand to the dtype of the tensor; tensors of other dtypes raise ValueError, and
Python numbers that do not fit the dtype raise TypeError; an operation that is not defined for the dtype raises TypeError. What operations compute is a
parameter. Shapes are left out. Assumed of Python: `a o b` calls the method of `a`; numbers and NumPy arrays (because of `__array_priority__`) leave it to the
reflected method of `b`; comparisons call the method of `b` first if its class is a proper subclass of that of `a`.
-/
import Verif.Model.Metrics

namespace Edward.Expressions

/-- Binary operators of `tf.Tensor.OVERLOADABLE_OPERATORS`; `arith` are those with a reflected method `__r...__`, by name. -/
inductive BinOp where
  | arith (name : String)
  | lt
  | le
  | gt
  | ge
  deriving DecidableEq

/-- The operator whose method is called on the right operand. -/
def BinOp.swap : BinOp → BinOp
  | .arith n => .arith n
  | .lt => .gt
  | .le => .ge
  | .gt => .lt
  | .ge => .le

/-- `D` are dtypes, `L` numbers and arrays. -/
structure Tf (D L : Type) where
  /-- the operation is defined for the dtype -/
  accepts : BinOp → D → Bool
  /-- the dtype of the result -/
  out : BinOp → D → D
  /-- the number or array can be converted to the dtype -/
  fits : L → D → Bool
  /-- unary operators and indexing -/
  unAccepts : String → D → Bool
  unOut : String → D → D

/-- Tensors, by how they are computed. -/
inductive Ten (D L : Type) where
  /-- the tensor of a random variable: `value()` -/
  | sample (r : ℕ)
  | given (k : ℕ) (d : D)
  | const (l : L) (d : D)
  | bin (o : BinOp) (a b : Ten D L)
  | un (o : String) (a : Ten D L)

/-- Random variables: class, declared dtype (`v.dtype`) and dtype of the tensor `value()`. -/
structure Vars (D : Type) where
  cls : ℕ → ℕ
  subclass : ℕ → ℕ → Bool
  declared : ℕ → D
  actual : ℕ → D

variable {D L : Type}

/-- `tensor.dtype` -/
def Ten.dtype (tf : Tf D L) (vs : Vars D) : Ten D L → D
  | .sample r => vs.actual r
  | .given _ d => d
  | .const _ d => d
  | .bin o a _ => tf.out o (a.dtype tf vs)
  | .un o a => tf.unOut o (a.dtype tf vs)

/-- Values of expressions. -/
inductive Obj (D L : Type) where
  | rv (r : ℕ)
  | tensor (t : Ten D L)
  | lit (l : L)

/-- `tf.convert_to_tensor(x, dtype)`, with `_tensor_conversion_function` (random_variable.py:304-311) for random variables. -/
def convert [DecidableEq D] (tf : Tf D L) (vs : Vars D) (x : Obj D L) (d : D) : Except PyErr (Ten D L) :=
  match x with
  | .rv r => if vs.declared r = d then .ok (.sample r) else .error .valueError
  | .tensor t => if t.dtype tf vs = d then .ok t else .error .valueError
  | .lit l => if tf.fits l d then .ok (.const l d) else .error .typeError

/-- An operation of TensorFlow on tensors of one dtype. -/
def apply (tf : Tf D L) (o : BinOp) (a b : Ten D L) (d : D) : Except PyErr (Obj D L) :=
  if tf.accepts o d then .ok (.tensor (.bin o a b)) else .error .typeError

/-- `getattr(tf.Tensor, operator)(t, y)` for `__op__` -/
def forward [DecidableEq D] (tf : Tf D L) (vs : Vars D) (o : BinOp) (t : Ten D L) (y : Obj D L) : Except PyErr (Obj D L) := do
  let y' ← convert tf vs y (t.dtype tf vs)
  apply tf o t y' (t.dtype tf vs)

/-- `getattr(tf.Tensor, operator)(t, x)` for `__rop__`: computes `x op t` -/
def backward [DecidableEq D] (tf : Tf D L) (vs : Vars D) (o : BinOp) (t : Ten D L) (x : Obj D L) : Except PyErr (Obj D L) := do
  let x' ← convert tf vs x (t.dtype tf vs)
  apply tf o x' t (t.dtype tf vs)

/-- The tensor whose methods are called: `a.value()` in `_run_op` (random_variable.py:277-278). -/
def symbolic : Obj D L → Option (Ten D L)
  | .rv r => some (.sample r)
  | .tensor t => some t
  | .lit _ => none

/-- The reflected method of the right operand: `__rop__`, or the opposite comparison. -/
def reflected [DecidableEq D] (tf : Tf D L) (vs : Vars D) (o : BinOp) (t : Ten D L) (x : Obj D L) : Except PyErr (Obj D L) :=
  match o with
  | .arith n => backward tf vs (.arith n) t x
  | o => forward tf vs o.swap t x

/-- Python asks the right operand first: comparison with an instance of a proper subclass. -/
def rightFirst (vs : Vars D) (o : BinOp) (a b : Obj D L) : Bool :=
  match o, a, b with
  | .arith _, _, _ => false
  | _, .rv r, .rv s => vs.cls r ≠ vs.cls s && vs.subclass (vs.cls s) (vs.cls r)
  | _, _, _ => false

/-- `a o b` -/
def binary [DecidableEq D] (tf : Tf D L) (vs : Vars D) (o : BinOp) (a b : Obj D L) : Except PyErr (Obj D L) :=
  match symbolic a, symbolic b with
  | some ta, some tb => if rightFirst vs o a b then reflected tf vs o tb a else forward tf vs o ta b
  | some ta, none => forward tf vs o ta b
  | none, some tb => reflected tf vs o tb a
  | none, none => .error .typeError

/-- `-a`, `abs(a)`, `~a`, `a[...]` -/
def unary (tf : Tf D L) (vs : Vars D) (o : String) (a : Obj D L) : Except PyErr (Obj D L) :=
  match symbolic a with
  | some t => if tf.unAccepts o (t.dtype tf vs) then .ok (.tensor (.un o t)) else .error .typeError
  | none => .error .typeError

/-- Expressions; numbers and arrays stand beside a random variable or tensor. -/
inductive Expr (D L : Type) where
  | rv (r : ℕ)
  | tensor (k : ℕ) (d : D)
  | bin (o : BinOp) (a b : Expr D L)
  | left (o : BinOp) (l : L) (b : Expr D L)
  | right (o : BinOp) (a : Expr D L) (l : L)
  | un (o : String) (a : Expr D L)

/-- What Python computes. -/
def Expr.build [DecidableEq D] (tf : Tf D L) (vs : Vars D) : Expr D L → Except PyErr (Obj D L)
  | .rv r => .ok (.rv r)
  | .tensor k d => .ok (.tensor (.given k d))
  | .bin o a b => do
    let x ← a.build tf vs
    let y ← b.build tf vs
    binary tf vs o x y
  | .left o l b => do
    let y ← b.build tf vs
    binary tf vs o (.lit l) y
  | .right o a l => do
    let x ← a.build tf vs
    binary tf vs o x (.lit l)
  | .un o a => do
    let x ← a.build tf vs
    unary tf vs o x

/-- What operations compute, by dtype of the operands. -/
structure Sem (D L V : Type) where
  bin : BinOp → D → V → V → V
  un : String → D → V → V
  lit : L → D → V

/-- `session.run` of a tensor: tensors in `feed_dict` have the value fed, every random variable has one draw. -/
def run [DecidableEq D] [DecidableEq L] {V : Type} (tf : Tf D L) (vs : Vars D) (sem : Sem D L V) (feed : Ten D L → Option V) (draw given : ℕ → V) : Ten D L → V
  | .sample r => (feed (.sample r)).getD (draw r)
  | .given k d => (feed (.given k d)).getD (given k)
  | .const l d => (feed (.const l d)).getD (sem.lit l d)
  | .bin o a b => (feed (.bin o a b)).getD
      (sem.bin o (a.dtype tf vs) (run tf vs sem feed draw given a) (run tf vs sem feed draw given b))
  | .un o a => (feed (.un o a)).getD (sem.un o (a.dtype tf vs) (run tf vs sem feed draw given a))

/-- `session.run(x)` of a random variable (`_session_run_conversion_fetch_function`, random_variable.py:291-293) or tensor, and `x.eval()` (line 216). -/
def fetch [DecidableEq D] [DecidableEq L] {V : Type} (tf : Tf D L) (vs : Vars D) (sem : Sem D L V) (feed : Ten D L → Option V) (draw given : ℕ → V)
    (x : Obj D L) : Option V :=
  (symbolic x).map (run tf vs sem feed draw given)

/-- A `feed_dict` whose keys are random variables (`_session_run_conversion_feed_function`, random_variable.py:295-297). -/
def feedRvs {V : Type} (dict : ℕ → Option V) : Ten D L → Option V
  | .sample r => dict r
  | _ => none

/-- `x == y` (random_variable.py:165-166) for objects with addresses. -/
def equal (x y : ℕ) : Bool := x = y

/-- `bool(x)` and `iter(x)` (random_variable.py:168-185) -/
def asBool (_ : ℕ) : Except PyErr Bool := .error .typeError

end Edward.Expressions
