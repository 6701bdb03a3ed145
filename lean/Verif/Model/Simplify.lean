/-
Model of edward/inferences/conjugacy/simplify.py: the symbolic expressions and the
rewriting system behind `ed.complete_conditional`.

Simplifications, everywhere below:
* numbers are rationals, not floats; the exponent inside a `'#CPow…'` string is kept as the
  number it denotes. The rounding done by `'%.4e'` is modelled (`fmt4e`);
* a tensor used as the head of an expression carries what the rules look at: whether its
  op is a `Cast`, and `tf.contrib.util.constant_value` of it.
-/
import Mathlib.Data.Rat.Floor
import Mathlib.Data.Int.Log
import Verif.Model.Metrics

namespace Edward

/-- What `tf.contrib.util.constant_value` returns: `None`, a scalar, or an array with more
than one element (whose truth value raises ValueError). -/
inductive ConstVal
  | none
  | scalar (c : ℚ)
  | array
  deriving DecidableEq

/-- A tensor of the graph appearing in an expression. -/
structure TfNode where
  id : ℕ
  isCast : Bool
  const : ConstVal
  deriving DecidableEq

/-- The first element of an expression tuple (simplify.py:16-30, 33-48). -/
inductive Head
  | x
  | add
  | sub
  | mul
  | log
  | exp
  | pow
  | square
  | reciprocal
  | sqrt
  | identity
  | oneMinus
  | oneHot
  | cpow (p : ℚ)
  | num (c : ℚ)
  | tensor (t : TfNode)
  deriving DecidableEq

/-- An expression: a tuple whose first element is a head and whose other elements are
expressions. -/
inductive Expr
  | node (h : Head) (args : List Expr)

namespace Expr

/-- `expr[0]` -/
def head : Expr → Head
  | node h _ => h

/-- `expr[1:]` -/
def args : Expr → List Expr
  | node _ as => as

/-- A leaf `(h,)`. -/
abbrev leaf (h : Head) : Expr := node h []

/-- The leaf `('#x',)`. -/
abbrev X : Expr := leaf .x

/-- The leaf `(c,)`. -/
abbrev num (c : ℚ) : Expr := leaf (.num c)

end Expr

open Expr

/-- Why a computation has no result: it raised, or it has not finished within the number of
loop iterations it was given. -/
inductive Stop
  | raised (e : PyErr)
  | running
  deriving DecidableEq

/-- `tuple[i]` raising IndexError out of range. -/
def item (l : List Expr) (i : ℕ) : Except Stop Expr :=
  match l[i]? with
  | some e => .ok e
  | none => .error (.raised .indexError)

/-- Rounding a rational to the nearest integer, ties to even. -/
def roundHalfEven (q : ℚ) : ℤ :=
  let f := ⌊q⌋
  if q - f < 1 / 2 then f
  else if q - f > 1 / 2 then f + 1
  else if f % 2 = 0 then f else f + 1

/-- `float('%.4e' % q)`: `q` rounded to five significant decimal digits. -/
def fmt4e (q : ℚ) : ℚ :=
  if q = 0 then 0 else
    let u : ℚ := (10 : ℚ) ^ (Int.log 10 |q| - 4)
    roundHalfEven (q / u) * u

/-! ### The rules, in the order in which they are registered

Each rule returns `None` (nothing to do here) or the new expression. -/

/-- A simplification function. -/
abbrev Rule := Expr → Except Stop (Option Expr)

/-- simplify.py:126-129 -/
def identityOpSimplify : Rule
  | node .identity as => do return some (← item as 0)
  | _ => return none

/-- `_power_ops.get` (simplify.py:132-136). -/
def powerOp : Head → Option ℚ
  | .reciprocal => some (-1)
  | .square => some 2
  | .sqrt => some (1 / 2)
  | _ => none

/-- simplify.py:139-143; the three powers are exact in the format. -/
def powerOpSimplify : Rule
  | node h as =>
    match powerOp h with
    | some p => return some (node (.cpow p) as)
    | none => return none

/-- simplify.py:146-159. `fmt` is `float ∘ ('%.4e' % ·)`. -/
def powSimplify (fmt : ℚ → ℚ) : Rule
  | node (.cpow p) as => do
    match ← item as 0 with
    | node (.cpow q) bs =>
      let newPower := q * p
      let e ← item bs 0
      if newPower = 1 then return some e else return some (node (.cpow (fmt newPower)) [e])
    | _ => return none
  | _ => return none

/-- simplify.py:162-167 -/
def logPowSimplify : Rule
  | node .log as => do
    match ← item as 0 with
    | node (.cpow p) bs => return some (node .mul [num p, node .log [← item bs 0]])
    | node .pow bs => return some (node .mul [← item bs 1, node .log [← item bs 0]])
    | _ => return none
  | _ => return none

/-- simplify.py:170-173 -/
def logMulSimplify : Rule
  | node .log as => do
    match ← item as 0 with
    | node .mul bs => return some (node .add (bs.map fun i => node .log [i]))
    | _ => return none
  | _ => return none

/-- simplify.py:176-181. `expr[2]` is only looked up if the product has a factor. -/
def powMulSimplify : Rule
  | node (.cpow p) as => do
    match ← item as 0 with
    | node .mul bs => return some (node .mul (bs.map fun i => node (.cpow p) [i]))
    | _ => return none
  | node .pow as => do
    match ← item as 0 with
    | node .mul bs => return some (node .mul (← bs.mapM fun i => do return node .pow [i, ← item as 1]))
    | _ => return none
  | _ => return none

/-- The loop of simplify.py:189-193: `before` are the arguments already passed, in reverse
order. -/
def mulAddScan (before : List Expr) : List Expr → Option Expr
  | [] => none
  | node .add bs :: rest =>
    some (node .add (bs.map fun j => node .mul (before.reverse ++ rest ++ [j])))
  | a :: rest => mulAddScan (a :: before) rest

/-- simplify.py:184-193 -/
def mulAddSimplify : Rule
  | node .mul as => return mulAddScan [] as
  | _ => return none

/-- simplify.py:196-208 -/
def commutativeSimplify (op : Head) : Rule
  | node h as =>
    if h = op then
      let newArgs := as.flatMap fun i => if i.head = op then i.args else [i]
      if as.any fun i => i.head = op then return some (node op newArgs) else return none
    else return none

/-- simplify.py:211-213 -/
def addAddSimplify : Rule := commutativeSimplify .add

/-- simplify.py:216-218 -/
def mulMulSimplify : Rule := commutativeSimplify .mul

/-- simplify.py:221-237 -/
def identitySimplify (op : Head) (identityVal : ℚ) : Rule
  | node h as =>
    if h = op then
      match as with
      | [a] => return some a
      | _ =>
        let newArgs := as.filter fun i => i.head ≠ .num identityVal
        if as.any fun i => i.head = .num identityVal then
          if newArgs.length > 1 then return some (node op newArgs)
          else do return some (← item newArgs 0)
        else return none
    else return none

/-- simplify.py:240-242 -/
def mulOneSimplify : Rule := identitySimplify .mul 1

/-- simplify.py:245-247 -/
def addZeroSimplify : Rule := identitySimplify .add 0

/-- simplify.py:250-256 -/
def mulZeroSimplify : Rule
  | node .mul as => if as.any fun i => i.head = .num 0 then return some (num 0) else return none
  | _ => return none

/-- The two loops of simplify.py:263-267. -/
def squareTerms : List Expr → List Expr
  | [] => []
  | a :: rest => node (.cpow 2) [a] :: (rest.map fun b => node .mul [num 2, a, b]) ++ squareTerms rest

/-- simplify.py:259-268 -/
def squareAddSimplify : Rule
  | node (.cpow p) as =>
    if p = 2 then do
      match ← item as 0 with
      | node .add bs => return some (node .add (squareTerms bs))
      | _ => return none
    else return none
  | _ => return none

mutual
/-- `expr_contains(expr, '#x')` (simplify.py:271-277). -/
def containsX : Expr → Bool
  | node h as => h = .x || anyContainsX as
/-- The loop of simplify.py:274-276. -/
def anyContainsX : List Expr → Bool
  | [] => false
  | a :: as => containsX a || anyContainsX as
end

/-- simplify.py:280-293 -/
def addConstSimplify : Rule
  | node .add as =>
    if as.any fun i => !containsX i then return some (node .add (as.filter containsX)) else return none
  | _ => return none

/-- simplify.py:296-303 -/
def oneMSimplify : Rule
  | node .sub as => do
    match ← item as 0 with
    | node (.tensor t) _ =>
      match t.const with
      | .scalar c => if c = 1 then return some (node .oneMinus [← item as 1]) else return none
      | .array => .error (.raised .valueError)
      | .none => return none
    | _ => return none
  | _ => return none

/-- simplify.py:306-310 -/
def castSimplify : Rule
  | node (.tensor t) as => if t.isCast then do return some (← item as 0) else return none
  | _ => return none

/-- simplify.py:313-317 -/
def onehotSimplify : Rule
  | node .oneHot as =>
    if as.length + 1 > 2 then return some (node .oneHot (as.take 1)) else return none
  | _ => return none

/-- `_simplify_fns` (simplify.py:76, 122), in registration order. -/
def simplifyFns (fmt : ℚ → ℚ) : List Rule :=
  [identityOpSimplify, powerOpSimplify, powSimplify fmt, logPowSimplify, logMulSimplify,
    powMulSimplify, mulAddSimplify, addAddSimplify, mulMulSimplify, mulOneSimplify,
    addZeroSimplify, mulZeroSimplify, squareAddSimplify, addConstSimplify, oneMSimplify,
    castSimplify, onehotSimplify]

/-! ### The loops -/

mutual
/-- `wrapped` (simplify.py:101-112): the rule at this node, otherwise at its arguments. -/
def wrapped (fn : Rule) : Expr → Except Stop (Bool × Expr)
  | node h as => do
    match ← fn (node h as) with
    | none =>
      let r ← wrappedArgs fn as
      return (r.1, node h r.2)
    | some e => return (true, e)
/-- The loop of simplify.py:106-109. -/
def wrappedArgs (fn : Rule) : List Expr → Except Stop (Bool × List Expr)
  | [] => return (false, [])
  | a :: as => do
    let r ← wrapped fn a
    let rs ← wrappedArgs fn as
    return (r.1 || rs.1, r.2 :: rs.2)
end

/-- `repeat_wrapped` (simplify.py:114-120), at most `fuel` iterations. -/
def repeatWrapped (fn : Rule) : ℕ → Expr → Except Stop (Bool × Expr)
  | 0, _ => .error .running
  | fuel + 1, e => do
    let r ← wrapped fn e
    if r.1 then
      let r' ← repeatWrapped fn fuel r.2
      return (true, r'.2)
    else return (false, r.2)

/-- One execution of the `for` loop in `full_simplify` (simplify.py:82-84). -/
def simplifyPass (fuel : ℕ) : List Rule → Bool → Expr → Except Stop (Bool × Expr)
  | [], did, e => return (did, e)
  | fn :: fns, did, e => do
    let r ← repeatWrapped fn fuel e
    simplifyPass fuel fns (did || r.1) r.2

/-- `full_simplify` (simplify.py:79-87), at most `outer` executions of the outer loop and
`inner` of each inner one. -/
def fullSimplifyWith (fns : List Rule) (inner : ℕ) : ℕ → Expr → Except Stop Expr
  | 0, _ => .error .running
  | outer + 1, e => do
    let r ← simplifyPass inner fns false e
    if r.1 then fullSimplifyWith fns inner outer r.2 else return r.2

/-- `full_simplify` with the registered rules. -/
def fullSimplify (inner outer : ℕ) (e : Expr) : Except Stop Expr :=
  fullSimplifyWith (simplifyFns fmt4e) inner outer e

end Edward
