/-
Meaning of the simplifier's expressions, and the domain on which its rules are claimed to
be valid.
-/
import Mathlib.Analysis.SpecialFunctions.Pow.Real
import Verif.Model.Simplify

namespace Edward.Spec

open Expr

/-- Values for the symbols of an expression: the random variable, the operation each tensor
performs on its inputs, and the one-hot encoding. -/
structure Env where
  x : ℝ
  tensor : TfNode → List ℝ → ℝ
  oneHot : List ℝ → ℝ

/-- The same environment at another value of the random variable. -/
def Env.withX (ρ : Env) (v : ℝ) : Env := { ρ with x := v }

/-- What the rules assume of the operations: a cast does not change the value, and a one-hot
encoding only depends on the encoded value. -/
structure Env.Regular (ρ : Env) : Prop where
  cast : ∀ t : TfNode, t.isCast = true → ∀ a l, ρ.tensor t (a :: l) = a
  oneHot : ∀ a l, ρ.oneHot (a :: l) = ρ.oneHot [a]

/-- The operation a head performs. -/
noncomputable def headVal (ρ : Env) : Head → List ℝ → ℝ
  | .x, _ => ρ.x
  | .add, vs => vs.sum
  | .mul, vs => vs.prod
  | .sub, a :: b :: _ => a - b
  | .log, a :: _ => Real.log a
  | .exp, a :: _ => Real.exp a
  | .pow, a :: b :: _ => a ^ b
  | .square, a :: _ => a ^ (2 : ℕ)
  | .reciprocal, a :: _ => a⁻¹
  | .sqrt, a :: _ => √a
  | .identity, a :: _ => a
  | .oneMinus, a :: _ => 1 - a
  | .cpow p, a :: _ => a ^ (p : ℝ)
  | .oneHot, vs => ρ.oneHot vs
  | .num c, _ => c
  | .tensor t, vs => ρ.tensor t vs
  | _, _ => 0

mutual
/-- The value of an expression. -/
noncomputable def eval (ρ : Env) : Expr → ℝ
  | node h as => headVal ρ h (evals ρ as)
/-- The values of a list of expressions. -/
noncomputable def evals (ρ : Env) : List Expr → List ℝ
  | [] => []
  | a :: as => eval ρ a :: evals ρ as
end

/-- Must the arguments of `h` be manifestly positive, given whether the result must be?
Below a logarithm, a square root or a power that is not an integer they must; products,
sums, powers, identities and casts pass the requirement on. -/
def childFlag (pos : Bool) : Head → Bool
  | .log => true
  | .sqrt => true
  | .cpow p => pos || decide (p.den ≠ 1)
  | .mul => pos
  | .add => pos
  | .identity => pos
  | .square => pos
  | .reciprocal => pos
  | .tensor t => t.isCast && pos
  | _ => false

/-- A tensor that the graph library says is constant has that value. -/
def ConstFact (v : ℝ) : Head → Prop
  | .tensor t => ∀ c, t.const = .scalar c → v = c
  | _ => True

mutual
/-- The domain: everything below a logarithm, a square root, a power that is not an
integer, or the base of a power is manifestly positive, that is, positive at every node
down to operations that are not products, sums or powers. No logarithm is below another.
Constant tensors have their value. -/
def Ok (ρ : Env) : Bool → Expr → Prop
  | pos, node h as => (pos = true → 0 < eval ρ (node h as) ∧ h ≠ .log) ∧ ConstFact (eval ρ (node h as)) h ∧ OkArgs ρ pos h as
/-- The domain for the arguments of a head; a power has an exponent and its base is
positive. -/
def OkArgs (ρ : Env) : Bool → Head → List Expr → Prop
  | _, _, [] => True
  | pos, h, a :: as => (h = .pow → as ≠ []) ∧
    Ok ρ (childFlag pos h || decide (h = .pow)) a ∧ OkArgs' ρ (childFlag pos h) as
/-- All of a list in the domain. -/
def OkArgs' (ρ : Env) : Bool → List Expr → Prop
  | _, [] => True
  | f, a :: as => Ok ρ f a ∧ OkArgs' ρ f as
end

/-- `p` is `2 ^ j` or `-2 ^ j` with `|j| ≤ k`. -/
def IsPow2 (k : ℕ) (p : ℚ) : Prop := ∃ j : ℤ, |j| ≤ k ∧ (p = 2 ^ j ∨ p = -2 ^ j)

mutual
/-- Nesting of powers: along every path the exponents are signed powers of two whose
absolute binary logarithms add up to at most `k`. A square or a square root counts one, a
reciprocal zero. -/
def PowOk : ℕ → Expr → Prop
  | k, node h as =>
    match h with
    | .cpow p => ∃ j ≤ k, IsPow2 j p ∧ PowOks (k - j) as
    | .square => 1 ≤ k ∧ PowOks (k - 1) as
    | .sqrt => 1 ≤ k ∧ PowOks (k - 1) as
    | _ => PowOks k as
def PowOks : ℕ → List Expr → Prop
  | _, [] => True
  | k, a :: as => PowOk k a ∧ PowOks k as
end

/-- Operations of one argument that are powers. -/
def isPower : Head → Bool
  | .square => true
  | .reciprocal => true
  | .sqrt => true
  | .cpow _ => true
  | _ => false

/-- Shapes, given by which heads may occur and which shape the arguments then have.
Powers have one argument. -/
def InShape {κ : Type} (child : κ → Head → Option κ) : κ → Expr → Prop
  | k, node h as =>
    (∃ c, child k h = some c ∧ ∀ a : {a // a ∈ as}, InShape child c a.1) ∧
      (isPower h = true → as.length ≤ 1)
termination_by _ e => sizeOf e
decreasing_by
  have := List.sizeOf_lt_of_mem a.2
  simp only [node.sizeOf_spec]
  omega

/-- The shapes for which pruning constants is claimed to be harmless. -/
inductive Shape
  /-- No sum and no logarithm anywhere. -/
  | plain
  /-- Sums of plain terms. -/
  | sum
  /-- Products and sums of plain terms and of logarithms of plain terms. -/
  | product
  /-- Sums of products, of squares of sums, and of logarithms of plain terms. -/
  | any
  deriving DecidableEq

/-- The shape of the arguments. -/
def Shape.child : Shape → Head → Option Shape
  | .plain, .add => none
  | .plain, .log => none
  | .plain, _ => some .plain
  | .sum, .add => some .sum
  | .sum, .identity => some .sum
  | .sum, .log => none
  | .sum, _ => some .plain
  | .product, .add => some .product
  | .product, .mul => some .product
  | .product, .identity => some .product
  | .product, _ => some .plain
  | .any, .add => some .any
  | .any, .identity => some .any
  | .any, .mul => some .product
  | .any, .square => some .sum
  | .any, .cpow p => if p = 2 then some .sum else some .plain
  | .any, _ => some .plain

/-- Sums occur only where they are multiplied out before constants are pruned: not inside
logarithms, exponentials, powers other than a square, tensors of the graph, or a square
that is itself a factor. -/
def Separated (e : Expr) : Prop := InShape Shape.child .any e

end Edward.Spec
