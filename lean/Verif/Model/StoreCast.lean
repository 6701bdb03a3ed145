/-
Model of how `Inference.__init__` stores data given as Python or NumPy values
(edward/inferences/inference.py:88-95): fed to a placeholder of the key's dtype.

Assumed of TensorFlow and NumPy: `Session.run` refuses a Python `int` that changes under
the conversion and otherwise feeds `np.asarray(value, dtype)`, which truncates towards
zero, takes integers modulo the width of the type and maps nonzero numbers to `True`.
Rounding of floats is not modelled; neither are strings, nor floats beyond the range of an
integer type (where the C conversion is undefined: here they wrap as well).
-/
import Mathlib.Data.Rat.Floor
import Verif.Model.CheckData
import Verif.Model.Metrics

namespace Edward

/-- Truncation towards zero. -/
def truncRat (q : ℚ) : ℤ := if 0 ≤ q then ⌊q⌋ else ⌈q⌉

/-- The signed `w`-bit integer congruent to `n`. -/
def wrapInt (w : ℕ) (n : ℤ) : ℤ := (n + 2 ^ (w - 1)) % 2 ^ w - 2 ^ (w - 1)

/-- `np.asarray(·, dtype)` on one entry. -/
def castEntry : DType → ℚ → ℚ
  | .int32, q => wrapInt 32 (truncRat q)
  | .int64, q => wrapInt 64 (truncRat q)
  | .bool, q => if q = 0 then 0 else 1
  | _, q => q

/-- A Python integer, a Python float, or a list or array, with its shape and entries. -/
inductive HostData where
  | pyInt (n : ℤ)
  | pyFloat (q : ℚ)
  | array (shape : List ℕ) (isNumpy : Bool) (entries : List ℚ)

def HostData.entries : HostData → List ℚ
  | .pyInt n => [(n : ℚ)]
  | .pyFloat q => [q]
  | .array _ _ l => l

/-- How `check_data` sees it (util/random_variables.py:47-59); numeric arrays have a float
or integer dtype. -/
def HostData.kind : HostData → DVal
  | .pyInt _ => .host []
  | .pyFloat _ => .host []
  | .array s true _ => .np s true
  | .array s false _ => .host s

/-- `sess.run(var.initializer, {ph: value})` for a placeholder of dtype `d`: the entries of
the stored variable. -/
def feedHost (d : DType) : HostData → Except PyErr (List ℚ)
  | .pyInt n => if castEntry d n ≠ n then .error .typeError else .ok [castEntry d n]
  | .pyFloat q => .ok [castEntry d q]
  | .array _ _ l => .ok (l.map (castEntry d))

/-- One item of `data` whose key is a random variable or tensor: `check_data`, then the
store. -/
def storeHost (key : NodeInfo) (v : HostData) : Except PyErr (List ℚ) :=
  if checkPair (.rv key) v.kind then feedHost key.dtype v else .error .typeError

end Edward
