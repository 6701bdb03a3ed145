/-
Textbook d-separation (Pearl), stated for a directed graph given by its parent
relation `P` (`P u v`: `u` is a parent of `v`). Independent of the algorithm.
-/
import Mathlib.Logic.Relation
import Mathlib.Data.List.Infix
import Mathlib.Data.List.Chain

namespace Edward
open Relation

variable {R : Type}

/-- No directed cycle. -/
def Acyclic (P : R → R → Prop) : Prop := ∀ v, ¬ TransGen P v v

/-- `u` and `v` are adjacent. -/
def Adj (P : R → R → Prop) (u v : R) : Prop := P u v ∨ P v u

/-- `v` or one of its descendants is in `Z`. -/
def ActiveCollider (P : R → R → Prop) (Z : R → Prop) (v : R) : Prop :=
  ∃ d, Z d ∧ ReflTransGen P v d

/-- The middle node of three consecutive ones does not block: a collider must
have itself or a descendant in `Z`, any other node must be outside `Z`. -/
def OpenTriple (P : R → R → Prop) (Z : R → Prop) (x y z : R) : Prop :=
  (P x y ∧ P z y → ActiveCollider P Z y) ∧ (¬ (P x y ∧ P z y) → ¬ Z y)

/-- A walk (nodes may repeat) from `b` to `a` which `Z` does not block. -/
structure ActiveWalk (P : R → R → Prop) (Z : R → Prop) (b a : R) (l : List R) : Prop where
  first : l.head? = some b
  last : l.getLast? = some a
  chain : l.IsChain (Adj P)
  opens : ∀ x y z, [x, y, z] <:+: l → OpenTriple P Z x y z
  bOut : ¬ Z b
  aOut : ¬ Z a

/-- `a` and `b` are d-connected given `Z`: an unblocked simple path joins them. -/
def DConnected (P : R → R → Prop) (Z : R → Prop) (b a : R) : Prop :=
  ∃ l : List R, ActiveWalk P Z b a l ∧ l.Nodup

/-- Sets `A` and `B` are d-separated by `Z`. -/
def DSeparated (P : R → R → Prop) (Z A B : R → Prop) : Prop :=
  ∀ a, A a → ∀ b, B b → ¬ DConnected P Z b a

/-- An active walk in the presence of deterministic nodes `D`. A deterministic
node is a function of its parents, so it transmits nothing of its own: it is
never a common cause on the walk, and when it ends the walk it is reached through
one of its parents. -/
structure DetWalk (P : R → R → Prop) (Z D : R → Prop) (b a : R) (l : List R) : Prop
    extends ActiveWalk P Z b a l where
  noFork : ∀ x y z, [x, y, z] <:+: l → ¬ (D y ∧ P y x ∧ P y z)
  bEnd : D b → ∃ x t, l = b :: x :: t ∧ P x b
  aEnd : D a → ∃ x t, l = t ++ [x, a] ∧ P x a

end Edward
