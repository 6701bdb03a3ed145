/-
Model of `Progbar` (edward/util/progbar.py:12-115, Python 3 strings).

The texts of the bar (lines 77-88) and of the info (lines 91-105) are given by
arbitrary functions of what they depend on (`Render`); the cursor movements,
widths and padding are modelled exactly. Time stamps are rationals.
-/
import Mathlib.Data.Rat.Defs
import Mathlib.Data.List.Basic
import Mathlib.Algebra.Order.Ring.Unbundled.Rat

namespace Edward

/-- A terminal: finished lines, the current line (blank beyond what was written) and
the cursor column. -/
structure Term where
  lines : List (Nat → Char)
  cur : Nat → Char
  col : Nat

def Term.blank : Nat → Char := fun _ => ' '

/-- Writing a character to the terminal. -/
def Term.put (t : Term) (c : Char) : Term :=
  if c = '\x08' then { t with col := t.col - 1 }
  else if c = '\r' then { t with col := 0 }
  else if c = '\n' then { lines := t.lines ++ [t.cur], cur := Term.blank, col := 0 }
  else { t with cur := fun i => if i = t.col then c else t.cur i, col := t.col + 1 }

/-- `sys.stdout.write`. -/
def Term.write (t : Term) (s : List Char) : Term := s.foldl Term.put t

structure Render (V : Type) where
  bar : Int → List Char
  info : Int → ℚ → List (String × V) → List Char

/-- The object (lines 27-36). -/
structure Progbar (V : Type) where
  target : Int
  interval : ℚ
  verbose : Int
  stored : List (String × V)
  lastUpdate : ℚ
  totalWidth : Nat

/-- `self.stored_values[k] = v` on an insertion-ordered dictionary. -/
def dictSet {V : Type} : List (String × V) → String → V → List (String × V)
  | [], k, v => [(k, v)]
  | (k', v') :: rest, k, v => if k' = k then (k, v) :: rest else (k', v') :: dictSet rest k v

/-- The arguments of `update` and the clock reading (line 62). -/
structure PUpdate (V : Type) where
  current : Int
  values : List (String × V)
  force : Bool
  now : ℚ

/-- `Progbar.update` (lines 38-115). `none` is the `ZeroDivisionError` of line 79. -/
def Progbar.update {V : Type} (r : Render V) (p : Progbar V) (u : PUpdate V) (t : Term) :
    Option (Progbar V × Term) :=
  let p := { p with stored := u.values.foldl (fun d kv => dictSet d kv.1 kv.2) p.stored }
  if !u.force && (decide (u.now - p.lastUpdate < p.interval) && decide (u.current < p.target)) then
    some (p, t)
  else
    let p := { p with lastUpdate := u.now }
    if p.verbose = 0 then some (p, t)
    else if p.target = 0 then none
    else
      let prev := p.totalWidth
      let t := (t.write (List.replicate prev '\x08')).write ['\r']
      let bar := r.bar u.current
      let t := t.write bar
      let info := r.info u.current u.now p.stored
      let width := bar.length + info.length
      let pad := if prev > width then List.replicate (prev - width) ' ' else []
      let t := t.write (info ++ pad)
      let t := if p.target ≤ u.current then t.write ['\n'] else t
      some ({ p with totalWidth := width }, t)

/-- A sequence of updates. -/
def Progbar.updates {V : Type} (r : Render V) : List (PUpdate V) → Progbar V × Term →
    Option (Progbar V × Term)
  | [], s => some s
  | u :: us, s =>
    match s.1.update r u s.2 with
    | none => none
    | some s' => Progbar.updates r us s'

/-- `Progbar(target, width, interval, verbose)`. -/
def Progbar.new {V : Type} (target : Int) (interval : ℚ) (verbose : Int) : Progbar V :=
  { target, interval, verbose, stored := [], lastUpdate := 0, totalWidth := 0 }

end Edward
