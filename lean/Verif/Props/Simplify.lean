/-
C19 and C21: the simplifier always stops, and stops at a normal form.
-/
import Verif.Lemmas.SimplifyLoop

namespace Edward

open Expr

/-- C19: on every expression the simplifier stops: there are a number of loop iterations
and an outcome (an expression or an exception, not "still running") such that every run
allowed at least that many iterations has that outcome. -/
theorem C19_terminates (e : Expr) :
    ∃ (n : ℕ) (r : Except Stop Expr), r ≠ .error .running ∧ ∀ inner ≥ n, ∀ outer ≥ n, fullSimplify inner outer e = r := by
  have H := fullSimplifyWith_terminates (simplifyFns fmt4e) (simplifyFns_decrease fmt4e) (simplifyFns_noRun fmt4e) e
  refine ⟨weight e + 1, fullSimplify (weight e + 1) (weight e + 1) e, ?_, fun i hi o ho => ?_⟩
  · exact (H _ (weight e + 1) _ (weight e + 1) (by omega) (by omega) (by omega) (by omega)).2
  · exact (H i (weight e + 1) o (weight e + 1) (by omega) (by omega) (by omega) (by omega)).1

/-- C19, any rounding of exponents and any order or selection of the rules: termination
does not depend on the order in which the rules were registered. -/
theorem C19_any_order (fmt : ℚ → ℚ) (fns : List Rule) (hsub : ∀ fn ∈ fns, fn ∈ simplifyFns fmt) (e : Expr) :
    ∃ (n : ℕ) (r : Except Stop Expr), r ≠ .error .running ∧
      ∀ inner ≥ n, ∀ outer ≥ n, fullSimplifyWith fns inner outer e = r := by
  have H := fullSimplifyWith_terminates fns (fun fn h => simplifyFns_decrease fmt fn (hsub fn h))
    (fun fn h => simplifyFns_noRun fmt fn (hsub fn h)) e
  refine ⟨weight e + 1, fullSimplifyWith fns (weight e + 1) (weight e + 1) e, ?_, fun i hi o ho => ?_⟩
  · exact (H _ (weight e + 1) _ (weight e + 1) (by omega) (by omega) (by omega) (by omega)).2
  · exact (H i (weight e + 1) o (weight e + 1) (by omega) (by omega) (by omega) (by omega)).1

/-- The positions of an expression: the expression and the positions of its arguments. -/
inductive Subexpr : Expr → Expr → Prop
  | refl (e : Expr) : Subexpr e e
  | arg {s : Expr} (h : Head) (as : List Expr) (a : Expr) : a ∈ as → Subexpr s a → Subexpr s (node h as)

theorem wrappedArgs_false_mem {fn : Rule} (as as' : List Expr) (h : wrappedArgs fn as = .ok (false, as')) (a : Expr)
    (ha : a ∈ as) : ∃ a', wrapped fn a = .ok (false, a') := by
  induction as generalizing as' with
  | nil => simp at ha
  | cons b as ih =>
    obtain ⟨d1, b', d2, bs, h1, h2, hd, -⟩ := wrappedArgs_ok h
    have hd := Bool.or_eq_false_iff.mp hd.symm
    rw [hd.1] at h1
    rw [hd.2] at h2
    rcases List.mem_cons.mp ha with rfl | ha
    · exact ⟨b', h1⟩
    · exact ih bs h2 ha

theorem wrapped_false_sub {fn : Rule} (e e' s : Expr) (h : wrapped fn e = .ok (false, e')) (hs : Subexpr s e) :
    fn s = .ok none := by
  induction hs generalizing e' with
  | refl =>
    obtain ⟨hd, as⟩ := s
    rcases wrapped_ok h with ⟨-, h0⟩ | ⟨h1, -⟩
    · simp at h0
    · exact h1
  | arg hd as a ha _ ih =>
    rcases wrapped_ok h with ⟨-, h0⟩ | ⟨-, as', h2, -⟩
    · simp at h0
    · obtain ⟨a', h3⟩ := wrappedArgs_false_mem as as' h2 a ha
      exact ih a' h3

/-- C21: when the simplifier returns, no rule has anything to do at any position of the
result. -/
theorem C21_normal_form (inner outer : ℕ) (e e' : Expr) (h : fullSimplify inner outer e = .ok e')
    (fn : Rule) (hfn : fn ∈ simplifyFns fmt4e) (s : Expr) (hs : Subexpr s e') : fn s = .ok none :=
  wrapped_false_sub e' e' s
    (fullSimplifyWith_ok _ (simplifyFns_decrease fmt4e) inner outer e e' h fn hfn) hs

/-- C21: simplifying a result again returns it unchanged, in one pass. -/
theorem C21_idempotent (inner outer : ℕ) (e e' : Expr) (h : fullSimplify inner outer e = .ok e')
    (i o : ℕ) (hi : 1 ≤ i) (ho : 1 ≤ o) : fullSimplify i o e' = .ok e' := by
  have hall := fullSimplifyWith_ok _ (simplifyFns_decrease fmt4e) inner outer e e' h
  obtain ⟨i, rfl⟩ := Nat.exists_eq_add_of_le' hi
  obtain ⟨o, rfl⟩ := Nat.exists_eq_add_of_le' ho
  have hpass : ∀ fns : List Rule, (∀ fn ∈ fns, wrapped fn e' = .ok (false, e')) →
      simplifyPass (i + 1) fns false e' = .ok (false, e') := by
    intro fns
    induction fns with
    | nil => intro _; rfl
    | cons fn fns ih =>
      intro hf
      rw [simplifyPass, repeatWrapped, hf fn (by simp)]
      exact ih fun f hm => hf f (by simp [hm])
  rw [fullSimplify, fullSimplifyWith, hpass _ hall]
  rfl

/-- A run with real rewriting: `(x·y)²` with `y` a tensor becomes `x²·y²`. -/
example : ∃ r, fullSimplify 3 3 (node .square [node .mul [X, leaf (.tensor ⟨0, false, .none⟩)]]) = .ok r ∧
    r = node .mul [node (.cpow 2) [X], node (.cpow 2) [leaf (.tensor ⟨0, false, .none⟩)]] := ⟨_, rfl, rfl⟩

/-- A run that raises: all factors are the literal 1 (simplify.py:237). -/
example : fullSimplify 3 3 (node .mul [num 1, num 1]) = .error (.raised .indexError) := rfl

end Edward
