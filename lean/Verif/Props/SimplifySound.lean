/-
C20: simplification preserves the meaning of an expression, where it does.
-/
import Mathlib.Analysis.SpecialFunctions.Pow.NNReal
import Verif.Lemmas.SimplifyConst
import Verif.Props.Simplify

namespace Edward

open Expr Spec

/-- C20 for the rewriting without the pruning of constants: with any selection of the other
sixteen rules, in any order, the result has the same value at every point of the domain,
for powers nested at most seven deep (`PowOk`: further down the exponents are rounded). -/
theorem C20_exact (fns : List Rule) (hsub : ∀ fn ∈ fns, fn ∈ simplifyFns fmt4e) (hno : addConstSimplify ∉ fns)
    (i o : ℕ) (e e' : Expr) (h : fullSimplifyWith fns i o e = .ok e') (hpow : PowOk 7 e)
    (ρ : Env) (hρ : ρ.Regular) (hok : Ok ρ false e) : eval ρ e' = eval ρ e := by
  have hrule : ∀ fn ∈ fns, RuleSound fn := by
    intro fn hfn
    rcases simplifyFns_sound (hsub fn hfn) with rfl | h
    · exact absurd hfn hno
    · exact h
  have hpass : ∀ (l : List Rule), (∀ fn ∈ l, RuleSound fn) → ∀ did e d e1, simplifyPass i l did e = .ok (d, e1) → Sound e e1 := by
    intro l
    induction l with
    | nil =>
      intro _ did e d e1 h
      rw [simplifyPass] at h
      have := pure_ok h
      simp only [Prod.mk.injEq] at this
      rw [← this.2]
      exact Sound.refl _
    | cons fn l ih =>
      intro hl did e d e1 h
      obtain ⟨d1, d2, e2, h1, h2⟩ := pass_cons h
      exact (repeatWrapped_sound (hl fn (by simp)) _ _ _ _ h1).trans (ih (fun f hf => hl f (by simp [hf])) _ _ _ _ h2)
  have hall : Sound e e' := by
    clear hpow hok
    induction o generalizing e with
    | zero => simp [fullSimplifyWith] at h
    | succ o ih =>
      rw [fullSimplifyWith] at h
      obtain ⟨⟨d, e1⟩, h1, h2⟩ := bind_ok h
      have s1 := hpass fns hrule false e d e1 h1
      cases d with
      | true => exact s1.trans (ih e1 h2)
      | false =>
        have := pure_ok h2
        simp only at this
        subst this
        exact s1
  exact ((hall 7 le_rfl hpow).2 ρ hρ false hok).2

/-- C20: simplifying changes an expression, as a function of the random variable, by a
constant at most. Partial: only for expressions whose sums are separated from other
operations and whose powers are nested at most seven deep; `C20_fails_sum` and
`C20_fails_rounding` show that it is false otherwise. -/
theorem C20_partial (i o : ℕ) (e e' : Expr) (h : fullSimplify i o e = .ok e') (hsep : Separated e) (hpow : PowOk 7 e)
    (ρ : Env) (hρ : ρ.Regular) :
    ∃ c : ℝ, ∀ v, Ok (ρ.withX v) false e → eval (ρ.withX v) e = eval (ρ.withX v) e' + c := by
  obtain ⟨-, hs⟩ := fullSimplify_sound i o e e' h hsep
  obtain ⟨c, hc⟩ := (hs 7 le_rfl hpow).2 ρ hρ
  exact ⟨c, fun v hv => (hc v hv).2⟩

/-! ### Deciding equality of expressions, for the examples -/

mutual
/-- Equality test. -/
def Expr.same : Expr → Expr → Bool
  | node h as, node h' bs => decide (h = h') && Expr.sames as bs
/-- Equality test for lists. -/
def Expr.sames : List Expr → List Expr → Bool
  | [], [] => true
  | a :: as, b :: bs => Expr.same a b && Expr.sames as bs
  | _, _ => false
end

mutual
theorem Expr.same_eq : ∀ a b : Expr, Expr.same a b = true → a = b
  | node h as, node h' bs, H => by
    simp only [Expr.same, Bool.and_eq_true, decide_eq_true_eq] at H
    rw [H.1, Expr.sames_eq as bs H.2]
theorem Expr.sames_eq : ∀ a b : List Expr, Expr.sames a b = true → a = b
  | [], [], _ => rfl
  | a :: as, b :: bs, H => by
    simp only [Expr.sames, Bool.and_eq_true] at H
    rw [Expr.same_eq a b H.1, Expr.sames_eq as bs H.2]
  | [], _ :: _, H => by simp [Expr.sames] at H
  | _ :: _, [], H => by simp [Expr.sames] at H
end

/-- The run returns this expression. -/
def returns (r : Except Stop Expr) (e : Expr) : Bool :=
  match r with
  | .ok e' => Expr.same e' e
  | .error _ => false

theorem returns_eq {r : Except Stop Expr} {e : Expr} (h : returns r e = true) : r = .ok e := by
  cases r with
  | ok e' => rw [Expr.same_eq e' e h]
  | error _ => simp [returns] at h

/-! ### The hypotheses are met -/

/-- Operations for the examples: casts and one-hot encodings pass their argument on, other
tensors are 1. -/
def sampleEnv : Env where
  x := 1
  tensor t l := if t.isCast then l.headD 1 else 1
  oneHot l := l.headD 0

theorem sampleEnv_regular : sampleEnv.Regular :=
  ⟨fun t ht a l => by simp [sampleEnv, ht], fun a l => by simp [sampleEnv]⟩

/-- A tensor that is not a constant. -/
abbrev tens (n : ℕ) : Expr := leaf (.tensor ⟨n, false, .none⟩)

/-- `(x + a)²·…`: the square of a sum, multiplied out and pruned. -/
abbrev exSquare : Expr := node .square [node .add [X, tens 0]]

theorem ok_tens (ρ : Env) (n : ℕ) : Ok ρ false (tens n) := by rw [ok_tensor]; simp

theorem ok_X (ρ : Env) : Ok ρ false X := by rw [ok_node (by simp)]; simp

example : ∃ e', fullSimplify 9 9 exSquare = .ok e' ∧
    e' = node .add [node (.cpow 2) [X], node .mul [num 2, X, tens 0]] ∧ Separated exSquare ∧ PowOk 7 exSquare ∧
    ∀ v, Ok (sampleEnv.withX v) false exSquare := by
  refine ⟨_, rfl, rfl, ?_, ?_, fun v => ?_⟩
  · simp [Separated, inShape_node, Shape.child, isPower]
  · simp [PowOk, PowOks]
  · rw [ok_node (by simp)]
    refine ⟨by simp, ?_⟩
    intro a ha
    simp only [List.mem_cons, List.not_mem_nil, or_false] at ha
    subst ha
    rw [ok_node (by simp)]
    refine ⟨by simp [childFlag], ?_⟩
    intro a ha
    simp only [List.mem_cons, List.not_mem_nil, or_false] at ha
    rcases ha with rfl | rfl
    exacts [ok_X _, ok_tens _ _]

/-- `log (√x · x⁻¹)` becomes `1/2·log x + (-1)·log x`, valid for all positive values. -/
example : ∃ e', fullSimplify 9 9 (node .log [node .mul [node .sqrt [X], node .reciprocal [X]]]) = .ok e' ∧
    e' = node .add [node .mul [num (1 / 2), node .log [X]], node .mul [num (-1), node .log [X]]] ∧
    Separated (node .log [node .mul [node .sqrt [X], node .reciprocal [X]]]) ∧
    PowOk 7 (node .log [node .mul [node .sqrt [X], node .reciprocal [X]]]) ∧
    ∀ v > 0, Ok (sampleEnv.withX v) false (node .log [node .mul [node .sqrt [X], node .reciprocal [X]]]) := by
  refine ⟨_, returns_eq (by decide +kernel), rfl, ?_, ?_, fun v hv => ?_⟩
  · simp [Separated, inShape_node, Shape.child, isPower]
  · simp [PowOk, PowOks]
  · have hx : ∀ pos, Ok (sampleEnv.withX v) pos X := by
      intro pos
      rw [ok_node (by simp)]
      simp [eval_node, headVal, Env.withX, hv]
    rw [ok_node (by simp)]
    simp only [List.mem_singleton, forall_eq, childFlag]
    refine ⟨by simp, ?_⟩
    rw [ok_mul]
    intro a ha
    simp only [List.mem_cons, List.not_mem_nil, or_false] at ha
    rcases ha with rfl | rfl
    · rw [ok_node (by simp)]
      simp only [List.mem_singleton, forall_eq]
      refine ⟨fun _ => ⟨?_, by simp⟩, hx _⟩
      simp [eval_node, headVal, Env.withX, hv]
    · rw [ok_node (by simp)]
      simp only [List.mem_singleton, forall_eq]
      refine ⟨fun _ => ⟨?_, by simp⟩, hx _⟩
      simp [eval_node, headVal, Env.withX, hv]

/-! ### Where it fails -/

/-- The claim of C20 for one expression and its result on positive values. -/
def SameUpToConst (ρ : Env) (e e' : Expr) : Prop :=
  ∃ c : ℝ, ∀ v > 0, eval (ρ.withX v) e = eval (ρ.withX v) e' + c

/-- `log (x + a)` becomes `log x`: the sum is pruned below the logarithm
(simplify.py:280-293). -/
theorem C20_fails_sum : ∃ e e', fullSimplify 9 9 e = .ok e' ∧ PowOk 7 e ∧
    (∀ v > 0, Ok (sampleEnv.withX v) false e) ∧ ¬ SameUpToConst sampleEnv e e' := by
  refine ⟨node .log [node .add [X, tens 0]], node .log [X], rfl, ?_, fun v hv => ?_, ?_⟩
  · simp [PowOk, PowOks]
  · rw [ok_node (by simp)]
    simp only [List.mem_singleton, forall_eq, childFlag]
    refine ⟨by simp, ok_add_of ?_ fun _ => ?_⟩
    · intro a ha
      simp only [List.mem_cons, List.not_mem_nil, or_false] at ha
      rcases ha with rfl | rfl
      · rw [ok_node (by simp)]; simp [eval_node, headVal, Env.withX, hv]
      · rw [ok_tensor]; simp [eval_node, headVal, Env.withX, sampleEnv]
    · simp only [eval_node, headVal, Env.withX, sampleEnv, List.map_cons, List.map_nil, List.sum_cons, List.sum_nil]
      simp
      linarith
  · rintro ⟨c, hc⟩
    have h1 := hc 1 one_pos
    have h2 := hc 2 two_pos
    simp only [eval_node, headVal, Env.withX, sampleEnv, List.map_cons, List.map_nil, List.sum_cons, List.sum_nil] at h1 h2
    simp only [Bool.false_eq_true, if_false, add_zero, Real.log_one, zero_add] at h1 h2
    rw [← h1, show (1 : ℝ) + 1 = 2 by norm_num, ← Real.log_mul (by norm_num) (by norm_num)] at h2
    have := Real.log_injOn_pos (Set.mem_Ioi.mpr (by norm_num)) (Set.mem_Ioi.mpr (by norm_num)) h2
    norm_num at this

/-- `x·(x + a)²` loses a term that depends on the random variable: the square is only
multiplied out after the products were, so the constant is pruned inside a product. -/
theorem C20_fails_product : ∃ e e', fullSimplify 9 9 e = .ok e' ∧ PowOk 7 e ∧
    (∀ v > 0, Ok (sampleEnv.withX v) false e) ∧ ¬ SameUpToConst sampleEnv e e' := by
  refine ⟨node .mul [X, node .square [node .add [X, tens 0]]],
    node .add [node .mul [X, node (.cpow 2) [X]], node .mul [X, num 2, X, tens 0]], returns_eq (by decide +kernel), ?_, fun v hv => ?_, ?_⟩
  · simp [PowOk, PowOks]
  · rw [ok_mul]
    intro a ha
    simp only [List.mem_cons, List.not_mem_nil, or_false] at ha
    rcases ha with rfl | rfl
    · exact ok_X _
    · rw [ok_node (by simp)]
      simp only [List.mem_singleton, forall_eq, childFlag]
      refine ⟨by simp, ok_add_of ?_ (by simp)⟩
      intro a ha
      simp only [List.mem_cons, List.not_mem_nil, or_false] at ha
      rcases ha with rfl | rfl
      exacts [ok_X _, ok_tens _ _]
  · rintro ⟨c, hc⟩
    have h1 := hc 1 one_pos
    have h2 := hc 2 two_pos
    simp only [eval_node, headVal, Env.withX, sampleEnv, List.map_cons, List.map_nil, List.sum_cons, List.sum_nil,
      List.prod_cons, List.prod_nil] at h1 h2
    norm_num at h1 h2
    linarith

/-- The exponent is lost: with `a` and `b` not depending on the random variable,
`x ^ (a + b)` becomes `x ^ ()`, the power of an empty sum. -/
theorem C20_fails_exponent : ∃ e e', fullSimplify 9 9 e = .ok e' ∧ PowOk 7 e ∧
    (∀ v > 0, Ok (sampleEnv.withX v) false e) ∧ ¬ SameUpToConst sampleEnv e e' := by
  refine ⟨node .pow [X, node .add [tens 0, tens 1]], node .pow [X, node .add []], rfl, ?_, fun v hv => ?_, ?_⟩
  · simp [PowOk, PowOks]
  · rw [ok_pow]
    refine ⟨by simp, by simp, ?_, ?_⟩
    · rw [ok_node (by simp)]; simp [eval_node, headVal, Env.withX, hv]
    · simp only [List.mem_singleton, forall_eq]
      refine ok_add_of ?_ (by simp)
      intro a ha
      simp only [List.mem_cons, List.not_mem_nil, or_false] at ha
      rcases ha with rfl | rfl
      exacts [ok_tens _ _, ok_tens _ _]
  · rintro ⟨c, hc⟩
    have h1 := hc 1 one_pos
    have h2 := hc 2 two_pos
    simp only [eval_node, headVal, Env.withX, sampleEnv, List.map_cons, List.map_nil, List.sum_cons, List.sum_nil] at h1 h2
    norm_num at h1 h2
    linarith

/-- `n` nested square roots of the random variable. -/
def roots : ℕ → Expr
  | 0 => X
  | n + 1 => node .sqrt [roots n]

theorem eval_roots (ρ : Env) (hx : 0 < ρ.x) (n : ℕ) : eval ρ (roots n) = ρ.x ^ ((1 / 2 : ℝ) ^ n) := by
  induction n with
  | zero => simp [roots, eval_node, headVal]
  | succ n ih =>
    rw [roots, eval_node]
    simp only [List.map_cons, headVal, ih]
    rw [Real.sqrt_eq_rpow, ← Real.rpow_mul hx.le, pow_succ]

/-- Eight nested square roots: `x ^ (1/256)` becomes `x ^ 0.0039062`, because the exponent
is printed with five significant digits (simplify.py:158). -/
theorem C20_fails_rounding : ∃ e e', fullSimplify 12 3 e = .ok e' ∧ Separated e ∧
    (∀ v > 0, Ok (sampleEnv.withX v) false e) ∧ ¬ SameUpToConst sampleEnv e e' := by
  refine ⟨roots 8, node (.cpow (19531 / 5000000)) [X], returns_eq (by decide +kernel), ?_, fun v hv => ?_, ?_⟩
  · simp [Separated, roots, inShape_node, Shape.child, isPower]
  · have hpos : ∀ n pos, Ok (sampleEnv.withX v) pos (roots n) := by
      intro n
      induction n with
      | zero => intro pos; rw [roots, ok_node (by simp)]; simp [eval_node, headVal, Env.withX, hv]
      | succ n ih =>
        intro pos
        have hev := eval_roots (sampleEnv.withX v) hv (n + 1)
        rw [roots] at hev ⊢
        rw [ok_node (by simp)]
        refine ⟨fun _ => ⟨?_, by simp⟩, by simpa using ih _⟩
        rw [hev]
        exact Real.rpow_pos_of_pos hv _
    exact hpos 8 false
  · rintro ⟨c, hc⟩
    have h1 := hc 1 one_pos
    have h2 := hc 2 two_pos
    rw [eval_roots _ (by simp [Env.withX])] at h1 h2
    simp only [eval_node, headVal, List.map_cons, List.map_nil, Env.withX, Real.one_rpow] at h1 h2
    have hc0 : c = 0 := by linarith
    rw [hc0, add_zero, Real.rpow_right_inj two_pos (by norm_num)] at h2
    norm_num at h2

/-- C20: the rounding of exponents goes to the nearest integer in units of the last digit,
and on a tie to the even one. -/
theorem C20_nearest (q : ℚ) : |q - roundHalfEven q| ≤ 1 / 2 ∧ (|q - roundHalfEven q| = 1 / 2 → Even (roundHalfEven q)) := by
  have h0 : (0 : ℚ) ≤ q - ⌊q⌋ := sub_nonneg.mpr (Int.floor_le q)
  have h1 : q - ⌊q⌋ < 1 := by have := Int.lt_floor_add_one q; linarith
  unfold roundHalfEven
  dsimp only
  split_ifs with h2 h3 h4
  · rw [abs_of_nonneg h0]; exact ⟨h2.le, fun h => absurd h h2.ne⟩
  · have : |q - ((⌊q⌋ + 1 : ℤ) : ℚ)| = 1 - (q - ⌊q⌋) := by
      push_cast; rw [abs_of_nonpos (by linarith)]; ring
    rw [this]; exact ⟨by linarith, fun h => by linarith⟩
  · rw [abs_of_nonneg h0]; exact ⟨not_lt.mp h3, fun _ => Int.even_iff.mpr h4⟩
  · have : |q - ((⌊q⌋ + 1 : ℤ) : ℚ)| = 1 - (q - ⌊q⌋) := by
      push_cast; rw [abs_of_nonpos (by linarith)]; ring
    rw [this]
    refine ⟨by linarith, fun _ => ?_⟩
    rw [Int.even_add_one, Int.even_iff]; exact h4

/-- C20: an exponent kept in the name of a power is off by at most one part in twenty
thousand, for every exponent (in particular below the depth of seven). -/
theorem C20_exponent_error (q : ℚ) : |q - fmt4e q| ≤ |q| / 20000 := by
  unfold fmt4e
  by_cases hq : q = 0
  · simp [hq]
  rw [if_neg hq]
  dsimp only
  set u : ℚ := (10 : ℚ) ^ (Int.log 10 |q| - 4) with hu
  have hu0 : 0 < u := by positivity
  have hle : u * 10000 ≤ |q| := by
    have h := Int.zpow_log_le_self (b := 10) (by norm_num) (abs_pos.mpr hq)
    rw [hu, zpow_sub₀ (by norm_num)]
    push_cast at h
    calc _ = (10 : ℚ) ^ Int.log 10 |q| := by norm_num
      _ ≤ _ := h
  have h := (C20_nearest (q / u)).1
  have e : q - roundHalfEven (q / u) * u = (q / u - roundHalfEven (q / u)) * u := by field_simp
  rw [e, abs_mul, abs_of_pos hu0]
  nlinarith

/-! ### Casts and one-hot encodings as TensorFlow computes them -/

/-- Operations as in TensorFlow: a cast to an integer type truncates (positive values), and
entry 1 of `tf.one_hot(a, depth, on_value, off_value)`; with one argument, the indicator which
the table of families means by `#OneHot` (conjugacy.py:37). The tensors are a depth of 3, an
`on_value` of 2 and an `off_value` of 0. -/
noncomputable def tfEnv : Env where
  x := 1
  tensor t l := if t.isCast then ⌊l.headD 0⌋ else if t.id = 0 then 3 else if t.id = 1 then 2 else 0
  oneHot l := match l with
    | [a, d, on, off] => if a = 1 ∧ 1 < d then on else off
    | a :: _ => if a = 1 then 1 else 0
    | [] => 0

/-- A cast to integers is dropped: `tf.cast(x, tf.int32)` becomes `x` (simplify.py:306-310). -/
theorem C20_fails_cast : ∃ e e', fullSimplify 9 9 e = .ok e' ∧ PowOk 7 e ∧ Separated e ∧
    (∀ v > 0, Ok (tfEnv.withX v) false e) ∧ ¬ SameUpToConst tfEnv e e' := by
  refine ⟨node (.tensor ⟨3, true, .none⟩) [X], X, rfl, ?_, ?_, fun v hv => ?_, ?_⟩
  · simp [PowOk, PowOks]
  · simp [Separated, inShape_node, Shape.child]
  · rw [ok_tensor]; simp [ok_X]
  · rintro ⟨c, hc⟩
    have h1 := hc 1 one_pos
    have h2 := hc (3 / 2) (by norm_num)
    simp only [eval_node, headVal, Env.withX, tfEnv, List.map_cons, List.map_nil] at h1 h2
    norm_num at h1 h2
    linarith

/-- The values of a one-hot encoding are dropped: `tf.one_hot(x, 3, on_value=2.0)` becomes the
indicator (simplify.py:313-317). -/
theorem C20_fails_onehot : ∃ e e', fullSimplify 9 9 e = .ok e' ∧ PowOk 7 e ∧ Separated e ∧
    (∀ v > 0, Ok (tfEnv.withX v) false e) ∧ ¬ SameUpToConst tfEnv e e' := by
  refine ⟨node .oneHot [X, tens 0, tens 1, tens 2], node .oneHot [X], rfl, ?_, ?_, fun v hv => ?_, ?_⟩
  · simp [PowOk, PowOks]
  · simp [Separated, inShape_node, Shape.child, isPower]
  · rw [ok_node (by simp)]
    simp [childFlag, ok_X, ok_tens]
  · rintro ⟨c, hc⟩
    have h1 := hc 1 one_pos
    have h2 := hc 2 two_pos
    simp only [eval_node, headVal, Env.withX, tfEnv, List.map_cons, List.map_nil] at h1 h2
    norm_num at h1 h2
    linarith

/-- C20: what is left of every one-hot encoding is the encoded value alone. -/
theorem C20_onehot_arguments (i o : ℕ) (e e' : Expr) (h : fullSimplify i o e = .ok e') (as : List Expr)
    (hs : Subexpr (node .oneHot as) e') : as.length ≤ 1 := by
  have := C21_normal_form i o e e' h onehotSimplify (by simp [simplifyFns]) _ hs
  by_contra hlt
  rw [onehotSimplify, if_pos (by omega)] at this
  exact absurd this (by simp [pure, Except.pure])

end Edward
