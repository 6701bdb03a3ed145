/-
C131: expressions with random variables mean expressions of their samples.
-/
import Verif.Model.Expressions

namespace Edward.Expressions
variable {D L V : Type} [DecidableEq D]

namespace Spec

/-- The dtype of an expression. -/
def dtype (tf : Tf D L) (vs : Vars D) : Expr D L → D
  | .rv r => vs.actual r
  | .tensor _ d => d
  | .bin o a _ => tf.out o (dtype tf vs a)
  | .left o _ b => tf.out o (dtype tf vs b)
  | .right o a _ => tf.out o (dtype tf vs a)
  | .un o a => tf.unOut o (dtype tf vs a)

/-- Operands have one dtype, for which the operator is defined. -/
def WellTyped (tf : Tf D L) (vs : Vars D) : Expr D L → Prop
  | .rv _ => True
  | .tensor _ _ => True
  | .bin o a b => WellTyped tf vs a ∧ WellTyped tf vs b ∧ dtype tf vs a = dtype tf vs b ∧ tf.accepts o (dtype tf vs a)
  | .left o l b => WellTyped tf vs b ∧ tf.fits l (dtype tf vs b) ∧ tf.accepts o (dtype tf vs b)
  | .right o a l => WellTyped tf vs a ∧ tf.fits l (dtype tf vs a) ∧ tf.accepts o (dtype tf vs a)
  | .un o a => WellTyped tf vs a ∧ tf.unAccepts o (dtype tf vs a)

/-- The value of an expression, given the values of random variables and tensors. -/
def value (tf : Tf D L) (vs : Vars D) (sem : Sem D L V) (x given : ℕ → V) : Expr D L → V
  | .rv r => x r
  | .tensor k _ => given k
  | .bin o a b => sem.bin o (dtype tf vs a) (value tf vs sem x given a) (value tf vs sem x given b)
  | .left o l b => sem.bin o (dtype tf vs b) (sem.lit l (dtype tf vs b)) (value tf vs sem x given b)
  | .right o a l => sem.bin o (dtype tf vs a) (value tf vs sem x given a) (sem.lit l (dtype tf vs a))
  | .un o a => sem.un o (dtype tf vs a) (value tf vs sem x given a)

/-- `a < b` and `b > a` are the same, and so are `a <= b` and `b >= a`. -/
structure Comparisons (tf : Tf D L) (sem : Sem D L V) : Prop where
  lt : ∀ d, tf.accepts .lt d = tf.accepts .gt d ∧ tf.out .lt d = tf.out .gt d ∧ ∀ a b, sem.bin .lt d a b = sem.bin .gt d b a
  le : ∀ d, tf.accepts .le d = tf.accepts .ge d ∧ tf.out .le d = tf.out .ge d ∧ ∀ a b, sem.bin .le d a b = sem.bin .ge d b a

end Spec

variable [DecidableEq L]

/-- An object that stands for an expression. -/
structure Stands (tf : Tf D L) (vs : Vars D) (sem : Sem D L V) (dict : ℕ → Option V) (draw given : ℕ → V) (e : Expr D L) (x : Obj D L) : Prop where
  notLit : ∃ t, symbolic x = some t ∧ t.dtype tf vs = Spec.dtype tf vs e ∧
    run tf vs sem (feedRvs dict) draw given t = Spec.value tf vs sem (fun r => (dict r).getD (draw r)) given e

variable {tf : Tf D L} {vs : Vars D} {sem : Sem D L V} {dict : ℕ → Option V} {draw given : ℕ → V}

omit [DecidableEq D] [DecidableEq L] in
theorem Spec.Comparisons.accepts (h : Spec.Comparisons tf sem) (o : BinOp) (d : D) : tf.accepts o.swap d = tf.accepts o d := by
  cases o <;> simp [BinOp.swap, (h.lt d).1, (h.le d).1]

omit [DecidableEq D] [DecidableEq L] in
theorem Spec.Comparisons.out (h : Spec.Comparisons tf sem) (o : BinOp) (d : D) : tf.out o.swap d = tf.out o d := by
  cases o <;> simp [BinOp.swap, (h.lt d).2.1, (h.le d).2.1]

omit [DecidableEq D] [DecidableEq L] in
theorem Spec.Comparisons.swapSem (h : Spec.Comparisons tf sem) (o : BinOp) (d : D) (a b : V) (hn : ∀ n, o ≠ .arith n) : sem.bin o.swap d b a = sem.bin o d a b := by
  cases o with
  | arith n => exact absurd rfl (hn n)
  | _ => simp [BinOp.swap, (h.lt d).2.2, (h.le d).2.2]

omit [DecidableEq L] in
/-- Conversion of random variables and tensors checks the dtype. -/
theorem convert_symbolic (hv : ∀ r, vs.declared r = vs.actual r) {x : Obj D L} {t : Ten D L} (hx : symbolic x = some t) (d : D) :
    convert tf vs x d = if t.dtype tf vs = d then .ok t else .error .valueError := by
  cases x with
  | rv r =>
    cases hx
    by_cases h : vs.actual r = d <;> simp [convert, hv, Ten.dtype, h]
  | tensor s =>
    cases hx
    simp [convert]
  | lit l => cases hx

omit [DecidableEq L] in
theorem binary_symbolic (hv : ∀ r, vs.declared r = vs.actual r) (hs : ∀ o d, tf.accepts (BinOp.swap o) d = tf.accepts o d) (o : BinOp) {x y : Obj D L}
    {a b : Ten D L} (hx : symbolic x = some a) (hy : symbolic y = some b) :
    (a.dtype tf vs = b.dtype tf vs ∧ tf.accepts o (a.dtype tf vs) →
      binary tf vs o x y = .ok (.tensor (.bin o a b)) ∨ (∀ n, o ≠ .arith n) ∧ binary tf vs o x y = .ok (.tensor (.bin o.swap b a))) ∧
    (¬ (a.dtype tf vs = b.dtype tf vs ∧ tf.accepts o (a.dtype tf vs)) →
      binary tf vs o x y = .error .valueError ∨ binary tf vs o x y = .error .typeError) := by
  have hf : ∀ (o : BinOp), forward tf vs o a y = if b.dtype tf vs = a.dtype tf vs then apply tf o a b (a.dtype tf vs) else .error .valueError := by
    intro o
    rw [forward, convert_symbolic hv hy]
    split <;> rfl
  have hr : (∀ n, o ≠ .arith n) → reflected tf vs o b x = if a.dtype tf vs = b.dtype tf vs then apply tf o.swap b a (b.dtype tf vs) else .error .valueError := by
    intro hn
    have : reflected tf vs o b x = forward tf vs o.swap b x := by
      cases o with
      | arith n => exact absurd rfl (hn n)
      | _ => rfl
    rw [this, forward, convert_symbolic hv hx]
    split <;> rfl
  rw [binary, hx, hy]
  simp only
  cases hfirst : rightFirst vs o x y with
  | true =>
    have hn : ∀ n, o ≠ .arith n := by
      rintro n rfl
      simp [rightFirst] at hfirst
    simp only [if_true, hr hn, apply, hs]
    constructor
    · rintro ⟨h1, h2⟩
      rw [← h1]
      simp [h2, hn]
    · intro h
      by_cases h1 : a.dtype tf vs = b.dtype tf vs
      · simp only [h1, true_and] at h
        simp [h1, h]
      · simp [h1]
  | false =>
    simp only [Bool.false_eq_true, if_false, hf, apply]
    constructor
    · rintro ⟨h1, h2⟩
      simp [← h1, h2]
    · intro h
      by_cases h1 : a.dtype tf vs = b.dtype tf vs
      · simp only [h1, true_and] at h
        simp [h1, h]
      · simp [Ne.symm h1]

omit [DecidableEq L] in
theorem binary_right (o : BinOp) (l : L) {x : Obj D L} {a : Ten D L} (hx : symbolic x = some a) :
    (tf.fits l (a.dtype tf vs) ∧ tf.accepts o (a.dtype tf vs) → binary tf vs o x (.lit l) = .ok (.tensor (.bin o a (.const l (a.dtype tf vs))))) ∧
    (¬ (tf.fits l (a.dtype tf vs) ∧ tf.accepts o (a.dtype tf vs)) → binary tf vs o x (.lit l) = .error .typeError) := by
  rw [binary, hx]
  simp only [symbolic, forward, convert, apply]
  cases tf.fits l (a.dtype tf vs) <;> cases tf.accepts o (a.dtype tf vs) <;> simp [bind, Except.bind]

omit [DecidableEq L] in
theorem binary_left (hs : ∀ o d, tf.accepts (BinOp.swap o) d = tf.accepts o d) (o : BinOp) (l : L) {y : Obj D L} {b : Ten D L} (hy : symbolic y = some b) :
    (tf.fits l (b.dtype tf vs) ∧ tf.accepts o (b.dtype tf vs) → binary tf vs o (.lit l) y = .ok (.tensor (.bin o (.const l (b.dtype tf vs)) b)) ∨
      (∀ n, o ≠ .arith n) ∧ binary tf vs o (.lit l) y = .ok (.tensor (.bin o.swap b (.const l (b.dtype tf vs))))) ∧
    (¬ (tf.fits l (b.dtype tf vs) ∧ tf.accepts o (b.dtype tf vs)) → binary tf vs o (.lit l) y = .error .typeError) := by
  rw [binary, hy]
  simp only [symbolic]
  cases o with
  | arith n =>
    simp only [reflected, backward, convert, apply]
    cases tf.fits l (b.dtype tf vs) <;> cases tf.accepts (.arith n) (b.dtype tf vs) <;> simp [bind, Except.bind]
  | _ =>
    simp only [reflected, forward, convert, apply, hs]
    cases tf.fits l (b.dtype tf vs) <;> cases tf.accepts _ (b.dtype tf vs) <;> simp [bind, Except.bind]

/-- **C131.** An expression whose operands have matching dtypes builds a tensor. In a session it has the value of the expression at the samples of the random
variables: one sample for all occurrences of a variable, the value fed if the variable is in `feed_dict`. Every other expression raises ValueError or TypeError.
All random variables have the dtype they declare. -/
theorem C131_meaning_partial (hv : ∀ r, vs.declared r = vs.actual r) (hc : Spec.Comparisons tf sem) (e : Expr D L) :
    (Spec.WellTyped tf vs e → ∃ x, e.build tf vs = .ok x ∧
      fetch tf vs sem (feedRvs dict) draw given x = some (Spec.value tf vs sem (fun r => (dict r).getD (draw r)) given e)) ∧
    (¬ Spec.WellTyped tf vs e → e.build tf vs = .error .valueError ∨ e.build tf vs = .error .typeError) := by
  have key : (Spec.WellTyped tf vs e → ∃ x, e.build tf vs = .ok x ∧ Stands tf vs sem dict draw given e x) ∧
      (¬ Spec.WellTyped tf vs e → e.build tf vs = .error .valueError ∨ e.build tf vs = .error .typeError) := by
    induction e with
    | rv r => exact ⟨fun _ => ⟨_, rfl, ⟨_, rfl, rfl, rfl⟩⟩, fun h => absurd trivial h⟩
    | tensor k d => exact ⟨fun _ => ⟨_, rfl, ⟨_, rfl, rfl, rfl⟩⟩, fun h => absurd trivial h⟩
    | un o a ih =>
      by_cases ha : Spec.WellTyped tf vs a
      · obtain ⟨x, hx, ⟨t, h1, h2, h3⟩⟩ := ih.1 ha
        constructor
        · rintro ⟨-, h⟩
          refine ⟨.tensor (.un o t), ?_, ⟨_, rfl, by simp [Ten.dtype, Spec.dtype, h2], by simp [run, feedRvs, Spec.value, h2, h3]⟩⟩
          simp [Expr.build, hx, bind, Except.bind, unary, h1, h2, h]
        · intro h
          have : ¬ tf.unAccepts o (Spec.dtype tf vs a) := fun h' => h ⟨ha, h'⟩
          right
          simp [Expr.build, hx, bind, Except.bind, unary, h1, h2, this]
      · refine ⟨fun h => absurd h.1 ha, fun _ => ?_⟩
        rcases ih.2 ha with h | h <;> simp [Expr.build, h, bind, Except.bind]
    | right o a l ih =>
      by_cases ha : Spec.WellTyped tf vs a
      · obtain ⟨x, hx, ⟨t, h1, h2, h3⟩⟩ := ih.1 ha
        have hb := binary_right (tf := tf) (vs := vs) o l h1
        constructor
        · rintro ⟨-, hf, hacc⟩
          refine ⟨.tensor (.bin o t (.const l (t.dtype tf vs))), ?_, ⟨_, rfl, by simp [Ten.dtype, Spec.dtype, h2],
            by simp [run, feedRvs, Spec.value, h2, h3]⟩⟩
          simp only [Expr.build, hx, bind, Except.bind]
          exact hb.1 (by rw [h2]; exact ⟨hf, hacc⟩)
        · intro h
          right
          simp only [Expr.build, hx, bind, Except.bind]
          exact hb.2 (by rw [h2]; exact fun h' => h ⟨ha, h'⟩)
      · refine ⟨fun h => absurd h.1 ha, fun _ => ?_⟩
        rcases ih.2 ha with h | h <;> simp [Expr.build, h, bind, Except.bind]
    | left o l b ih =>
      by_cases ha : Spec.WellTyped tf vs b
      · obtain ⟨x, hx, ⟨t, h1, h2, h3⟩⟩ := ih.1 ha
        have hb := binary_left (tf := tf) (vs := vs) hc.accepts o l h1
        constructor
        · rintro ⟨-, hf, hacc⟩
          simp only [Expr.build, hx, bind, Except.bind]
          rcases hb.1 (by rw [h2]; exact ⟨hf, hacc⟩) with h | ⟨hn, h⟩
          · exact ⟨_, h, ⟨_, rfl, by simp [Ten.dtype, Spec.dtype, h2], by simp [run, feedRvs, Spec.value, h2, h3, Ten.dtype]⟩⟩
          · exact ⟨_, h, ⟨_, rfl, by simp [Ten.dtype, Spec.dtype, h2, hc.out], by simp [run, feedRvs, Spec.value, h2, h3, hc.swapSem o _ _ _ hn]⟩⟩
        · intro h
          right
          simp only [Expr.build, hx, bind, Except.bind]
          exact hb.2 (by rw [h2]; exact fun h' => h ⟨ha, h'⟩)
      · refine ⟨fun h => absurd h.1 ha, fun _ => ?_⟩
        rcases ih.2 ha with h | h <;> simp [Expr.build, h, bind, Except.bind]
    | bin o a b iha ihb =>
      by_cases ha : Spec.WellTyped tf vs a
      · obtain ⟨x, hx, ⟨t, h1, h2, h3⟩⟩ := iha.1 ha
        by_cases hb : Spec.WellTyped tf vs b
        · obtain ⟨y, hy, ⟨s, k1, k2, k3⟩⟩ := ihb.1 hb
          have hbin := binary_symbolic hv hc.accepts o h1 k1
          constructor
          · rintro ⟨-, -, hd, hacc⟩
            simp only [Expr.build, hx, hy, bind, Except.bind]
            rcases hbin.1 (by rw [h2, k2]; exact ⟨hd, hacc⟩) with h | ⟨hn, h⟩
            · exact ⟨_, h, ⟨_, rfl, by simp [Ten.dtype, Spec.dtype, h2], by simp [run, feedRvs, Spec.value, h2, h3, k3]⟩⟩
            · exact ⟨_, h, ⟨_, rfl, by simp [Ten.dtype, Spec.dtype, k2, hd, hc.out], by simp [run, feedRvs, Spec.value, k2, h3, k3, hd, hc.swapSem o _ _ _ hn]⟩⟩
          · intro h
            simp only [Expr.build, hx, hy, bind, Except.bind]
            exact hbin.2 (by rw [h2, k2]; exact fun h' => h ⟨ha, hb, h'⟩)
        · refine ⟨fun h => absurd h.2.1 hb, fun _ => ?_⟩
          rcases ihb.2 hb with h | h <;> simp [Expr.build, hx, h, bind, Except.bind]
      · refine ⟨fun h => absurd h.1 ha, fun _ => ?_⟩
        rcases iha.2 ha with h | h <;> simp [Expr.build, h, bind, Except.bind]
  refine ⟨fun h => ?_, key.2⟩
  obtain ⟨x, hx, ⟨t, h1, -, h3⟩⟩ := key.1 h
  exact ⟨x, hx, by rw [fetch, h1, ← h3]; rfl⟩

omit [DecidableEq L] in
/-- **C131** fails for a random variable `s` that declares another dtype than that of its samples, such as a DirichletProcess: `r + s` raises ValueError and
`s + r` is accepted, though both have samples of one dtype. -/
theorem C131_declared_fails {r s : ℕ} (n : String) (hr : vs.declared r = vs.actual r) (hs : vs.declared s ≠ vs.actual s) (h : vs.actual r = vs.actual s)
    (hacc : tf.accepts (.arith n) (vs.actual r)) :
    (Expr.bin (.arith n) (.rv r) (.rv s)).build tf vs = .error .valueError ∧
    (Expr.bin (.arith n) (.rv s) (.rv r)).build tf vs = .ok (.tensor (.bin (.arith n) (.sample s) (.sample r))) := by
  constructor
  · simp [Expr.build, bind, Except.bind, binary, symbolic, rightFirst, forward, convert, Ten.dtype, h, hs]
  · simp [Expr.build, bind, Except.bind, binary, symbolic, rightFirst, forward, convert, Ten.dtype, hr, apply, ← h, hacc]

/-- **C131.** `==` compares identity, whatever the samples; a random variable has no truth value. -/
theorem C131_identity (x y : ℕ) : (equal x y ↔ x = y) ∧ asBool x = .error .typeError := by
  simp [equal, asBool]

/-- The hypotheses hold for integers: `1 - x < x * y` with subclasses. -/
example : ∃ (tf : Tf Bool ℤ) (vs : Vars Bool) (sem : Sem Bool ℤ ℤ), (∀ r, vs.declared r = vs.actual r) ∧ Spec.Comparisons tf sem ∧
    Spec.WellTyped tf vs (.bin .lt (.left (.arith "sub") 1 (.rv 0)) (.bin (.arith "mul") (.rv 0) (.rv 1))) := by
  refine ⟨⟨fun _ d => d, fun o d => match o with | .arith _ => d | _ => false, fun _ d => d, fun _ d => d, fun _ d => d⟩,
    ⟨id, fun a b => b < a, fun _ => true, fun _ => true⟩,
    ⟨fun o _ a b => match o with
      | .arith n => if n = "sub" then a - b else a * b
      | .lt => if a < b then 1 else 0
      | .le => if a ≤ b then 1 else 0
      | .gt => if b < a then 1 else 0
      | .ge => if b ≤ a then 1 else 0, fun _ _ a => a, fun l _ => l⟩, fun _ => rfl, ⟨fun _ => ⟨rfl, rfl, fun _ _ => rfl⟩, fun _ => ⟨rfl, rfl, fun _ _ => rfl⟩⟩, ?_⟩
  simp [Spec.WellTyped, Spec.dtype]

end Edward.Expressions
