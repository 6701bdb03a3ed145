/-
The loops of the simplifier: what a pass does to the weight, and that enough fuel is found.
-/
import Verif.Lemmas.SimplifyTerm

namespace Edward

open Expr

/-- A rule that never reports running out of loop iterations. -/
def NoRun (fn : Rule) : Prop := ∀ e, fn e ≠ .error .running

theorem item_noRun (l : List Expr) (i : ℕ) : item l i ≠ .error .running := by
  unfold item; split <;> simp

theorem bind_noRun {α β : Type} {m : Except Stop α} {f : α → Except Stop β} (hm : m ≠ .error .running)
    (hf : ∀ a, f a ≠ .error .running) : (m >>= f) ≠ .error .running := by
  cases m with
  | error e => simpa [bind, Except.bind] using hm
  | ok a => exact hf a

theorem pure_noRun {α : Type} (a : α) : (pure a : Except Stop α) ≠ .error .running := by
  simp [pure, Except.pure]

theorem mapM_noRun (as bs : List Expr) :
    (bs.mapM fun i => (do return node .pow [i, ← item as 1] : Except Stop Expr)) ≠ .error .running := by
  induction bs with
  | nil => rw [List.mapM_nil]; exact pure_noRun _
  | cons a bs ih =>
    rw [List.mapM_cons]
    exact bind_noRun (bind_noRun (item_noRun _ _) fun _ => pure_noRun _) fun _ => bind_noRun ih fun _ => pure_noRun _

theorem simplifyFns_noRun (fmt : ℚ → ℚ) : ∀ fn ∈ simplifyFns fmt, NoRun fn := by
  intro fn h e
  simp only [simplifyFns, List.mem_cons, List.not_mem_nil, or_false] at h
  rcases h with rfl | rfl | rfl | rfl | rfl | rfl | rfl | rfl | rfl | rfl | rfl | rfl | rfl | rfl | rfl | rfl | rfl
  · unfold identityOpSimplify
    split
    · exact bind_noRun (item_noRun _ _) fun _ => pure_noRun _
    · exact pure_noRun _
  · unfold powerOpSimplify
    split
    split <;> exact pure_noRun _
  · unfold powSimplify
    split
    · refine bind_noRun (item_noRun _ _) fun a => ?_
      split
      · refine bind_noRun (item_noRun _ _) fun a => ?_
        split <;> exact pure_noRun _
      · exact pure_noRun _
    · exact pure_noRun _
  · unfold logPowSimplify
    split
    · refine bind_noRun (item_noRun _ _) fun a => ?_
      split
      · exact bind_noRun (item_noRun _ _) fun a => pure_noRun _
      · exact bind_noRun (item_noRun _ _) fun a => bind_noRun (item_noRun _ _) fun a => pure_noRun _
      · exact pure_noRun _
    · exact pure_noRun _
  · unfold logMulSimplify
    split
    · refine bind_noRun (item_noRun _ _) fun a => ?_
      split <;> exact pure_noRun _
    · exact pure_noRun _
  · unfold powMulSimplify
    split
    · refine bind_noRun (item_noRun _ _) fun a => ?_
      split <;> exact pure_noRun _
    · refine bind_noRun (item_noRun _ _) fun a => ?_
      split
      · exact bind_noRun (mapM_noRun _ _) fun _ => pure_noRun _
      · exact pure_noRun _
    · exact pure_noRun _
  · unfold mulAddSimplify
    split <;> exact pure_noRun _
  · obtain ⟨h, as⟩ := e
    simp only [addAddSimplify, commutativeSimplify]
    split
    · split <;> exact pure_noRun _
    · exact pure_noRun _
  · obtain ⟨h, as⟩ := e
    simp only [mulMulSimplify, commutativeSimplify]
    split
    · split <;> exact pure_noRun _
    · exact pure_noRun _
  · obtain ⟨h, as⟩ := e
    simp only [mulOneSimplify, identitySimplify]
    split
    · split
      · exact pure_noRun _
      · split
        · split
          · exact pure_noRun _
          · exact bind_noRun (item_noRun _ _) fun _ => pure_noRun _
        · exact pure_noRun _
    · exact pure_noRun _
  · obtain ⟨h, as⟩ := e
    simp only [addZeroSimplify, identitySimplify]
    split
    · split
      · exact pure_noRun _
      · split
        · split
          · exact pure_noRun _
          · exact bind_noRun (item_noRun _ _) fun _ => pure_noRun _
        · exact pure_noRun _
    · exact pure_noRun _
  · unfold mulZeroSimplify
    split
    · split <;> exact pure_noRun _
    · exact pure_noRun _
  · unfold squareAddSimplify
    split
    · split
      · refine bind_noRun (item_noRun _ _) fun a => ?_
        split <;> exact pure_noRun _
      · exact pure_noRun _
    · exact pure_noRun _
  · unfold addConstSimplify
    split
    · split <;> exact pure_noRun _
    · exact pure_noRun _
  · unfold oneMSimplify
    split
    · refine bind_noRun (item_noRun _ _) fun a => ?_
      split
      · split
        · split
          · exact bind_noRun (item_noRun _ _) fun _ => pure_noRun _
          · exact pure_noRun _
        · simp
        · exact pure_noRun _
      · exact pure_noRun _
    · exact pure_noRun _
  · unfold castSimplify
    split
    · split
      · exact bind_noRun (item_noRun _ _) fun _ => pure_noRun _
      · exact pure_noRun _
    · exact pure_noRun _
  · unfold onehotSimplify
    split
    · split <;> exact pure_noRun _
    · exact pure_noRun _

mutual
theorem wrapped_noRun {fn : Rule} (hfn : NoRun fn) : ∀ e, wrapped fn e ≠ .error .running
  | node h as => by
    rw [wrapped]
    refine bind_noRun (hfn _) fun r => ?_
    cases r with
    | none => exact bind_noRun (wrappedArgs_noRun hfn as) fun _ => pure_noRun _
    | some e => exact pure_noRun _
theorem wrappedArgs_noRun {fn : Rule} (hfn : NoRun fn) : ∀ as, wrappedArgs fn as ≠ .error .running
  | [] => by rw [wrappedArgs]; exact pure_noRun _
  | a :: as => by
    rw [wrappedArgs]
    exact bind_noRun (wrapped_noRun hfn a) fun _ => bind_noRun (wrappedArgs_noRun hfn as) fun _ => pure_noRun _
end

/-- Unfolding a successful `wrapped`. -/
theorem wrapped_ok {fn : Rule} {h : Head} {as : List Expr} {d : Bool} {e' : Expr}
    (hw : wrapped fn (node h as) = .ok (d, e')) :
    (fn (node h as) = .ok (some e') ∧ d = true) ∨
    (fn (node h as) = .ok none ∧ ∃ as', wrappedArgs fn as = .ok (d, as') ∧ e' = node h as') := by
  rw [wrapped] at hw
  obtain ⟨r, h1, h2⟩ := bind_ok hw
  cases r with
  | none =>
    right
    refine ⟨h1, ?_⟩
    obtain ⟨⟨d', as'⟩, h3, h4⟩ := bind_ok h2
    have := pure_ok h4
    simp only [Prod.mk.injEq] at this
    obtain ⟨rfl, rfl⟩ := this
    exact ⟨as', h3, rfl⟩
  | some e =>
    left
    have := pure_ok h2
    simp only [Prod.mk.injEq] at this
    obtain ⟨rfl, rfl⟩ := this
    exact ⟨h1, rfl⟩

/-- Unfolding a successful `wrappedArgs`. -/
theorem wrappedArgs_ok {fn : Rule} {a : Expr} {as : List Expr} {d : Bool} {l : List Expr}
    (hw : wrappedArgs fn (a :: as) = .ok (d, l)) :
    ∃ d1 a' d2 as', wrapped fn a = .ok (d1, a') ∧ wrappedArgs fn as = .ok (d2, as') ∧ d = (d1 || d2) ∧
      l = a' :: as' := by
  rw [wrappedArgs] at hw
  obtain ⟨⟨d1, a'⟩, h1, h2⟩ := bind_ok hw
  obtain ⟨⟨d2, as'⟩, h3, h4⟩ := bind_ok h2
  have := pure_ok h4
  simp only [Prod.mk.injEq] at this
  exact ⟨d1, a', d2, as', h1, h3, this.1.symm, this.2.symm⟩

mutual
theorem wrapped_weight {fn : Rule} (hfn : Decreases fn) : ∀ (e : Expr) (d : Bool) (e' : Expr),
    wrapped fn e = .ok (d, e') → (d = true → weight e' < weight e) ∧ (d = false → e' = e)
  | node h as, d, e', hw => by
    rcases wrapped_ok hw with ⟨h1, rfl⟩ | ⟨-, as', h1, rfl⟩
    · exact ⟨fun _ => hfn _ _ h1, fun h => by simp at h⟩
    · obtain ⟨h2, h3⟩ := wrappedArgs_weight hfn as d as' h1
      refine ⟨fun hd => ?_, fun hd => by rw [(h3 hd)]⟩
      rw [weight_node, weight_node]
      exact headWeight_lt h (h2 hd) (weight_map_ge _)
theorem wrappedArgs_weight {fn : Rule} (hfn : Decreases fn) : ∀ (as : List Expr) (d : Bool) (as' : List Expr),
    wrappedArgs fn as = .ok (d, as') → (d = true → ArgsLT (as'.map weight) (as.map weight)) ∧ (d = false → as' = as)
  | [], d, as', hw => by
    rw [wrappedArgs] at hw
    have := pure_ok hw
    simp only [Prod.mk.injEq] at this
    obtain ⟨rfl, rfl⟩ := this
    exact ⟨fun h => by simp at h, fun _ => rfl⟩
  | a :: as, d, l, hw => by
    obtain ⟨d1, a', d2, as', h1, h2, rfl, rfl⟩ := wrappedArgs_ok hw
    obtain ⟨i1, i2⟩ := wrapped_weight hfn a d1 a' h1
    obtain ⟨j1, j2⟩ := wrappedArgs_weight hfn as d2 as' h2
    refine ⟨fun hd => ?_, fun hd => ?_⟩
    · have ha : weight a' ≤ weight a := by
        cases d1 with
        | true => exact (i1 rfl).le
        | false => rw [i2 rfl]
      have has : List.Forall₂ (· ≤ ·) (as'.map weight) (as.map weight) := by
        cases d2 with
        | true => exact (j1 rfl).le
        | false => rw [j2 rfl]; exact List.forall₂_same.mpr fun _ _ => le_rfl
      refine ⟨.cons ha has, ?_⟩
      have hs := forall₂_sum_le has
      simp only [List.map_cons, List.sum_cons]
      rw [Bool.or_eq_true] at hd
      rcases hd with rfl | rfl
      · have := i1 rfl; omega
      · have := (j1 rfl).lt; omega
    · rw [Bool.or_eq_false_iff] at hd
      rw [i2 hd.1, j2 hd.2]
end

/-- What `repeat_wrapped` does: with enough iterations it does not run out, the result no
longer depends on how many are allowed, and the weight does not grow. -/
theorem repeatWrapped_terminates {fn : Rule} (hd : Decreases fn) (hr : NoRun fn) (e : Expr) (n m : ℕ)
    (hn : weight e < n) (hm : weight e < m) :
    repeatWrapped fn n e = repeatWrapped fn m e ∧ repeatWrapped fn n e ≠ .error .running := by
  induction n generalizing e m with
  | zero => omega
  | succ n ih =>
    cases m with
    | zero => omega
    | succ m =>
      rw [repeatWrapped, repeatWrapped]
      cases hw : wrapped fn e with
      | error s =>
        have := wrapped_noRun hr e
        rw [hw] at this
        exact ⟨rfl, this⟩
      | ok r =>
        obtain ⟨d, e'⟩ := r
        have hwt := wrapped_weight hd e d e' hw
        cases d with
        | false => exact ⟨rfl, pure_noRun _⟩
        | true =>
          have hlt := hwt.1 rfl
          obtain ⟨h1, h2⟩ := ih e' m (by omega) (by omega)
          simp only [bind, Except.bind, if_true]
          rw [← h1]
          refine ⟨rfl, ?_⟩
          cases hx : repeatWrapped fn n e' with
          | error s => rw [hx] at h2; exact h2
          | ok r => exact pure_noRun _

/-- A successful `repeat_wrapped` ends with a `wrapped` that changed nothing. -/
theorem repeatWrapped_ok {fn : Rule} (hd : Decreases fn) (n : ℕ) (e : Expr) (d : Bool) (e' : Expr)
    (h : repeatWrapped fn n e = .ok (d, e')) :
    wrapped fn e' = .ok (false, e') ∧ (d = true → weight e' < weight e) ∧ (d = false → e' = e) := by
  induction n generalizing e d e' with
  | zero => simp [repeatWrapped] at h
  | succ n ih =>
    rw [repeatWrapped] at h
    obtain ⟨⟨d1, e1⟩, h1, h2⟩ := bind_ok h
    obtain ⟨w1, w2⟩ := wrapped_weight hd e d1 e1 h1
    cases d1 with
    | true =>
      simp only [if_true] at h2
      obtain ⟨⟨d2, e2⟩, h3, h4⟩ := bind_ok h2
      have := pure_ok h4
      simp only [Prod.mk.injEq] at this
      obtain ⟨rfl, rfl⟩ := this
      obtain ⟨a, b, c⟩ := ih e1 d2 e2 h3
      refine ⟨a, fun _ => ?_, fun h => by simp at h⟩
      have := w1 rfl
      cases d2 with
      | true => have := b rfl; omega
      | false => rw [c rfl]; exact this
    | false =>
      have := pure_ok h2
      simp only [Prod.mk.injEq] at this
      obtain ⟨rfl, rfl⟩ := this
      have := w2 rfl
      subst this
      exact ⟨h1, fun h => by simp at h, fun _ => rfl⟩

theorem simplifyPass_terminates (fns : List Rule) (hd : ∀ fn ∈ fns, Decreases fn) (hr : ∀ fn ∈ fns, NoRun fn)
    (did : Bool) (e : Expr) (n m : ℕ) (hn : weight e < n) (hm : weight e < m) :
    simplifyPass n fns did e = simplifyPass m fns did e ∧ simplifyPass n fns did e ≠ .error .running := by
  induction fns generalizing did e with
  | nil => exact ⟨rfl, pure_noRun _⟩
  | cons fn fns ih =>
    rw [simplifyPass, simplifyPass]
    obtain ⟨h1, h2⟩ := repeatWrapped_terminates (hd fn (by simp)) (hr fn (by simp)) e n m hn hm
    rw [← h1]
    cases hx : repeatWrapped fn n e with
    | error s => rw [hx] at h2; exact ⟨rfl, h2⟩
    | ok r =>
      obtain ⟨d, e'⟩ := r
      have hw := repeatWrapped_ok (hd fn (by simp)) n e d e' hx
      have hle : weight e' ≤ weight e := by
        cases d with
        | true => exact (hw.2.1 rfl).le
        | false => rw [hw.2.2 rfl]
      exact ih (fun f hf => hd f (by simp [hf])) (fun f hf => hr f (by simp [hf])) _ e' (by omega) (by omega)

/-- A pass that did nothing left the expression as it was, and no rule applies to it. -/
theorem simplifyPass_ok (n : ℕ) (fns : List Rule) (hd : ∀ fn ∈ fns, Decreases fn) (did d : Bool) (e e' : Expr)
    (h : simplifyPass n fns did e = .ok (d, e')) :
    weight e' ≤ weight e ∧ (did = true → d = true) ∧ (d = true → did = false → weight e' < weight e) ∧
    (d = false → e' = e ∧ ∀ fn ∈ fns, wrapped fn e = .ok (false, e)) := by
  induction fns generalizing did e with
  | nil =>
    rw [simplifyPass] at h
    have := pure_ok h
    simp only [Prod.mk.injEq] at this
    obtain ⟨rfl, rfl⟩ := this
    exact ⟨le_rfl, fun h => h, fun h1 h2 => absurd (h1.symm.trans h2) (by simp), fun _ => ⟨rfl, by simp⟩⟩
  | cons fn fns ih =>
    rw [simplifyPass] at h
    obtain ⟨⟨d1, e1⟩, h1, h2⟩ := bind_ok h
    obtain ⟨w0, w1, w2⟩ := repeatWrapped_ok (hd fn (by simp)) n e d1 e1 h1
    obtain ⟨i0, i1, i2, i3⟩ := ih (fun f hf => hd f (by simp [hf])) _ e1 h2
    cases d1 with
    | true =>
      have := w1 rfl
      have hdt : d = true := i1 (by simp)
      subst hdt
      exact ⟨by omega, fun _ => rfl, fun _ _ => by omega, fun h => by simp at h⟩
    | false =>
      have := w2 rfl
      subst this
      simp only [Bool.or_false] at i1 i2
      refine ⟨i0, i1, i2, fun hdf => ⟨(i3 hdf).1, fun f hf => ?_⟩⟩
      rw [List.mem_cons] at hf
      rcases hf with rfl | hf
      · exact w0
      · exact (i3 hdf).2 f hf

theorem fullSimplifyWith_terminates (fns : List Rule) (hd : ∀ fn ∈ fns, Decreases fn) (hr : ∀ fn ∈ fns, NoRun fn)
    (e : Expr) (i i' o o' : ℕ) (hi : weight e < i) (hi' : weight e < i') (ho : weight e < o) (ho' : weight e < o') :
    fullSimplifyWith fns i o e = fullSimplifyWith fns i' o' e ∧ fullSimplifyWith fns i o e ≠ .error .running := by
  induction o generalizing e o' with
  | zero => omega
  | succ o ih =>
    cases o' with
    | zero => omega
    | succ o' =>
      rw [fullSimplifyWith, fullSimplifyWith]
      obtain ⟨h1, h2⟩ := simplifyPass_terminates fns hd hr false e i i' hi hi'
      rw [← h1]
      cases hx : simplifyPass i fns false e with
      | error s =>
        rw [hx] at h2
        refine ⟨rfl, ?_⟩
        simpa [bind, Except.bind] using h2
      | ok r =>
        obtain ⟨d, e'⟩ := r
        obtain ⟨w0, -, w2, -⟩ := simplifyPass_ok i fns hd false d e e' hx
        cases d with
        | false => exact ⟨rfl, pure_noRun _⟩
        | true =>
          have := w2 rfl rfl
          exact ih e' o' (by omega) (by omega) (by omega) (by omega)

/-- The result of `full_simplify` is a fixed point of every rule. -/
theorem fullSimplifyWith_ok (fns : List Rule) (hd : ∀ fn ∈ fns, Decreases fn) (i o : ℕ) (e e' : Expr)
    (h : fullSimplifyWith fns i o e = .ok e') : ∀ fn ∈ fns, wrapped fn e' = .ok (false, e') := by
  induction o generalizing e with
  | zero => simp [fullSimplifyWith] at h
  | succ o ih =>
    rw [fullSimplifyWith] at h
    obtain ⟨⟨d, e1⟩, h1, h2⟩ := bind_ok h
    obtain ⟨-, -, -, w3⟩ := simplifyPass_ok i fns hd false d e e1 h1
    cases d with
    | true => exact ih e1 h2
    | false =>
      have := pure_ok h2
      subst this
      obtain ⟨rfl, h3⟩ := w3 rfl
      exact h3

/-- The same for a relation kept by every rule application inside any context. -/
theorem repeatWrapped_induct {fn : Rule} (P : Expr → Expr → Prop)
    (htrans : ∀ a b c, P a b → P b c → P a c) (hw : ∀ e d e', wrapped fn e = .ok (d, e') → P e e')
    (n : ℕ) (e : Expr) (d : Bool) (e' : Expr) (h : repeatWrapped fn n e = .ok (d, e')) : P e e' := by
  induction n generalizing e d e' with
  | zero => simp [repeatWrapped] at h
  | succ n ih =>
    rw [repeatWrapped] at h
    obtain ⟨⟨d1, e1⟩, h1, h2⟩ := bind_ok h
    have hp := hw e d1 e1 h1
    cases d1 with
    | true =>
      simp only [if_true] at h2
      obtain ⟨⟨d2, e2⟩, h3, h4⟩ := bind_ok h2
      have := pure_ok h4
      simp only [Prod.mk.injEq] at this
      obtain ⟨rfl, rfl⟩ := this
      exact htrans _ _ _ hp (ih e1 d2 e2 h3)
    | false =>
      have := pure_ok h2
      simp only [Prod.mk.injEq] at this
      obtain ⟨rfl, rfl⟩ := this
      exact hp

end Edward
