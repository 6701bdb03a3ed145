/-
Pruning constants from the sums at the top changes the value by a constant.
-/
import Verif.Lemmas.SimplifyShape

namespace Edward

open Expr Spec

/-- `e'` may replace `e` at the top: the same function of the random variable up to a
constant. -/
def SoundC (e e' : Expr) : Prop :=
  ∀ k ≤ 7, PowOk k e → PowOk k e' ∧ ∀ ρ : Env, ρ.Regular → ∃ c : ℝ, ∀ v,
    Ok (ρ.withX v) false e → Ok (ρ.withX v) false e' ∧ eval (ρ.withX v) e = eval (ρ.withX v) e' + c

theorem Spec.Env.Regular.withX {ρ : Env} (h : ρ.Regular) (v : ℝ) : (ρ.withX v).Regular := ⟨h.1, h.2⟩

theorem Sound.toC {e e' : Expr} (h : Sound e e') : SoundC e e' := by
  intro k hk hp
  obtain ⟨h1, h2⟩ := h k hk hp
  refine ⟨h1, fun ρ hr => ⟨0, fun v ho => ?_⟩⟩
  obtain ⟨h3, h4⟩ := h2 _ (hr.withX v) false ho
  exact ⟨h3, by rw [h4, add_zero]⟩

theorem SoundC.trans {a b c : Expr} (h1 : SoundC a b) (h2 : SoundC b c) : SoundC a c := by
  intro k hk hp
  obtain ⟨p1, q1⟩ := h1 k hk hp
  obtain ⟨p2, q2⟩ := h2 k hk p1
  refine ⟨p2, fun ρ hr => ?_⟩
  obtain ⟨c1, r1⟩ := q1 ρ hr
  obtain ⟨c2, r2⟩ := q2 ρ hr
  refine ⟨c2 + c1, fun v ho => ?_⟩
  obtain ⟨o1, e1⟩ := r1 v ho
  obtain ⟨o2, e2⟩ := r2 v o1
  exact ⟨o2, by rw [e1, e2]; ring⟩

theorem anyContainsX_iff (as : List Expr) : anyContainsX as = as.any containsX := by
  induction as with
  | nil => simp [anyContainsX]
  | cons a as ih => simp [anyContainsX, ih]

/-- Without the random variable the value does not depend on it. -/
theorem eval_const (ρ : Env) (v w : ℝ) (e : Expr) (h : containsX e = false) :
    eval (ρ.withX v) e = eval (ρ.withX w) e := by
  induction e using Expr.induct with
  | h hd as ih =>
    rw [containsX, anyContainsX_iff] at h
    simp only [Bool.or_eq_false_iff, decide_eq_false_iff_not, List.any_eq_false] at h
    rw [eval_node, eval_node]
    have : as.map (eval (ρ.withX v)) = as.map (eval (ρ.withX w)) :=
      List.map_congr_left fun a ha => ih a ha (by simpa using h.2 a ha)
    rw [this]
    generalize as.map (eval (ρ.withX w)) = vs
    cases hd <;> first | exact absurd rfl h.1 | rfl | (rcases vs with _ | ⟨a, _ | ⟨b, l⟩⟩ <;> rfl)

/-- Nothing to prune without sums. -/
theorem addConst_plain (e : Expr) : ∀ (k : Stage) (d : Bool) (e' : Expr), (k = .F ∨ k = .L) → In k e →
    wrapped addConstSimplify e = .ok (d, e') → e' = e := by
  induction e using Expr.induct with
  | h hd as ih =>
    intro k d e' hk hin hw
    have hne : hd ≠ .add := by
      rintro rfl
      exact in_none (by rcases hk with rfl | rfl <;> rfl) hin
    rcases wrapped_ok hw with ⟨h1, -⟩ | ⟨-, as', h1, rfl⟩
    · obtain ⟨as', h2, -⟩ := addConst_some h1
      cases h2
      exact absurd rfl hne
    · rw [In, inShape_node] at hin
      obtain ⟨⟨c, hc, ha⟩, -⟩ := hin
      have hc' : c = .F ∨ c = .L := by
        rcases hk with rfl | rfl <;> cases hd <;>
          simp only [Stage.child, reduceCtorEq, Option.some.injEq] at hc <;> subst hc <;> simp
      congr 1
      clear hw
      induction as generalizing d as' with
      | nil =>
        rw [wrappedArgs] at h1
        have := pure_ok h1
        simp only [Prod.mk.injEq] at this
        exact this.2.symm
      | cons a as ihl =>
        obtain ⟨d1, a', d2, bs, h2, h3, rfl, rfl⟩ := wrappedArgs_ok h1
        rw [ih a (by simp) c d1 a' hc' (ha a (by simp)) h2,
          ihl (fun b hb => ih b (by simp [hb])) d2 bs h3 fun b hb => ha b (by simp [hb])]

theorem sum_filter_add (f : Expr → ℝ) (p : Expr → Bool) (as : List Expr) :
    (as.map f).sum = ((as.filter p).map f).sum + ((as.filter fun a => !p a).map f).sum := by
  induction as with
  | nil => simp
  | cons a as ih =>
    cases h : p a <;> simp [h, ih] <;> ring

theorem addConst_sound (e : Expr) : ∀ (d : Bool) (e' : Expr), In .P e →
    wrapped addConstSimplify e = .ok (d, e') → SoundC e e' := by
  induction e using Expr.induct with
  | h hd as ih =>
    intro d e' hin hw
    by_cases hadd : hd = .add
    · subst hadd
      have hargs := (in_node (c := .P) rfl rfl).mp hin
      rcases wrapped_ok hw with ⟨h1, -⟩ | ⟨-, as', h1, rfl⟩
      · obtain ⟨as', h2, -, rfl⟩ := addConst_some h1
        cases h2
        intro k hk hp
        rw [powOk_node (by trivial)] at hp
        refine ⟨?_, fun ρ hr => ⟨((as.filter fun a => !containsX a).map (eval ρ)).sum, fun v ho => ?_⟩⟩
        · rw [powOk_node (by trivial)]
          exact fun a ha => hp a (List.mem_of_mem_filter ha)
        · refine ⟨ok_add_of (fun a ha => ok_add_args ho a (List.mem_of_mem_filter ha)) (by simp), ?_⟩
          rw [eval_add, eval_add, sum_filter_add _ containsX]
          congr 2
          apply List.map_congr_left
          intro a ha
          have : containsX a = false := by simpa using (List.mem_filter.mp ha).2
          exact eval_const ρ v ρ.x a this
      · -- every argument is treated
        clear hw hin
        have H : List.Forall₂ SoundC as as' := by
          induction as generalizing d as' with
          | nil =>
            rw [wrappedArgs] at h1
            have := pure_ok h1
            simp only [Prod.mk.injEq] at this
            rw [← this.2]
            exact .nil
          | cons a as ihl =>
            obtain ⟨d1, a', d2, bs, h2, h3, rfl, rfl⟩ := wrappedArgs_ok h1
            exact .cons (ih a (by simp) d1 a' (hargs a (by simp)) h2)
              (ihl (fun b hb => ih b (by simp [hb])) d2 (fun b hb => hargs b (by simp [hb])) bs h3)
        clear ih h1 hargs
        induction H with
        | nil => exact (Sound.refl _).toC
        | @cons a b as bs hab _ ihH =>
          intro k hk hp
          rw [powOk_node (by trivial)] at hp
          obtain ⟨p1, q1⟩ := hab k hk (hp a (by simp))
          obtain ⟨p2, q2⟩ := ihH k hk ((powOk_node (by trivial)).mpr fun c hc => hp c (by simp [hc]))
          rw [powOk_node (by trivial)] at p2
          refine ⟨(powOk_node (by trivial)).mpr ?_, fun ρ hr => ?_⟩
          · intro c hc
            rcases List.mem_cons.mp hc with rfl | hc
            exacts [p1, p2 c hc]
          · obtain ⟨c1, r1⟩ := q1 ρ hr
            obtain ⟨c2, r2⟩ := q2 ρ hr
            refine ⟨c1 + c2, fun v ho => ?_⟩
            have ho' := ok_add_args ho
            obtain ⟨o1, e1⟩ := r1 v (ho' a (by simp))
            obtain ⟨o2, e2⟩ := r2 v (ok_add_of (fun c hc => ho' c (by simp [hc])) (by simp))
            refine ⟨ok_add_of ?_ (by simp), ?_⟩
            · intro c hc
              rcases List.mem_cons.mp hc with rfl | hc
              exacts [o1, ok_add_args o2 c hc]
            · rw [eval_add] at e2 ⊢
              rw [eval_add] at e2 ⊢
              simp only [List.map_cons, List.sum_cons]
              rw [e1, e2]
              ring
    · -- no sum below
      rw [In, inShape_node] at hin
      have hin0 := hin
      obtain ⟨⟨c, hc, ha⟩, hu⟩ := hin
      have hL : In .L (node hd as) := by
        rw [In, inShape_node]
        refine ⟨⟨c, ?_, ha⟩, hu⟩
        cases hd <;> first | exact absurd rfl hadd | exact hc
      rw [addConst_plain _ .L d e' (Or.inr rfl) hL hw]
      exact (Sound.refl _).toC

theorem repeat_addConst_sound (n : ℕ) (e : Expr) (d : Bool) (e' : Expr) (hin : In .P e)
    (h : repeatWrapped addConstSimplify n e = .ok (d, e')) : SoundC e e' :=
  repeatWrapped_induct (fun a b => In .P a → In .P b ∧ SoundC a b)
    (fun _ _ _ h1 h2 h => ⟨(h2 (h1 h).1).1, (h1 h).2.trans (h2 (h1 h).1).2⟩)
    (fun a d b hw hin => ⟨wrapped_keeps keeps_addConst a d b hw .P trivial hin, addConst_sound a d b hin hw⟩)
    n e d e' h hin |>.2

/-! ### A pass -/

theorem pass_cons {n : ℕ} {fn : Rule} {fns : List Rule} {did : Bool} {e : Expr} {d : Bool} {e' : Expr}
    (h : simplifyPass n (fn :: fns) did e = .ok (d, e')) :
    ∃ d1 d2 e1, repeatWrapped fn n e = .ok (d1, e1) ∧ simplifyPass n fns d2 e1 = .ok (d, e') := by
  rw [simplifyPass] at h
  obtain ⟨⟨d1, e1⟩, h1, h2⟩ := bind_ok h
  exact ⟨d1, _, e1, h1, h2⟩

theorem fixpoint {fn : Rule} (hd : Decreases fn) {n : ℕ} {e : Expr} {d : Bool} {e' : Expr}
    (h : repeatWrapped fn n e = .ok (d, e')) (s : Expr) (hs : Subexpr s e') : fn s = .ok none :=
  wrapped_false_sub e' e' s (repeatWrapped_ok hd n e d e' h).1 hs

theorem pass_sound {n : ℕ} {did : Bool} {e : Expr} {d : Bool} {e' : Expr}
    (h : simplifyPass n (simplifyFns fmt4e) did e = .ok (d, e')) (hin : Separated e) :
    Separated e' ∧ SoundC e e' := by
  have hdec := simplifyFns_decrease fmt4e
  have hm := @hdec
  obtain ⟨_, _, e1, h1, h⟩ := pass_cons h
  obtain ⟨_, _, e2, h2, h⟩ := pass_cons h
  obtain ⟨_, _, e3, h3, h⟩ := pass_cons h
  obtain ⟨_, _, e4, h4, h⟩ := pass_cons h
  obtain ⟨_, _, e5, h5, h⟩ := pass_cons h
  obtain ⟨_, _, e6, h6, h⟩ := pass_cons h
  obtain ⟨_, _, e7, h7, h⟩ := pass_cons h
  obtain ⟨_, _, e8, h8, h⟩ := pass_cons h
  obtain ⟨_, _, e9, h9, h⟩ := pass_cons h
  obtain ⟨_, _, e10, h10, h⟩ := pass_cons h
  obtain ⟨_, _, e11, h11, h⟩ := pass_cons h
  obtain ⟨_, _, e12, h12, h⟩ := pass_cons h
  obtain ⟨_, _, e13, h13, h⟩ := pass_cons h
  obtain ⟨_, _, e14, h14, h⟩ := pass_cons h
  obtain ⟨_, _, e15, h15, h⟩ := pass_cons h
  obtain ⟨_, _, e16, h16, h⟩ := pass_cons h
  obtain ⟨_, _, e17, h17, h⟩ := pass_cons h
  rw [simplifyPass] at h
  have := pure_ok h
  simp only [Prod.mk.injEq] at this
  obtain ⟨-, rfl⟩ := this
  have i1 := to_stage1 (fixpoint (hdec _ (by simp [simplifyFns])) h1)
    (repeatWrapped_keeps keeps_identityOp h1 trivial hin)
  have i2 := to_stage2 (fixpoint (hdec _ (by simp [simplifyFns])) h2)
    (repeatWrapped_keeps keeps_powerOp h2 (k := .T1) trivial i1)
  have i3 := repeatWrapped_keeps keeps_pow h3 (k := .T2) trivial i2
  have i4 := repeatWrapped_keeps keeps_logPow h4 (k := .T2) trivial i3
  have i5 := repeatWrapped_keeps keeps_logMul h5 (k := .T2) trivial i4
  have i6 := repeatWrapped_keeps keeps_powMul h6 (k := .T2) trivial i5
  have i7 := to_stage3 (fixpoint (hdec _ (by simp [simplifyFns])) h7)
    (repeatWrapped_keeps keeps_mulAdd h7 (k := .T2) trivial i6)
  have i8 := to_stage4 (fixpoint (hdec _ (by simp [simplifyFns])) h8)
    (repeatWrapped_keeps keeps_addAdd h8 (k := .T3) trivial i7)
  have i9 := repeatWrapped_keeps keeps_mulMul h9 (k := .T4) trivial i8
  have i10 := repeatWrapped_keeps keeps_mulOne h10 (k := .T4) trivial i9
  have i11 := repeatWrapped_keeps keeps_addZero h11 (k := .T4) trivial i10
  have i12 := repeatWrapped_keeps keeps_mulZero h12 (k := .T4) trivial i11
  have i13 := to_stage5 (fixpoint (hdec _ (by simp [simplifyFns])) h13)
    (repeatWrapped_keeps keeps_squareAdd h13 (k := .T4) trivial i12)
  have i14 := repeatWrapped_keeps keeps_addConst h14 (k := .P) trivial i13
  have i15 := repeatWrapped_keeps keeps_oneM h15 (k := .P) trivial i14
  have i16 := repeatWrapped_keeps keeps_cast h16 (k := .P) trivial i15
  have i17 := repeatWrapped_keeps keeps_onehot h17 (k := .P) trivial i16
  refine ⟨of_stage5 i17, ?_⟩
  have s1 := (repeatWrapped_sound sound_identityOp _ _ _ _ h1).trans
    ((repeatWrapped_sound sound_powerOp _ _ _ _ h2).trans
    ((repeatWrapped_sound sound_pow _ _ _ _ h3).trans
    ((repeatWrapped_sound sound_logPow _ _ _ _ h4).trans
    ((repeatWrapped_sound sound_logMul _ _ _ _ h5).trans
    ((repeatWrapped_sound sound_powMul _ _ _ _ h6).trans
    ((repeatWrapped_sound sound_mulAdd _ _ _ _ h7).trans
    ((repeatWrapped_sound (sound_commutative (.inl rfl)) _ _ _ _ h8).trans
    ((repeatWrapped_sound (sound_commutative (.inr rfl)) _ _ _ _ h9).trans
    ((repeatWrapped_sound sound_mulOne _ _ _ _ h10).trans
    ((repeatWrapped_sound sound_addZero _ _ _ _ h11).trans
    ((repeatWrapped_sound sound_mulZero _ _ _ _ h12).trans
    (repeatWrapped_sound sound_squareAdd _ _ _ _ h13))))))))))))
  have s2 := repeat_addConst_sound _ _ _ _ i13 h14
  have s3 := (repeatWrapped_sound sound_oneM _ _ _ _ h15).trans
    ((repeatWrapped_sound sound_cast _ _ _ _ h16).trans (repeatWrapped_sound sound_onehot _ _ _ _ h17))
  exact s1.toC.trans (s2.trans s3.toC)

theorem fullSimplify_sound (i o : ℕ) (e e' : Expr) (h : fullSimplify i o e = .ok e') (hin : Separated e) :
    Separated e' ∧ SoundC e e' := by
  induction o generalizing e with
  | zero => simp [fullSimplify, fullSimplifyWith] at h
  | succ o ih =>
    rw [fullSimplify, fullSimplifyWith] at h
    obtain ⟨⟨d, e1⟩, h1, h2⟩ := bind_ok h
    obtain ⟨i1, s1⟩ := pass_sound h1 hin
    cases d with
    | true =>
      obtain ⟨i2, s2⟩ := ih e1 h2 i1
      exact ⟨i2, s1.trans s2⟩
    | false =>
      have := pure_ok h2
      simp only at this
      subst this
      exact ⟨i1, s1⟩

end Edward
