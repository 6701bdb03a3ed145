/-
Every rule except the pruning of constants keeps the value of an expression on its domain.
-/
import Mathlib.Algebra.BigOperators.Group.List.Lemmas
import Mathlib.Algebra.BigOperators.Ring.List
import Mathlib.Tactic.FieldSimp
import Mathlib.Tactic.NormNum
import Verif.Lemmas.SimplifyLoop
import Verif.Spec.Simplify

namespace Edward

open Expr Spec

theorem evals_eq (ρ : Env) (l : List Expr) : evals ρ l = l.map (eval ρ) := by
  induction l with
  | nil => simp [evals]
  | cons a l ih => simp [evals, ih]

theorem eval_node (ρ : Env) (h : Head) (as : List Expr) : eval ρ (node h as) = headVal ρ h (as.map (eval ρ)) := by
  rw [eval, evals_eq]

theorem okArgs'_iff (ρ : Env) (f : Bool) (l : List Expr) : OkArgs' ρ f l ↔ ∀ a ∈ l, Ok ρ f a := by
  induction l with
  | nil => simp [OkArgs']
  | cons a l ih => simp [OkArgs', ih]

theorem ok_node {ρ : Env} {pos : Bool} {h : Head} {as : List Expr} (hp : h ≠ .pow ∧ ∀ t, h ≠ .tensor t) :
    Ok ρ pos (node h as) ↔ (pos = true → 0 < eval ρ (node h as) ∧ h ≠ .log) ∧ ∀ a ∈ as, Ok ρ (childFlag pos h) a := by
  have hc : ∀ v, ConstFact v h := by
    intro v
    cases h <;> first | trivial | exact absurd rfl (hp.2 _)
  rw [Ok]
  cases as with
  | nil => simp [OkArgs, hc]
  | cons a as =>
    rw [OkArgs, okArgs'_iff]
    simp [hp.1, hc]

theorem ok_tensor {ρ : Env} {pos : Bool} {t : TfNode} {as : List Expr} :
    Ok ρ pos (node (.tensor t) as) ↔ (pos = true → 0 < eval ρ (node (.tensor t) as)) ∧
      (∀ c, t.const = .scalar c → eval ρ (node (.tensor t) as) = c) ∧ ∀ a ∈ as, Ok ρ (t.isCast && pos) a := by
  rw [Ok]
  cases as with
  | nil => simp [OkArgs, ConstFact]
  | cons a as =>
    rw [OkArgs, okArgs'_iff]
    simp [ConstFact, childFlag]

theorem ok_pow {ρ : Env} {pos : Bool} {a : Expr} {as : List Expr} :
    Ok ρ pos (node .pow (a :: as)) ↔
      (pos = true → 0 < eval ρ (node .pow (a :: as))) ∧ as ≠ [] ∧ Ok ρ true a ∧ ∀ b ∈ as, Ok ρ false b := by
  rw [Ok, OkArgs, okArgs'_iff]
  simp [childFlag, ConstFact]

theorem Spec.Ok.pos {ρ : Env} {e : Expr} (h : Ok ρ true e) : 0 < eval ρ e := by
  obtain ⟨hd, as⟩ := e
  rw [Ok] at h
  exact (h.1 rfl).1

theorem childFlag_mono (h : Head) {f f' : Bool} (hf : f' = true → f = true) :
    childFlag f' h = true → childFlag f h = true := by
  cases h <;> simp only [childFlag, Bool.or_eq_true, Bool.and_eq_true, imp_self]
  all_goals first | exact hf | (rintro (h1 | h1); exacts [Or.inl (hf h1), Or.inr h1]) | exact fun h1 => ⟨h1.1, hf h1.2⟩

mutual
theorem Spec.Ok.mono {ρ : Env} : ∀ (e : Expr) (f f' : Bool), (f' = true → f = true) → Ok ρ f e → Ok ρ f' e
  | node h [], f, f', hf, hok => by
    rw [Ok] at hok ⊢
    exact ⟨fun h1 => hok.1 (hf h1), hok.2.1, by simp [OkArgs]⟩
  | node h (a :: as), f, f', hf, hok => by
    rw [Ok, OkArgs] at hok ⊢
    refine ⟨fun h1 => hok.1 (hf h1), hok.2.1, hok.2.2.1, Spec.Ok.mono a _ _ ?_ hok.2.2.2.1,
      Spec.OkArgs'.mono as _ _ (childFlag_mono h hf) hok.2.2.2.2⟩
    simp only [Bool.or_eq_true]
    rintro (h1 | h1)
    · exact Or.inl (childFlag_mono h hf h1)
    · exact Or.inr h1
theorem Spec.OkArgs'.mono {ρ : Env} : ∀ (as : List Expr) (f f' : Bool), (f' = true → f = true) → OkArgs' ρ f as → OkArgs' ρ f' as
  | [], _, _, _, _ => by simp [OkArgs']
  | a :: as, f, f', hf, hok => by
    rw [OkArgs'] at hok ⊢
    exact ⟨Spec.Ok.mono a f f' hf hok.1, Spec.OkArgs'.mono as f f' hf hok.2⟩
end

theorem Spec.Ok.of_true {ρ : Env} {e : Expr} {f : Bool} (h : Ok ρ true e) : Ok ρ f e := Ok.mono e true f (fun _ => rfl) h

theorem Spec.Ok.to_false {ρ : Env} {e : Expr} {f : Bool} (h : Ok ρ f e) : Ok ρ false e := Ok.mono e f false (by simp) h

theorem powOks_iff (k : ℕ) (l : List Expr) : PowOks k l ↔ ∀ a ∈ l, PowOk k a := by
  induction l with
  | nil => simp [PowOks]
  | cons a l ih => simp [PowOks, ih]

theorem Spec.IsPow2.mono {j k : ℕ} {p : ℚ} (hjk : j ≤ k) (h : IsPow2 j p) : IsPow2 k p := by
  obtain ⟨i, hi, hp⟩ := h
  exact ⟨i, hi.trans (by exact_mod_cast hjk), hp⟩

mutual
theorem PowOk.mono : ∀ (e : Expr) (j k : ℕ), j ≤ k → PowOk j e → PowOk k e
  | node h as, j, k, hjk, hok => by
    have H := fun i i' (hi : i ≤ i') (h : PowOks i as) => PowOks.mono as i i' hi h
    cases h <;> simp only [PowOk] at hok ⊢
    case cpow p =>
      obtain ⟨i, hi, h1, h2⟩ := hok
      exact ⟨i, hi.trans hjk, h1, H _ _ (by omega) h2⟩
    all_goals first | exact H _ _ hjk hok | exact ⟨hok.1.trans hjk, H _ _ (by omega) hok.2⟩
theorem PowOks.mono : ∀ (as : List Expr) (j k : ℕ), j ≤ k → PowOks j as → PowOks k as
  | [], _, _, _, _ => by simp [PowOks]
  | a :: as, j, k, hjk, hok => by
    rw [PowOks] at hok ⊢
    exact ⟨PowOk.mono a j k hjk hok.1, PowOks.mono as j k hjk hok.2⟩
end

/-- Heads that do not count as powers. -/
def NoPower : Head → Prop
  | .cpow _ => False
  | .square => False
  | .sqrt => False
  | _ => True

theorem powOk_node {k : ℕ} {h : Head} {as : List Expr} (hh : NoPower h) :
    PowOk k (node h as) ↔ ∀ a ∈ as, PowOk k a := by
  rw [← powOks_iff]
  cases h <;> simp only [NoPower] at hh <;> rw [PowOk]
  all_goals nofun

theorem powOk_cpow {k : ℕ} {p : ℚ} {as : List Expr} :
    PowOk k (node (.cpow p) as) ↔ ∃ j ≤ k, IsPow2 j p ∧ ∀ a ∈ as, PowOk (k - j) a := by
  simp only [PowOk, powOks_iff]

/-- `e'` may replace `e`: on the domain of `e` it has the same value and is again in the
domain. -/
def Sound (e e' : Expr) : Prop :=
  ∀ k ≤ 7, PowOk k e → PowOk k e' ∧ ∀ ρ : Env, ρ.Regular → ∀ pos, Ok ρ pos e → Ok ρ pos e' ∧ eval ρ e' = eval ρ e

theorem Sound.refl (e : Expr) : Sound e e := fun _ _ h => ⟨h, fun _ _ _ h => ⟨h, rfl⟩⟩

theorem Sound.trans {a b c : Expr} (h1 : Sound a b) (h2 : Sound b c) : Sound a c := by
  intro k hk hp
  obtain ⟨p1, q1⟩ := h1 k hk hp
  obtain ⟨p2, q2⟩ := h2 k hk p1
  refine ⟨p2, fun ρ hr pos ho => ?_⟩
  obtain ⟨o1, e1⟩ := q1 ρ hr pos ho
  obtain ⟨o2, e2⟩ := q2 ρ hr pos o1
  exact ⟨o2, e2.trans e1⟩

/-- Replacing arguments. -/
theorem Sound.congr (h : Head) {as bs : List Expr} (H : List.Forall₂ Sound as bs) : Sound (node h as) (node h bs) := by
  have hpow : ∀ k ≤ 7, PowOks k as → PowOks k bs := by
    intro k hk
    induction H with
    | nil => exact id
    | cons h1 _ ih =>
      intro hp
      rw [PowOks] at hp ⊢
      exact ⟨(h1 k hk hp.1).1, ih hp.2⟩
  have hok : ∀ k ≤ 7, PowOks k as → ∀ ρ : Env, ρ.Regular → ∀ f,
      OkArgs' ρ f as → OkArgs' ρ f bs ∧ bs.map (eval ρ) = as.map (eval ρ) := by
    intro k hk hp ρ hr f
    clear hpow
    induction H with
    | nil => exact fun h => ⟨h, rfl⟩
    | cons h1 _ ih =>
      intro ho
      rw [PowOks] at hp
      rw [OkArgs'] at ho ⊢
      obtain ⟨o1, e1⟩ := (h1 k hk hp.1).2 ρ hr f ho.1
      obtain ⟨o2, e2⟩ := ih hp.2 ho.2
      exact ⟨⟨o1, o2⟩, by simp [e1, e2]⟩
  have hok2 : ∀ k ≤ 7, PowOks k as → ∀ ρ : Env, ρ.Regular → ∀ f,
      OkArgs ρ f h as → OkArgs ρ f h bs ∧ bs.map (eval ρ) = as.map (eval ρ) := by
    intro k hk hp ρ hr f ho
    cases H with
    | nil => exact ⟨ho, rfl⟩
    | @cons a b as bs h1 H =>
      rw [PowOks] at hp
      rw [OkArgs] at ho ⊢
      obtain ⟨o1, e1⟩ := (h1 k hk hp.1).2 ρ hr _ ho.2.1
      have : ∀ ρ : Env, ρ.Regular → ∀ f, OkArgs' ρ f as → OkArgs' ρ f bs ∧ bs.map (eval ρ) = as.map (eval ρ) := by
        intro ρ hr f
        clear hpow hok ho
        induction H with
        | nil => exact fun h => ⟨h, rfl⟩
        | cons h1 _ ih =>
          intro ho
          rw [PowOks] at hp
          rw [OkArgs'] at ho ⊢
          obtain ⟨o1, e1⟩ := (h1 k hk hp.2.1).2 ρ hr f ho.1
          obtain ⟨o2, e2⟩ := ih ⟨hp.1, hp.2.2⟩ ho.2
          exact ⟨⟨o1, o2⟩, by simp [e1, e2]⟩
      obtain ⟨o2, e2⟩ := this ρ hr _ ho.2.2
      refine ⟨⟨fun hp => ?_, o1, o2⟩, by simp [e1, e2]⟩
      have hne := ho.1 hp
      cases H <;> simp_all
  have main : ∀ k ≤ 7, PowOks k as → ∀ ρ : Env, ρ.Regular → ∀ pos, Ok ρ pos (node h as) →
      Ok ρ pos (node h bs) ∧ eval ρ (node h bs) = eval ρ (node h as) := by
    intro k hk hp ρ hr pos ho
    rw [Ok] at ho
    obtain ⟨o, e⟩ := hok2 k hk hp ρ hr pos ho.2.2
    have he : eval ρ (node h bs) = eval ρ (node h as) := by rw [eval_node, eval_node, e]
    refine ⟨?_, he⟩
    rw [Ok, he]
    exact ⟨ho.1, ho.2.1, o⟩
  intro k hk hp
  have aux : ∃ j ≤ 7, PowOks j as := by
    cases h <;> simp only [PowOk] at hp
    case cpow p => obtain ⟨j, hj, -, h2⟩ := hp; exact ⟨k - j, by omega, h2⟩
    all_goals first | exact ⟨k, hk, hp⟩ | exact ⟨k - 1, by omega, hp.2⟩
  obtain ⟨j, hj, hjp⟩ := aux
  refine ⟨?_, fun ρ hr pos ho => main j hj hjp ρ hr pos ho⟩
  cases h <;> simp only [PowOk] at hp ⊢
  case cpow p => obtain ⟨j, hj, h1, h2⟩ := hp; exact ⟨j, hj, h1, hpow _ (by omega) h2⟩
  all_goals first | exact hpow _ hk hp | exact ⟨hp.1, hpow _ (by omega) hp.2⟩

/-- A rule that may be applied anywhere. -/
def RuleSound (fn : Rule) : Prop := ∀ e e', fn e = .ok (some e') → Sound e e'

mutual
theorem wrapped_sound {fn : Rule} (hfn : RuleSound fn) : ∀ (e : Expr) (d : Bool) (e' : Expr),
    wrapped fn e = .ok (d, e') → Sound e e'
  | node h as, d, e', hw => by
    rcases wrapped_ok hw with ⟨h1, rfl⟩ | ⟨-, as', h1, rfl⟩
    · exact hfn _ _ h1
    · exact Sound.congr h (wrappedArgs_sound hfn as d as' h1)
theorem wrappedArgs_sound {fn : Rule} (hfn : RuleSound fn) : ∀ (as : List Expr) (d : Bool) (as' : List Expr),
    wrappedArgs fn as = .ok (d, as') → List.Forall₂ Sound as as'
  | [], d, as', hw => by
    rw [wrappedArgs] at hw
    have := pure_ok hw
    simp only [Prod.mk.injEq] at this
    obtain ⟨rfl, rfl⟩ := this
    exact .nil
  | a :: as, d, l, hw => by
    obtain ⟨d1, a', d2, as', h1, h2, rfl, rfl⟩ := wrappedArgs_ok hw
    exact .cons (wrapped_sound hfn a d1 a' h1) (wrappedArgs_sound hfn as d2 as' h2)
end

theorem repeatWrapped_sound {fn : Rule} (hfn : RuleSound fn) (n : ℕ) (e : Expr) (d : Bool) (e' : Expr)
    (h : repeatWrapped fn n e = .ok (d, e')) : Sound e e' :=
  repeatWrapped_induct Sound (fun _ _ _ => Sound.trans) (wrapped_sound hfn) n e d e' h

end Edward
