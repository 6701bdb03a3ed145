/-
Soundness of each rule.
-/
import Mathlib.Analysis.SpecialFunctions.Log.Basic
import Verif.Lemmas.SimplifySound

namespace Edward

open Expr Spec

theorem some_ok {e e' : Expr} (h : (pure (some e) : Except Stop (Option Expr)) = .ok (some e')) : e = e' := by
  simpa using pure_ok h

theorem none_ok {e' : Expr} (h : (pure none : Except Stop (Option Expr)) = .ok (some e')) : False := by
  simpa using pure_ok h

theorem identityOp_some {e e' : Expr} (h : identityOpSimplify e = .ok (some e')) :
    ∃ r, e = node .identity (e' :: r) := by
  unfold identityOpSimplify at h
  split at h
  · obtain ⟨a, h1, h2⟩ := bind_ok h
    obtain ⟨r, rfl⟩ := item_zero h1
    rw [some_ok h2]
    exact ⟨r, rfl⟩
  · exact (none_ok h).elim

theorem powerOp_some {e e' : Expr} (h : powerOpSimplify e = .ok (some e')) :
    ∃ hd p as, e = node hd as ∧ powerOp hd = some p ∧ e' = node (.cpow p) as := by
  obtain ⟨hd, as⟩ := e
  simp only [powerOpSimplify] at h
  cases hp : powerOp hd with
  | none => rw [hp] at h; exact (none_ok h).elim
  | some p => rw [hp] at h; exact ⟨hd, p, as, rfl, hp, (some_ok h).symm⟩

theorem pow_some {fmt : ℚ → ℚ} {e e' : Expr} (h : powSimplify fmt e = .ok (some e')) :
    ∃ p q a r r', e = node (.cpow p) (node (.cpow q) (a :: r') :: r) ∧
      (q * p = 1 ∧ e' = a ∨ q * p ≠ 1 ∧ e' = node (.cpow (fmt (q * p))) [a]) := by
  unfold powSimplify at h
  split at h
  · rename_i p as
    obtain ⟨a, h1, h2⟩ := bind_ok h
    obtain ⟨r, rfl⟩ := item_zero h1
    split at h2
    · rename_i q bs
      obtain ⟨b, h3, h4⟩ := bind_ok h2
      obtain ⟨r', rfl⟩ := item_zero h3
      refine ⟨p, q, b, r, r', rfl, ?_⟩
      split at h4
      · rename_i hq
        exact Or.inl ⟨hq, (some_ok h4).symm⟩
      · rename_i hq
        exact Or.inr ⟨hq, (some_ok h4).symm⟩
    · exact (none_ok h2).elim
  · exact (none_ok h).elim

theorem logPow_some {e e' : Expr} (h : logPowSimplify e = .ok (some e')) :
    (∃ p a r r', e = node .log (node (.cpow p) (a :: r') :: r) ∧ e' = node .mul [num p, node .log [a]]) ∨
    ∃ a b r r', e = node .log (node .pow (a :: b :: r') :: r) ∧ e' = node .mul [b, node .log [a]] := by
  unfold logPowSimplify at h
  split at h
  · rename_i as
    obtain ⟨a, h1, h2⟩ := bind_ok h
    obtain ⟨r, rfl⟩ := item_zero h1
    split at h2
    · rename_i p bs
      obtain ⟨b, h3, h4⟩ := bind_ok h2
      obtain ⟨r', rfl⟩ := item_zero h3
      exact Or.inl ⟨p, b, r, r', rfl, (some_ok h4).symm⟩
    · rename_i bs
      obtain ⟨b, h3, h4⟩ := bind_ok h2
      obtain ⟨c, h5, h6⟩ := bind_ok h4
      obtain ⟨a0, r', rfl⟩ := item_one h3
      obtain ⟨r'', hr⟩ := item_zero h5
      simp only [List.cons.injEq] at hr
      obtain ⟨rfl, -⟩ := hr
      exact Or.inr ⟨a0, b, r, r', rfl, (some_ok h6).symm⟩
    · exact (none_ok h2).elim
  · exact (none_ok h).elim

theorem logMul_some {e e' : Expr} (h : logMulSimplify e = .ok (some e')) :
    ∃ bs r, e = node .log (node .mul bs :: r) ∧ e' = node .add (bs.map fun i => node .log [i]) := by
  unfold logMulSimplify at h
  split at h
  · obtain ⟨a, h1, h2⟩ := bind_ok h
    obtain ⟨r, rfl⟩ := item_zero h1
    split at h2
    · rename_i bs
      exact ⟨bs, r, rfl, (some_ok h2).symm⟩
    · exact (none_ok h2).elim
  · exact (none_ok h).elim

theorem powMul_some {e e' : Expr} (h : powMulSimplify e = .ok (some e')) :
    (∃ p bs r, e = node (.cpow p) (node .mul bs :: r) ∧ e' = node .mul (bs.map fun i => node (.cpow p) [i])) ∨
    (∃ bs b r, e = node .pow (node .mul bs :: b :: r) ∧ e' = node .mul (bs.map fun i => node .pow [i, b])) ∨
    (∃ r, e = node .pow (node .mul [] :: r) ∧ e' = node .mul []) := by
  unfold powMulSimplify at h
  split at h
  · rename_i p as
    obtain ⟨a, h1, h2⟩ := bind_ok h
    obtain ⟨r, rfl⟩ := item_zero h1
    split at h2
    · rename_i bs
      exact Or.inl ⟨p, bs, r, rfl, (some_ok h2).symm⟩
    · exact (none_ok h2).elim
  · rename_i as
    obtain ⟨a, h1, h2⟩ := bind_ok h
    obtain ⟨r, rfl⟩ := item_zero h1
    right
    split at h2
    · rename_i bs
      obtain ⟨o, h3, h4⟩ := bind_ok h2
      rcases mapM_item h3 with ⟨rfl, rfl⟩ | ⟨b, hb, rfl⟩
      · exact Or.inr ⟨r, rfl, (some_ok h4).symm⟩
      · obtain ⟨a0, r', hr⟩ := item_one hb
        simp only [List.cons.injEq] at hr
        obtain ⟨-, rfl⟩ := hr
        exact Or.inl ⟨bs, b, r', rfl, (some_ok h4).symm⟩
    · exact (none_ok h2).elim
  · exact (none_ok h).elim

theorem mulAdd_some {e e' : Expr} (h : mulAddSimplify e = .ok (some e')) :
    ∃ l bs r, e = node .mul (l ++ node .add bs :: r) ∧ (∀ a ∈ l, a.head ≠ .add) ∧
      e' = node .add (bs.map fun j => node .mul (l ++ r ++ [j])) := by
  unfold mulAddSimplify at h
  split at h
  · obtain ⟨l, bs, r, rfl, h1, rfl⟩ := mulAddScan_some _ _ _ (pure_ok h)
    exact ⟨l, bs, r, rfl, h1, by simp⟩
  · exact (none_ok h).elim

/-- The arguments after flattening. -/
def flatten (op : Head) (as : List Expr) : List Expr := as.flatMap fun i => if i.head = op then i.args else [i]

theorem commutative_some {op : Head} {e e' : Expr} (h : commutativeSimplify op e = .ok (some e')) :
    ∃ as, e = node op as ∧ (as.any fun i => i.head = op) = true ∧ e' = node op (flatten op as) := by
  obtain ⟨hd, as⟩ := e
  simp only [commutativeSimplify] at h
  split at h
  · rename_i hh
    subst hh
    split at h
    · rename_i hany
      exact ⟨as, rfl, hany, (some_ok h).symm⟩
    · exact (none_ok h).elim
  · exact (none_ok h).elim

theorem mulZero_some {e e' : Expr} (h : mulZeroSimplify e = .ok (some e')) :
    ∃ as, e = node .mul as ∧ (as.any fun i => i.head = .num 0) = true ∧ e' = num 0 := by
  unfold mulZeroSimplify at h
  split at h
  · rename_i as
    split at h
    · rename_i hany
      exact ⟨as, rfl, hany, (some_ok h).symm⟩
    · exact (none_ok h).elim
  · exact (none_ok h).elim

theorem squareAdd_some {e e' : Expr} (h : squareAddSimplify e = .ok (some e')) :
    ∃ bs r, e = node (.cpow 2) (node .add bs :: r) ∧ e' = node .add (squareTerms bs) := by
  unfold squareAddSimplify at h
  split at h
  · split at h
    · rename_i hp
      obtain ⟨a, h1, h2⟩ := bind_ok h
      obtain ⟨r, rfl⟩ := item_zero h1
      split at h2
      · rename_i bs
        subst hp
        exact ⟨bs, r, rfl, (some_ok h2).symm⟩
      · exact (none_ok h2).elim
    · exact (none_ok h).elim
  · exact (none_ok h).elim

theorem addConst_some {e e' : Expr} (h : addConstSimplify e = .ok (some e')) :
    ∃ as, e = node .add as ∧ (as.any fun i => !containsX i) = true ∧ e' = node .add (as.filter containsX) := by
  unfold addConstSimplify at h
  split at h
  · rename_i as
    split at h
    · rename_i hany
      exact ⟨as, rfl, hany, (some_ok h).symm⟩
    · exact (none_ok h).elim
  · exact (none_ok h).elim

theorem oneM_some {e e' : Expr} (h : oneMSimplify e = .ok (some e')) :
    ∃ t as b r, e = node .sub (node (.tensor t) as :: b :: r) ∧ t.const = .scalar 1 ∧ e' = node .oneMinus [b] := by
  unfold oneMSimplify at h
  split at h
  · obtain ⟨a, h1, h2⟩ := bind_ok h
    split at h2
    · rename_i t cs
      split at h2
      · rename_i c hc
        split at h2
        · rename_i hc1
          subst hc1
          obtain ⟨b, h3, h4⟩ := bind_ok h2
          obtain ⟨a0, r, rfl⟩ := item_one h3
          obtain ⟨r', hr⟩ := item_zero h1
          simp only [List.cons.injEq] at hr
          exact ⟨t, cs, b, r, by rw [hr.1], hc, (some_ok h4).symm⟩
        · exact (none_ok h2).elim
      · simp at h2
      · exact (none_ok h2).elim
    · exact (none_ok h2).elim
  · exact (none_ok h).elim

theorem cast_some {e e' : Expr} (h : castSimplify e = .ok (some e')) :
    ∃ t r, e = node (.tensor t) (e' :: r) ∧ t.isCast = true := by
  unfold castSimplify at h
  split at h
  · rename_i t as
    split at h
    · rename_i hc
      obtain ⟨a, h1, h2⟩ := bind_ok h
      obtain ⟨r, rfl⟩ := item_zero h1
      rw [some_ok h2]
      exact ⟨t, r, rfl, hc⟩
    · exact (none_ok h).elim
  · exact (none_ok h).elim

theorem onehot_some {e e' : Expr} (h : onehotSimplify e = .ok (some e')) :
    ∃ a b r, e = node .oneHot (a :: b :: r) ∧ e' = node .oneHot [a] := by
  unfold onehotSimplify at h
  split at h
  · rename_i as
    split at h
    · rename_i hl
      match as with
      | [] => simp at hl
      | [a] => simp at hl
      | a :: b :: r => exact ⟨a, b, r, rfl, (some_ok h).symm⟩
    · exact (none_ok h).elim
  · exact (none_ok h).elim

/-! ### Soundness -/

theorem sound_identityOp : RuleSound identityOpSimplify := by
  intro e e' h k hk hp
  obtain ⟨r, rfl⟩ := identityOp_some h
  rw [powOk_node (by trivial)] at hp
  refine ⟨hp e' (by simp), fun ρ hr pos ho => ?_⟩
  rw [ok_node (by simp)] at ho
  exact ⟨ho.2 e' (by simp), by rw [eval_node]; rfl⟩

theorem isPow2_two : IsPow2 1 2 := ⟨1, by norm_num, Or.inl (by norm_num)⟩
theorem isPow2_half : IsPow2 1 (1 / 2) := ⟨-1, by norm_num, Or.inl (by norm_num)⟩
theorem isPow2_neg : IsPow2 0 (-1) := ⟨0, by norm_num, Or.inr (by norm_num)⟩

theorem sound_powerOp : RuleSound powerOpSimplify := by
  intro e e' h k hk hp
  obtain ⟨hd, p, as, rfl, h1, rfl⟩ := powerOp_some h
  have hpow : ∀ (h' : Head) (hne : h' ≠ .pow ∧ ∀ t, h' ≠ .tensor t) (hne' : h' ≠ .log) (q : ℚ) (hf : ∀ pos, childFlag pos (.cpow q) = childFlag pos h')
      (hv : ∀ (ρ : Env) (vs : List ℝ), headVal ρ (.cpow q) vs = headVal ρ h' vs),
      ∀ ρ : Env, ρ.Regular → ∀ pos, Ok ρ pos (node h' as) →
        Ok ρ pos (node (.cpow q) as) ∧ eval ρ (node (.cpow q) as) = eval ρ (node h' as) := by
    intro h' hne hne' q hf hv ρ hr pos ho
    have he : eval ρ (node (.cpow q) as) = eval ρ (node h' as) := by rw [eval_node, eval_node, hv]
    rw [ok_node hne] at ho
    rw [ok_node (by simp), he, hf]
    exact ⟨⟨fun hpos => ⟨(ho.1 hpos).1, by simp⟩, ho.2⟩, rfl⟩
  cases hd <;> simp only [powerOp, Option.some.injEq, reduceCtorEq] at h1
  · subst h1
    simp only [PowOk, powOks_iff] at hp ⊢
    refine ⟨⟨1, hp.1, isPow2_two, hp.2⟩, hpow _ (by simp) (by simp) _ (fun pos => ?_) fun ρ vs => ?_⟩
    · cases pos <;> rfl
    · cases vs with
      | nil => rfl
      | cons a l => simp [headVal]
  · subst h1
    simp only [PowOk, powOks_iff] at hp ⊢
    refine ⟨⟨0, by omega, isPow2_neg, hp⟩, hpow _ (by simp) (by simp) _ (fun pos => ?_) fun ρ vs => ?_⟩
    · cases pos <;> rfl
    · cases vs with
      | nil => rfl
      | cons a l => simp [headVal, Real.rpow_neg_one]
  · subst h1
    simp only [PowOk, powOks_iff] at hp ⊢
    refine ⟨⟨1, hp.1, isPow2_half, hp.2⟩, hpow _ (by simp) (by simp) _ (fun pos => ?_) fun ρ vs => ?_⟩
    · cases pos <;> simp [childFlag]
    · cases vs with
      | nil => rfl
      | cons a l => simp [headVal, Real.sqrt_eq_rpow]

/-- The format is exact for signed powers of two up to seven. -/
theorem fmt4e_pow2 {k : ℕ} (hk : k ≤ 7) {p : ℚ} (hp : IsPow2 k p) : fmt4e p = p := by
  obtain ⟨j, hj, hp⟩ := hp
  have hj' := abs_le.mp hj
  have key : ∀ j ∈ (List.range 15).map (fun n : ℕ => (n : ℤ) - 7), fmt4e (2 ^ j) = 2 ^ j ∧ fmt4e (-2 ^ j) = -2 ^ j := by
    decide +kernel
  have := key j (by
    rw [List.mem_map]
    exact ⟨(j + 7).toNat, by rw [List.mem_range]; omega, by omega⟩)
  rcases hp with rfl | rfl
  exacts [this.1, this.2]

theorem Spec.IsPow2.mul {j k : ℕ} {p q : ℚ} (hp : IsPow2 j p) (hq : IsPow2 k q) : IsPow2 (j + k) (p * q) := by
  obtain ⟨a, ha, hp⟩ := hp
  obtain ⟨b, hb, hq⟩ := hq
  refine ⟨a + b, ?_, ?_⟩
  · push_cast
    exact (abs_add_le a b).trans (add_le_add ha hb)
  · have : (2 : ℚ) ^ (a + b) = 2 ^ a * 2 ^ b := zpow_add₀ (by norm_num) a b
    rw [this]
    rcases hp with rfl | rfl <;> rcases hq with rfl | rfl
    · left; ring
    · right; ring
    · right; ring
    · left; ring

theorem rpow_of_den_one {p : ℚ} (hp : p.den = 1) (a : ℝ) : a ^ (p : ℝ) = a ^ p.num := by
  have : (p : ℝ) = (p.num : ℝ) := by
    conv_lhs => rw [← Rat.num_div_den p, hp]
    simp
  rw [this, Real.rpow_intCast]

theorem den_mul_one {p q : ℚ} (hp : p.den = 1) (hq : q.den = 1) : (p * q).den = 1 := by
  have h1 := Rat.coe_int_num_of_den_eq_one hp
  have h2 := Rat.coe_int_num_of_den_eq_one hq
  rw [← h1, ← h2, ← Int.cast_mul]
  exact Rat.den_intCast _

theorem rpow_rpow_ok {p q : ℚ} {a : ℝ} (h : p.den ≠ 1 ∨ q.den ≠ 1 → 0 < a) :
    (a ^ (q : ℝ)) ^ (p : ℝ) = a ^ ((q * p : ℚ) : ℝ) := by
  by_cases hpos : 0 < a
  · rw [← Real.rpow_mul hpos.le, Rat.cast_mul]
  · have h1 : p.den = 1 := by by_contra hne; exact hpos (h (Or.inl hne))
    have h2 : q.den = 1 := by by_contra hne; exact hpos (h (Or.inr hne))
    rw [rpow_of_den_one h1, rpow_of_den_one h2, rpow_of_den_one (den_mul_one h2 h1), ← zpow_mul]
    congr 1
    have e1 := Rat.coe_int_num_of_den_eq_one h1
    have e2 := Rat.coe_int_num_of_den_eq_one h2
    have : ((q * p).num : ℚ) = (q.num * p.num : ℤ) := by
      rw [Rat.coe_int_num_of_den_eq_one (den_mul_one h2 h1)]
      push_cast
      rw [e1, e2]
    exact_mod_cast this.symm

theorem sound_pow : RuleSound (powSimplify fmt4e) := by
  intro e e' h k hk hp
  obtain ⟨p, q, a, r, r', rfl, he'⟩ := pow_some h
  rw [powOk_cpow] at hp
  obtain ⟨j, hj, hpp, hp⟩ := hp
  have hp1 := hp _ (List.mem_cons_self ..)
  rw [powOk_cpow] at hp1
  obtain ⟨i, hi, hqq, hp1⟩ := hp1
  have hpa := hp1 _ (List.mem_cons_self ..)
  have hfmt : fmt4e (q * p) = q * p := fmt4e_pow2 (k := i + j) (by omega) (hqq.mul hpp)
  have hev : ∀ ρ : Env, eval ρ (node (.cpow p) (node (.cpow q) (a :: r') :: r)) = (eval ρ a ^ (q : ℝ)) ^ (p : ℝ) := by
    intro ρ
    rw [eval_node]
    simp only [List.map_cons, headVal, eval_node]
  have hok : ∀ (ρ : Env) pos, Ok ρ pos (node (.cpow p) (node (.cpow q) (a :: r') :: r)) →
      Ok ρ ((pos || decide (p.den ≠ 1)) || decide (q.den ≠ 1)) a := by
    intro ρ pos ho
    rw [ok_node (by simp)] at ho
    have h1 := ho.2 _ (List.mem_cons_self ..)
    rw [ok_node (by simp)] at h1
    exact h1.2 _ (List.mem_cons_self ..)
  have hval : ∀ (ρ : Env) pos, Ok ρ pos (node (.cpow p) (node (.cpow q) (a :: r') :: r)) →
      (eval ρ a ^ (q : ℝ)) ^ (p : ℝ) = eval ρ a ^ ((q * p : ℚ) : ℝ) := by
    intro ρ pos ho
    apply rpow_rpow_ok
    intro hne
    have h1 := hok ρ pos ho
    have : ((pos || decide (p.den ≠ 1)) || decide (q.den ≠ 1)) = true := by
      rcases hne with h | h <;> simp [h]
    rw [this] at h1
    exact h1.pos
  rcases he' with ⟨h1, rfl⟩ | ⟨-, rfl⟩
  · refine ⟨PowOk.mono _ _ _ (by omega) hpa, fun ρ hr pos ho => ⟨?_, ?_⟩⟩
    · exact Ok.mono _ _ _ (fun h => by simp [h]) (hok ρ pos ho)
    · rw [hev, hval ρ pos ho, h1]
      simp
  · rw [hfmt, powOk_cpow]
    refine ⟨⟨i + j, by omega, hqq.mul hpp, ?_⟩, fun ρ hr pos ho => ?_⟩
    · intro b hb
      rw [List.mem_singleton] at hb
      subst hb
      exact PowOk.mono _ _ _ (by omega) hpa
    · have he : eval ρ (node (.cpow (q * p)) [a]) = eval ρ (node (.cpow p) (node (.cpow q) (a :: r') :: r)) := by
        rw [hev, hval ρ pos ho, eval_node]
        simp only [List.map_cons, headVal]
      refine ⟨?_, he⟩
      have ho1 := hok ρ pos ho
      rw [ok_node (by simp)] at ho
      rw [ok_node (by simp), he]
      refine ⟨fun hpos => ⟨(ho.1 hpos).1, by simp⟩, ?_⟩
      intro b hb
      rw [List.mem_singleton] at hb
      subst hb
      refine Ok.mono _ _ _ ?_ ho1
      simp only [childFlag, Bool.or_eq_true, decide_eq_true_eq]
      rintro (h | h)
      · exact Or.inl (Or.inl h)
      · by_contra hcon
        push Not at hcon
        exact h (den_mul_one hcon.2 hcon.1.2)

theorem ok_log_false {ρ : Env} {e : Expr} {r : List Expr} {pos : Bool} (h : Ok ρ pos (node .log (e :: r))) :
    pos = false ∧ Ok ρ true e := by
  rw [ok_node (by simp)] at h
  refine ⟨?_, h.2 e (by simp)⟩
  cases pos with
  | false => rfl
  | true => exact absurd rfl (h.1 rfl).2

theorem ok_false_node {ρ : Env} {h : Head} {as : List Expr} (hp : h ≠ .pow ∧ ∀ t, h ≠ .tensor t) :
    Ok ρ false (node h as) ↔ ∀ a ∈ as, Ok ρ (childFlag false h) a := by
  rw [ok_node hp]; simp

theorem sound_logPow : RuleSound logPowSimplify := by
  intro e e' h k hk hp
  rcases logPow_some h with ⟨p, a, r, r', rfl, rfl⟩ | ⟨a, b, r, r', rfl, rfl⟩
  · rw [powOk_node (by trivial)] at hp
    have h1 := hp _ (List.mem_cons_self ..)
    rw [powOk_cpow] at h1
    obtain ⟨j, hj, -, h1⟩ := h1
    have ha := PowOk.mono _ _ k (by omega) (h1 a (by simp))
    constructor
    · rw [powOk_node (by trivial)]
      intro b hb
      simp only [List.mem_cons, List.not_mem_nil, or_false] at hb
      rcases hb with rfl | rfl
      · rw [powOk_node (by trivial)]; simp
      · rw [powOk_node (by trivial)]; simpa using ha
    · intro ρ hr pos ho
      obtain ⟨rfl, ho'⟩ := ok_log_false ho
      clear ho
      rename' ho' => ho
      rw [ok_node (by simp)] at ho
      have hoa := ho.2 a (by simp)
      have hoa' : Ok ρ true a := hoa
      constructor
      · rw [ok_false_node (by simp)]
        intro b hb
        simp only [List.mem_cons, List.not_mem_nil, or_false] at hb
        rcases hb with rfl | rfl
        · rw [ok_node (by simp)]; simp [childFlag]
        · show Ok ρ false _; rw [ok_false_node (by simp)]; simpa [childFlag] using hoa'
      · simp only [eval_node, List.map_cons, List.map_nil, headVal, List.prod_cons, List.prod_nil, mul_one]
        rw [Real.log_rpow hoa'.pos]
  · rw [powOk_node (by trivial)] at hp
    have h1 := hp _ (List.mem_cons_self ..)
    rw [powOk_node (by trivial)] at h1
    constructor
    · rw [powOk_node (by trivial)]
      intro c hc
      simp only [List.mem_cons, List.not_mem_nil, or_false] at hc
      rcases hc with rfl | rfl
      · exact h1 _ (by simp)
      · rw [powOk_node (by trivial)]; simpa using h1 a (by simp)
    · intro ρ hr pos ho
      obtain ⟨rfl, ho'⟩ := ok_log_false ho
      clear ho
      rename' ho' => ho
      rw [ok_pow] at ho
      constructor
      · rw [ok_false_node (by simp)]
        intro c hc
        simp only [List.mem_cons, List.not_mem_nil, or_false] at hc
        rcases hc with rfl | rfl
        · exact ho.2.2.2 _ (by simp)
        · show Ok ρ false _; rw [ok_false_node (by simp)]; simpa [childFlag] using ho.2.2.1
      · simp only [eval_node, List.map_cons, List.map_nil, headVal, List.prod_cons, List.prod_nil, mul_one]
        rw [Real.log_rpow ho.2.2.1.pos]

theorem sound_logMul : RuleSound logMulSimplify := by
  intro e e' h k hk hp
  obtain ⟨bs, r, rfl, rfl⟩ := logMul_some h
  rw [powOk_node (by trivial)] at hp
  have h1 := hp _ (List.mem_cons_self ..)
  rw [powOk_node (by trivial)] at h1
  constructor
  · rw [powOk_node (by trivial)]
    intro c hc
    obtain ⟨b, hb, rfl⟩ := List.mem_map.mp hc
    rw [powOk_node (by trivial)]
    simpa using h1 b hb
  · intro ρ hr pos ho
    obtain ⟨rfl, ho'⟩ := ok_log_false ho
    clear ho
    rename' ho' => ho
    rw [ok_node (by simp)] at ho
    have hall : ∀ b ∈ bs, Ok ρ true b := ho.2
    constructor
    · rw [ok_false_node (by simp)]
      intro c hc
      obtain ⟨b, hb, rfl⟩ := List.mem_map.mp hc
      show Ok ρ false _
      rw [ok_false_node (by simp)]
      simpa [childFlag] using hall b hb
    · simp only [eval_node, List.map_cons, headVal, List.map_map]
      clear h h1 hp ho
      induction bs with
      | nil => simp
      | cons b bs ih =>
        have hb := (hall b (by simp)).pos
        have ih' := ih fun c hc => hall c (by simp [hc])
        have hprod : (bs.map (eval ρ)).prod ≠ 0 := by
          intro h0
          rw [List.prod_eq_zero_iff] at h0
          obtain ⟨c, hc, hc0⟩ := List.mem_map.mp h0
          exact (hall c (by simp [hc])).pos.ne' hc0
        simp only [List.map_cons, List.sum_cons, List.prod_cons, Function.comp_apply]
        rw [Real.log_mul hb.ne' hprod, ← ih']
        simp [eval_node, headVal]

theorem eval_mul (ρ : Env) (l : List Expr) : eval ρ (node .mul l) = (l.map (eval ρ)).prod := by
  rw [eval_node]; rfl

theorem eval_add (ρ : Env) (l : List Expr) : eval ρ (node .add l) = (l.map (eval ρ)).sum := by
  rw [eval_node]; rfl

theorem ok_mul {ρ : Env} {l : List Expr} {pos : Bool} : Ok ρ pos (node .mul l) ↔ ∀ a ∈ l, Ok ρ pos a := by
  rw [ok_node (by simp)]
  refine ⟨fun h => h.2, fun h => ⟨?_, h⟩⟩
  rintro rfl
  refine ⟨?_, by simp⟩
  rw [eval_mul]
  apply List.prod_pos
  intro v hv
  obtain ⟨a, ha, rfl⟩ := List.mem_map.mp hv
  exact (h a ha).pos

theorem ok_add_of {ρ : Env} {l : List Expr} {pos : Bool} (h : ∀ a ∈ l, Ok ρ pos a)
    (hp : pos = true → 0 < eval ρ (node .add l)) : Ok ρ pos (node .add l) := by
  rw [ok_node (by simp)]
  exact ⟨fun hpos => ⟨hp hpos, by simp⟩, h⟩

theorem ok_add_args {ρ : Env} {l : List Expr} {pos : Bool} (h : Ok ρ pos (node .add l)) : ∀ a ∈ l, Ok ρ pos a := by
  rw [ok_node (by simp)] at h
  exact h.2

theorem Spec.Ok.pos' {ρ : Env} {e : Expr} {pos : Bool} (h : Ok ρ pos e) (hpos : pos = true) : 0 < eval ρ e := by
  subst hpos; exact h.pos

theorem rpow_prod (l : List ℝ) (p : ℚ) (h : p.den ≠ 1 → ∀ a ∈ l, 0 < a) :
    l.prod ^ (p : ℝ) = (l.map fun a => a ^ (p : ℝ)).prod := by
  induction l with
  | nil => simp
  | cons a l ih =>
    have ih' := ih fun hp b hb => h hp b (by simp [hb])
    simp only [List.prod_cons, List.map_cons]
    rw [← ih']
    by_cases hp : p.den = 1
    · rw [rpow_of_den_one hp, rpow_of_den_one hp, rpow_of_den_one hp, mul_zpow]
    · refine Real.mul_rpow (h hp a (by simp)).le (List.prod_nonneg fun b hb => (h hp b (by simp [hb])).le)

theorem sound_powMul : RuleSound powMulSimplify := by
  intro e e' h k hk hp
  rcases powMul_some h with ⟨p, bs, r, rfl, rfl⟩ | ⟨bs, b, r, rfl, rfl⟩ | ⟨r, rfl, rfl⟩
  · rw [powOk_cpow] at hp
    obtain ⟨j, hj, hpp, hp⟩ := hp
    have h1 := hp _ (List.mem_cons_self ..)
    rw [powOk_node (by trivial)] at h1
    constructor
    · rw [powOk_node (by trivial)]
      intro c hc
      obtain ⟨b, hb, rfl⟩ := List.mem_map.mp hc
      rw [powOk_cpow]
      exact ⟨j, hj, hpp, by simpa using h1 b hb⟩
    · intro ρ hr pos ho
      have ho0 := ho
      rw [ok_node (by simp)] at ho
      have ho1 := ho.2 _ (List.mem_cons_self ..)
      rw [ok_mul] at ho1
      have he : eval ρ (node .mul (bs.map fun i => node (.cpow p) [i])) =
          eval ρ (node (.cpow p) (node .mul bs :: r)) := by
        rw [eval_mul, List.map_map, eval_node]
        simp only [List.map_cons, headVal, eval_mul]
        rw [rpow_prod, List.map_map]
        · congr 1
        · intro hden v hv
          obtain ⟨b, hb, rfl⟩ := List.mem_map.mp hv
          exact (ho1 b hb).pos' (by simp [childFlag, hden])
      refine ⟨?_, he⟩
      rw [ok_mul]
      intro c hc
      obtain ⟨b, hb, rfl⟩ := List.mem_map.mp hc
      rw [ok_node (by simp)]
      refine ⟨fun hpos => ⟨?_, by simp⟩, by simpa using ho1 b hb⟩
      have := (ho1 b hb).pos' (by simp [childFlag, hpos])
      rw [eval_node]
      exact Real.rpow_pos_of_pos this _
  · rw [powOk_node (by trivial)] at hp
    have h1 := hp _ (List.mem_cons_self ..)
    rw [powOk_node (by trivial)] at h1
    constructor
    · rw [powOk_node (by trivial)]
      intro c hc
      obtain ⟨i, hi, rfl⟩ := List.mem_map.mp hc
      rw [powOk_node (by trivial)]
      intro d hd
      simp only [List.mem_cons, List.not_mem_nil, or_false] at hd
      rcases hd with rfl | rfl
      · exact h1 _ hi
      · exact hp _ (by simp)
    · intro ρ hr pos ho
      rw [ok_pow, ok_mul] at ho
      obtain ⟨-, -, ho1, ho2⟩ := ho
      constructor
      · rw [ok_mul]
        intro c hc
        obtain ⟨i, hi, rfl⟩ := List.mem_map.mp hc
        rw [ok_pow]
        refine ⟨fun _ => ?_, by simp, ho1 i hi, by simpa using ho2 b (by simp)⟩
        rw [eval_node]
        exact Real.rpow_pos_of_pos (ho1 i hi).pos _
      · rw [eval_mul, List.map_map, eval_node]
        simp only [List.map_cons, headVal, eval_mul]
        clear h h1 hp
        induction bs with
        | nil => simp
        | cons i bs ih =>
          have ih' := ih fun c hc => ho1 c (by simp [hc])
          simp only [List.map_cons, List.prod_cons, Function.comp_apply]
          rw [ih', Real.mul_rpow (ho1 i (by simp)).pos.le]
          · simp [eval_node, headVal]
          · apply List.prod_nonneg
            intro v hv
            obtain ⟨c, hc, rfl⟩ := List.mem_map.mp hv
            exact (ho1 c (by simp [hc])).pos.le
  · constructor
    · rw [powOk_node (by trivial)]; simp
    · intro ρ hr pos ho
      rw [ok_pow] at ho
      constructor
      · rw [ok_mul]; simp
      · obtain ⟨-, hne, -⟩ := ho
        match r with
        | [] => simp at hne
        | b :: r => simp [eval_node, headVal]

theorem sum_map_mul_left' (l : List ℝ) (c : ℝ) : (l.map fun v => c * v).sum = c * l.sum := by
  induction l with
  | nil => simp
  | cons a l ih => simp [ih, mul_add]

theorem sound_mulAdd : RuleSound mulAddSimplify := by
  intro e e' h k hk hp
  obtain ⟨l, bs, r, rfl, -, rfl⟩ := mulAdd_some h
  rw [powOk_node (by trivial)] at hp
  have h1 := hp (node .add bs) (by simp)
  rw [powOk_node (by trivial)] at h1
  constructor
  · rw [powOk_node (by trivial)]
    intro c hc
    obtain ⟨j, hj, rfl⟩ := List.mem_map.mp hc
    rw [powOk_node (by trivial)]
    intro d hd
    simp only [List.mem_append, List.mem_singleton] at hd
    rcases hd with (hd | hd) | rfl
    · exact hp d (by simp [hd])
    · exact hp d (by simp [hd])
    · exact h1 _ hj
  · intro ρ hr pos ho
    have hpos := fun h => ho.pos' h
    rw [ok_mul] at ho
    have h2 := ok_add_args (ho (node .add bs) (by simp))
    have he : eval ρ (node .add (bs.map fun j => node .mul (l ++ r ++ [j]))) =
        eval ρ (node .mul (l ++ node .add bs :: r)) := by
      rw [eval_mul, eval_add, List.map_map]
      simp only [List.map_append, List.map_cons, List.prod_append, List.prod_cons, eval_add]
      have : (eval ρ ∘ fun j => node .mul (l ++ r ++ [j])) =
          fun j => ((l.map (eval ρ)).prod * (r.map (eval ρ)).prod) * eval ρ j := by
        funext j
        simp [eval_mul, mul_assoc]
      rw [this]
      have h3 := sum_map_mul_left' (bs.map (eval ρ)) ((l.map (eval ρ)).prod * (r.map (eval ρ)).prod)
      rw [List.map_map] at h3
      rw [show (fun j => ((l.map (eval ρ)).prod * (r.map (eval ρ)).prod) * eval ρ j) =
        ((fun v => ((l.map (eval ρ)).prod * (r.map (eval ρ)).prod) * v) ∘ eval ρ) from rfl, h3]
      ring
    refine ⟨ok_add_of ?_ fun h => he ▸ hpos h, he⟩
    intro c hc
    obtain ⟨j, hj, rfl⟩ := List.mem_map.mp hc
    rw [ok_mul]
    intro d hd
    simp only [List.mem_append, List.mem_singleton] at hd
    rcases hd with (hd | hd) | rfl
    · exact ho d (by simp [hd])
    · exact ho d (by simp [hd])
    · exact h2 _ hj

theorem mem_flatten {op : Head} {as : List Expr} {c : Expr} (h : c ∈ flatten op as) :
    c ∈ as ∨ ∃ bs, node op bs ∈ as ∧ c ∈ bs := by
  unfold flatten at h
  obtain ⟨i, hi, hc⟩ := List.mem_flatMap.mp h
  obtain ⟨hd, bs⟩ := i
  by_cases hh : (node hd bs).head = op
  · rw [if_pos hh] at hc
    simp only [head_node] at hh
    simp only [args_node] at hc
    subst hh
    exact Or.inr ⟨bs, hi, hc⟩
  · rw [if_neg hh] at hc
    rw [List.mem_singleton] at hc
    subst hc
    exact Or.inl hi

theorem sound_commutative {op : Head} (hop : op = .add ∨ op = .mul) : RuleSound (commutativeSimplify op) := by
  intro e e' h k hk hp
  obtain ⟨as, rfl, -, rfl⟩ := commutative_some h
  have hnp : NoPower op := by rcases hop with rfl | rfl <;> trivial
  have hne : op ≠ .pow ∧ ∀ t, op ≠ .tensor t := by rcases hop with rfl | rfl <;> simp
  have hnl : op ≠ .log := by rcases hop with rfl | rfl <;> simp
  have hcf : ∀ pos, childFlag pos op = pos := by rcases hop with rfl | rfl <;> simp [childFlag]
  rw [powOk_node hnp] at hp
  constructor
  · rw [powOk_node hnp]
    intro c hc
    rcases mem_flatten hc with hc | ⟨bs, h1, h2⟩
    · exact hp c hc
    · have := hp _ h1
      rw [powOk_node hnp] at this
      exact this c h2
  · intro ρ hr pos ho
    have he : eval ρ (node op (flatten op as)) = eval ρ (node op as) := by
      clear h hp ho
      rcases hop with rfl | rfl
      · rw [eval_add, eval_add]
        induction as with
        | nil => simp [flatten]
        | cons a as ih =>
          rw [flatten, List.flatMap_cons, List.map_append, List.sum_append, ← flatten, ih, List.map_cons, List.sum_cons]
          congr 1
          obtain ⟨hd, bs⟩ := a
          by_cases hh : (node hd bs).head = .add
          · rw [if_pos hh]
            simp only [head_node] at hh
            simp only [args_node]
            subst hh
            rw [eval_add]
          · rw [if_neg hh]
            simp
      · rw [eval_mul, eval_mul]
        induction as with
        | nil => simp [flatten]
        | cons a as ih =>
          rw [flatten, List.flatMap_cons, List.map_append, List.prod_append, ← flatten, ih, List.map_cons, List.prod_cons]
          congr 1
          obtain ⟨hd, bs⟩ := a
          by_cases hh : (node hd bs).head = .mul
          · rw [if_pos hh]
            simp only [head_node] at hh
            simp only [args_node]
            subst hh
            rw [eval_mul]
          · rw [if_neg hh]
            simp
    refine ⟨?_, he⟩
    rw [ok_node hne] at ho ⊢
    rw [he]
    refine ⟨ho.1, fun c hc => ?_⟩
    rcases mem_flatten hc with hc | ⟨bs, h1, h2⟩
    · exact ho.2 c hc
    · have := ho.2 _ h1
      rw [ok_node hne, hcf, hcf] at this
      rw [hcf]
      exact this.2 c h2

theorem eval_num (ρ : Env) (c : ℚ) (as : List Expr) : eval ρ (node (.num c) as) = c := by
  rw [eval_node]; rfl

theorem eval_of_head_num {ρ : Env} {e : Expr} {c : ℚ} (h : e.head = .num c) : eval ρ e = c := by
  obtain ⟨hd, as⟩ := e
  simp only [head_node] at h
  subst h
  exact eval_num ρ c as

theorem sum_filter_zero (ρ : Env) (as : List Expr) :
    ((as.filter fun i => i.head ≠ .num 0).map (eval ρ)).sum = (as.map (eval ρ)).sum := by
  induction as with
  | nil => rfl
  | cons a as ih =>
    by_cases h : a.head = .num 0
    · simp only [List.filter_cons, h, ne_eq, not_true_eq_false, decide_false, List.map_cons, List.sum_cons,
        eval_of_head_num h] at ih ⊢
      simpa using ih
    · simp only [List.filter_cons, h, ne_eq, not_false_eq_true, decide_true, List.map_cons, List.sum_cons, if_true] at ih ⊢
      rw [ih]

theorem prod_filter_one (ρ : Env) (as : List Expr) :
    ((as.filter fun i => i.head ≠ .num 1).map (eval ρ)).prod = (as.map (eval ρ)).prod := by
  induction as with
  | nil => rfl
  | cons a as ih =>
    by_cases h : a.head = .num 1
    · simp only [List.filter_cons, h, ne_eq, not_true_eq_false, decide_false, List.map_cons, List.prod_cons,
        eval_of_head_num h] at ih ⊢
      simpa using ih
    · simp only [List.filter_cons, h, ne_eq, not_false_eq_true, decide_true, List.map_cons, List.prod_cons, if_true] at ih ⊢
      rw [ih]

theorem sound_mulOne : RuleSound mulOneSimplify := by
  intro e e' h0 k hk hp
  obtain ⟨hd, as⟩ := e
  obtain ⟨hh, h⟩ := identitySimplify_some h0
  subst hh
  clear h0
  rw [powOk_node (by trivial)] at hp
  rcases h with rfl | ⟨-, rfl | h⟩
  · refine ⟨hp _ (by simp), fun ρ hr pos ho => ?_⟩
    rw [ok_mul] at ho
    exact ⟨ho _ (by simp), by simp [eval_mul]⟩
  · refine ⟨?_, fun ρ hr pos ho => ?_⟩
    · rw [powOk_node (by trivial)]
      exact fun c hc => hp c (List.mem_of_mem_filter hc)
    · rw [ok_mul] at ho ⊢
      exact ⟨fun c hc => ho c (List.mem_of_mem_filter hc), by rw [eval_mul, eval_mul, prod_filter_one]⟩
  · have hmem : e' ∈ as := List.mem_of_mem_filter (by rw [h]; simp)
    refine ⟨hp _ hmem, fun ρ hr pos ho => ?_⟩
    rw [ok_mul] at ho
    refine ⟨ho _ hmem, ?_⟩
    rw [eval_mul, ← prod_filter_one, h]
    simp

theorem sound_addZero : RuleSound addZeroSimplify := by
  intro e e' h0 k hk hp
  obtain ⟨hd, as⟩ := e
  obtain ⟨hh, h⟩ := identitySimplify_some h0
  subst hh
  clear h0
  rw [powOk_node (by trivial)] at hp
  rcases h with rfl | ⟨-, rfl | h⟩
  · refine ⟨hp _ (by simp), fun ρ hr pos ho => ?_⟩
    exact ⟨ok_add_args ho _ (by simp), by simp [eval_add]⟩
  · refine ⟨?_, fun ρ hr pos ho => ?_⟩
    · rw [powOk_node (by trivial)]
      exact fun c hc => hp c (List.mem_of_mem_filter hc)
    · have he : eval ρ (node .add (as.filter fun i => i.head ≠ .num 0)) = eval ρ (node .add as) := by
        rw [eval_add, eval_add, sum_filter_zero]
      exact ⟨ok_add_of (fun c hc => ok_add_args ho c (List.mem_of_mem_filter hc)) fun hpos => he ▸ ho.pos' hpos, he⟩
  · have hmem : e' ∈ as := List.mem_of_mem_filter (by rw [h]; simp)
    refine ⟨hp _ hmem, fun ρ hr pos ho => ⟨ok_add_args ho _ hmem, ?_⟩⟩
    rw [eval_add, ← sum_filter_zero, h]
    simp

theorem powOk_num (k : ℕ) (c : ℚ) : PowOk k (num c) := by rw [powOk_node (by trivial)]; simp

theorem ok_num (ρ : Env) (pos : Bool) (c : ℚ) (hc : pos = true → 0 < c) : Ok ρ pos (num c) := by
  rw [ok_node (by simp), eval_num]
  exact ⟨fun h => ⟨by exact_mod_cast hc h, by simp⟩, by simp⟩

theorem sound_mulZero : RuleSound mulZeroSimplify := by
  intro e e' h k hk hp
  obtain ⟨as, rfl, hany, rfl⟩ := mulZero_some h
  refine ⟨powOk_num _ _, fun ρ hr pos ho => ?_⟩
  have h0 : eval ρ (node .mul as) = 0 := by
    rw [eval_mul]
    apply List.prod_eq_zero
    obtain ⟨i, hi, hi0⟩ := List.any_eq_true.mp hany
    exact List.mem_map.mpr ⟨i, hi, by simpa using eval_of_head_num (ρ := ρ) (of_decide_eq_true hi0)⟩
  refine ⟨ok_num _ _ _ fun hpos => ?_, by rw [h0, eval_num]; simp⟩
  have := ho.pos' hpos
  rw [h0] at this
  exact absurd this (lt_irrefl 0)

theorem mem_squareTerms {as : List Expr} {c : Expr} (h : c ∈ squareTerms as) :
    (∃ a ∈ as, c = node (.cpow 2) [a]) ∨ ∃ a ∈ as, ∃ b ∈ as, c = node .mul [num 2, a, b] := by
  induction as with
  | nil => simp [squareTerms] at h
  | cons a as ih =>
    simp only [squareTerms, List.cons_append, List.mem_cons, List.mem_append, List.mem_map] at h
    rcases h with rfl | ⟨b, hb, rfl⟩ | h
    · exact Or.inl ⟨a, by simp, rfl⟩
    · exact Or.inr ⟨a, by simp, b, by simp [hb], rfl⟩
    · rcases ih h with ⟨c, hc, rfl⟩ | ⟨c, hc, d, hd, rfl⟩
      · exact Or.inl ⟨c, by simp [hc], rfl⟩
      · exact Or.inr ⟨c, by simp [hc], d, by simp [hd], rfl⟩

theorem eval_squareTerms (ρ : Env) (as : List Expr) :
    ((squareTerms as).map (eval ρ)).sum = (as.map (eval ρ)).sum ^ 2 := by
  induction as with
  | nil => simp [squareTerms]
  | cons a as ih =>
    simp only [squareTerms, List.cons_append, List.map_cons, List.map_append, List.sum_cons, List.sum_append, ih,
      List.map_map]
    have h1 : eval ρ (node (.cpow 2) [a]) = eval ρ a ^ 2 := by
      simp [eval_node, headVal]
    have h2 : (eval ρ ∘ fun b => node .mul [num 2, a, b]) = fun b => (2 * eval ρ a) * eval ρ b := by
      funext b
      simp [eval_mul, eval_num, mul_assoc]
    have h3 := sum_map_mul_left' (as.map (eval ρ)) (2 * eval ρ a)
    rw [List.map_map] at h3
    rw [h1, h2, show (fun b => (2 * eval ρ a) * eval ρ b) = ((fun v => (2 * eval ρ a) * v) ∘ eval ρ) from rfl, h3]
    ring

theorem sound_squareAdd : RuleSound squareAddSimplify := by
  intro e e' h k hk hp
  obtain ⟨bs, r, rfl, rfl⟩ := squareAdd_some h
  rw [powOk_cpow] at hp
  obtain ⟨j, hj, hpp, hp⟩ := hp
  have h1 := hp _ (List.mem_cons_self ..)
  rw [powOk_node (by trivial)] at h1
  constructor
  · rw [powOk_node (by trivial)]
    intro c hc
    rcases mem_squareTerms hc with ⟨a, ha, rfl⟩ | ⟨a, ha, b, hb, rfl⟩
    · rw [powOk_cpow]
      exact ⟨j, hj, hpp, by simpa using h1 a ha⟩
    · rw [powOk_node (by trivial)]
      intro d hd
      simp only [List.mem_cons, List.not_mem_nil, or_false] at hd
      rcases hd with rfl | rfl | rfl
      · exact powOk_num _ _
      · exact PowOk.mono _ _ _ (by omega) (h1 _ ha)
      · exact PowOk.mono _ _ _ (by omega) (h1 _ hb)
  · intro ρ hr pos ho
    have hpos := fun h => ho.pos' h
    rw [ok_node (by simp)] at ho
    have h2 := ok_add_args (ho.2 _ (List.mem_cons_self ..))
    have hcf : childFlag pos (.cpow 2) = pos := by cases pos <;> rfl
    rw [hcf] at h2
    have he : eval ρ (node .add (squareTerms bs)) = eval ρ (node (.cpow 2) (node .add bs :: r)) := by
      rw [eval_add, eval_squareTerms, eval_node]
      simp [headVal, eval_add]
    refine ⟨ok_add_of (fun c hc => ?_) fun h => he ▸ hpos h, he⟩
    rcases mem_squareTerms hc with ⟨a, ha, rfl⟩ | ⟨a, ha, b, hb, rfl⟩
    · rw [ok_node (by simp), hcf]
      refine ⟨fun h => ⟨?_, by simp⟩, by simpa using h2 a ha⟩
      rw [eval_node]
      exact Real.rpow_pos_of_pos ((h2 a ha).pos' h) _
    · rw [ok_mul]
      intro d hd
      simp only [List.mem_cons, List.not_mem_nil, or_false] at hd
      rcases hd with rfl | rfl | rfl
      · exact ok_num _ _ _ fun _ => by norm_num
      · exact h2 _ ha
      · exact h2 _ hb

theorem sound_oneM : RuleSound oneMSimplify := by
  intro e e' h k hk hp
  obtain ⟨t, as, b, r, rfl, hc, rfl⟩ := oneM_some h
  rw [powOk_node (by trivial)] at hp
  refine ⟨?_, fun ρ hr pos ho => ?_⟩
  · rw [powOk_node (by trivial)]
    simpa using hp b (by simp)
  · rw [ok_node (by simp)] at ho
    have h1 := ho.2 (node (.tensor t) as) (by simp)
    rw [ok_tensor] at h1
    have he : eval ρ (node .oneMinus [b]) = eval ρ (node .sub (node (.tensor t) as :: b :: r)) := by
      rw [eval_node, eval_node]
      simp only [List.map_cons, List.map_nil, headVal]
      rw [h1.2.1 1 hc]
      simp
    refine ⟨?_, he⟩
    rw [ok_node (by simp), he]
    exact ⟨fun h => ⟨(ho.1 h).1, by simp⟩, by simpa [childFlag] using ho.2 b (by simp)⟩

theorem sound_cast : RuleSound castSimplify := by
  intro e e' h k hk hp
  obtain ⟨t, r, rfl, hc⟩ := cast_some h
  rw [powOk_node (by trivial)] at hp
  refine ⟨hp e' (by simp), fun ρ hr pos ho => ?_⟩
  rw [ok_tensor] at ho
  have := ho.2.2 e' (by simp)
  rw [hc, Bool.true_and] at this
  exact ⟨this, by rw [eval_node]; simp only [List.map_cons, headVal]; rw [hr.cast t hc]⟩

theorem sound_onehot : RuleSound onehotSimplify := by
  intro e e' h k hk hp
  obtain ⟨a, b, r, rfl, rfl⟩ := onehot_some h
  rw [powOk_node (by trivial)] at hp
  refine ⟨?_, fun ρ hr pos ho => ?_⟩
  · rw [powOk_node (by trivial)]
    simpa using hp a (by simp)
  · have he : eval ρ (node .oneHot [a]) = eval ρ (node .oneHot (a :: b :: r)) := by
      rw [eval_node, eval_node]
      simp only [List.map_cons, List.map_nil, headVal]
      exact (hr.oneHot _ _).symm
    refine ⟨?_, he⟩
    rw [ok_node (by simp)] at ho
    rw [ok_node (by simp), he]
    exact ⟨ho.1, by simpa using ho.2 a (by simp)⟩

/-- Every registered rule except `add_const_simplify`. -/
theorem simplifyFns_sound {fn : Rule} (h : fn ∈ simplifyFns fmt4e) : fn = addConstSimplify ∨ RuleSound fn := by
  simp only [simplifyFns, List.mem_cons, List.not_mem_nil, or_false] at h
  rcases h with rfl | rfl | rfl | rfl | rfl | rfl | rfl | rfl | rfl | rfl | rfl | rfl | rfl | rfl | rfl | rfl | rfl
  exacts [.inr sound_identityOp, .inr sound_powerOp, .inr sound_pow, .inr sound_logPow, .inr sound_logMul,
    .inr sound_powMul, .inr sound_mulAdd, .inr (sound_commutative (.inl rfl)), .inr (sound_commutative (.inr rfl)),
    .inr sound_mulOne, .inr sound_addZero, .inr sound_mulZero, .inr sound_squareAdd, .inl rfl, .inr sound_oneM,
    .inr sound_cast, .inr sound_onehot]

end Edward
