/-
Termination of the simplifier: a weight on expressions that every rule decreases.
-/
import Mathlib.Algebra.BigOperators.Group.List.Basic
import Mathlib.Algebra.Order.BigOperators.Group.List
import Mathlib.Tactic.Linarith
import Mathlib.Tactic.Positivity
import Mathlib.Tactic.Ring
import Verif.Model.Simplify

set_option linter.unusedSectionVars false

namespace Edward

open Expr

/-- The weight of an expression from its head and the weights of its arguments. -/
def headWeight : Head → List ℕ → ℕ
  | .mul, ws => 2 * ws.prod
  | .cpow _, ws => (max 2 ws.sum) ^ 3
  | .square, ws => (max 2 ws.sum) ^ 3 + 1
  | .reciprocal, ws => (max 2 ws.sum) ^ 3 + 1
  | .sqrt, ws => (max 2 ws.sum) ^ 3 + 1
  | .log, ws => (max 2 ws.sum) ^ 2
  | .pow, [] => 2
  | .pow, a :: r => a ^ (r.sum + 2)
  | _, ws => ws.sum + 2

mutual
/-- The termination measure. -/
def weight : Expr → ℕ
  | node h as => headWeight h (weights as)
def weights : List Expr → List ℕ
  | [] => []
  | a :: as => weight a :: weights as
end

theorem weights_eq (l : List Expr) : weights l = l.map weight := by
  induction l with
  | nil => simp [weights]
  | cons a l ih => simp [weights, ih]

theorem weight_node (h : Head) (as : List Expr) : weight (node h as) = headWeight h (as.map weight) := by
  rw [weight, weights_eq]

theorem prod_ge_one (ws : List ℕ) (h : ∀ w ∈ ws, 2 ≤ w) : 1 ≤ ws.prod := by
  induction ws with
  | nil => simp
  | cons a ws ih =>
    have h1 := h a (by simp)
    have h2 := ih fun w hw => h w (by simp [hw])
    rw [List.prod_cons]
    nlinarith

theorem sum_ge_two (ws : List ℕ) (h : ∀ w ∈ ws, 2 ≤ w) (hne : ws ≠ []) : 2 ≤ ws.sum := by
  cases ws with
  | nil => exact absurd rfl hne
  | cons a ws =>
    have h1 := h a (by simp)
    rw [List.sum_cons]
    omega

theorem headWeight_ge (h : Head) (ws : List ℕ) (hw : ∀ w ∈ ws, 2 ≤ w) : 2 ≤ headWeight h ws := by
  have h8 : ∀ n : ℕ, 2 ≤ (max 2 n) ^ 3 := fun n => by
    have : 2 ≤ max 2 n := le_max_left _ _
    nlinarith [pow_le_pow_left₀ (by norm_num) this 3]
  have h4 : ∀ n : ℕ, 2 ≤ (max 2 n) ^ 2 := fun n => by
    have : 2 ≤ max 2 n := le_max_left _ _
    nlinarith
  cases h with
  | mul => have := prod_ge_one ws hw; simp only [headWeight]; omega
  | cpow p => exact h8 _
  | square => have := h8 ws.sum; simp only [headWeight]; omega
  | reciprocal => have := h8 ws.sum; simp only [headWeight]; omega
  | sqrt => have := h8 ws.sum; simp only [headWeight]; omega
  | log => exact h4 _
  | pow =>
    cases ws with
    | nil => simp [headWeight]
    | cons a r =>
      have ha := hw a (by simp)
      simp only [headWeight]
      calc 2 ≤ a := ha
        _ = a ^ 1 := (pow_one a).symm
        _ ≤ a ^ (r.sum + 2) := Nat.pow_le_pow_right (by omega) (by omega)
  | _ => simp [headWeight]

mutual
theorem weight_ge : ∀ e : Expr, 2 ≤ weight e
  | node h as => by
    rw [weight]
    exact headWeight_ge h _ (weights_ge as)
theorem weights_ge : ∀ as : List Expr, ∀ w ∈ weights as, 2 ≤ w
  | [] => by simp [weights]
  | a :: as => by
    intro w hw
    rw [weights, List.mem_cons] at hw
    rcases hw with rfl | hw
    · exact weight_ge a
    · exact weights_ge as w hw
end

theorem weight_map_ge (l : List Expr) : ∀ w ∈ l.map weight, 2 ≤ w := by
  rw [← weights_eq]; exact weights_ge l

/-- Arguments of smaller weight: pointwise at most, and less in total. -/
structure ArgsLT (ws ws' : List ℕ) : Prop where
  le : List.Forall₂ (· ≤ ·) ws ws'
  lt : ws.sum < ws'.sum

theorem forall₂_sum_le {ws ws' : List ℕ} (h : List.Forall₂ (· ≤ ·) ws ws') : ws.sum ≤ ws'.sum := by
  induction h with
  | nil => simp
  | cons h _ ih => simp only [List.sum_cons]; omega

theorem forall₂_prod_le {ws ws' : List ℕ} (h : List.Forall₂ (· ≤ ·) ws ws') : ws.prod ≤ ws'.prod := by
  induction h with
  | nil => simp
  | cons h _ ih => simp only [List.prod_cons]; exact Nat.mul_le_mul h ih

theorem argsLT_prod {ws ws' : List ℕ} (h : ArgsLT ws ws') (h2 : ∀ w ∈ ws, 2 ≤ w) : ws.prod < ws'.prod := by
  obtain ⟨hle, hlt⟩ := h
  induction hle with
  | nil => simp at hlt
  | @cons a b ws ws' hab hle ih =>
    simp only [List.sum_cons] at hlt
    simp only [List.prod_cons]
    have h2' : ∀ w ∈ ws, 2 ≤ w := fun w hw => h2 w (by simp [hw])
    have ha : 2 ≤ a := h2 a (by simp)
    have hp := prod_ge_one ws h2'
    have hp' := forall₂_prod_le hle
    rcases hab.lt_or_eq with h1 | h1
    · calc a * ws.prod < b * ws.prod := Nat.mul_lt_mul_of_pos_right h1 (by omega)
        _ ≤ b * ws'.prod := Nat.mul_le_mul_left _ hp'
    · subst h1
      exact Nat.mul_lt_mul_of_pos_left (ih h2' (by omega)) (by omega)

theorem headWeight_lt (h : Head) {ws ws' : List ℕ} (hlt : ArgsLT ws ws') (h2 : ∀ w ∈ ws, 2 ≤ w) :
    headWeight h ws < headWeight h ws' := by
  have hs := hlt.lt
  have hmax : max 2 ws.sum < max 2 ws'.sum := by
    cases ws with
    | nil =>
      have := hlt.le
      cases this
      simp at hs
    | cons a ws =>
      have := sum_ge_two (a :: ws) h2 (by simp)
      rw [max_eq_right this, max_eq_right (this.trans hs.le)]
      exact hs
  have h3 : (max 2 ws.sum) ^ 3 < (max 2 ws'.sum) ^ 3 := Nat.pow_lt_pow_left hmax (by norm_num)
  have h22 : (max 2 ws.sum) ^ 2 < (max 2 ws'.sum) ^ 2 := Nat.pow_lt_pow_left hmax (by norm_num)
  cases h with
  | mul => have := argsLT_prod hlt h2; simp only [headWeight]; omega
  | cpow p => exact h3
  | square => simp only [headWeight]; omega
  | reciprocal => simp only [headWeight]; omega
  | sqrt => simp only [headWeight]; omega
  | log => exact h22
  | pow =>
    obtain ⟨hle, hsum⟩ := hlt
    cases hle with
    | nil => simp at hsum
    | @cons a b r r' hab hr =>
      simp only [headWeight]
      simp only [List.sum_cons] at hsum
      have ha : 2 ≤ a := h2 a (by simp)
      have hrs := forall₂_sum_le hr
      rcases hrs.lt_or_eq with h1 | h1
      · calc a ^ (r.sum + 2) < a ^ (r'.sum + 2) := Nat.pow_lt_pow_right (by omega) (by omega)
          _ ≤ b ^ (r'.sum + 2) := Nat.pow_le_pow_left hab _
      · rw [h1]
        exact Nat.pow_lt_pow_left (by omega) (by omega)
  | _ => simp only [headWeight]; omega

theorem head_node (h : Head) (as : List Expr) : (node h as).head = h := rfl

theorem args_node (h : Head) (as : List Expr) : (node h as).args = as := rfl

/-! ### Every rule decreases the weight -/

/-- A rule that decreases the weight wherever it applies. -/
def Decreases (fn : Rule) : Prop := ∀ e e', fn e = .ok (some e') → weight e' < weight e

theorem item_ok {l : List Expr} {i : ℕ} {e : Expr} (h : item l i = .ok e) : l[i]? = some e := by
  unfold item at h
  split at h
  · simp_all
  · simp at h

theorem item_zero {l : List Expr} {e : Expr} (h : item l 0 = .ok e) : ∃ r, l = e :: r := by
  have := item_ok h
  cases l with
  | nil => simp at this
  | cons a r => simp at this; exact ⟨r, by rw [this]⟩

theorem item_one {l : List Expr} {e : Expr} (h : item l 1 = .ok e) : ∃ a r, l = a :: e :: r := by
  have := item_ok h
  match l with
  | [] => simp at this
  | [a] => simp at this
  | a :: b :: r => simp at this; exact ⟨a, r, by rw [this]⟩

theorem bind_ok {α β : Type} {m : Except Stop α} {f : α → Except Stop β} {b : β} (h : (m >>= f) = .ok b) :
    ∃ a, m = .ok a ∧ f a = .ok b := by
  cases m with
  | error e => simp [bind, Except.bind] at h
  | ok a => exact ⟨a, rfl, h⟩

theorem pure_ok {α : Type} {a b : α} (h : (pure a : Except Stop α) = .ok b) : a = b := by
  simpa [pure, Except.pure] using h

theorem two_le_sum_cons (e : Expr) (r : List Expr) : 2 ≤ ((e :: r).map weight).sum := by
  have := weight_ge e
  simp only [List.map_cons, List.sum_cons]; omega

theorem weight_le_sum (e : Expr) (l : List Expr) (h : e ∈ l) : weight e ≤ (l.map weight).sum :=
  List.single_le_sum (by simp) _ (List.mem_map_of_mem h)

theorem weight_cpow_cons (p : ℚ) (e : Expr) (r : List Expr) :
    weight e ^ 3 ≤ weight (node (.cpow p) (e :: r)) := by
  rw [weight_node]
  simp only [headWeight]
  rw [max_eq_right (two_le_sum_cons e r)]
  exact Nat.pow_le_pow_left (by simp) 3

theorem weight_cpow_single (p : ℚ) (e : Expr) : weight (node (.cpow p) [e]) = weight e ^ 3 := by
  rw [weight_node]
  simp only [headWeight]
  rw [max_eq_right (two_le_sum_cons e [])]
  simp

theorem weight_log_cons (e : Expr) (r : List Expr) : weight e ^ 2 ≤ weight (node .log (e :: r)) := by
  rw [weight_node]
  simp only [headWeight]
  rw [max_eq_right (two_le_sum_cons e r)]
  exact Nat.pow_le_pow_left (by simp) 2

theorem weight_log_single (e : Expr) : weight (node .log [e]) = weight e ^ 2 := by
  rw [weight_node]
  simp only [headWeight]
  rw [max_eq_right (two_le_sum_cons e [])]
  simp

theorem weight_mul (l : List Expr) : weight (node .mul l) = 2 * (l.map weight).prod := by
  rw [weight_node]; rfl

theorem weight_add (l : List Expr) : weight (node .add l) = (l.map weight).sum + 2 := by
  rw [weight_node]; rfl

theorem weight_num (c : ℚ) : weight (num c) = 2 := by
  rw [weight_node]; rfl

theorem decr_identityOp : Decreases identityOpSimplify := by
  intro e e' h
  unfold identityOpSimplify at h
  split at h
  · rename_i as
    obtain ⟨a, h1, h2⟩ := bind_ok h
    obtain ⟨r, rfl⟩ := item_zero h1
    have := pure_ok h2
    simp only [Option.some.injEq] at this
    subst this
    rw [weight_node]
    simp [headWeight]; omega
  · simp [pure, Except.pure] at h

theorem decr_powerOp : Decreases powerOpSimplify := by
  intro e e' h
  obtain ⟨h0, as⟩ := e
  unfold powerOpSimplify at h
  cases h0 <;> simp only [powerOp, pure, Except.pure, Except.ok.injEq, Option.some.injEq, reduceCtorEq] at h
  all_goals
    subst h
    rw [weight_node, weight_node]
    simp [headWeight]

theorem decr_pow (fmt : ℚ → ℚ) : Decreases (powSimplify fmt) := by
  intro e e' h
  unfold powSimplify at h
  split at h
  · rename_i p as
    obtain ⟨a, h1, h2⟩ := bind_ok h
    obtain ⟨r, rfl⟩ := item_zero h1
    split at h2
    · rename_i q bs
      obtain ⟨b, h3, h4⟩ := bind_ok h2
      obtain ⟨r', rfl⟩ := item_zero h3
      have hb := weight_ge b
      have hlt : weight b ^ 3 < weight (node (.cpow p) (node (.cpow q) (b :: r') :: r)) := by
        refine lt_of_lt_of_le ?_ (weight_cpow_cons _ _ _)
        refine lt_of_lt_of_le ?_ (Nat.pow_le_pow_left (weight_cpow_cons q b r') 3)
        rw [← pow_mul]
        exact Nat.pow_lt_pow_right (by omega) (by norm_num)
      split at h4
      · have := pure_ok h4
        simp only [Option.some.injEq] at this
        subst this
        refine lt_of_le_of_lt ?_ hlt
        calc weight b = weight b ^ 1 := (pow_one _).symm
          _ ≤ weight b ^ 3 := Nat.pow_le_pow_right (by omega) (by norm_num)
      · have := pure_ok h4
        simp only [Option.some.injEq] at this
        subst this
        rw [weight_cpow_single]
        exact hlt
    · simp [pure, Except.pure] at h2
  · simp [pure, Except.pure] at h

theorem two_mul_lt_four_pow (b : ℕ) : 2 * b < 4 ^ b := by
  induction b with
  | zero => norm_num
  | succ n ih => rw [pow_succ]; have := Nat.one_le_pow n 4 (by norm_num); omega

theorem decr_logPow : Decreases logPowSimplify := by
  intro e e' h
  unfold logPowSimplify at h
  split at h
  · rename_i as
    obtain ⟨a, h1, h2⟩ := bind_ok h
    obtain ⟨r, rfl⟩ := item_zero h1
    split at h2
    · rename_i p bs
      obtain ⟨b, h3, h4⟩ := bind_ok h2
      obtain ⟨r', rfl⟩ := item_zero h3
      have := pure_ok h4
      simp only [Option.some.injEq] at this
      subst this
      have hb := weight_ge b
      rw [weight_mul]
      simp only [List.map_cons, List.map_nil, List.prod_cons, List.prod_nil, weight_num, weight_log_single]
      refine lt_of_lt_of_le ?_ (weight_log_cons _ _)
      refine lt_of_lt_of_le ?_ (Nat.pow_le_pow_left (weight_cpow_cons p b r') 2)
      have e1 : (weight b ^ 3) ^ 2 = weight b ^ 2 * weight b ^ 4 := by ring
      have e2 : 16 ≤ weight b ^ 4 := by
        calc 16 = 2 ^ 4 := by norm_num
          _ ≤ _ := Nat.pow_le_pow_left hb 4
      have e3 : 4 ≤ weight b ^ 2 := by
        calc 4 = 2 ^ 2 := by norm_num
          _ ≤ _ := Nat.pow_le_pow_left hb 2
      rw [e1]
      nlinarith
    · rename_i bs
      obtain ⟨b, h3, h4⟩ := bind_ok h2
      obtain ⟨c, h5, h6⟩ := bind_ok h4
      obtain ⟨a0, r', rfl⟩ := item_one h3
      obtain ⟨r'', hr⟩ := item_zero h5
      simp only [List.cons.injEq] at hr
      obtain ⟨rfl, -⟩ := hr
      have := pure_ok h6
      simp only [Option.some.injEq] at this
      subst this
      have hb := weight_ge b
      have ha := weight_ge a0
      rw [weight_mul]
      simp only [List.map_cons, List.map_nil, List.prod_cons, List.prod_nil, weight_log_single, mul_one]
      refine lt_of_lt_of_le ?_ (weight_log_cons _ _)
      have hp : weight a0 ^ (weight b + 1) ≤ weight (node .pow (a0 :: b :: r')) := by
        rw [weight_node]
        simp only [headWeight, List.map_cons]
        exact Nat.pow_le_pow_right (by omega) (by simp; omega)
      refine lt_of_lt_of_le ?_ (Nat.pow_le_pow_left hp 2)
      have e1 : (weight a0 ^ (weight b + 1)) ^ 2 = weight a0 ^ 2 * (weight a0 ^ 2) ^ weight b := by
        rw [← pow_mul, ← pow_mul, ← pow_add]; ring_nf
      rw [e1]
      have e2 : 4 ^ weight b ≤ (weight a0 ^ 2) ^ weight b := by
        apply Nat.pow_le_pow_left
        nlinarith
      have e3 := two_mul_lt_four_pow (weight b)
      have e4 : 0 < weight a0 ^ 2 := by positivity
      calc 2 * (weight b * weight a0 ^ 2) = weight a0 ^ 2 * (2 * weight b) := by ring
        _ < weight a0 ^ 2 * (weight a0 ^ 2) ^ weight b := Nat.mul_lt_mul_of_pos_left (by omega) e4
    · simp [pure, Except.pure] at h2
  · simp [pure, Except.pure] at h

theorem sum_pow_two_le_prod (ws : List ℕ) (h : ∀ w ∈ ws, 2 ≤ w) (hne : ws ≠ []) :
    (ws.map (· ^ 2)).sum ≤ ws.prod ^ 2 := by
  induction ws with
  | nil => exact absurd rfl hne
  | cons a ws ih =>
    have ha : 2 ≤ a := h a (by simp)
    by_cases hw : ws = []
    · subst hw; simp
    · have h2 := ih (fun w hw => h w (by simp [hw])) hw
      simp only [List.map_cons, List.sum_cons, List.prod_cons]
      have hp : 2 ≤ ws.prod := by
        cases ws with
        | nil => exact absurd rfl hw
        | cons b ws =>
          have hb := h b (by simp)
          have := prod_ge_one ws fun w hw' => h w (by simp [hw'])
          simp only [List.prod_cons]
          nlinarith
      have h4 : 4 ≤ a ^ 2 := by nlinarith
      have h4' : 4 ≤ ws.prod ^ 2 := by nlinarith
      rw [mul_pow]
      nlinarith

theorem decr_logMul : Decreases logMulSimplify := by
  intro e e' h
  unfold logMulSimplify at h
  split at h
  · rename_i as
    obtain ⟨a, h1, h2⟩ := bind_ok h
    obtain ⟨r, rfl⟩ := item_zero h1
    split at h2
    · rename_i bs
      have := pure_ok h2
      simp only [Option.some.injEq] at this
      subst this
      rw [weight_add, List.map_map]
      refine lt_of_lt_of_le ?_ (weight_log_cons _ _)
      rw [weight_mul]
      have e1 : (bs.map (weight ∘ fun i => node .log [i])) = (bs.map weight).map (· ^ 2) := by
        rw [List.map_map]
        apply List.map_congr_left
        intro i _
        simp [weight_log_single]
      rw [e1]
      by_cases hb : bs = []
      · subst hb; simp
      · have := sum_pow_two_le_prod (bs.map weight) (weight_map_ge bs) (by simpa using hb)
        have h1 := prod_ge_one (bs.map weight) (weight_map_ge bs)
        rw [mul_pow]
        nlinarith
    · simp [pure, Except.pure] at h2
  · simp [pure, Except.pure] at h

theorem mapM_item {as bs : List Expr} {out : List Expr}
    (h : (bs.mapM fun i => (do return node .pow [i, ← item as 1] : Except Stop Expr)) = .ok out) :
    bs = [] ∧ out = [] ∨ ∃ b, item as 1 = .ok b ∧ out = bs.map fun i => node .pow [i, b] := by
  cases hi : item as 1 with
  | error e =>
    left
    cases bs with
    | nil => rw [List.mapM_nil] at h; exact ⟨rfl, (pure_ok h).symm⟩
    | cons a bs =>
      rw [List.mapM_cons, hi] at h
      simp [bind, Except.bind] at h
  | ok b =>
    right
    refine ⟨b, rfl, ?_⟩
    rw [hi] at h
    have : ∀ (bs out : List Expr), (bs.mapM fun i => (do return node .pow [i, ← (Except.ok b : Except Stop Expr)] : Except Stop Expr)) = .ok out →
        out = bs.map fun i => node .pow [i, b] := by
      intro bs
      induction bs with
      | nil => intro out h; rw [List.mapM_nil] at h; simpa using (pure_ok h).symm
      | cons a bs ih =>
        intro out h
        rw [List.mapM_cons] at h
        obtain ⟨a', ha', h⟩ := bind_ok h
        obtain ⟨o, ho, h⟩ := bind_ok h
        have e1 := pure_ok h
        have e2 : node .pow [a, b] = a' := pure_ok ha'
        rw [← e1, ih o ho, ← e2]
        rfl
    exact this bs out h

theorem prod_map_pow (ws : List ℕ) (n : ℕ) : (ws.map (· ^ n)).prod = ws.prod ^ n := by
  induction ws with
  | nil => simp
  | cons a ws ih => simp [ih, mul_pow]

theorem decr_powMul : Decreases powMulSimplify := by
  intro e e' h
  unfold powMulSimplify at h
  split at h
  · rename_i p as
    obtain ⟨a, h1, h2⟩ := bind_ok h
    obtain ⟨r, rfl⟩ := item_zero h1
    split at h2
    · rename_i bs
      have := pure_ok h2
      simp only [Option.some.injEq] at this
      subst this
      refine lt_of_lt_of_le ?_ (weight_cpow_cons _ _ _)
      rw [weight_mul, weight_mul, List.map_map]
      have e1 : (bs.map (weight ∘ fun i => node (.cpow p) [i])) = (bs.map weight).map (· ^ 3) := by
        rw [List.map_map]
        apply List.map_congr_left
        intro i _
        simp [weight_cpow_single]
      rw [e1, prod_map_pow]
      have h1 := prod_ge_one (bs.map weight) (weight_map_ge bs)
      have h3 : 1 ≤ (bs.map weight).prod ^ 3 := Nat.one_le_pow _ _ (by omega)
      rw [mul_pow]
      omega
    · simp [pure, Except.pure] at h2
  · rename_i as
    obtain ⟨a, h1, h2⟩ := bind_ok h
    obtain ⟨r, rfl⟩ := item_zero h1
    split at h2
    · rename_i bs
      obtain ⟨o, h3, h4⟩ := bind_ok h2
      have := pure_ok h4
      simp only [Option.some.injEq] at this
      subst this
      have key : ∀ n, (r.map weight).sum = n → weight (node .pow (node .mul bs :: r)) =
          (2 * (bs.map weight).prod) ^ (n + 2) := by
        rintro n rfl
        rw [weight_node]
        simp [headWeight, weight_mul]
      have hp := prod_ge_one (bs.map weight) (weight_map_ge bs)
      rcases mapM_item h3 with ⟨rfl, rfl⟩ | ⟨b, hb, rfl⟩
      · rw [key _ rfl, weight_mul]
        simp only [List.map_nil, List.prod_nil, mul_one]
        calc 2 < 2 ^ 2 := by norm_num
          _ ≤ 2 ^ ((r.map weight).sum + 2) := Nat.pow_le_pow_right (by norm_num) (by omega)
      · obtain ⟨a0, r', hr⟩ := item_one hb
        simp only [List.cons.injEq] at hr
        obtain ⟨-, rfl⟩ := hr
        rw [key _ rfl, weight_mul, List.map_map]
        have e1 : (bs.map (weight ∘ fun i => node .pow [i, b])) = (bs.map weight).map (· ^ (weight b + 2)) := by
          rw [List.map_map]
          apply List.map_congr_left
          intro i _
          simp [weight_node, headWeight]
        rw [e1, prod_map_pow]
        set P := (bs.map weight).prod
        have hb2 := weight_ge b
        calc 2 * P ^ (weight b + 2) < 2 ^ (weight b + 2) * P ^ (weight b + 2) := by
              apply Nat.mul_lt_mul_of_pos_right _ (Nat.pow_pos (by omega))
              calc 2 < 2 ^ 2 := by norm_num
                _ ≤ 2 ^ (weight b + 2) := Nat.pow_le_pow_right (by norm_num) (by omega)
          _ = (2 * P) ^ (weight b + 2) := (mul_pow _ _ _).symm
          _ ≤ (2 * P) ^ (((b :: r').map weight).sum + 2) := Nat.pow_le_pow_right (by omega) (by simp)
    · simp [pure, Except.pure] at h2
  · simp [pure, Except.pure] at h

theorem mulAddScan_some (before as : List Expr) (e : Expr) (h : mulAddScan before as = some e) :
    ∃ l bs r, as = l ++ node .add bs :: r ∧ (∀ a ∈ l, a.head ≠ .add) ∧
      e = node .add (bs.map fun j => node .mul (before.reverse ++ l ++ r ++ [j])) := by
  induction as generalizing before with
  | nil => simp [mulAddScan] at h
  | cons a as ih =>
    obtain ⟨hd, bs⟩ := a
    by_cases ha : hd = .add
    · subst ha
      simp only [mulAddScan, Option.some.injEq] at h
      exact ⟨[], bs, as, rfl, by simp, by rw [← h]; simp⟩
    · have h' : mulAddScan (node hd bs :: before) as = some e := by
        rw [← h]
        cases hd <;> first | rfl | exact absurd rfl ha
      obtain ⟨l, cs, r, e1, e2, e3⟩ := ih _ h'
      refine ⟨node hd bs :: l, cs, r, by rw [e1]; rfl, ?_, ?_⟩
      · intro a hm
        rw [List.mem_cons] at hm
        rcases hm with rfl | hm
        · exact ha
        · exact e2 a hm
      · rw [e3]; simp

theorem decr_mulAdd : Decreases mulAddSimplify := by
  intro e e' h
  unfold mulAddSimplify at h
  split at h
  · rename_i as
    have := pure_ok h
    obtain ⟨l, bs, r, rfl, -, rfl⟩ := mulAddScan_some _ _ _ this
    rw [weight_add, List.map_map, weight_mul]
    have e1 : bs.map (weight ∘ fun j => node .mul ([].reverse ++ l ++ r ++ [j])) =
        (bs.map weight).map ((2 * ((l ++ r).map weight).prod) * ·) := by
      rw [List.map_map]
      apply List.map_congr_left
      intro i _
      simp [weight_mul]; ring
    rw [e1, List.sum_map_mul_left]
    have hp := prod_ge_one ((l ++ r).map weight) (weight_map_ge _)
    simp only [List.map_append, List.map_cons, List.prod_append, List.prod_cons, weight_add, List.map_id'] at hp ⊢
    set L := (l.map weight).prod
    set R := (r.map weight).prod
    set S := (bs.map weight).sum
    have : 2 * (L * ((S + 2) * R)) = 2 * (L * R) * S + 4 * (L * R) := by ring
    rw [this]
    omega
  · simp [pure, Except.pure] at h

theorem decr_addAdd : Decreases addAddSimplify := by
  intro e e' h
  obtain ⟨hd, as⟩ := e
  simp only [addAddSimplify, commutativeSimplify] at h
  split at h
  · rename_i hh
    subst hh
    split at h
    · rename_i hany
      have := pure_ok h
      simp only [Option.some.injEq] at this
      subst this
      rw [weight_add, weight_add]
      have main : ∀ as : List Expr,
          ((as.flatMap fun i => if i.head = .add then i.args else [i]).map weight).sum ≤ (as.map weight).sum ∧
          ((as.any fun i => i.head = .add) = true →
            ((as.flatMap fun i => if i.head = .add then i.args else [i]).map weight).sum < (as.map weight).sum) := by
        intro as
        induction as with
        | nil => simp
        | cons a as ih =>
          obtain ⟨hd, bs⟩ := a
          simp only [List.flatMap_cons, List.map_append, List.sum_append, List.map_cons, List.sum_cons,
            List.any_cons, head_node, args_node]
          by_cases ha : hd = .add
          · subst ha
            simp only [if_true, weight_add]
            exact ⟨by omega, fun _ => by omega⟩
          · simp only [ha, if_false, List.map_cons, List.map_nil, List.sum_cons, List.sum_nil, decide_false,
              Bool.false_or]
            exact ⟨by omega, fun h => by have := ih.2 h; omega⟩
      have := (main as).2 hany
      omega
    · simp [pure, Except.pure] at h
  · simp [pure, Except.pure] at h

theorem decr_mulMul : Decreases mulMulSimplify := by
  intro e e' h
  obtain ⟨hd, as⟩ := e
  simp only [mulMulSimplify, commutativeSimplify] at h
  split at h
  · rename_i hh
    subst hh
    split at h
    · rename_i hany
      have := pure_ok h
      simp only [Option.some.injEq] at this
      subst this
      rw [weight_mul, weight_mul]
      have main : ∀ as : List Expr,
          ((as.flatMap fun i => if i.head = .mul then i.args else [i]).map weight).prod ≤ (as.map weight).prod ∧
          ((as.any fun i => i.head = .mul) = true →
            ((as.flatMap fun i => if i.head = .mul then i.args else [i]).map weight).prod < (as.map weight).prod) := by
        intro as
        induction as with
        | nil => simp
        | cons a as ih =>
          obtain ⟨hd, bs⟩ := a
          simp only [List.flatMap_cons, List.map_append, List.prod_append, List.map_cons, List.prod_cons,
            List.any_cons, head_node, args_node]
          have hp := prod_ge_one (as.map weight) (weight_map_ge _)
          by_cases ha : hd = .mul
          · subst ha
            simp only [if_true, weight_mul]
            have hb := prod_ge_one (bs.map weight) (weight_map_ge _)
            have h1 := Nat.mul_le_mul_left (bs.map weight).prod ih.1
            have h2 : 1 ≤ (bs.map weight).prod * (as.map weight).prod := Nat.mul_le_mul hb hp
            rw [mul_assoc]
            exact ⟨by omega, fun _ => by omega⟩
          · simp only [ha, if_false, List.map_cons, List.map_nil, List.prod_cons, List.prod_nil, decide_false,
              Bool.false_or, mul_one]
            have hw := weight_ge (node hd bs)
            exact ⟨Nat.mul_le_mul_left _ ih.1, fun h => Nat.mul_lt_mul_of_pos_left (ih.2 h) (by omega)⟩
      have := (main as).2 hany
      omega
    · simp [pure, Except.pure] at h
  · simp [pure, Except.pure] at h

theorem filter_sum (as : List Expr) (q : Expr → Bool) :
    ((as.filter q).map weight).sum ≤ (as.map weight).sum ∧
    ((as.any fun i => !q i) = true → ((as.filter q).map weight).sum < (as.map weight).sum) := by
  induction as with
  | nil => simp
  | cons a as ih =>
    have hw := weight_ge a
    by_cases ha : q a = true
    · simp only [List.filter_cons_of_pos ha, List.map_cons, List.sum_cons, List.any_cons, ha, Bool.not_true, Bool.false_or]
      exact ⟨by omega, fun h => by have := ih.2 h; omega⟩
    · simp only [List.filter_cons_of_neg ha, List.map_cons, List.sum_cons]
      exact ⟨by omega, fun _ => by omega⟩

theorem filter_prod (as : List Expr) (q : Expr → Bool) :
    ((as.filter q).map weight).prod ≤ (as.map weight).prod ∧
    ((as.any fun i => !q i) = true → ((as.filter q).map weight).prod < (as.map weight).prod) := by
  induction as with
  | nil => simp
  | cons a as ih =>
    have hw := weight_ge a
    have hp := prod_ge_one (as.map weight) (weight_map_ge _)
    by_cases ha : q a = true
    · simp only [List.filter_cons_of_pos ha, List.map_cons, List.prod_cons, List.any_cons, ha, Bool.not_true, Bool.false_or]
      exact ⟨Nat.mul_le_mul_left _ ih.1, fun h => Nat.mul_lt_mul_of_pos_left (ih.2 h) (by omega)⟩
    · simp only [List.filter_cons_of_neg ha, List.map_cons, List.prod_cons]
      have h1 : 2 * (as.map weight).prod ≤ weight a * (as.map weight).prod := Nat.mul_le_mul_right _ hw
      exact ⟨by omega, fun _ => by omega⟩

theorem identitySimplify_some {op : Head} {c : ℚ} {h : Head} {as : List Expr} {e' : Expr}
    (hs : identitySimplify op c (node h as) = .ok (some e')) :
    h = op ∧ (as = [e'] ∨ ((as.any fun i => i.head = .num c) = true ∧
      (e' = node op (as.filter fun i => i.head ≠ .num c) ∨
        (as.filter fun i => i.head ≠ .num c) = [e']))) := by
  simp only [identitySimplify] at hs
  split at hs
  · rename_i hh
    refine ⟨hh, ?_⟩
    split at hs
    · left
      have := pure_ok hs
      simp only [Option.some.injEq] at this
      rw [this]
    · right
      split at hs
      · rename_i hany
        refine ⟨hany, ?_⟩
        split at hs
        · left
          have := pure_ok hs
          simp only [Option.some.injEq] at this
          exact this.symm
        · right
          rename_i hlen
          obtain ⟨a, h1, h2⟩ := bind_ok hs
          have := pure_ok h2
          simp only [Option.some.injEq] at this
          subst this
          obtain ⟨r, hr⟩ := item_zero h1
          rw [hr] at hlen ⊢
          simp only [List.length_cons, not_lt] at hlen
          have : r = [] := List.length_eq_zero_iff.mp (by omega)
          rw [this]
      · simp [pure, Except.pure] at hs
  · simp [pure, Except.pure] at hs

theorem decr_mulOne : Decreases mulOneSimplify := by
  intro e e' h
  obtain ⟨hd, as⟩ := e
  obtain ⟨rfl, rfl | ⟨hany, h'⟩⟩ := identitySimplify_some h
  · have := weight_ge e'
    rw [weight_mul]; simp; omega
  · have hf := (filter_prod as fun i => i.head ≠ .num 1).2 (by simpa using hany)
    rw [weight_mul]
    rcases h' with rfl | h'
    · rw [weight_mul]; omega
    · rw [h'] at hf
      simp only [List.map_cons, List.map_nil, List.prod_cons, List.prod_nil, mul_one] at hf
      omega

theorem decr_addZero : Decreases addZeroSimplify := by
  intro e e' h
  obtain ⟨hd, as⟩ := e
  obtain ⟨rfl, rfl | ⟨hany, h'⟩⟩ := identitySimplify_some h
  · rw [weight_add]; simp
  · have hf := (filter_sum as fun i => i.head ≠ .num 0).2 (by simpa using hany)
    rw [weight_add]
    rcases h' with rfl | h'
    · rw [weight_add]; omega
    · rw [h'] at hf
      simp only [List.map_cons, List.map_nil, List.sum_cons, List.sum_nil, add_zero] at hf
      omega

theorem decr_mulZero : Decreases mulZeroSimplify := by
  intro e e' h
  unfold mulZeroSimplify at h
  split at h
  · rename_i as
    split at h
    · rename_i hany
      have := pure_ok h
      simp only [Option.some.injEq] at this
      subst this
      have hf := (filter_prod as fun i => i.head ≠ .num 0).2 (by simpa using hany)
      have h1 := prod_ge_one ((as.filter fun i => i.head ≠ .num 0).map weight) (weight_map_ge _)
      rw [weight_mul, weight_num]
      omega
    · simp [pure, Except.pure] at h
  · simp [pure, Except.pure] at h

theorem squareTerms_weight (l : List Expr) :
    ((squareTerms l).map weight).sum ≤ (l.map weight).sum ^ 3 + 2 * (l.map weight).sum ^ 2 := by
  induction l with
  | nil => simp [squareTerms]
  | cons a l ih =>
    simp only [squareTerms, List.cons_append, List.map_cons, List.map_append, List.sum_cons, List.sum_append,
      weight_cpow_single, List.map_map]
    have e1 : l.map (weight ∘ fun b => node .mul [num 2, a, b]) = (l.map weight).map (4 * weight a * ·) := by
      rw [List.map_map]
      apply List.map_congr_left
      intro i _
      simp [weight_mul, weight_num]; ring
    rw [e1, List.sum_map_mul_left, List.map_id']
    set A := weight a
    set S := (l.map weight).sum
    nlinarith [Nat.zero_le (A ^ 2 * S), Nat.zero_le (A * S ^ 2), Nat.zero_le (A ^ 2)]

theorem decr_squareAdd : Decreases squareAddSimplify := by
  intro e e' h
  unfold squareAddSimplify at h
  split at h
  · rename_i p as
    split at h
    · obtain ⟨a, h1, h2⟩ := bind_ok h
      obtain ⟨r, rfl⟩ := item_zero h1
      split at h2
      · rename_i bs
        have := pure_ok h2
        simp only [Option.some.injEq] at this
        subst this
        refine lt_of_lt_of_le ?_ (weight_cpow_cons _ _ _)
        rw [weight_add, weight_add]
        have := squareTerms_weight bs
        set S := (bs.map weight).sum
        have e1 : (S + 2) ^ 3 = S ^ 3 + 6 * S ^ 2 + 12 * S + 8 := by ring
        rw [e1]
        omega
      · simp [pure, Except.pure] at h2
    · simp [pure, Except.pure] at h
  · simp [pure, Except.pure] at h

theorem decr_addConst : Decreases addConstSimplify := by
  intro e e' h
  unfold addConstSimplify at h
  split at h
  · rename_i as
    split at h
    · rename_i hany
      have := pure_ok h
      simp only [Option.some.injEq] at this
      subst this
      have := (filter_sum as containsX).2 hany
      rw [weight_add, weight_add]
      omega
    · simp [pure, Except.pure] at h
  · simp [pure, Except.pure] at h

theorem decr_oneM : Decreases oneMSimplify := by
  intro e e' h
  unfold oneMSimplify at h
  split at h
  · rename_i as
    obtain ⟨a, h1, h2⟩ := bind_ok h
    split at h2
    · split at h2
      · split at h2
        · obtain ⟨b, h3, h4⟩ := bind_ok h2
          have := pure_ok h4
          simp only [Option.some.injEq] at this
          subst this
          obtain ⟨a0, r, rfl⟩ := item_one h3
          have := weight_ge a0
          simp [weight_node, headWeight]
          omega
        · simp [pure, Except.pure] at h2
      · simp at h2
      · simp [pure, Except.pure] at h2
    · simp [pure, Except.pure] at h2
  · simp [pure, Except.pure] at h

theorem decr_cast : Decreases castSimplify := by
  intro e e' h
  unfold castSimplify at h
  split at h
  · rename_i t as
    split at h
    · obtain ⟨a, h1, h2⟩ := bind_ok h
      obtain ⟨r, rfl⟩ := item_zero h1
      have := pure_ok h2
      simp only [Option.some.injEq] at this
      subst this
      simp [weight_node, headWeight]
      omega
    · simp [pure, Except.pure] at h
  · simp [pure, Except.pure] at h

theorem decr_onehot : Decreases onehotSimplify := by
  intro e e' h
  unfold onehotSimplify at h
  split at h
  · rename_i as
    split at h
    · rename_i hl
      have := pure_ok h
      simp only [Option.some.injEq] at this
      subst this
      match as with
      | [] => simp at hl
      | [a] => simp at hl
      | a :: b :: r =>
        have := weight_ge b
        simp [weight_node, headWeight]
        omega
    · simp [pure, Except.pure] at h
  · simp [pure, Except.pure] at h

/-- Every registered rule decreases the weight. -/
theorem simplifyFns_decrease (fmt : ℚ → ℚ) : ∀ fn ∈ simplifyFns fmt, Decreases fn := by
  intro fn h
  simp only [simplifyFns, List.mem_cons, List.not_mem_nil, or_false] at h
  rcases h with rfl | rfl | rfl | rfl | rfl | rfl | rfl | rfl | rfl | rfl | rfl | rfl | rfl | rfl | rfl | rfl | rfl
  exacts [decr_identityOp, decr_powerOp, decr_pow fmt, decr_logPow, decr_logMul, decr_powMul, decr_mulAdd,
    decr_addAdd, decr_mulMul, decr_mulOne, decr_addZero, decr_mulZero, decr_squareAdd, decr_addConst, decr_oneM,
    decr_cast, decr_onehot]

end Edward
