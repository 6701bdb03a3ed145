/-
Which shape an expression has after each rule of a pass, so that constants are only ever
pruned from the sums at the top.
-/
import Verif.Lemmas.SimplifyRules
import Verif.Props.Simplify

namespace Edward

open Expr Spec

theorem inShape_node {κ : Type} {child : κ → Head → Option κ} {k : κ} {h : Head} {as : List Expr} :
    InShape child k (node h as) ↔
      (∃ c, child k h = some c ∧ ∀ a ∈ as, InShape child c a) ∧ (isPower h = true → as.length ≤ 1) := by
  rw [InShape]
  constructor
  · rintro ⟨⟨c, hc, ha⟩, h2⟩
    exact ⟨⟨c, hc, fun a hm => ha ⟨a, hm⟩⟩, h2⟩
  · rintro ⟨⟨c, hc, ha⟩, h2⟩
    exact ⟨⟨c, hc, fun a => ha a.1 a.2⟩, h2⟩

/-- Induction on expressions with a hypothesis for every argument. -/
theorem Expr.induct {P : Expr → Prop} (h : ∀ hd as, (∀ a ∈ as, P a) → P (node hd as)) : ∀ e, P e
  | node hd as => h hd as fun a _ha => Expr.induct h a
termination_by e => sizeOf e
decreasing_by
  have := List.sizeOf_lt_of_mem _ha
  simp only [node.sizeOf_spec]
  omega

/-- Changing shapes: `R k k' h` says that an expression of shape `k` with head `h` has
shape `k'`, `N` is a fact about every node. -/
theorem inShape_change {κ κ' : Type} {child : κ → Head → Option κ} {child' : κ' → Head → Option κ'}
    (R : κ → κ' → Head → Prop) (N : Head → List Expr → Prop)
    (step : ∀ k k' h as c, R k k' h → N h as → (isPower h = true → as.length ≤ 1) → child k h = some c →
      ∃ c', child' k' h = some c' ∧ ∀ a ∈ as, R c c' a.head)
    (e : Expr) : ∀ k k', R k k' e.head → (∀ h as, Subexpr (node h as) e → N h as) →
      InShape child k e → InShape child' k' e := by
  induction e using Expr.induct with
  | h hd as ih =>
    intro k k' hR hN hk
    rw [inShape_node] at hk ⊢
    obtain ⟨⟨c, hc, ha⟩, h2⟩ := hk
    obtain ⟨c', hc', hR'⟩ := step k k' hd as c hR (hN hd as (.refl _)) h2 hc
    exact ⟨⟨c', hc', fun a hm => ih a hm c c' (hR' a hm) (fun h bs hs => hN h bs (.arg _ _ a hm hs)) (ha a hm)⟩, h2⟩

/-- A rule that keeps the shapes in `K`. -/
def Keeps {κ : Type} (child : κ → Head → Option κ) (K : κ → Prop) (fn : Rule) : Prop :=
  (∀ k h c, K k → child k h = some c → K c) ∧
    ∀ k, K k → ∀ e e', fn e = .ok (some e') → InShape child k e → InShape child k e'

mutual
theorem wrapped_keeps {κ : Type} {child : κ → Head → Option κ} {K : κ → Prop} {fn : Rule} (hfn : Keeps child K fn) :
    ∀ (e : Expr) (d : Bool) (e' : Expr), wrapped fn e = .ok (d, e') →
      ∀ k, K k → InShape child k e → InShape child k e'
  | node h as, d, e', hw, k, hK, hk => by
    rcases wrapped_ok hw with ⟨h1, rfl⟩ | ⟨-, as', h1, rfl⟩
    · exact hfn.2 _ hK _ _ h1 hk
    · rw [inShape_node] at hk ⊢
      obtain ⟨⟨c, hc, ha⟩, h2⟩ := hk
      obtain ⟨h3, h4⟩ := wrappedArgs_keeps hfn as d as' h1 c (hfn.1 _ _ _ hK hc) ha
      exact ⟨⟨c, hc, h3⟩, fun hu => by rw [h4]; exact h2 hu⟩
theorem wrappedArgs_keeps {κ : Type} {child : κ → Head → Option κ} {K : κ → Prop} {fn : Rule}
    (hfn : Keeps child K fn) :
    ∀ (as : List Expr) (d : Bool) (as' : List Expr), wrappedArgs fn as = .ok (d, as') →
      ∀ k, K k → (∀ a ∈ as, InShape child k a) → (∀ a ∈ as', InShape child k a) ∧ as'.length = as.length
  | [], d, as', hw, k, hK, hk => by
    rw [wrappedArgs] at hw
    have := pure_ok hw
    simp only [Prod.mk.injEq] at this
    obtain ⟨rfl, rfl⟩ := this
    simp
  | a :: as, d, l, hw, k, hK, hk => by
    obtain ⟨d1, a', d2, as', h1, h2, rfl, rfl⟩ := wrappedArgs_ok hw
    obtain ⟨h3, h4⟩ := wrappedArgs_keeps hfn as d2 as' h2 k hK fun b hb => hk b (by simp [hb])
    have h5 := wrapped_keeps hfn a d1 a' h1 k hK (hk a (by simp))
    refine ⟨?_, by simp [h4]⟩
    intro b hb
    rcases List.mem_cons.mp hb with rfl | hb
    exacts [h5, h3 b hb]
end

theorem repeatWrapped_keeps {κ : Type} {child : κ → Head → Option κ} {K : κ → Prop} {fn : Rule}
    (hfn : Keeps child K fn)
    {n : ℕ} {e : Expr} {d : Bool} {e' : Expr} (h : repeatWrapped fn n e = .ok (d, e')) {k : κ} (hK : K k)
    (hk : InShape child k e) : InShape child k e' :=
  repeatWrapped_induct (fun a b => InShape child k a → InShape child k b) (fun _ _ _ h1 h2 h => h2 (h1 h))
    (fun e d e' hw => wrapped_keeps hfn e d e' hw k hK) n e d e' h hk

/-! ### The stages of a pass -/

/-- Shapes between the rules. -/
inductive Stage
  /-- no sum, no logarithm -/
  | F
  /-- products of plain terms and logarithms of plain terms -/
  | L
  /-- sums of plain terms, nested -/
  | S
  /-- sums of plain terms -/
  | S'
  /-- products and sums of plain terms and logarithms -/
  | M
  /-- after `identity_op` -/
  | T1
  /-- after `power_op` -/
  | T2
  /-- after `mul_add` -/
  | T3
  /-- after `add_add` -/
  | T4
  /-- after `square_add` -/
  | P

/-- The shape of the arguments. -/
def Stage.child : Stage → Head → Option Stage
  | .F, .add => none
  | .F, .log => none
  | .F, _ => some .F
  | .L, .add => none
  | .L, .mul => some .L
  | .L, _ => some .F
  | .S, .add => some .S
  | .S, .log => none
  | .S, _ => some .F
  | .S', .log => none
  | .S', _ => some .F
  | .M, .add => some .M
  | .M, .mul => some .M
  | .M, _ => some .F
  | .T1, .add => some .T1
  | .T1, .mul => some .M
  | .T1, .square => some .S
  | .T1, .cpow p => if p = 2 then some .S else some .F
  | .T1, _ => some .F
  | .T2, .add => some .T2
  | .T2, .mul => some .M
  | .T2, .cpow p => if p = 2 then some .S else some .F
  | .T2, _ => some .F
  | .T3, .add => some .T3
  | .T3, .mul => some .L
  | .T3, .cpow p => if p = 2 then some .S else some .F
  | .T3, _ => some .F
  | .T4, .add => some .T4
  | .T4, .mul => some .L
  | .T4, .cpow p => if p = 2 then some .S' else some .F
  | .T4, _ => some .F
  | .P, .add => some .P
  | .P, .mul => some .L
  | .P, _ => some .F

/-- Inclusions between the stages. -/
inductive Stage.Le : Stage → Stage → Prop
  | refl (k) : Le k k
  | plain (k) : Le .F k
  | sm : Le .S .M
  | ms1 : Le .S .T1
  | ms2 : Le .S .T2
  | mt1 : Le .M .T1
  | mt2 : Le .M .T2
  | lt3 : Le .L .T3
  | lt4 : Le .L .T4
  | lp : Le .L .P
  | st3 : Le .S .T3
  | st4 : Le .S' .T4

theorem stage_mono {k k' : Stage} (h : Stage.Le k k') {e : Expr} (he : InShape Stage.child k e) :
    InShape Stage.child k' e := by
  refine inShape_change (fun k k' _ => Stage.Le k k') (fun _ _ => True) ?_ e k k' h (fun _ _ _ => trivial) he
  intro k k' h as c hR _ _ hc
  suffices ∃ c', Stage.child k' h = some c' ∧ Stage.Le c c' by
    obtain ⟨c', h1, h2⟩ := this
    exact ⟨c', h1, fun _ _ => h2⟩
  have key : ∀ {c0 c1 : Stage}, some c0 = some c → Stage.Le c0 c1 → Stage.Le c c1 := by
    rintro _ _ ⟨⟩ h; exact h
  cases hR with
  | refl => exact ⟨c, hc, .refl _⟩
  | plain =>
    cases h <;> simp only [Stage.child, reduceCtorEq, Option.some.injEq] at hc <;> subst hc <;> cases k' <;>
      simp only [Stage.child, Option.some.injEq, exists_eq_left'] <;>
      first | exact .plain _ | (split <;> exact ⟨_, rfl, .plain _⟩)
  | _ =>
    cases h <;> simp only [Stage.child, reduceCtorEq, Option.some.injEq] at hc <;> subst hc <;>
      simp only [Stage.child, Option.some.injEq, exists_eq_left'] <;>
      first | (split <;> exact ⟨_, rfl, .plain _⟩) | constructor

/-! ### Which rules keep which stages -/

def Stage.K1 : Stage → Prop | .F | .S | .M | .T1 => True | _ => False
def Stage.K2 : Stage → Prop | .F | .S | .M | .T2 => True | _ => False
def Stage.K3 : Stage → Prop | .F | .L | .S | .T3 => True | _ => False
def Stage.K4 : Stage → Prop | .F | .L | .S' | .T4 => True | _ => False
def Stage.K5 : Stage → Prop | .F | .L | .P => True | _ => False

theorem K1_child : ∀ k h c, Stage.K1 k → Stage.child k h = some c → Stage.K1 c := by
  intro k h c hk hc
  cases k <;> simp only [Stage.K1] at hk <;> cases h <;> simp only [Stage.child, reduceCtorEq] at hc <;>
    (try split at hc) <;> simp only [Option.some.injEq] at hc <;> subst hc <;> trivial
theorem K2_child : ∀ k h c, Stage.K2 k → Stage.child k h = some c → Stage.K2 c := by
  intro k h c hk hc
  cases k <;> simp only [Stage.K2] at hk <;> cases h <;> simp only [Stage.child, reduceCtorEq] at hc <;>
    (try split at hc) <;> simp only [Option.some.injEq] at hc <;> subst hc <;> trivial
theorem K3_child : ∀ k h c, Stage.K3 k → Stage.child k h = some c → Stage.K3 c := by
  intro k h c hk hc
  cases k <;> simp only [Stage.K3] at hk <;> cases h <;> simp only [Stage.child, reduceCtorEq] at hc <;>
    (try split at hc) <;> simp only [Option.some.injEq] at hc <;> subst hc <;> trivial
theorem K4_child : ∀ k h c, Stage.K4 k → Stage.child k h = some c → Stage.K4 c := by
  intro k h c hk hc
  cases k <;> simp only [Stage.K4] at hk <;> cases h <;> simp only [Stage.child, reduceCtorEq] at hc <;>
    (try split at hc) <;> simp only [Option.some.injEq] at hc <;> subst hc <;> trivial
theorem K5_child : ∀ k h c, Stage.K5 k → Stage.child k h = some c → Stage.K5 c := by
  intro k h c hk hc
  cases k <;> simp only [Stage.K5] at hk <;> cases h <;> simp only [Stage.child, reduceCtorEq] at hc <;>
    simp only [Option.some.injEq] at hc <;> subst hc <;> trivial

/-- In shape `k`. -/
abbrev In (k : Stage) (e : Expr) : Prop := InShape Stage.child k e

theorem in_node {k c : Stage} {h : Head} {as : List Expr} (hc : Stage.child k h = some c) (hu : isPower h = false) :
    In k (node h as) ↔ ∀ a ∈ as, In c a := by
  rw [In, inShape_node]
  constructor
  · rintro ⟨⟨c', hc', ha⟩, -⟩
    rw [hc] at hc'
    cases hc'
    exact ha
  · exact fun h => ⟨⟨c, hc, h⟩, fun h' => by rw [hu] at h'; cases h'⟩

theorem in_none {k : Stage} {h : Head} {as : List Expr} (hc : Stage.child k h = none) : ¬ In k (node h as) := by
  rw [In, inShape_node]
  rintro ⟨⟨c', hc', -⟩, -⟩
  rw [hc] at hc'
  cases hc'

theorem in_pow {k c : Stage} {h : Head} {as : List Expr} (hc : Stage.child k h = some c) (hu : isPower h = true) :
    In k (node h as) ↔ as.length ≤ 1 ∧ ∀ a ∈ as, In c a := by
  rw [In, inShape_node]
  constructor
  · rintro ⟨⟨c', hc', ha⟩, h2⟩
    rw [hc] at hc'
    cases hc'
    exact ⟨h2 hu, ha⟩
  · exact fun h => ⟨⟨c, hc, h.2⟩, fun _ => h.1⟩

theorem In.plain {k : Stage} {e : Expr} (h : In .F e) : In k e := stage_mono (.plain k) h

/-- The arguments of a power at `k` when they are plain. -/
theorem in_cpow_F {k : Stage} {p : ℚ} {a : Expr} (h : In .F a) (hk : ∃ c, Stage.child k (.cpow p) = some c) :
    In k (node (.cpow p) [a]) := by
  obtain ⟨c, hc⟩ := hk
  rw [in_pow hc rfl]
  exact ⟨by simp, by simpa using h.plain⟩

theorem child_cpow (k : Stage) (p : ℚ) : ∃ c, Stage.child k (.cpow p) = some c := by
  cases k <;> simp only [Stage.child] <;> first | exact ⟨_, rfl⟩ | (split <;> exact ⟨_, rfl⟩)

theorem child_F {h : Head} (h1 : h ≠ .add) (h2 : h ≠ .log) : Stage.child .F h = some .F := by
  cases h <;> simp_all [Stage.child]

/-- At heads that are neither sums, products, logarithms nor squares everything below is
plain. -/
theorem child_other (k : Stage) {h : Head} (h1 : h ≠ .add) (h2 : h ≠ .log) (h3 : h ≠ .mul) (h4 : h ≠ .square)
    (h5 : h ≠ .cpow 2) : Stage.child k h = some .F := by
  cases k <;> cases h <;> simp_all [Stage.child]

theorem keeps_powerOp : Keeps Stage.child Stage.K1 powerOpSimplify := by
  refine ⟨K1_child, ?_⟩
  intro k hk e e' h he
  obtain ⟨hd, p, as, rfl, h1, rfl⟩ := powerOp_some h
  have : isPower hd = true ∧ Stage.child k (.cpow p) = Stage.child k hd := by
    cases hd <;> simp only [powerOp, Option.some.injEq, reduceCtorEq] at h1 <;> subst h1 <;>
      refine ⟨rfl, ?_⟩ <;> cases k <;> simp only [Stage.K1] at hk <;> simp [Stage.child] <;> norm_num
  rw [inShape_node] at he ⊢
  rw [this.2]
  exact ⟨he.1, fun _ => he.2 this.1⟩

theorem keeps_pow : Keeps Stage.child Stage.K2 (powSimplify fmt4e) := by
  refine ⟨K2_child, ?_⟩
  intro k hk e e' h he
  obtain ⟨p, q, a, r, r', rfl, he'⟩ := pow_some h
  obtain ⟨c, hc⟩ := child_cpow k p
  have h1 := ((in_pow hc rfl).mp he).2 _ (List.mem_cons_self ..)
  have hcq : Stage.child c (.cpow q) = some .F := by
    cases k <;> simp only [Stage.K2] at hk <;> simp only [Stage.child, Option.some.injEq] at hc
    all_goals first | (split at hc) | skip
    all_goals first | (simp only [Option.some.injEq] at hc; subst hc; rfl) | (subst hc; rfl)
  have h2 := ((in_pow hcq rfl).mp h1).2 _ (List.mem_cons_self ..)
  rcases he' with ⟨-, rfl⟩ | ⟨-, rfl⟩
  · exact In.plain h2
  · exact in_cpow_F h2 (child_cpow _ _)

theorem keeps_logPow : Keeps Stage.child Stage.K2 logPowSimplify := by
  refine ⟨K2_child, ?_⟩
  intro k hk e e' h he
  have hcase : (k = .M ∨ k = .T2) ∨ Stage.child k .log = none := by
    cases k <;> simp only [Stage.K2] at hk <;> simp [Stage.child]
  rcases hcase with hk' | hno
  swap
  · rcases logPow_some h with ⟨p, a, r, r', rfl, rfl⟩ | ⟨a, b, r, r', rfl, rfl⟩
    all_goals exact absurd he (in_none hno)
  have hlog : Stage.child k .log = some .F := by rcases hk' with rfl | rfl <;> rfl
  have hmul : Stage.child k .mul = some .M := by rcases hk' with rfl | rfl <;> rfl
  have hlog' : Stage.child .M .log = some .F := rfl
  rcases logPow_some h with ⟨p, a, r, r', rfl, rfl⟩ | ⟨a, b, r, r', rfl, rfl⟩
  · have h1 := (in_node hlog rfl).mp he _ (List.mem_cons_self ..)
    have h2 := ((in_pow (c := .F) rfl rfl).mp h1).2 _ (List.mem_cons_self ..)
    refine (in_node hmul rfl).mpr ?_
    intro d hd
    simp only [List.mem_cons, List.not_mem_nil, or_false] at hd
    rcases hd with rfl | rfl
    · exact (in_node (c := .F) rfl rfl).mpr (by simp)
    · exact (in_node hlog' rfl).mpr (by simpa using h2)
  · have h1 := (in_node hlog rfl).mp he _ (List.mem_cons_self ..)
    have h2 := (in_node (c := .F) rfl rfl).mp h1
    refine (in_node hmul rfl).mpr ?_
    intro d hd
    simp only [List.mem_cons, List.not_mem_nil, or_false] at hd
    rcases hd with rfl | rfl
    · exact In.plain (h2 _ (by simp))
    · exact (in_node hlog' rfl).mpr (by simpa using h2 a (by simp))

theorem keeps_logMul : Keeps Stage.child Stage.K2 logMulSimplify := by
  refine ⟨K2_child, ?_⟩
  intro k hk e e' h he
  obtain ⟨bs, r, rfl, rfl⟩ := logMul_some h
  have hcase : (k = .M ∨ k = .T2) ∨ Stage.child k .log = none := by
    cases k <;> simp only [Stage.K2] at hk <;> simp [Stage.child]
  rcases hcase with hk' | hno
  swap
  · exact absurd he (in_none hno)
  have hlog : Stage.child k .log = some .F := by rcases hk' with rfl | rfl <;> rfl
  have hadd : Stage.child k .add = some k := by rcases hk' with rfl | rfl <;> rfl
  have h1 := (in_node hlog rfl).mp he _ (List.mem_cons_self ..)
  have h2 := (in_node (c := .F) rfl rfl).mp h1
  refine (in_node hadd rfl).mpr fun d hd => ?_
  obtain ⟨b, hb, rfl⟩ := List.mem_map.mp hd
  exact (in_node hlog rfl).mpr (by simpa using h2 b hb)

theorem keeps_powMul : Keeps Stage.child Stage.K2 powMulSimplify := by
  refine ⟨K2_child, ?_⟩
  intro k hk e e' h he
  have hmul : ∃ c, Stage.child k .mul = some c := by cases k <;> exact ⟨_, rfl⟩
  obtain ⟨cm, hmul⟩ := hmul
  have hpow : Stage.child k .pow = some .F := by cases k <;> rfl
  have hpow' : Stage.child cm .pow = some .F := by cases cm <;> rfl
  rcases powMul_some h with ⟨p, bs, r, rfl, rfl⟩ | ⟨bs, b, r, rfl, rfl⟩ | ⟨r, rfl, rfl⟩
  · obtain ⟨c, hc⟩ := child_cpow k p
    have h1 := ((in_pow hc rfl).mp he).2 _ (List.mem_cons_self ..)
    have hcm : Stage.child c .mul = some .F := by
      cases k <;> simp only [Stage.K2] at hk <;> simp only [Stage.child, Option.some.injEq] at hc
      all_goals first | (split at hc) | skip
      all_goals first | (simp only [Option.some.injEq] at hc; subst hc; rfl) | (subst hc; rfl)
    have h2 := (in_node hcm rfl).mp h1
    refine (in_node hmul rfl).mpr fun d hd => ?_
    obtain ⟨i, hi, rfl⟩ := List.mem_map.mp hd
    exact in_cpow_F (h2 i hi) (child_cpow _ _)
  · have h1 := (in_node hpow rfl).mp he
    have h2 := (in_node (c := .F) rfl rfl).mp (h1 _ (List.mem_cons_self ..))
    refine (in_node hmul rfl).mpr fun d hd => ?_
    obtain ⟨i, hi, rfl⟩ := List.mem_map.mp hd
    refine (in_node hpow' rfl).mpr fun x hx => ?_
    simp only [List.mem_cons, List.not_mem_nil, or_false] at hx
    rcases hx with rfl | rfl
    · exact h2 _ hi
    · exact h1 _ (by simp)
  · exact (in_node hmul rfl).mpr (by simp)

theorem keeps_mulAdd : Keeps Stage.child Stage.K2 mulAddSimplify := by
  refine ⟨K2_child, ?_⟩
  intro k hk e e' h he
  obtain ⟨l, bs, r, rfl, -, rfl⟩ := mulAdd_some h
  have hcase : (k = .M ∨ k = .T2) ∨ Stage.child k .mul = some .F := by
    cases k <;> simp only [Stage.K2] at hk <;> simp [Stage.child]
  rcases hcase with hk' | hno
  swap
  · exact absurd ((in_node hno rfl).mp he (node .add bs) (by simp)) (in_none rfl)
  have hmul : Stage.child k .mul = some .M := by rcases hk' with rfl | rfl <;> rfl
  have hadd : Stage.child k .add = some k := by rcases hk' with rfl | rfl <;> rfl
  have h1 := (in_node hmul rfl).mp he
  have h2 := (in_node (c := .M) rfl rfl).mp (h1 (node .add bs) (by simp))
  refine (in_node hadd rfl).mpr fun d hd => ?_
  obtain ⟨j, hj, rfl⟩ := List.mem_map.mp hd
  refine (in_node hmul rfl).mpr fun x hx => ?_
  simp only [List.mem_append, List.mem_singleton] at hx
  rcases hx with (hx | hx) | rfl
  · exact h1 x (by simp [hx])
  · exact h1 x (by simp [hx])
  · exact h2 _ hj

theorem keeps_addAdd : Keeps Stage.child Stage.K3 addAddSimplify := by
  refine ⟨K3_child, ?_⟩
  intro k hk e e' h he
  obtain ⟨as, rfl, -, rfl⟩ := commutative_some h
  have hcase : Stage.child k .add = some k ∨ Stage.child k .add = none := by
    cases k <;> simp only [Stage.K3] at hk <;> simp [Stage.child]
  rcases hcase with hadd | hno
  swap
  · exact absurd he (in_none hno)
  have h1 := (in_node hadd rfl).mp he
  refine (in_node hadd rfl).mpr fun c hc => ?_
  rcases mem_flatten hc with hc | ⟨bs, h2, h3⟩
  · exact h1 c hc
  · exact (in_node hadd rfl).mp (h1 _ h2) c h3

theorem keeps_mulMul : Keeps Stage.child Stage.K4 mulMulSimplify := by
  refine ⟨K4_child, ?_⟩
  intro k hk e e' h he
  obtain ⟨as, rfl, -, rfl⟩ := commutative_some h
  have hc : ∃ c, Stage.child k .mul = some c ∧ Stage.child c .mul = some c := by
    cases k <;> simp only [Stage.K4] at hk <;> exact ⟨_, rfl, rfl⟩
  obtain ⟨c, hm, hm'⟩ := hc
  have h1 := (in_node hm rfl).mp he
  refine (in_node hm rfl).mpr fun d hd => ?_
  rcases mem_flatten hd with hd | ⟨bs, h2, h3⟩
  · exact h1 d hd
  · exact (in_node hm' rfl).mp (h1 _ h2) d h3

theorem keeps_mulOne : Keeps Stage.child Stage.K4 mulOneSimplify := by
  refine ⟨K4_child, ?_⟩
  intro k hk e e' h0 he
  obtain ⟨hd, as⟩ := e
  obtain ⟨hh, h⟩ := identitySimplify_some h0
  subst hh
  clear h0
  have hc : ∃ c, Stage.child k .mul = some c ∧ Stage.Le c k := by
    cases k <;> simp only [Stage.K4] at hk
    exacts [⟨_, rfl, .plain _⟩, ⟨_, rfl, .refl _⟩, ⟨_, rfl, .plain _⟩, ⟨_, rfl, .lt4⟩]
  obtain ⟨c, hm, hle⟩ := hc
  have h1 := (in_node hm rfl).mp he
  rcases h with rfl | ⟨-, rfl | h⟩
  · exact stage_mono hle (h1 _ (by simp))
  · exact (in_node hm rfl).mpr fun d hd => h1 d (List.mem_of_mem_filter hd)
  · exact stage_mono hle (h1 _ (List.mem_of_mem_filter (by rw [h]; simp)))

theorem keeps_addZero : Keeps Stage.child Stage.K4 addZeroSimplify := by
  refine ⟨K4_child, ?_⟩
  intro k hk e e' h0 he
  obtain ⟨hd, as⟩ := e
  obtain ⟨hh, h⟩ := identitySimplify_some h0
  subst hh
  clear h0
  have hc : (∃ c, Stage.child k .add = some c ∧ Stage.Le c k) ∨ Stage.child k .add = none := by
    cases k <;> simp only [Stage.K4] at hk
    exacts [.inr rfl, .inr rfl, .inl ⟨_, rfl, .plain _⟩, .inl ⟨_, rfl, .refl _⟩]
  rcases hc with ⟨c, hm, hle⟩ | hno
  swap
  · exact absurd he (in_none hno)
  have h1 := (in_node hm rfl).mp he
  rcases h with rfl | ⟨-, rfl | h⟩
  · exact stage_mono hle (h1 _ (by simp))
  · exact (in_node hm rfl).mpr fun d hd => h1 d (List.mem_of_mem_filter hd)
  · exact stage_mono hle (h1 _ (List.mem_of_mem_filter (by rw [h]; simp)))

theorem in_num (k : Stage) (c : ℚ) : In k (num c) :=
  (in_node (c := .F) (by cases k <;> rfl) rfl).mpr (by simp)

theorem keeps_mulZero : Keeps Stage.child Stage.K4 mulZeroSimplify := by
  refine ⟨K4_child, ?_⟩
  intro k hk e e' h he
  obtain ⟨as, rfl, -, rfl⟩ := mulZero_some h
  exact in_num _ _

theorem keeps_squareAdd : Keeps Stage.child Stage.K4 squareAddSimplify := by
  refine ⟨K4_child, ?_⟩
  intro k hk e e' h he
  obtain ⟨bs, r, rfl, rfl⟩ := squareAdd_some h
  have hcase : k = .T4 ∨ Stage.child k (.cpow 2) = some .F := by
    cases k <;> simp only [Stage.K4] at hk <;> simp [Stage.child]
  rcases hcase with rfl | hno
  swap
  · exact absurd (((in_pow hno rfl).mp he).2 (node .add bs) (by simp)) (in_none rfl)
  have h2 : Stage.child .T4 (.cpow 2) = some .S' := by simp [Stage.child]
  have h3 := (in_node (c := .F) rfl rfl).mp (((in_pow h2 rfl).mp he).2 (node .add bs) (by simp))
  refine (in_node (c := .T4) rfl rfl).mpr fun c hc => ?_
  rcases mem_squareTerms hc with ⟨a, ha, rfl⟩ | ⟨a, ha, b, hb, rfl⟩
  · exact in_cpow_F (h3 a ha) (child_cpow _ _)
  · refine (in_node (c := .L) rfl rfl).mpr fun d hd => ?_
    simp only [List.mem_cons, List.not_mem_nil, or_false] at hd
    rcases hd with rfl | rfl | rfl
    · exact in_num _ _
    · exact In.plain (h3 _ ha)
    · exact In.plain (h3 _ hb)

theorem keeps_addConst : Keeps Stage.child Stage.K5 addConstSimplify := by
  refine ⟨K5_child, ?_⟩
  intro k hk e e' h he
  obtain ⟨as, rfl, -, rfl⟩ := addConst_some h
  have hcase : k = .P ∨ Stage.child k .add = none := by
    cases k <;> simp only [Stage.K5] at hk <;> simp [Stage.child]
  rcases hcase with rfl | hno
  swap
  · exact absurd he (in_none hno)
  have h1 := (in_node (c := .P) rfl rfl).mp he
  exact (in_node (c := .P) rfl rfl).mpr fun d hd => h1 d (List.mem_of_mem_filter hd)

theorem keeps_oneM : Keeps Stage.child Stage.K5 oneMSimplify := by
  refine ⟨K5_child, ?_⟩
  intro k hk e e' h he
  obtain ⟨t, as, b, r, rfl, -, rfl⟩ := oneM_some h
  have h1 := (in_node (c := .F) (by cases k <;> rfl) rfl).mp he
  exact (in_node (c := .F) (by cases k <;> rfl) rfl).mpr (by simpa using h1 b (by simp))

theorem keeps_cast : Keeps Stage.child Stage.K5 castSimplify := by
  refine ⟨K5_child, ?_⟩
  intro k hk e e' h he
  obtain ⟨t, r, rfl, -⟩ := cast_some h
  have h1 := (in_node (c := .F) (by cases k <;> rfl) rfl).mp he
  exact In.plain (h1 e' (by simp))

theorem keeps_onehot : Keeps Stage.child Stage.K5 onehotSimplify := by
  refine ⟨K5_child, ?_⟩
  intro k hk e e' h he
  obtain ⟨a, b, r, rfl, rfl⟩ := onehot_some h
  have h1 := (in_node (c := .F) (by cases k <;> rfl) rfl).mp he
  exact (in_node (c := .F) (by cases k <;> rfl) rfl).mpr (by simpa using h1 a (by simp))

theorem keeps_identityOp : Keeps Shape.child (fun _ => True) identityOpSimplify := by
  refine ⟨fun _ _ _ _ _ => trivial, ?_⟩
  intro k _ e e' h he
  obtain ⟨r, rfl⟩ := identityOp_some h
  rw [inShape_node] at he
  obtain ⟨⟨c, hc, ha⟩, -⟩ := he
  have : c = k := by cases k <;> simp only [Shape.child, Option.some.injEq] at hc <;> exact hc.symm
  subst this
  exact ha _ (by simp)

/-! ### Changes of stage -/

theorem to_stage1 {e : Expr} (hN : ∀ s, Subexpr s e → identityOpSimplify s = .ok none)
    (he : InShape Shape.child .any e) : In .T1 e := by
  refine inShape_change (fun (k : Shape) (k' : Stage) _ => match k with
    | .plain => k' = .F | .sum => k' = .S | .product => k' = .M | .any => k' = Stage.T1)
    (fun h _ => h ≠ .identity) ?_ e .any .T1 rfl ?_ he
  · intro k k' h as c hR hN _ hc
    cases k <;> simp only at hR <;> subst hR <;> cases h <;>
      simp only [Shape.child, reduceCtorEq, ne_eq, not_true_eq_false] at hc hN <;> (try split at hc) <;>
      simp only [Option.some.injEq] at hc <;> subst hc <;> simp_all [Stage.child]
  · intro h as hs
    have := hN _ hs
    rintro rfl
    unfold identityOpSimplify at this
    obtain ⟨a, -, h2⟩ := bind_ok this
    simpa using pure_ok h2

theorem to_stage2 {e : Expr} (hN : ∀ s, Subexpr s e → powerOpSimplify s = .ok none) (he : In .T1 e) : In .T2 e := by
  refine inShape_change (fun (k k' : Stage) _ => k = k' ∨ k = .T1 ∧ k' = .T2) (fun h _ => h ≠ .square) ?_ e .T1 .T2
    (Or.inr ⟨rfl, rfl⟩) ?_ he
  · intro k k' h as c hR hN _ hc
    rcases hR with rfl | ⟨rfl, rfl⟩
    · exact ⟨c, hc, fun _ _ => Or.inl rfl⟩
    · cases h <;> simp only [Stage.child, ne_eq, not_true_eq_false] at hc hN <;> (try split at hc) <;>
        simp only [Option.some.injEq] at hc <;> subst hc <;> simp_all [Stage.child]
  · intro h as hs
    have := hN _ hs
    rintro rfl
    simp only [powerOpSimplify, powerOp] at this
    simpa using pure_ok this

theorem mulAddScan_none : ∀ (as bef : List Expr), mulAddScan bef as = none → ∀ a ∈ as, a.head ≠ .add
  | [], _, _, a, ha => by simp at ha
  | b :: as, bef, h, a, ha => by
    obtain ⟨hd, bs⟩ := b
    have hne : hd ≠ .add := by
      rintro rfl
      simp [mulAddScan] at h
    have h' : mulAddScan (node hd bs :: bef) as = none := by
      rw [mulAddScan] at h
      · exact h
      · rintro cs ⟨⟩
        exact hne rfl
    rcases List.mem_cons.mp ha with rfl | ha
    · exact hne
    · exact mulAddScan_none as _ h' a ha

theorem to_stage3 {e : Expr} (hN : ∀ s, Subexpr s e → mulAddSimplify s = .ok none) (he : In .T2 e) : In .T3 e := by
  refine inShape_change (fun (k k' : Stage) h => k = k' ∨ k = .T2 ∧ k' = .T3 ∨ k = .M ∧ k' = .L ∧ h ≠ .add)
    (fun h as => h = .mul → ∀ a ∈ as, a.head ≠ .add) ?_ e .T2 .T3 (Or.inr (Or.inl ⟨rfl, rfl⟩)) ?_ he
  · intro k k' h as c hR hN _ hc
    rcases hR with rfl | ⟨rfl, rfl⟩ | ⟨rfl, rfl, hne⟩
    · exact ⟨c, hc, fun _ _ => Or.inl rfl⟩
    · cases h <;> simp only [Stage.child] at hc <;> (try split at hc) <;>
        simp only [Option.some.injEq] at hc <;> subst hc <;> simp_all [Stage.child]
    · cases h <;> simp only [Stage.child, ne_eq, not_true_eq_false] at hc hne <;>
        simp only [Option.some.injEq] at hc <;> subst hc <;> simp_all [Stage.child]
  · intro h as hs
    have := hN _ hs
    rintro rfl
    simp only [mulAddSimplify] at this
    exact mulAddScan_none as [] (by simpa using pure_ok this)

theorem to_stage4 {e : Expr} (hN : ∀ s, Subexpr s e → addAddSimplify s = .ok none) (he : In .T3 e) : In .T4 e := by
  refine inShape_change (fun (k k' : Stage) h => k = k' ∨ k = .T3 ∧ k' = .T4 ∨ k = .S ∧ k' = .S' ∨ k = .S ∧ k' = .F ∧ h ≠ .add)
    (fun h as => h = .add → ∀ a ∈ as, a.head ≠ .add) ?_ e .T3 .T4 (Or.inr (Or.inl ⟨rfl, rfl⟩)) ?_ he
  · intro k k' h as c hR hN _ hc
    rcases hR with rfl | ⟨rfl, rfl⟩ | ⟨rfl, rfl⟩ | ⟨rfl, rfl, hne⟩
    · exact ⟨c, hc, fun _ _ => Or.inl rfl⟩
    · cases h <;> simp only [Stage.child] at hc <;> (try split at hc) <;>
        simp only [Option.some.injEq] at hc <;> subst hc <;> simp_all [Stage.child]
    · cases h <;> simp only [Stage.child, reduceCtorEq] at hc <;>
        simp only [Option.some.injEq] at hc <;> subst hc <;> simp_all [Stage.child]
    · cases h <;> simp only [Stage.child, reduceCtorEq, ne_eq, not_true_eq_false] at hc hne <;>
        simp only [Option.some.injEq] at hc <;> subst hc <;> simp_all [Stage.child]
  · intro h as hs
    have := hN _ hs
    rintro rfl
    intro a ha hadd
    simp only [addAddSimplify, commutativeSimplify, if_true] at this
    rw [if_pos (List.any_eq_true.mpr ⟨a, ha, by simpa using hadd⟩)] at this
    simpa using pure_ok this

theorem to_stage5 {e : Expr} (hN : ∀ s, Subexpr s e → squareAddSimplify s = .ok none) (he : In .T4 e) : In .P e := by
  refine inShape_change (fun (k k' : Stage) h => k = k' ∨ k = .T4 ∧ k' = .P ∨ k = .S' ∧ k' = .F ∧ h ≠ .add)
    (fun h as => h = .cpow 2 → ∀ a, as = [a] → a.head ≠ .add) ?_ e .T4 .P (Or.inr (Or.inl ⟨rfl, rfl⟩)) ?_ he
  · intro k k' h as c hR hN hu hc
    rcases hR with rfl | ⟨rfl, rfl⟩ | ⟨rfl, rfl, hne⟩
    · exact ⟨c, hc, fun _ _ => Or.inl rfl⟩
    · cases h <;> simp only [Stage.child] at hc
      case cpow p =>
        split at hc <;> simp only [Option.some.injEq] at hc <;> subst hc
        · rename_i hp
          subst hp
          refine ⟨.F, rfl, fun a ha => Or.inr (Or.inr ⟨rfl, rfl, hN rfl a ?_⟩)⟩
          match as, ha, hu rfl with
          | [b], ha, _ => rw [List.mem_singleton.mp ha]
        · exact ⟨.F, rfl, fun _ _ => Or.inl rfl⟩
      all_goals simp only [Option.some.injEq] at hc
      all_goals subst hc
      all_goals simp_all [Stage.child]
    · cases h <;> simp only [Stage.child, reduceCtorEq, ne_eq, not_true_eq_false] at hc hne <;>
        simp only [Option.some.injEq] at hc <;> subst hc <;> simp_all [Stage.child]
  · intro h as hs
    have := hN _ hs
    rintro rfl a rfl hadd
    obtain ⟨hd, bs⟩ := a
    simp only [head_node] at hadd
    subst hadd
    simp only [squareAddSimplify, if_true] at this
    obtain ⟨b, h1, h2⟩ := bind_ok this
    obtain ⟨r, hr⟩ := item_zero h1
    simp only [List.cons.injEq] at hr
    rw [← hr.1] at h2
    simpa using pure_ok h2

theorem of_stage5 {e : Expr} (he : In .P e) : InShape Shape.child .any e := by
  refine inShape_change (fun (k : Stage) (k' : Shape) _ => k = .P ∧ k' = .any ∨ k = .L ∧ k' = .product ∨ k = .F)
    (fun _ _ => True) ?_ e .P .any (Or.inl ⟨rfl, rfl⟩) (fun _ _ _ => trivial) he
  intro k k' h as c hR _ _ hc
  rcases hR with ⟨rfl, rfl⟩ | ⟨rfl, rfl⟩ | rfl
  · cases h <;> simp only [Stage.child, Option.some.injEq] at hc <;> subst hc <;> simp [Shape.child]
    split <;> exact ⟨_, rfl⟩
  · cases h <;> simp only [Stage.child, reduceCtorEq, Option.some.injEq] at hc <;> subst hc <;> simp [Shape.child]
  · cases h <;> simp only [Stage.child, reduceCtorEq, Option.some.injEq] at hc <;> subst hc <;> cases k' <;>
      simp [Shape.child]
    split <;> exact ⟨_, rfl⟩

end Edward
