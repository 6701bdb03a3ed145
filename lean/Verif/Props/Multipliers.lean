/-
C22 and C81: splitting a term into multipliers and statistic, and rebuilding multipliers.
-/
import Verif.Lemmas.SimplifyConst
import Verif.Model.Conjugacy
import Verif.Props.SimplifySound

namespace Edward

open Expr Spec

/-- What a split of `e` must satisfy: the key spells out factors, each of which mentions the
random variable and is no product, the multipliers do not mention it, and nothing is lost. -/
structure Spec.Splits (e : Expr) (ms : List Expr) (fs : List Expr) : Prop where
  product : ∀ ρ : Env, eval ρ e = (ms.map (eval ρ)).prod * (fs.map (eval ρ)).prod
  free : ∀ m ∈ ms, containsX m = false
  stat : ∀ f ∈ fs, containsX f = true ∧ f.head ≠ .mul

theorem tupleOf_ne (h : Head) (as : List Expr) : tupleOf (node h as) = .inl h :: as.map .inr := rfl

mutual
theorem extract_splits : ∀ e : Expr, containsX e = true →
    ∃ fs : List Expr, (extractMultipliers e).2 = fs.flatMap tupleOf ∧ Spec.Splits e (extractMultipliers e).1 fs
  | node h as, hx => by
    by_cases hm : h = .mul
    · subst hm
      rw [extractMultipliers]
      obtain ⟨fs, h1, h2⟩ := extractArgs_splits as
      exact ⟨fs, h1, h2⟩
    · have he : extractMultipliers (node h as) = ([], tupleOf (node h as)) := by
        cases h <;> first | exact absurd rfl hm | rfl
      rw [he]
      exact ⟨[node h as], by simp, ⟨fun ρ => by simp, by simp, by simpa using ⟨hx, hm⟩⟩⟩
theorem extractArgs_splits : ∀ as : List Expr,
    ∃ fs : List Expr, (extractArgs as).2 = fs.flatMap tupleOf ∧ Spec.Splits (node .mul as) (extractArgs as).1 fs
  | [] => ⟨[], by simp [extractArgs], ⟨fun ρ => by simp [extractArgs, eval_mul], by simp [extractArgs], by simp⟩⟩
  | a :: as => by
    obtain ⟨gs, h3, h4⟩ := extractArgs_splits as
    rw [extractArgs]
    by_cases ha : containsX a = true
    · obtain ⟨fs, h1, h2⟩ := extract_splits a ha
      rw [if_pos ha]
      refine ⟨fs ++ gs, by simp [h1, h3], ⟨fun ρ => ?_, fun m hm => ?_, fun f hf => ?_⟩⟩
      · have e1 := h2.product ρ
        have e2 := h4.product ρ
        rw [eval_mul] at e2 ⊢
        simp only [List.map_cons, List.prod_cons, List.map_append, List.prod_append]
        rw [e1, e2]
        ring
      · rcases List.mem_append.mp hm with hm | hm
        exacts [h2.free m hm, h4.free m hm]
      · rcases List.mem_append.mp hf with hf | hf
        exacts [h2.stat f hf, h4.stat f hf]
    · rw [if_neg ha]
      refine ⟨gs, h3, ⟨fun ρ => ?_, fun m hm => ?_, h4.stat⟩⟩
      · have e2 := h4.product ρ
        rw [eval_mul] at e2 ⊢
        simp only [List.map_cons, List.prod_cons]
        rw [e2]
        ring
      · rcases List.mem_cons.mp hm with rfl | hm
        exacts [by simpa using ha, h4.free m hm]
end

/-- C22: every term that depends on the random variable is the product of its multipliers,
none of which depends on it, and of factors that all do; the key is the concatenation of
the factors. -/
theorem C22_splits (e : Expr) (hx : containsX e = true) :
    ∃ fs : List Expr, (extractMultipliers e).2 = fs.flatMap tupleOf ∧ Spec.Splits e (extractMultipliers e).1 fs :=
  extract_splits e hx

theorem args_inj : ∀ (as bs : List Expr) (r s : List Item), (∀ i, r.head? ≠ some (.inr i)) → (∀ i, s.head? ≠ some (.inr i)) →
    as.map Sum.inr ++ r = bs.map Sum.inr ++ s → as = bs ∧ r = s
  | [], [], r, s, _, _, h => ⟨rfl, by simpa using h⟩
  | [], b :: bs, r, s, hr, _, h => by
    simp only [List.map_nil, List.nil_append, List.map_cons, List.cons_append] at h
    exact absurd (by rw [h]; rfl) (hr b)
  | a :: as, [], r, s, _, hs, h => by
    simp only [List.map_nil, List.nil_append, List.map_cons, List.cons_append] at h
    exact absurd (by rw [← h]; rfl) (hs a)
  | a :: as, b :: bs, r, s, hr, hs, h => by
    simp only [List.map_cons, List.cons_append, List.cons.injEq, Sum.inr.injEq] at h
    obtain ⟨h1, h2⟩ := args_inj as bs r s hr hs h.2
    exact ⟨by rw [h.1, h1], h2⟩

theorem flat_head (fs : List Expr) (i : Expr) : (fs.flatMap tupleOf).head? ≠ some (.inr i) := by
  cases fs with
  | nil => simp
  | cons f fs =>
    obtain ⟨h, as⟩ := f
    simp [tupleOf]

/-- C22: keys do not run together: although the tuples of the factors are concatenated, equal
keys come from equal lists of factors. -/
theorem C22_key_injective (fs gs : List Expr) (h : fs.flatMap tupleOf = gs.flatMap tupleOf) : fs = gs := by
  induction fs generalizing gs with
  | nil =>
    cases gs with
    | nil => rfl
    | cons g gs =>
      obtain ⟨hd, as⟩ := g
      simp [tupleOf] at h
  | cons f fs ih =>
    cases gs with
    | nil =>
      obtain ⟨hd, as⟩ := f
      simp [tupleOf] at h
    | cons g gs =>
      obtain ⟨hd, as⟩ := f
      obtain ⟨hd', bs⟩ := g
      simp only [List.flatMap_cons, tupleOf, List.cons_append, List.cons.injEq, Sum.inl.injEq] at h
      obtain ⟨h1, h2⟩ := args_inj as bs _ _ (flat_head fs) (flat_head gs) h.2
      rw [h.1, h1, ih gs h2]

/-- C22: two terms with the same key are the same function of the random variable up to the
multipliers: `e₁·m₂ = e₂·m₁`. -/
theorem C22_same_key (e₁ e₂ : Expr) (h₁ : containsX e₁ = true) (h₂ : containsX e₂ = true)
    (hk : (extractMultipliers e₁).2 = (extractMultipliers e₂).2) (ρ : Env) :
    eval ρ e₁ * ((extractMultipliers e₂).1.map (eval ρ)).prod =
      eval ρ e₂ * ((extractMultipliers e₁).1.map (eval ρ)).prod := by
  obtain ⟨fs, k1, s1⟩ := C22_splits e₁ h₁
  obtain ⟨gs, k2, s2⟩ := C22_splits e₂ h₂
  have : fs = gs := C22_key_injective fs gs (by rw [← k1, ← k2, hk])
  subst this
  rw [s1.product ρ, s2.product ρ]
  ring

/-- The hypotheses are met by a nested product `a·(b·(x·log x))`. -/
example : let e := node .mul [tens 0, node .mul [tens 1, node .mul [X, node .log [X]]]]
    containsX e = true ∧ extractMultipliers e = ([tens 0, tens 1], [.inl .x, .inl .log, .inr X]) :=
  ⟨rfl, rfl⟩

/-! ### C81 -/

/-- Expressions that can be rebuilt: no random variable, sum or product outside tensors, and
as many arguments as the operation takes. -/
inductive Spec.Rebuildable : Expr → Prop
  | num (c : ℚ) (as : List Expr) : Rebuildable (node (.num c) as)
  | tensor (t : TfNode) (as : List Expr) : Rebuildable (node (.tensor t) as)
  | unary (h : Head) (a : Expr) : (h = .log ∨ h = .exp ∨ h = .square ∨ h = .reciprocal ∨ h = .sqrt ∨
      h = .identity ∨ h = .oneMinus ∨ h = .oneHot ∨ ∃ p, h = .cpow p) → Rebuildable a → Rebuildable (node h [a])
  | binary (h : Head) (a b : Expr) : (h = .sub ∨ h = .pow) → Rebuildable a → Rebuildable b → Rebuildable (node h [a, b])

/-- The graph gives every tensor of `e` the value that its operation has on its inputs. -/
def Spec.GraphValues (ρ : Env) (val : TfNode → ℝ) (e : Expr) : Prop :=
  ∀ t as, Subexpr (node (.tensor t) as) e → val t = eval ρ (node (.tensor t) as)

/-- C81, partial: rebuilding an expression without sums and products yields its value.
Missing: expressions with sums or products, for which `C81_fails` shows that rebuilding
always raises. -/
theorem C81_partial (ρ : Env) (val : TfNode → ℝ) (e : Expr) (he : Spec.Rebuildable e) (hv : Spec.GraphValues ρ val e) :
    reconstruct ρ.oneHot val e = .ok (eval ρ e) := by
  induction he with
  | num c as => simp [reconstruct, eval_num]
  | tensor t as =>
    rw [reconstruct, hv t as (.refl _)]
  | unary h a hh _ ih =>
    have iha := ih fun t as hs => hv t as (.arg _ _ a (by simp) hs)
    have hs : reconstructs ρ.oneHot val [a] = .ok [eval ρ a] := by
      rw [reconstructs, iha, reconstructs]; rfl
    rcases hh with rfl | rfl | rfl | rfl | rfl | rfl | rfl | rfl | ⟨p, rfl⟩ <;>
      simp only [reconstruct, hs] <;> simp [applyTf, eval_node, headVal, bind, Except.bind]
  | binary h a b hh _ _ iha ihb =>
    have ha := iha fun t as hs => hv t as (.arg _ _ a (by simp) hs)
    have hb := ihb fun t as hs => hv t as (.arg _ _ b (by simp) hs)
    have hs : reconstructs ρ.oneHot val [a, b] = .ok [eval ρ a, eval ρ b] := by
      rw [reconstructs, ha, reconstructs, hb, reconstructs]; rfl
    rcases hh with rfl | rfl <;> simp only [reconstruct, hs] <;> simp [applyTf, eval_node, headVal, bind, Except.bind]

/-- C81 fails: every sum and every product raises, whatever its arguments. -/
theorem C81_fails (oneHot : List ℝ → ℝ) (val : TfNode → ℝ) (h : Head) (hh : h = .add ∨ h = .mul) (as : List Expr) :
    ∃ err, reconstruct oneHot val (node h as) = .error err := by
  cases hr : reconstructs oneHot val as with
  | error e =>
    rcases hh with rfl | rfl <;> simp only [reconstruct, hr] <;> exact ⟨e, rfl⟩
  | ok vs =>
    rcases hh with rfl | rfl <;> simp only [reconstruct, hr] <;> exact ⟨.typeError, by simp [applyTf, bind, Except.bind]⟩

/-- The multipliers multiply up to the coefficient of the statistic. -/
theorem C81_multiplier (ρ : Env) (val : TfNode → ℝ) (ms : List Expr) (hm : ∀ m ∈ ms, Spec.Rebuildable m)
    (hv : ∀ m ∈ ms, Spec.GraphValues ρ val m) :
    reconstructMultiplier ρ.oneHot val ms = .ok (ms.map (eval ρ)).prod := by
  have : ∀ (ms : List Expr) (r : ℝ), (∀ m ∈ ms, Spec.Rebuildable m) → (∀ m ∈ ms, Spec.GraphValues ρ val m) →
      ms.foldlM (fun r m => (do return r * (← reconstruct ρ.oneHot val m) : Except PyErr ℝ)) r =
        .ok (r * (ms.map (eval ρ)).prod) := by
    intro ms
    induction ms with
    | nil => intro r _ _; simp [pure, Except.pure]
    | cons m ms ih =>
      intro r hm hv
      rw [List.foldlM_cons, C81_partial ρ val m (hm m (by simp)) (hv m (by simp))]
      have := ih (r * eval ρ m) (fun m h => hm m (by simp [h])) (fun m h => hv m (by simp [h]))
      simp only [List.map_cons, List.prod_cons, ← mul_assoc]
      exact this
  rw [reconstructMultiplier, this ms 1 hm hv, one_mul]

/-- `(1 - a)^(1/2)` is rebuilt; `exp (a·b)` raises. -/
example : Spec.Rebuildable (node (.cpow (1 / 2)) [node .oneMinus [tens 0]]) ∧
    Spec.GraphValues sampleEnv (fun _ => 1) (node (.cpow (1 / 2)) [node .oneMinus [tens 0]]) ∧
    ∃ err, reconstruct sampleEnv.oneHot (fun _ => 1) (node .exp [node .mul [tens 0, tens 1]]) = .error err := by
  refine ⟨.unary _ _ (by simp) (.unary _ _ (by simp) (.tensor _ _)), ?_, ?_⟩
  · intro t as hs
    cases hs with
    | arg h as a ha hs =>
      rw [List.mem_singleton] at ha
      subst ha
      cases hs with
      | arg h as a ha hs =>
        rw [List.mem_singleton] at ha
        subst ha
        cases hs with
        | refl => simp [eval_node, headVal, sampleEnv]
        | arg h as a ha hs => simp at ha
  · simp only [reconstruct, reconstructs]
    exact ⟨.typeError, by simp [applyTf, bind, Except.bind, pure, Except.pure]⟩

end Edward
