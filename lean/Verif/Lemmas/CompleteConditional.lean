/-
The log joint is affine in the entries of the statistics, and an entry of a statistic is the value of its symbolic
expression.
-/
import Mathlib.Algebra.BigOperators.Group.Finset.Basic
import Mathlib.Analysis.Calculus.Deriv.Add
import Mathlib.Analysis.Calculus.Deriv.Mul
import Verif.Spec.CompleteConditional
import Verif.Lemmas.SimplifyRules

namespace Edward

open Expr Spec

/-! ### Shapes and indices -/

theorem mem_indices_cons {s : ℕ} {sh : List ℕ} {i : ℕ} {j : List ℕ} : i :: j ∈ indices (s :: sh) ↔ i < s ∧ j ∈ indices sh := by
  simp only [indices, List.mem_flatMap, List.mem_map, List.mem_range, List.cons.injEq]
  constructor
  · rintro ⟨a, ha, k, hk, rfl, rfl⟩; exact ⟨hk, ha⟩
  · rintro ⟨h, hj⟩; exact ⟨j, hj, i, h, rfl, rfl⟩

theorem nil_mem_indices {s : ℕ} {sh : List ℕ} : [] ∉ indices (s :: sh) := by
  simp [indices]

theorem mem_indices_nil {j : List ℕ} : j ∈ indices [] ↔ j = [] := by simp [indices]

theorem indices_nodup : ∀ sh : List ℕ, (indices sh).Nodup
  | [] => by simp [indices]
  | s :: sh => by
    rw [indices, List.nodup_flatMap]
    refine ⟨fun j _ => (List.nodup_range).map fun a b h => by simpa using h, ?_⟩
    refine (indices_nodup sh).imp ?_
    intro a b hab
    simp only [Function.onFun, List.disjoint_left, List.mem_map, List.mem_range]
    rintro c ⟨k, -, rfl⟩ ⟨l, -, h⟩
    simp only [List.cons.injEq] at h
    exact hab h.2.symm

theorem bidx_self : ∀ (sh j : List ℕ), j ∈ indices sh → bidx sh j = j
  | [], j, h => by rw [mem_indices_nil] at h; subst h; rfl
  | s :: sh, [], h => absurd h nil_mem_indices
  | s :: sh, i :: j, h => by
    rw [mem_indices_cons] at h
    rw [bidx, bidx_self sh j h.2]
    split
    · next hs => subst hs; congr 1; omega
    · rfl

theorem bidx_mem : ∀ (a b j : List ℕ), Fits a b → j ∈ indices b → bidx a j ∈ indices a
  | [], b, j, _, _ => by cases j <;> simp [bidx, indices]
  | a :: s, [], j, h, _ => absurd h (by simp [Fits])
  | a :: s, b :: t, [], _, h => absurd h nil_mem_indices
  | a :: s, b :: t, i :: j, h, hj => by
    rw [Fits] at h
    rw [mem_indices_cons] at hj
    rw [bidx, mem_indices_cons]
    refine ⟨?_, bidx_mem s t j h.2 hj.2⟩
    split
    · next hs => omega
    · next hs => rcases h.1 with h1 | h1 <;> omega

theorem bidx_bidx : ∀ (a b j : List ℕ), Fits a b → j ∈ indices b ∨ True → bidx a (bidx b j) = bidx a j
  | [], b, j, _, _ => by cases b <;> cases j <;> simp [bidx]
  | a :: s, [], j, h, _ => absurd h (by simp [Fits])
  | a :: s, b :: t, [], _, _ => by simp [bidx]
  | a :: s, b :: t, i :: j, h, _ => by
    rw [Fits] at h
    simp only [bidx]
    rw [bidx_bidx s t j h.2 (.inr trivial)]
    congr 1
    split
    · rfl
    · next hs =>
      rcases h.1 with h1 | h1
      · exact absurd h1 hs
      · rw [if_neg (by omega)]

theorem fits_trans : ∀ {a b c : List ℕ}, Fits a b → Fits b c → Fits a c
  | [], _, _, _, _ => by simp [Fits]
  | _ :: _, [], _, h, _ => absurd h (by simp [Fits])
  | _ :: _, _ :: _, [], _, h => absurd h (by simp [Fits])
  | a :: s, b :: t, c :: u, h, h' => by
    rw [Fits] at h h' ⊢
    refine ⟨?_, fits_trans h.2 h'.2⟩
    rcases h.1 with h1 | h1 <;> rcases h'.1 with h2 | h2 <;> simp_all

theorem fits_refl : ∀ a : List ℕ, Fits a a
  | [] => by simp [Fits]
  | a :: s => by simp [Fits, fits_refl s]

/-! ### Trees -/

theorem Within.trans {s t u : Sub} (h : Within s t) (h' : Within t u) : Within s u := by
  induction h' with
  | refl => exact h
  | step n cs c hc _ ih => exact .step n cs c hc ih

theorem Within.child {n : GNode} {cs : List Sub} {c T : Sub} (hc : c ∈ cs) (h : Within (.node n cs) T) : Within c T :=
  Within.trans (.step n cs c hc .refl) h

theorem Depends.of_child {base : ℕ} {n : GNode} {cs : List Sub} {c : Sub} (hc : c ∈ cs) (h : Depends base c) :
    Depends base (.node n cs) := by
  obtain ⟨s, hs, hb⟩ := h
  exact ⟨s, .step n cs c hc hs, hb⟩

theorem depends_node {base : ℕ} {n : GNode} {cs : List Sub} :
    Depends base (.node n cs) ↔ n.id = base ∨ ∃ c ∈ cs, Depends base c := by
  constructor
  · rintro ⟨s, hs, hb⟩
    cases hs with
    | refl => exact .inl hb
    | step _ _ c hc hw => exact .inr ⟨c, hc, s, hw, hb⟩
  · rintro (h | ⟨c, hc, h⟩)
    · exact ⟨_, .refl, h⟩
    · exact Depends.of_child hc h

theorem evalsWith_eq (S : Sem) (base : ℕ) (F : ℕ → Option TVal) (x : Arr) : ∀ cs : List Sub,
    evalsWith S base F x cs = cs.map (evalWith S base F x)
  | [] => rfl
  | c :: cs => by rw [evalsWith, evalsWith_eq S base F x cs, List.map_cons]

theorem evalWith_some {S : Sem} {base : ℕ} {F : ℕ → Option TVal} {x : Arr} {n : GNode} {cs : List Sub} {a : TVal}
    (h : F n.id = some a) : evalWith S base F x (.node n cs) = (a.1, mask a.1 a.2) := by
  rw [evalWith, h]

theorem evalWith_base {S : Sem} {base : ℕ} {F : ℕ → Option TVal} {x : Arr} {n : GNode} {cs : List Sub}
    (h : F n.id = none) (hb : n.id = base) : evalWith S base F x (.node n cs) = (n.shape, mask n.shape x) := by
  rw [evalWith, h, if_pos hb]

theorem evalWith_leaf {S : Sem} {base : ℕ} {F : ℕ → Option TVal} {x : Arr} {n : GNode}
    (h : F n.id = none) (hb : n.id ≠ base) : evalWith S base F x (.node n []) = (n.shape, mask n.shape (S.leaf n)) := by
  rw [evalWith, h]; simp only [if_neg hb, List.isEmpty_nil, if_true]

theorem evalWith_op {S : Sem} {base : ℕ} {F : ℕ → Option TVal} {x : Arr} {n : GNode} {cs : List Sub}
    (h : F n.id = none) (hb : n.id ≠ base) (hc : cs ≠ []) :
    evalWith S base F x (.node n cs) =
      (S.opShape n ((cs.map (evalWith S base F x)).map (·.1)),
        mask (S.opShape n ((cs.map (evalWith S base F x)).map (·.1))) (S.op n (cs.map (evalWith S base F x)))) := by
  rw [evalWith, h]
  have : cs.isEmpty = false := by cases cs <;> simp_all
  simp only [if_neg hb, this, evalsWith_eq]
  rfl

/-- Induction over trees. -/
theorem Sub.induct {P : Sub → Prop} (h : ∀ n cs, (∀ c ∈ cs, P c) → P (.node n cs)) : ∀ t, P t
  | .node n cs => h n cs fun c _ => Sub.induct h c
termination_by t => sizeOf t
decreasing_by
  have := List.sizeOf_lt_of_mem ‹c ∈ cs›
  simp only [Sub.node.sizeOf_spec]
  omega

theorem mask_mask (sh : List ℕ) (a : Arr) : mask sh (mask sh a) = mask sh a := by
  funext i; simp only [mask]; split <;> rfl

/-- What does not depend on `base` or on the replaced tensors has one value. -/
theorem eval_indep (S : Sem) (base : ℕ) (F : ℕ → Option TVal) (x x' : Arr) : ∀ t : Sub, ¬ Depends base t →
    (∀ s, Within s t → F s.root.id = none) → evalWith S base F x t = evalWith S base (fun _ => none) x' t := by
  refine Sub.induct fun n cs ih => ?_
  intro hd hF
  rw [depends_node] at hd
  push Not at hd
  have hn : F n.id = none := hF _ .refl
  cases cs with
  | nil => rw [evalWith_leaf hn hd.1, evalWith_leaf rfl hd.1]
  | cons c cs =>
    rw [evalWith_op hn hd.1 (by simp), evalWith_op rfl hd.1 (by simp)]
    have : (c :: cs).map (evalWith S base F x) = (c :: cs).map (evalWith S base (fun _ => none) x') :=
      List.map_congr_left fun a ha => ih a ha (hd.2 a ha) fun s hs => hF s (.step n _ a ha hs)
    rw [this]

/-- Replacing tensors by their own values changes nothing. -/
theorem eval_swap (S : Sem) (base : ℕ) (F : ℕ → Option TVal) (x : Arr) : ∀ t : Sub,
    (∀ s, Within s t → ∀ b, F s.root.id = some b → (b.1, mask b.1 b.2) = evalWith S base (fun _ => none) x s) →
    evalWith S base F x t = evalWith S base (fun _ => none) x t := by
  refine Sub.induct fun n cs ih => ?_
  intro hF
  cases hn : F n.id with
  | some b => rw [evalWith_some hn]; exact hF _ .refl b hn
  | none =>
    by_cases hb : n.id = base
    · rw [evalWith_base hn hb, evalWith_base rfl hb]
    · cases cs with
      | nil => rw [evalWith_leaf hn hb, evalWith_leaf rfl hb]
      | cons c cs =>
        rw [evalWith_op hn hb (by simp), evalWith_op rfl hb (by simp)]
        have : (c :: cs).map (evalWith S base F x) = (c :: cs).map (evalWith S base (fun _ => none) x) :=
          List.map_congr_left fun a ha => ih a ha fun s hs => hF s (.step n _ a ha hs)
        rw [this]

theorem eval_shape {S : Sem} {base : ℕ} {stop : ℕ → Bool} {T : Sub} (hT : GraphOk S base stop T) (x : Arr) : ∀ t : Sub, Within t T →
    (evalWith S base (fun _ => none) x t).1 = t.root.shape := by
  refine Sub.induct fun n cs ih => ?_
  intro hw
  by_cases hb : n.id = base
  · rw [evalWith_base rfl hb]; rfl
  · cases cs with
    | nil => rw [evalWith_leaf rfl hb]; rfl
    | cons c cs =>
      rw [evalWith_op rfl hb (by simp)]
      have := hT.shape _ hw (by simp [Sub.inputs])
      rw [this]
      simp only [Sub.root, Sub.inputs, List.map_map]
      congr 1
      refine List.map_congr_left fun a ha => ?_
      exact ih a ha (Within.child ha hw)

theorem valueAt_mask {S : Sem} {base : ℕ} {stop : ℕ → Bool} {T : Sub} (hT : GraphOk S base stop T) (x : Arr) (t : Sub) (h : Within t T) :
    mask t.root.shape (valueAt S base x t) = valueAt S base x t := by
  have hs := eval_shape hT x t h
  obtain ⟨n, cs⟩ := t
  rw [valueAt]
  by_cases hb : n.id = base
  · rw [evalWith_base rfl hb]; exact mask_mask _ _
  · cases cs with
    | nil => rw [evalWith_leaf rfl hb]; exact mask_mask _ _
    | cons c cs =>
      rw [evalWith_op rfl hb (by simp)] at hs ⊢
      simp only at hs ⊢
      rw [hs]; exact mask_mask _ _

theorem find_within (id : ℕ) : (∀ t : Sub, ∀ s, t.find id = some s → Within s t ∧ s.root.id = id) := by
  refine Sub.induct fun n cs ih => ?_
  intro s h
  rw [Sub.find] at h
  split at h
  · next hi => cases h; exact ⟨.refl, hi⟩
  · have : ∀ cs' : List Sub, (∀ c ∈ cs', c ∈ cs) → ∀ s, Sub.finds id cs' = some s → ∃ c ∈ cs', c.find id = some s := by
      intro cs'
      induction cs' with
      | nil => intro _ s h; simp [Sub.finds] at h
      | cons c cs' ih' =>
        intro hsub s h
        rw [Sub.finds] at h
        cases hc : c.find id with
        | some s' => rw [hc] at h; cases h; exact ⟨c, by simp, hc⟩
        | none =>
          rw [hc] at h
          obtain ⟨c', hc', h'⟩ := ih' (fun c hc => hsub c (by simp [hc])) s h
          exact ⟨c', by simp [hc'], h'⟩
    obtain ⟨c, hc, h'⟩ := this cs (fun _ h => h) s h
    obtain ⟨h1, h2⟩ := ih c hc s h'
    exact ⟨.step n cs c hc h1, h2⟩

theorem finds_ne_none {id : ℕ} : ∀ {cs : List Sub} {c : Sub}, c ∈ cs → c.find id ≠ none → Sub.finds id cs ≠ none
  | c' :: cs, c, hc, h => by
    rw [Sub.finds]
    cases h' : c'.find id with
    | some s => simp
    | none =>
      rcases List.mem_cons.1 hc with rfl | hc
      · exact absurd h' h
      · exact finds_ne_none hc h

theorem find_ne_none {s t : Sub} (h : Within s t) : t.find s.root.id ≠ none := by
  induction h with
  | refl => obtain ⟨n, cs⟩ := s; simp [Sub.find, Sub.root]
  | step n cs c hc _ ih =>
    rw [Sub.find]
    split
    · simp
    · exact finds_ne_none hc ih

theorem find_eq {S : Sem} {base : ℕ} {stop : ℕ → Bool} {T : Sub} (hT : GraphOk S base stop T) {s : Sub} (h : Within s T) :
    T.find s.root.id = some s := by
  cases hf : T.find s.root.id with
  | none => exact absurd hf (find_ne_none h)
  | some s' =>
    obtain ⟨h1, h2⟩ := find_within _ T s' hf
    rw [hT.unique s' s h1 h h2]

/-! ### The nodes found -/

theorem anyChild_eq (base : ℕ) : ∀ cs : List Sub, anyChild base cs = cs.any (isChild base)
  | [] => rfl
  | c :: cs => by rw [anyChild, anyChild_eq base cs, List.any_cons]

theorem isChild_cons (base : ℕ) (n : GNode) (c : Sub) (cs : List Sub) : isChild base (.node n (c :: cs)) = (c :: cs).any (isChild base) := by
  rw [isChild, anyChild_eq, List.any_cons]

theorem isChild_iff {base : ℕ} : ∀ t : Sub, (∀ s, Within s t → s.root.id = base → s.inputs = []) → (isChild base t = true ↔ Depends base t) := by
  refine Sub.induct fun n cs ih => ?_
  intro hl
  rw [depends_node]
  cases cs with
  | nil => simp [isChild]
  | cons c cs =>
    rw [isChild_cons, List.any_eq_true]
    have hn : n.id ≠ base := fun h => by simpa [Sub.inputs] using hl _ .refl h
    have : ∀ a ∈ c :: cs, (isChild base a = true ↔ Depends base a) := fun a ha =>
      ih a ha fun s hs => hl s (.step n _ a ha hs)
    constructor
    · rintro ⟨a, ha, h⟩; exact .inr ⟨a, ha, (this a ha).1 h⟩
    · rintro (h | ⟨a, ha, h⟩)
      · exact absurd h hn
      · exact ⟨a, ha, (this a ha).2 h⟩

theorem suffStatsOf_eq (base : ℕ) : ∀ cs : List Sub, suffStatsOf base cs = cs.flatMap (suffStatNodes base)
  | [] => rfl
  | c :: cs => by rw [suffStatsOf, suffStatsOf_eq base cs, List.flatMap_cons]

theorem suff_base {base : ℕ} {n : GNode} {cs : List Sub} (h : n.id = base) : suffStatNodes base (.node n cs) = [.node n cs] := by
  rw [suffStatNodes.eq_def]; simp [h]

theorem suff_sum {base : ℕ} {n : GNode} {c : Sub} {cs : List Sub} (h : n.id ≠ base) (ht : n.type = .sum) :
    suffStatNodes base (.node n (c :: cs)) = suffStatNodes base c := by
  rw [suffStatNodes, if_neg h]; simp [ht, OpType.linear]

theorem suff_lin {base : ℕ} {n : GNode} {cs : List Sub} (h : n.id ≠ base) (hl : n.type.linear = true) (ht : n.type ≠ .sum) :
    suffStatNodes base (.node n cs) = cs.flatMap (suffStatNodes base) := by
  cases cs with
  | nil => rw [suffStatNodes, if_neg h]; rfl
  | cons c cs => rw [suffStatNodes, if_neg h]; simp [hl, ht, suffStatsOf_eq]

theorem suff_nonlin {base : ℕ} {n : GNode} {cs : List Sub} (h : n.id ≠ base) (hl : n.type.linear = false) :
    suffStatNodes base (.node n cs) = if isChild base (.node n cs) then [.node n cs] else [] := by
  cases cs with
  | nil => rw [suffStatNodes, if_neg h]; simp [isChild, h]
  | cons c cs => rw [suffStatNodes, if_neg h]; simp [hl]

theorem suff_within {base : ℕ} : ∀ t : Sub, (∀ s, Within s t → s.root.id = base → s.inputs = []) → ∀ s ∈ suffStatNodes base t,
    Within s t ∧ Depends base s := by
  refine Sub.induct fun n cs ih => ?_
  intro hl s hs
  have ih' : ∀ c ∈ cs, ∀ s ∈ suffStatNodes base c, Within s (.node n cs) ∧ Depends base s := fun c hc s hs =>
    have := ih c hc (fun s h => hl s (.step n cs c hc h)) s hs
    ⟨.step n cs c hc this.1, this.2⟩
  by_cases hb : n.id = base
  · rw [suff_base hb] at hs
    obtain rfl := List.mem_singleton.1 hs
    exact ⟨.refl, ⟨_, .refl, hb⟩⟩
  · cases hlin : n.type.linear with
    | false =>
      rw [suff_nonlin hb hlin] at hs
      split at hs
      · next hc =>
        obtain rfl := List.mem_singleton.1 hs
        exact ⟨.refl, (isChild_iff _ hl).1 hc⟩
      · simp at hs
    | true =>
      by_cases ht : n.type = .sum
      · cases cs with
        | nil => rw [suffStatNodes, if_neg hb] at hs; simp at hs
        | cons c cs =>
          rw [suff_sum hb ht] at hs
          exact ih' c (by simp) s hs
      · rw [suff_lin hb hlin ht] at hs
        obtain ⟨c, hc, hs⟩ := List.mem_flatMap.1 hs
        exact ih' c hc s hs

/-! ### Affine functions of the statistics' entries -/

/-- A function of the values of the tensors in `ids`, of shape `sh`, and of the random variable that is affine in the
former and does not depend on the latter. -/
def Aff (ids : List ℕ) (sh : List ℕ) (f : (ℕ → Arr) → Arr → ℝ) : Prop :=
  ∃ (c : ℝ) (w : ℕ × List ℕ → ℝ), ∀ a x, f a x = c + ∑ p ∈ ids.toFinset ×ˢ (indices sh).toFinset, w p * a p.1 p.2

theorem Aff.const (ids sh : List ℕ) (c : ℝ) : Aff ids sh fun _ _ => c := ⟨c, fun _ => 0, by simp⟩

theorem Aff.add {ids sh : List ℕ} {f g : (ℕ → Arr) → Arr → ℝ} (hf : Aff ids sh f) (hg : Aff ids sh g) :
    Aff ids sh fun a x => f a x + g a x := by
  obtain ⟨c, w, h⟩ := hf
  obtain ⟨d, v, h'⟩ := hg
  refine ⟨c + d, fun p => w p + v p, fun a x => ?_⟩
  simp only [h, h', add_mul, Finset.sum_add_distrib]
  ring

theorem Aff.smul {ids sh : List ℕ} {f : (ℕ → Arr) → Arr → ℝ} (k : ℝ) (hf : Aff ids sh f) : Aff ids sh fun a x => k * f a x := by
  obtain ⟨c, w, h⟩ := hf
  refine ⟨k * c, fun p => k * w p, fun a x => ?_⟩
  simp only [h, mul_add, Finset.mul_sum, mul_assoc]

theorem Aff.coord {ids sh : List ℕ} {id : ℕ} {i : List ℕ} (h : id ∈ ids) (hi : i ∈ indices sh) : Aff ids sh fun a _ => a id i := by
  classical
  refine ⟨0, fun p => if p = (id, i) then 1 else 0, fun a x => ?_⟩
  rw [zero_add, Finset.sum_eq_single (id, i)]
  · simp
  · intro b _ hb; simp [hb]
  · intro hn; simp [h, hi] at hn

theorem Aff.congr {ids sh : List ℕ} {f g : (ℕ → Arr) → Arr → ℝ} (hf : Aff ids sh f) (h : ∀ a x, g a x = f a x) : Aff ids sh g := by
  obtain ⟨c, w, h'⟩ := hf
  exact ⟨c, w, fun a x => by rw [h, h']⟩

theorem Aff.list_sum {ids sh : List ℕ} {α : Type} (l : List α) (f : α → (ℕ → Arr) → Arr → ℝ) (h : ∀ k ∈ l, Aff ids sh (f k)) :
    Aff ids sh fun a x => (l.map fun k => f k a x).sum := by
  induction l with
  | nil => simpa using Aff.const ids sh 0
  | cons k l ih =>
    simp only [List.map_cons, List.sum_cons]
    exact (h k (by simp)).add (ih fun k hk => h k (by simp [hk]))

open Classical in
/-- The tensors in `ids` replaced by values of shape `sh`. -/
noncomputable def statVals (ids sh : List ℕ) (a : ℕ → Arr) (id : ℕ) : Option TVal := if id ∈ ids then some (sh, a id) else none

/-- What is shown of every tensor on the way to the statistics. -/
def AffVal (S : Sem) (base : ℕ) (ids sh : List ℕ) (t : Sub) : Prop :=
  ∃ shp, (∀ a x, (evalWith S base (statVals ids sh a) x t).1 = shp) ∧
    ∀ j, Aff ids sh fun a x => (evalWith S base (statVals ids sh a) x t).2 j

theorem affVal_indep {S : Sem} {base : ℕ} {ids sh : List ℕ} {t : Sub} (hd : ¬ Depends base t) (h : ∀ s, Within s t → s.root.id ∉ ids) :
    AffVal S base ids sh t := by
  have he : ∀ a x, evalWith S base (statVals ids sh a) x t = evalWith S base (fun _ => none) (fun _ => 0) t := fun a x =>
    eval_indep S base _ x _ t hd fun s hs => by simp [statVals, h s hs]
  refine ⟨(evalWith S base (fun _ => none) (fun _ => 0) t).1, fun a x => by rw [he], fun j => ?_⟩
  simp only [he]
  exact .const _ _ _

theorem affVal_stat {S : Sem} {base : ℕ} {ids sh : List ℕ} {t : Sub} (h : t.root.id ∈ ids) : AffVal S base ids sh t := by
  obtain ⟨n, cs⟩ := t
  have he : ∀ a x, evalWith S base (statVals ids sh a) x (.node n cs) = (sh, mask sh (a n.id)) := fun a x =>
    evalWith_some (a := (sh, a n.id)) (by rw [statVals]; exact if_pos h)
  refine ⟨sh, fun a x => by rw [he], fun j => ?_⟩
  simp only [he, mask]
  by_cases hj : j ∈ indices sh
  · simp only [if_pos hj]; exact .coord h hj
  · simp only [if_neg hj]; exact .const _ _ _

/-- One operation, when its entries are affine. -/
theorem affVal_op {S : Sem} {base : ℕ} {ids sh : List ℕ} {n : GNode} {cs : List Sub} (hid : n.id ∉ ids) (hb : n.id ≠ base) (hc : cs ≠ [])
    (hcs : ∀ a x a' x', (cs.map (evalWith S base (statVals ids sh a) x)).map (·.1) = (cs.map (evalWith S base (statVals ids sh a') x')).map (·.1))
    (hop : ∀ j, Aff ids sh fun a x => S.op n (cs.map (evalWith S base (statVals ids sh a) x)) j) : AffVal S base ids sh (.node n cs) := by
  have hn : ∀ a, statVals ids sh a n.id = none := fun a => by rw [statVals, if_neg hid]
  let shp := S.opShape n ((cs.map (evalWith S base (statVals ids sh fun _ _ => 0) fun _ => 0)).map (·.1))
  have he : ∀ a x, evalWith S base (statVals ids sh a) x (.node n cs) =
      (shp, mask shp (S.op n (cs.map (evalWith S base (statVals ids sh a) x)))) := fun a x => by
    rw [evalWith_op (hn a) hb hc, hcs a x (fun _ _ => 0) fun _ => 0]
  refine ⟨shp, fun a x => by rw [he], fun j => ?_⟩
  simp only [he, mask]
  split
  · exact hop j
  · exact .const _ _ _

/-- The entries of a list of affine tensors. -/
theorem affVal_shapes {S : Sem} {base : ℕ} {ids sh : List ℕ} {cs : List Sub} (h : ∀ c ∈ cs, AffVal S base ids sh c) (a : ℕ → Arr) (x : Arr)
    (a' : ℕ → Arr) (x' : Arr) :
    (cs.map (evalWith S base (statVals ids sh a) x)).map (·.1) = (cs.map (evalWith S base (statVals ids sh a') x')).map (·.1) := by
  simp only [List.map_map]
  refine List.map_congr_left fun c hc => ?_
  obtain ⟨shp, h1, -⟩ := h c hc
  simp [h1]

theorem AffVal.entry {S : Sem} {base : ℕ} {ids sh : List ℕ} {c : Sub} (h : AffVal S base ids sh c) (j : List ℕ) :
    Aff ids sh fun a x => (evalWith S base (statVals ids sh a) x c).2 (bidx (evalWith S base (statVals ids sh a) x c).1 j) := by
  obtain ⟨shp, h1, h2⟩ := h
  simp only [h1]
  exact h2 _

theorem Aff.neg {ids sh : List ℕ} {f : (ℕ → Arr) → Arr → ℝ} (hf : Aff ids sh f) : Aff ids sh fun a x => -f a x :=
  (hf.smul (-1)).congr fun a x => by ring

/-- The log joint is affine in the statistics. -/
theorem lin_aff {S : Sem} {base : ℕ} {stop : ℕ → Bool} {T : Sub} (hT : GraphOk S base stop T) {ids : List ℕ} (sh : List ℕ)
    (hdep : ∀ s, Within s T → s.root.id ∈ ids → Depends base s) (t : Sub) (hlin : Lin base t) :
    Within t T → (∀ s ∈ suffStatNodes base t, s.root.id ∈ ids) → AffVal S base ids sh t := by
  have hindep : ∀ t, Within t T → ¬ Depends base t → AffVal S base ids sh t := fun t hw hd =>
    affVal_indep hd fun s hs hi => hd <| by
      obtain ⟨r, hr, hb⟩ := hdep s (Within.trans hs hw) hi
      exact ⟨r, Within.trans hr hs, hb⟩
  have hleaf : ∀ t, Within t T → ∀ s, Within s t → s.root.id = base → s.inputs = [] := fun t hw s hs hb =>
    hT.leaf s (Within.trans hs hw) (.inl hb)
  induction hlin with
  | indep t hd => intro hw _; exact hindep t hw hd
  | base n cs hb => intro hw hs; exact affVal_stat (hs _ (by rw [suff_base hb]; exact List.mem_singleton.2 rfl))
  | stat n cs hl =>
    intro hw hs
    by_cases hd : Depends base (.node n cs)
    · refine affVal_stat (hs _ ?_)
      by_cases hb : n.id = base
      · rw [suff_base hb]; simp
      · rw [suff_nonlin hb hl, if_pos ((isChild_iff _ (hleaf _ hw)).2 hd)]; simp
    · exact hindep _ hw hd
  | sum n c cs ht hcs _ ih =>
    intro hw hs
    by_cases hid : n.id ∈ ids
    · exact affVal_stat hid
    have hb : n.id ≠ base := fun hb => hid (hs (.node n (c :: cs)) (by rw [suff_base hb]; simp))
    rw [suff_sum hb ht] at hs
    have hall : ∀ a ∈ c :: cs, AffVal S base ids sh a := by
      intro a ha
      rcases List.mem_cons.1 ha with rfl | ha'
      · exact ih (Within.child ha hw) hs
      · exact hindep a (Within.child ha hw) (hcs a ha')
    refine affVal_op hid hb (by simp) (affVal_shapes hall) fun j => ?_
    obtain ⟨shp, h1, h2⟩ := hall c (by simp)
    simp only [Sem.op, ht, OpType.elementwise, OpType.picks, Bool.false_eq_true, if_false, if_true, List.map_cons, sumOf, h1]
    exact Aff.list_sum _ (fun i a x => (evalWith S base (statVals ids sh a) x c).2 i) fun i _ => h2 i
  | mul n l r c ht hl hr _ ih =>
    intro hw hs
    by_cases hid : n.id ∈ ids
    · exact affVal_stat hid
    have hb : n.id ≠ base := fun hb => hid (hs (.node n (l ++ c :: r)) (by rw [suff_base hb]; simp))
    rw [suff_lin hb (by rw [ht]; rfl) (by rw [ht]; simp)] at hs
    have hL : ∀ a ∈ l, AffVal S base ids sh a := fun a ha => hindep a (Within.child (by simp [ha]) hw) (hl a ha)
    have hR : ∀ a ∈ r, AffVal S base ids sh a := fun a ha => hindep a (Within.child (by simp [ha]) hw) (hr a ha)
    have hC : AffVal S base ids sh c := ih (Within.child (by simp) hw) fun s h => hs s (List.mem_flatMap.2 ⟨c, by simp, h⟩)
    have hall : ∀ a ∈ l ++ c :: r, AffVal S base ids sh a := by
      intro a ha
      simp only [List.mem_append, List.mem_cons] at ha
      rcases ha with ha | rfl | ha
      exacts [hL a ha, hC, hR a ha]
    refine affVal_op hid hb (by simp) (affVal_shapes hall) fun j => ?_
    have hconst : ∀ m : List Sub, (∀ a ∈ m, ¬ Depends base a ∧ Within a T) → ∃ k : ℝ, ∀ a x,
        ((m.map (evalWith S base (statVals ids sh a) x)).map fun v => v.2 (bidx v.1 j)).prod = k := by
      intro m hm
      refine ⟨((m.map (evalWith S base (fun _ => none) fun _ => 0)).map fun v => v.2 (bidx v.1 j)).prod, fun a x => ?_⟩
      congr 2
      refine List.map_congr_left fun b hb => eval_indep S base _ x _ b (hm b hb).1 fun s hs => ?_
      rw [statVals]; refine if_neg ?_
      intro hi
      obtain ⟨q, hq, hqb⟩ := hdep s (Within.trans hs (hm b hb).2) hi
      exact (hm b hb).1 ⟨q, Within.trans hq hs, hqb⟩
    obtain ⟨k1, hk1⟩ := hconst l fun a ha => ⟨hl a ha, Within.child (by simp [ha]) hw⟩
    obtain ⟨k2, hk2⟩ := hconst r fun a ha => ⟨hr a ha, Within.child (by simp [ha]) hw⟩
    refine ((hC.entry j).smul (k1 * k2)).congr fun a x => ?_
    simp only [Sem.op, ht, OpType.elementwise, if_true, OpType.elem, List.map_append, List.map_cons, List.prod_append, List.prod_cons]
    rw [hk1 a x, hk2 a x]
    ring
  | lin n cs hl hsum hm _ ih =>
    intro hw hs
    by_cases hid : n.id ∈ ids
    · exact affVal_stat hid
    have hb : n.id ≠ base := fun hb => hid (hs (.node n cs) (by rw [suff_base hb]; simp))
    rw [suff_lin hb hl hsum] at hs
    have hall : ∀ a ∈ cs, AffVal S base ids sh a := fun a ha =>
      ih a ha (Within.child ha hw) fun s h => hs s (List.mem_flatMap.2 ⟨a, ha, h⟩)
    by_cases hc : cs = []
    · subst hc
      refine hindep _ hw ?_
      rw [depends_node]
      simp [hb]
    refine affVal_op hid hb hc (affVal_shapes hall) fun j => ?_
    have hz : Aff ids sh fun _ _ => 0 := Aff.const ids sh 0
    have hpick : n.type.elementwise = false → n.type.picks = true →
        Aff ids sh fun a x => S.op n (cs.map (evalWith S base (statVals ids sh a) x)) j := by
      intro he hp
      simp only [Sem.op, he, hp, Bool.false_eq_true, if_false, if_true]
      have hsh := affVal_shapes hall
      simp only [hsh _ _ (fun _ _ => 0) fun _ => 0, entryOf, List.getElem?_map]
      generalize S.pick n _ j = p
      cases hp : cs[p.1]? with
      | none => simpa using hz
      | some c =>
        obtain ⟨shp, h1, h2⟩ := hall c (List.mem_of_getElem? hp)
        simpa using h2 p.2
    have hsum' : Aff ids sh fun a x => ((cs.map (evalWith S base (statVals ids sh a) x)).map fun v => v.2 (bidx v.1 j)).sum := by
      simp only [List.map_map]
      exact Aff.list_sum cs (fun c a x => (evalWith S base (statVals ids sh a) x c).2 (bidx (evalWith S base (statVals ids sh a) x c).1 j))
        fun c hc => (hall c hc).entry j
    cases ht : n.type <;> rw [ht] at hl hsum hm hpick
    case add => simpa [Sem.op, ht, OpType.elementwise, OpType.elem] using hsum'
    case addN => simpa [Sem.op, ht, OpType.elementwise, OpType.elem] using hsum'
    case sub =>
      simp only [Sem.op, ht, OpType.elementwise, if_true]
      rcases cs with _ | ⟨c, _ | ⟨d, cs⟩⟩
      · simpa [OpType.elem] using hz
      · simpa [OpType.elem] using hz
      · simp only [List.map_cons, OpType.elem, sub_eq_add_neg]
        exact ((hall c (by simp)).entry j).add ((hall d (by simp)).entry j).neg
    case neg =>
      simp only [Sem.op, ht, OpType.elementwise, if_true]
      rcases cs with _ | ⟨c, cs⟩
      · simpa [OpType.elem] using hz
      · simp only [List.map_cons, OpType.elem]
        exact ((hall c (by simp)).entry j).neg
    case identity =>
      simp only [Sem.op, ht, OpType.elementwise, if_true]
      rcases cs with _ | ⟨c, cs⟩
      · simpa [OpType.elem] using hz
      · simp only [List.map_cons, OpType.elem]
        exact (hall c (by simp)).entry j
    case assert => simpa [Sem.op, ht, OpType.elementwise, OpType.picks] using hz
    all_goals first
      | exact hpick rfl rfl
      | exact absurd rfl hsum
      | exact absurd rfl hm
      | (exact absurd hl (by simp [OpType.linear]))

/-! ### Entries of statistics -/

theorem symbolics_eq (base : ℕ) (stop : ℕ → Bool) : ∀ cs : List Sub, symbolics base stop cs = cs.map (symbolic base stop)
  | [] => rfl
  | c :: cs => by rw [symbolics, symbolics_eq base stop cs, List.map_cons]

theorem nodeEnv_regular (S : Sem) (base : ℕ) (x : Arr) (T : Sub) (j : List ℕ) (v : ℝ) : (nodeEnv S base x T j v).Regular where
  cast t ht a l := by simp [nodeEnv, ht]
  oneHot a l := by simp [nodeEnv, oneHotEntry]

theorem nodeEnv_withX (S : Sem) (base : ℕ) (x : Arr) (T : Sub) (j : List ℕ) (v w : ℝ) :
    (nodeEnv S base x T j v).withX w = nodeEnv S base x T j w := rfl

theorem mask_mem {sh i : List ℕ} (a : Arr) (h : i ∈ indices sh) : mask sh a i = a i := if_pos h

/-- A tensor that does not depend on the random variable. -/
theorem nodeEntry_indep {S : Sem} {base : ℕ} {stop : ℕ → Bool} {T : Sub} (hT : GraphOk S base stop T) (x x' : Arr) (s : Sub) (hw : Within s T)
    (hd : ¬ Depends base s) (j : List ℕ) : nodeEntry S base x T j s.root.tf = valueAt S base x' s (bidx s.root.shape j) := by
  have hf : T.find s.root.tf.id = some s := find_eq hT hw
  rw [nodeEntry, hf]
  simp only [Option.elim, valueAt]
  rw [eval_indep S base (fun _ => none) x x' s hd fun _ _ => rfl]

/-- Entry `j` of a statistic is the value of its symbolic expression. -/
theorem built_entry {S : Sem} {base : ℕ} {stop : ℕ → Bool} {T : Sub} (hT : GraphOk S base stop T) (x x' : Arr) (xs : List ℕ)
    (hxs : ∀ s, Within s T → s.root.id = base → s.root.shape = xs) (s : Sub) (hs : Built base stop s) :
    Within s T → ∀ big, ∀ j ∈ indices big, Fits s.root.shape big →
    valueAt S base x' s (bidx s.root.shape j) = eval (nodeEnv S base x T j (x' (bidx xs j))) (symbolic base stop s) := by
  induction hs with
  | base n hb =>
    intro hw big j hj hfit
    have h1 : n.shape = xs := hxs _ hw hb
    rw [valueAt, evalWith_base rfl hb, symbolic, if_pos hb]
    simp only [Sub.root] at hfit ⊢
    rw [mask_mem _ (bidx_mem _ _ j hfit hj), h1]
    simp [eval_node, headVal, nodeEnv]
  | stop n hb hst =>
    intro hw big j hj hfit
    rw [symbolic, if_neg hb, if_pos hst, eval_node, headVal, ← nodeEntry_indep hT x x' _ hw (by rw [depends_node]; simp [hb])]
    simp [nodeEnv, Sub.root]
  | tensor n cs hd hh hc =>
    intro hw big j hj hfit
    have hb : n.id ≠ base := fun h => hd ⟨_, .refl, h⟩
    have hcast : n.tf.isCast = false := by simp [GNode.tf, hc]
    rw [symbolic, if_neg hb, ← nodeEntry_indep hT x x' _ hw hd]
    split <;> simp [eval_node, headVal, nodeEnv, Sub.root, hcast, hh]
  | elem n c cs he hh _ ih =>
    intro hw big j hj hfit
    have hb : n.id ≠ base := fun h => by simpa [Sub.inputs] using hT.leaf _ hw (.inl h)
    have hst : ¬ stop n.id = true := fun h => by simpa [Sub.inputs] using hT.leaf _ hw (.inr h)
    have hj' := bidx_mem _ _ j hfit hj
    have hsh := eval_shape hT x' _ hw
    rw [valueAt, evalWith_op rfl hb (by simp)]
    rw [evalWith_op rfl hb (by simp)] at hsh
    simp only at hsh ⊢
    rw [hsh, mask_mem _ hj', Sem.op, if_pos he, List.map_map]
    set ρ := nodeEnv S base x T j (x' (bidx xs j)) with hρ
    have hargs : (c :: cs).map ((fun a : TVal => a.2 (bidx a.1 (bidx (Sub.node n (c :: cs)).root.shape j))) ∘ evalWith S base (fun _ => none) x') =
        ((c :: cs).map (symbolic base stop)).map (eval ρ) := by
      rw [List.map_map]
      refine List.map_congr_left fun a ha => ?_
      have hwa := Within.child ha hw
      have hfa := hT.fits _ hw he a ha
      simp only [Function.comp]
      rw [eval_shape hT x' a hwa, bidx_bidx _ _ _ hfa (.inr trivial)]
      exact ih a ha hwa big j hj (fits_trans hfa hfit)
    rw [hargs, symbolic, if_neg hb, if_neg hst, eval_node, symbolics_eq]
    simp only [List.map_cons]
    generalize eval ρ (symbolic base stop c) = v
    generalize ((cs.map (symbolic base stop)).map (eval ρ)) = vs
    cases ht : n.type <;> rw [ht] at he hh <;> simp only [OpType.head, OpType.elementwise, ne_eq, not_true_eq_false, reduceCtorEq, or_self,
      Bool.false_eq_true, not_false_eq_true, true_or, or_true] at he hh ⊢
    all_goals first
      | rfl
      | (cases vs <;> rfl)
      | (simp [OpType.elem, headVal, hρ, nodeEnv, GNode.tf, ht])

theorem builtStat_entry {S : Sem} {base : ℕ} {stop : ℕ → Bool} {T : Sub} (hT : GraphOk S base stop T) (x x' : Arr) (xs : List ℕ)
    (hxs : ∀ s, Within s T → s.root.id = base → s.root.shape = xs) (s : Sub) (hs : BuiltStat base stop s)
    (hw : Within s T) (j : List ℕ) (hj : j ∈ indices s.root.shape) :
    valueAt S base x' s j = eval (nodeEnv S base x T j (x' (bidx xs j))) (symbolic base stop s) := by
  cases hs with
  | elem _ hs =>
    have := built_entry hT x x' xs hxs s hs hw _ j hj (fits_refl _)
    rwa [bidx_self _ _ hj] at this
  | oneHot n b cs ht hlen hb hbs =>
    have hn : n.id ≠ base := fun h => by simpa [Sub.inputs] using hT.leaf _ hw (.inl h)
    have hst : ¬ stop n.id = true := fun h => by simpa [Sub.inputs] using hT.leaf _ hw (.inr h)
    have hxs' : xs = [] := by
      rw [← hbs]; exact (hxs (.node b []) (Within.child (by simp) hw) hb).symm
    subst hxs'
    have hsh := eval_shape hT x' _ hw
    rw [valueAt, evalWith_op rfl hn (by simp)]
    rw [evalWith_op rfl hn (by simp)] at hsh
    simp only at hsh ⊢
    rw [hsh, mask_mem _ hj]
    simp only [Sub.root] at hj
    obtain ⟨K, hK⟩ := List.length_eq_one_iff.1 hlen
    rw [hK] at hj
    obtain ⟨k, rfl⟩ : ∃ k, j = [k] := by
      cases j with
      | nil => exact absurd hj nil_mem_indices
      | cons k j =>
        rw [mem_indices_cons, mem_indices_nil] at hj
        exact ⟨k, by rw [hj.2]⟩
    rw [symbolic, if_neg hn, if_neg hst, eval_node, symbolics_eq]
    have hbv : (evalWith S base (fun _ => none) x' (.node b [])).2 [] = x' [] := by
      rw [evalWith_base rfl hb, hbs]; exact mask_mem _ (mem_indices_nil.2 rfl)
    simp only [Sem.op, ht, OpType.elementwise, OpType.picks, Bool.false_eq_true, if_false, reduceCtorEq, if_true, List.map_cons, oneHotOf,
      List.tail_cons, hbv, symbolic, hb, OpType.head, headVal]
    simp [nodeEnv, oneHotEntry, eval_node, headVal, bidx]

end Edward
