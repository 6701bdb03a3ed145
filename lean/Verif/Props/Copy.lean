/-
C14-C18, C85: `ed.copy`.
-/
import Verif.Lemmas.CopyMemo
import Mathlib.Data.Int.Notation
import Mathlib.Data.List.Nodup
import Mathlib.Tactic.FinCases
import Mathlib.Tactic.IntervalCases

namespace Edward

open Copy Spec

variable {uniq : Graph → Name → Name} {parents : Node → List ℕ} {swap : List (Node × Node)} {scope s : Name}

theorem edCopy_copies {copyQ : Bool} {fuel : ℕ} {G G' : Graph} {x y : Node} {replace cp : Bool} (hn : normScope scope = some s)
    (h : edCopy uniq parents fuel G x swap scope replace copyQ cp = some (G', y)) :
    Copies uniq parents swap s copyQ G (.one x replace cp) G' [y] := by
  simp only [edCopy, hn, Option.bind_some] at h
  exact copies_of_copy fuel _ _ _ _ _ _ h

/-! ### C14 -/

/-- Every operation and random variable is as before, whatever the arguments. -/
theorem C14_unchanged (uniq parents fuel G x swap scope replace copyQ cp) (G' : Graph) (y : Node)
    (h : edCopy uniq parents fuel G x swap scope replace copyQ cp = some (G', y)) : Extends G G' := by
  rcases hn : normScope scope with _ | s
  · simp [edCopy, hn] at h
  · exact copies_extends (edCopy_copies hn h)

/-- So every tensor has the values it had. -/
theorem C14_values {V : Type} (uniq parents fuel G x swap scope replace copyQ cp) (G' : Graph) (y : Node)
    (h : edCopy uniq parents fuel G x swap scope replace copyQ cp = some (G', y)) (hc : Closed G)
    (ρ : ℕ → ℕ → V) (I : ℕ → List V → ℕ → V) (t : Tensor) (ht : t.1 < G.ops.length) (v : V) :
    Eval G' ρ I t v ↔ Eval G ρ I t v :=
  ⟨fun he => eval_restrict (C14_unchanged _ _ _ _ _ _ _ _ _ _ _ _ h) hc he ht,
    fun he => eval_extends (C14_unchanged _ _ _ _ _ _ _ _ _ _ _ _ h) he⟩

/-! ### C15 -/

theorem ok_of_mem {G : Graph} {x : Node} (hx : Mem G x) (hop : ∀ o, x ≠ .op o) (rep : Bool) : OkOne G swap x rep :=
  ⟨hx, fun o ho => absurd ho (hop o)⟩

/-- The copy of a tensor, variable or random variable has the value the original would have
with the nodes in `dict_swap` replaced. Weaker than the claim: `copy_q` is off, and the keys do not
overlap, see `KeysOk` and `C15_fails`. -/
theorem C15_copy_partial {V : Type} {fuel : ℕ} {G G' : Graph} {x y : Node} {cp : Bool} (hn : normScope scope = some s)
    (hs : Setting uniq parents swap s G) (hx : Mem G x) (hop : ∀ o, x ≠ .op o)
    (h : edCopy uniq parents fuel G x swap scope false false cp = some (G', y)) :
    ∃ t t', G.convert x = some t ∧ G'.convert y = some t' ∧ ((∀ n, (.op t.1, n) ∉ swap) →
      ∀ (ρ : ℕ → ℕ → V) (I : ℕ → List V → ℕ → V) (v : V), EvalTop G swap ρ I t v → Eval G' ρ I t' v) := by
  obtain ⟨C, -, hinv, y', hy, hp⟩ := copies_inv hs (edCopy_copies hn h) (ok_of_mem hx hop false) _ _ (inv_start G)
  obtain rfl : y = y' := by simpa using hy
  rcases hp with ⟨o, -, rfl, -⟩ | ⟨t, t', h1, h2, h3⟩
  · exact absurd rfl (hop o)
  · refine ⟨t, t', h1, h2, fun hk ρ I v hv => ?_⟩
    rcases h3 with ⟨-, h3 | ⟨n, h3⟩⟩ | ⟨-, h3⟩
    · simp at h3
    · exact absurd h3 (hk n)
    · exact eval_top hs hinv hv h3

/-- With `replace_itself` the node itself is replaced too. -/
theorem C15_replace_partial {V : Type} {fuel : ℕ} {G G' : Graph} {x y : Node} {cp : Bool} (hn : normScope scope = some s)
    (hs : Setting uniq parents swap s G) (hx : Mem G x) (hop : ∀ o, x ≠ .op o)
    (h : edCopy uniq parents fuel G x swap scope true false cp = some (G', y)) :
    ∃ t t', G.convert x = some t ∧ G'.convert y = some t' ∧
      ∀ (ρ : ℕ → ℕ → V) (I : ℕ → List V → ℕ → V) (v : V), EvalSub G swap ρ I t v → Eval G' ρ I t' v := by
  obtain ⟨C, -, hinv, y', hy, hp⟩ := copies_inv hs (edCopy_copies hn h) (ok_of_mem hx hop true) _ _ (inv_start G)
  obtain rfl : y = y' := by simpa using hy
  rcases hp with ⟨o, -, rfl, -⟩ | ⟨t, t', h1, h2, h3⟩
  · exact absurd rfl (hop o)
  · exact ⟨t, t', h1, h2, fun ρ I v hv => eval_rel hs hinv hv _ h3.rel⟩

/-- The outputs of the copy of an operation that is not a variable or placeholder. -/
theorem C15_op_partial {V : Type} {fuel : ℕ} {G G' : Graph} {o : ℕ} {y : Node} {cp : Bool} (hn : normScope scope = some s)
    (hs : Setting uniq parents swap s G) (op : Op) (ho : G.ops[o]? = some op)
    (hk : (∃ k, op.kind = .compute k) ∨ op.kind = .queue) (hkey : ∀ n, (.op o, n) ∉ swap)
    (h : edCopy uniq parents fuel G (.op o) swap scope false false cp = some (G', y)) :
    ∃ o', y = .op o' ∧ ∀ (ρ : ℕ → ℕ → V) (I : ℕ → List V → ℕ → V) (i : ℕ) (v : V),
      EvalTop G swap ρ I (o, i) v → Eval G' ρ I (o', i) v := by
  have hok : OkOne G swap (.op o) false := ⟨(List.getElem?_eq_some_iff.mp ho).1, fun o1 ho1 => by
    obtain rfl : o = o1 := by simpa using ho1
    exact ⟨fun _ => hkey, op, ho, hk⟩⟩
  obtain ⟨C, -, hinv, y', hy, hp⟩ := copies_inv hs (edCopy_copies hn h) hok _ _ (inv_start G)
  obtain rfl : y = y' := by simpa using hy
  rcases hp with ⟨a, o', hx, rfl, h3⟩ | ⟨t, t', h1, -⟩
  · obtain rfl : o = a := by simpa using hx
    refine ⟨o', rfl, fun ρ I i v hv => eval_top hs hinv hv ?_⟩
    rcases h3 with h3 | ⟨-, ⟨op', h4, h5, rfl⟩ | h3⟩
    · exact absurd h3 (hkey _)
    · exact .inl ⟨op', h4, by simp [h5], rfl⟩
    · exact .inr ⟨h3, rfl⟩
  · simp [Graph.convert] at h1

/-- Values are unique. -/
theorem C15_value_unique {V : Type} {G : Graph} {ρ : ℕ → ℕ → V} {I : ℕ → List V → ℕ → V} {t : Tensor} {v w : V}
    (hv : Eval G ρ I t v) (hw : Eval G ρ I t w) : v = w := by
  induction hv generalizing w with
  | source o i op h hk hi =>
    generalize ht : (o, i) = t at hw
    cases hw with
    | source o' i' op' h' hk' hi' => simp at ht; rw [ht.1, ht.2]
    | compute o' i' op' k vs h' hk' =>
      obtain ⟨rfl, rfl⟩ := Prod.mk.inj ht
      rw [h] at h'
      simp at h'
      subst h'
      exact absurd hk' (hk k)
  | compute o i op k vs h hk hi hl _ ih =>
    generalize ht : (o, i) = t at hw
    cases hw with
    | source o' i' op' h' hk' hi' =>
      obtain ⟨rfl, rfl⟩ := Prod.mk.inj ht
      rw [h] at h'
      simp at h'
      subst h'
      exact absurd hk (hk' k)
    | compute o' i' op' k' vs' h' hk' hi' hl' hv' =>
      obtain ⟨rfl, rfl⟩ := Prod.mk.inj ht
      rw [h] at h'
      simp at h'
      subst h'
      obtain rfl : k = k' := by rw [hk] at hk'; simpa using hk'
      obtain rfl : vs = vs' := by
        apply List.ext_getElem?
        intro j
        by_cases hj : j < op.inputs.length
        · have h1 : j < vs.length := by omega
          have h2 : j < vs'.length := by omega
          rw [List.getElem?_eq_getElem h1, List.getElem?_eq_getElem h2]
          exact congrArg some (ih j _ _ (List.getElem?_eq_getElem hj) (List.getElem?_eq_getElem h1)
            (hv' j _ _ (List.getElem?_eq_getElem hj) (List.getElem?_eq_getElem h2)))
        · rw [List.getElem?_eq_none (by omega), List.getElem?_eq_none (by omega)]
      rfl

theorem exists_values {V : Type} {P : Tensor → V → Prop} (ts : List Tensor) (h : ∀ t ∈ ts, ∃ v, P t v) :
    ∃ vs : List V, vs.length = ts.length ∧ ∀ (j : ℕ) (t : Tensor) (v : V), ts[j]? = some t → vs[j]? = some v → P t v := by
  induction ts with
  | nil => exact ⟨[], rfl, by simp⟩
  | cons t ts ih =>
    obtain ⟨v, hv⟩ := h t (by simp)
    obtain ⟨vs, hl, hvs⟩ := ih fun t ht => h t (by simp [ht])
    refine ⟨v :: vs, by simp [hl], fun j t' v' hj hj' => ?_⟩
    cases j with
    | zero => simp at hj hj'; subst hj hj'; exact hv
    | succ j => exact hvs j t' v' (by simpa using hj) (by simpa using hj')

theorem eval_exists {V : Type} {G : Graph} (hp : Proper G) {rank : ℕ → ℕ}
    (ha : ∀ (o : ℕ) (op : Op), G.ops[o]? = some op → ∀ t ∈ op.inputs, rank t.1 < rank o) (ρ : ℕ → ℕ → V) (I : ℕ → List V → ℕ → V) (n : ℕ) :
    ∀ t, rank t.1 < n → Mem G (.tensor t) → ∃ v, Eval G ρ I t v := by
  induction n with
  | zero => intro t h; omega
  | succ n ih =>
    rintro ⟨o, i⟩ hn ⟨op, ho, hi⟩
    simp only at ho hi hn
    by_cases hk : ∃ k, op.kind = .compute k
    · obtain ⟨k, hk⟩ := hk
      obtain ⟨vs, hl, hvs⟩ := exists_values (P := Eval G ρ I) op.inputs fun t ht =>
        ih t (by have := ha o op ho t ht; omega) (hp.inputs op (List.mem_of_getElem? ho) t ht)
      exact ⟨_, .compute o i op k vs ho hk hi hl hvs⟩
    · exact ⟨_, .source o i op ho (fun k hk' => hk ⟨k, hk'⟩) hi⟩

theorem evalSub_exists {V : Type} {G : Graph} (hp : Proper G) {rank : ℕ → ℕ}
    (ha : ∀ (o : ℕ) (op : Op), G.ops[o]? = some op → ∀ t ∈ op.inputs, rank t.1 < rank o)
    (hsw : ∀ t t', SwapTo G swap t t' → Mem G (.tensor t) → Mem G (.tensor t')) (ρ : ℕ → ℕ → V) (I : ℕ → List V → ℕ → V) (n : ℕ) :
    ∀ t, rank t.1 < n → Mem G (.tensor t) → ∃ v, EvalSub G swap ρ I t v := by
  induction n with
  | zero => intro t h; omega
  | succ n ih =>
    rintro ⟨o, i⟩ hn hm
    by_cases hs : ∃ u, SwapTo G swap (o, i) u
    · obtain ⟨u, hu⟩ := hs
      obtain ⟨v, hv⟩ := eval_exists hp ha ρ I (rank u.1 + 1) u (by omega) (hsw _ _ hu hm)
      exact ⟨v, .swapped _ u v hu hv⟩
    · have hs' : ∀ u, ¬ SwapTo G swap (o, i) u := fun u hu => hs ⟨u, hu⟩
      obtain ⟨op, ho, hi⟩ := hm
      simp only at ho hi hn
      by_cases hk : ∃ k, op.kind = .compute k
      · obtain ⟨k, hk⟩ := hk
        obtain ⟨vs, hl, hvs⟩ := exists_values (P := EvalSub G swap ρ I) op.inputs fun t ht =>
          ih t (by have := ha o op ho t ht; omega) (hp.inputs op (List.mem_of_getElem? ho) t ht)
        exact ⟨_, .compute o i op k vs hs' ho hk hi hl hvs⟩
      · exact ⟨_, .source o i op hs' ho (fun k hk' => hk ⟨k, hk'⟩) hi⟩

theorem mem_of_convert {G : Graph} (hp : Proper G) {n : Node} {t : Tensor} (hm : Mem G n) (hc : G.convert n = some t) :
    Mem G (.tensor t) := by
  cases n with
  | op o => simp [Graph.convert] at hc
  | tensor t' => simp [Graph.convert] at hc; subst hc; exact hm
  | var o =>
    simp [Graph.convert] at hc
    subst hc
    simp only [Mem, Option.map_eq_some_iff] at hm
    obtain ⟨op, h1, h2⟩ := hm
    exact ⟨op, h1, by rw [(hp.vars op (List.mem_of_getElem? h1) true h2).2]; exact Nat.zero_lt_one⟩
  | rv r =>
    simp only [Graph.convert, Graph.valueOf, Option.map_eq_some_iff] at hc
    obtain ⟨rv, h1, rfl⟩ := hc
    obtain ⟨op, h2, -, -, h3, -⟩ := hp.sample rv (List.mem_of_getElem? h1)
    exact ⟨op, h2, by rw [h3]; exact Nat.zero_lt_one⟩

/-- On an acyclic graph `copy` returns, and the copy has exactly one value: that of the
original with the nodes in `dict_swap` replaced. -/
theorem C15_total_partial {V : Type} {G : Graph} {x : Node} {cp : Bool} (hn : normScope scope = some s)
    (hs : Setting uniq parents swap s G) {rank : ℕ → ℕ} (ha : Acyclic G parents swap rank)
    (hval : ∀ k n, (k, n) ∈ swap → Mem G n) (t : Tensor) (hx : Mem G x) (ht : G.convert x = some t)
    (hkey : ∀ n, (.op t.1, n) ∉ swap) :
    ∃ N, ∀ fuel, N ≤ fuel → ∃ G' y t', edCopy uniq parents fuel G x swap scope false false cp = some (G', y) ∧
      G'.convert y = some t' ∧ ∀ (ρ : ℕ → ℕ → V) (I : ℕ → List V → ℕ → V),
        ∃ v, EvalTop G swap ρ I t v ∧ ∀ w, Eval G' ρ I t' w ↔ w = v := by
  have hop : ∀ o, x ≠ .op o := by rintro o rfl; simp [Graph.convert] at ht
  obtain ⟨G', y, h⟩ := total_one hs ha (size G rank x + 1) x false cp (by omega) (ok_of_mem hx hop false) G _ _ (inv_start G)
  obtain ⟨N, hN⟩ := copy_of_copies h
  refine ⟨N, fun fuel hf => ?_⟩
  obtain ⟨y', hy, hc⟩ := hN fuel hf
  obtain rfl : y = y' := by simpa using hy
  have hc' : edCopy uniq parents fuel G x swap scope false false cp = some (G', y) := by
    simp only [edCopy, hn, Option.bind_some]
    exact hc
  obtain ⟨t1, t', h1, h2, h3⟩ := C15_copy_partial (V := V) hn hs hx hop hc'
  obtain rfl : t1 = t := by rw [ht] at h1; simpa using h1.symm
  refine ⟨G', y, t', hc', h2, fun ρ I => ?_⟩
  have hconv := fun n t => mem_of_convert hs.proper (n := n) (t := t)
  have hsw : ∀ t t', SwapTo G swap t t' → Mem G (.tensor t) → Mem G (.tensor t') := by
    intro t t' hsw hm
    cases hsw with
    | tensor _ _ n h hc => exact hconv n _ (hval _ _ h) hc
    | rv r _ _ n h _ hc => exact hconv n _ (hval _ _ h) hc
    | var o _ n h hc => exact hconv n _ (hval _ _ h) hc
    | op o o' i h =>
      obtain ⟨op, ho, hi⟩ := hm
      obtain ⟨op', h4, h5⟩ := ha.outputs o o' op h ho
      exact ⟨op', h4, by simp only at hi ⊢; omega⟩
  have htop : ∃ v, EvalTop G swap ρ I t1 v := by
    obtain ⟨o, i⟩ := t1
    obtain ⟨op, ho, hi⟩ := hconv x _ hx ht
    simp only at ho hi
    by_cases hk : ∃ k, op.kind = .compute k
    · obtain ⟨k, hk⟩ := hk
      obtain ⟨vs, hl, hvs⟩ := exists_values (P := EvalSub G swap ρ I) op.inputs fun t ht =>
        evalSub_exists hs.proper ha.inputs hsw ρ I (rank t.1 + 1) t (by omega) (hs.proper.inputs op (List.mem_of_getElem? ho) t ht)
      exact ⟨_, .compute o i op k vs ho hk hi hl hvs⟩
    · exact ⟨_, .source o i op ho (fun k hk' => hk ⟨k, hk'⟩) hi⟩
  obtain ⟨v, hv⟩ := htop
  have he := h3 hkey ρ I v hv
  exact ⟨v, hv, fun w => ⟨fun hw => C15_value_unique hw he, fun hw => hw ▸ he⟩⟩

/-! A graph to try this on: `x ~ F(v)` for a variable `v`, `z = f(x, p)` for a placeholder `p`, and
a constant `q`. -/

def exampleGraph : Graph where
  ops := [⟨['v'], .variable true, 1, [], []⟩, ⟨['p'], .placeholder, 1, [], []⟩,
    ⟨['x', '/'] ++ sampleSuffix, .compute 1, 1, [(0, 0)], []⟩, ⟨['z'], .compute 2, 1, [(2, 0), (1, 0)], []⟩,
    ⟨['q'], .compute 3, 1, [], []⟩]
  rvs := [⟨['x', '/'], 1, [.var 0], 2⟩]

def exampleParents : Node → List ℕ
  | .tensor (3, 0) => [0]
  | _ => []

theorem index_of_nodup {α β : Type} {l : List α} {f : α → β} (h : (l.map f).Nodup) (i j : ℕ) (a b : α) (ha : l[i]? = some a)
    (hb : l[j]? = some b) (hf : f a = f b) : i = j := by
  obtain ⟨hi, rfl⟩ := List.getElem?_eq_some_iff.mp ha
  obtain ⟨hj, rfl⟩ := List.getElem?_eq_some_iff.mp hb
  have := (List.nodup_iff_injective_get.mp h) (a₁ := ⟨i, by simpa using hi⟩) (a₂ := ⟨j, by simpa using hj⟩) (by simpa using hf)
  simpa using this

theorem exampleProper : Proper exampleGraph where
  opNames := index_of_nodup (f := Op.name) (by decide)
  rvNames := index_of_nodup (f := RV.name) (by decide)
  values := index_of_nodup (f := RV.value) (by decide)
  inputs := by
    intro op hop t ht
    fin_cases hop <;> fin_cases ht <;> exact ⟨_, rfl, by decide⟩
  control := by
    intro op hop o ho
    fin_cases hop <;> simp at ho
  args := by
    intro rv hrv x hx
    fin_cases hrv
    fin_cases hx
    rfl
  sample := by
    intro rv hrv
    fin_cases hrv
    exact ⟨_, rfl, rfl, rfl, rfl, rfl⟩
  vars := by
    intro op hop g hg
    fin_cases hop <;> simp at hg
    exact ⟨hg, rfl⟩

theorem exampleSetting : Setting (fun _ n => n) exampleParents [(.rv 0, .tensor (4, 0))] ['c', '/'] exampleGraph where
  proper := exampleProper
  unused := ⟨by decide, by decide⟩
  keys := {
    nodup := by intro x n n' h h'; simp at h h'; rw [h.2, h'.2]
    tensor := by simp
    rv := by intro r n h; simp at h; obtain ⟨rfl, rfl⟩ := h; decide
    var := by simp
    op := by simp }
  uniq := fun _ _ _ _ h => h
  parents := by
    intro x r h
    unfold exampleParents at h
    split at h
    · simp at h; subst h; decide
    · simp at h

theorem exampleAcyclic : Acyclic exampleGraph exampleParents [(.rv 0, .tensor (4, 0))] id where
  inputs := by
    intro o op ho t ht
    have : o < 5 := (List.getElem?_eq_some_iff.mp ho).1
    interval_cases o <;> simp [exampleGraph] at ho <;> subst ho <;> simp at ht <;> (try subst ht) <;> simp
    rcases ht with rfl | rfl <;> simp
  control := by
    intro o op ho t ht
    have : o < 5 := (List.getElem?_eq_some_iff.mp ho).1
    interval_cases o <;> simp [exampleGraph] at ho <;> subst ho <;> simp at ht
  parentsRV := by
    intro r r' rv rv' h
    simp [exampleParents] at h
  parentsTensor := by
    intro t r' rv' h hr
    unfold exampleParents at h
    split at h
    · rename_i heq
      simp at h heq
      subst h heq
      simp [exampleGraph] at hr
      subst hr
      simp
    · simp at h
  outputs := by simp

/-- The copy of `z` is `f(q, p)`: `x` is replaced, the placeholder is shared. -/
example : edCopy (fun _ n => n) exampleParents 10 exampleGraph (.tensor (3, 0)) [(.rv 0, .tensor (4, 0))] ['c'] false false true =
    some ({ exampleGraph with ops := exampleGraph.ops ++ [⟨['c', '/', 'z'], .compute 2, 1, [(4, 0), (1, 0)], []⟩] },
      .tensor (5, 0)) := by decide

example : ∃ N, ∀ fuel, N ≤ fuel → ∃ G' y t', edCopy (fun _ n => n) exampleParents fuel exampleGraph (.tensor (3, 0))
      [(.rv 0, .tensor (4, 0))] ['c'] false false true = some (G', y) ∧
    G'.convert y = some t' ∧ ∀ (ρ : ℕ → ℕ → ℤ) (I : ℕ → List ℤ → ℕ → ℤ),
      ∃ v, EvalTop exampleGraph [(.rv 0, .tensor (4, 0))] ρ I (3, 0) v ∧ ∀ w, Eval G' ρ I t' w ↔ w = v :=
  C15_total_partial (s := ['c', '/']) rfl exampleSetting exampleAcyclic
    (by intro k n h; simp at h; rw [h.2]; exact ⟨_, rfl, by decide⟩) (3, 0) ⟨_, rfl, by decide⟩ rfl (by simp)

/-- If the key is the tensor of a random variable and the random variable itself is an
argument of another, the other's copy does not depend on the replacement. -/
theorem C15_fails : ∃ (G G' : Graph) (parents : Node → List ℕ) (swap : List (Node × Node)) (x y : Node) (t t' : Tensor) (ρ : ℕ → ℕ → ℤ)
    (I : ℕ → List ℤ → ℕ → ℤ) (v : ℤ), edCopy (fun _ n => n) parents 10 G x swap ['c'] false false true = some (G', y) ∧
    Unused G ['c', '/'] ∧ Proper G ∧ G.convert x = some t ∧ G'.convert y = some t' ∧ EvalTop G swap ρ I t v ∧ ¬ Eval G' ρ I t' v := by
  let G : Graph := {
    ops := [⟨['x', '/'] ++ sampleSuffix, .compute 1, 1, [], []⟩, ⟨['y', '/'] ++ sampleSuffix, .compute 2, 1, [(0, 0)], []⟩,
      ⟨['q'], .compute 3, 1, [], []⟩]
    rvs := [⟨['x', '/'], 1, [], 0⟩, ⟨['y', '/'], 2, [.rv 0], 1⟩] }
  let G' : Graph := {
    ops := G.ops ++ [⟨['c', '/', 'x', '/'] ++ sampleSuffix, .compute 1, 1, [], []⟩,
      ⟨['c', '/', 'y', '/'] ++ sampleSuffix, .compute 2, 1, [(3, 0)], []⟩]
    rvs := G.rvs ++ [⟨['c', '/', 'x', '/'], 1, [], 3⟩, ⟨['c', '/', 'y', '/'], 2, [.rv 2], 4⟩] }
  let I : ℕ → List ℤ → ℕ → ℤ := fun k vs _ => match k with
    | 2 => vs.headD 0
    | k => k
  refine ⟨G, G', fun x => if x = .rv 1 then [0] else [], [(.tensor (0, 0), .tensor (2, 0))], .rv 1, .rv 3, (1, 0), (4, 0), fun _ _ => 0,
    I, 3, by decide, ⟨by decide, by decide⟩, ?_, rfl, rfl, ?_, ?_⟩
  · refine ⟨index_of_nodup (f := Op.name) (by decide), index_of_nodup (f := RV.name) (by decide),
      index_of_nodup (f := RV.value) (by decide), ?_, ?_, ?_, ?_, ?_⟩
    · intro op hop t ht
      fin_cases hop <;> fin_cases ht
      exact ⟨_, rfl, by decide⟩
    · intro op hop t ht
      fin_cases hop <;> simp at ht
    · intro rv hrv x hx
      fin_cases hrv <;> fin_cases hx
      exact (by decide : 0 < 2)
    · intro rv hrv
      fin_cases hrv <;> exact ⟨_, rfl, rfl, rfl, rfl, rfl⟩
    · intro op hop g hg
      fin_cases hop <;> simp at hg
  · refine .compute 1 0 _ 2 [3] rfl rfl (by decide) rfl ?_
    intro j t v hj hv
    obtain rfl : j = 0 := by
      have := (List.getElem?_eq_some_iff.mp hv).1
      simp at this
      exact this
    simp at hj hv
    subst hj hv
    exact .swapped _ (2, 0) _ (.tensor _ _ (.tensor (2, 0)) (by simp) rfl) (.compute 2 0 _ 3 [] rfl rfl (by decide) rfl (by simp [G]))
  · intro h
    have h' : Eval G' (fun _ _ => 0) I (4, 0) 1 := by
      refine .compute 4 0 _ 2 [1] rfl rfl (by decide) rfl ?_
      intro j t v hj hv
      obtain rfl : j = 0 := by
        have := (List.getElem?_eq_some_iff.mp hv).1
        simp at this
        exact this
      simp at hj hv
      subst hj hv
      exact .compute 3 0 _ 1 [] rfl rfl (by decide) rfl (by simp [G', G])
    exact absurd (C15_value_unique h h') (by decide)

/-! ### C16 -/

/-- No variable, placeholder or queue operation is added, whatever the flags and the history of the
scope, unless the operation of a variable or placeholder is itself copied. -/
theorem C16_no_duplicates_partial {fuel : ℕ} {G G' : Graph} {x y : Node} {replace copyQ cp : Bool} (hp : Proper G)
    (hpar : ∀ x r, r ∈ parents x → r < G.rvs.length) (hswap : ∀ k n, (k, n) ∈ swap → Plain G n) (hx : Plain G x)
    (h : edCopy uniq parents fuel G x swap scope replace copyQ cp = some (G', y)) (o : ℕ) (op : Op) (ho : G'.ops[o]? = some op)
    (hnew : G.ops.length ≤ o) : ∃ k, op.kind = .compute k := by
  rcases hn : normScope scope with _ | s
  · simp [edCopy, hn] at h
  · exact copies_kinds hp hpar hswap (edCopy_copies hn h) hx (.refl _) o op ho hnew

/-- Every new operation is the copy of one whose inputs from variables, placeholders and queues it
shares, unless they are replaced. -/
theorem C16_shared_partial {fuel : ℕ} {G G' : Graph} {x y : Node} {cp : Bool} (hn : normScope scope = some s)
    (hs : Setting uniq parents swap s G) (hx : Mem G x) (hop : ∀ o, x ≠ .op o) (replace : Bool)
    (h : edCopy uniq parents fuel G x swap scope replace false cp = some (G', y)) (o' : ℕ) (op' : Op) (ho' : G'.ops[o']? = some op')
    (hnew : G.ops.length ≤ o') : ∃ (o : ℕ) (op : Op), G.ops[o]? = some op ∧ op'.kind = op.kind ∧
      op'.inputs.length = op.inputs.length ∧ ∀ (j : ℕ) (t t' : Tensor) (p : Op), op.inputs[j]? = some t → op'.inputs[j]? = some t' →
        G.ops[t.1]? = some p → (∀ k, p.kind ≠ .compute k) → (∀ u, ¬ SwapTo G swap t u) → t' = t := by
  obtain ⟨C, -, hinv, -⟩ := copies_inv hs (edCopy_copies hn h) (ok_of_mem hx hop replace) _ _ (inv_start G)
  obtain ⟨o, hC, -⟩ := hinv.new o' op' ho' hnew
  obtain ⟨op, p', k, h1, h2, h3, h4, h5, -, h6⟩ := hinv.img _ _ hC
  obtain rfl : p' = op' := by rw [ho'] at h2; simpa using h2.symm
  obtain ⟨hl, hrel⟩ := List.forall₂_iff_get.mp (h6 id)
  refine ⟨o, op, h1, h4, hl.symm, fun j t t' p hj hj' hp hk hnot => ?_⟩
  obtain ⟨hjl, rfl⟩ := List.getElem?_eq_some_iff.mp hj
  obtain ⟨hjl', rfl⟩ := List.getElem?_eq_some_iff.mp hj'
  rcases hrel j hjl hjl' with hsw | ⟨-, ⟨_, _, _, he⟩ | ⟨hC', -⟩⟩
  · exact absurd hsw (hnot _)
  · exact he
  · obtain ⟨q, _, k', h7, _, h8, _⟩ := hinv.img _ _ hC'
    simp only [List.get_eq_getElem] at h7
    rw [hp] at h7
    simp at h7
    subst h7
    exact absurd h8 (hk k')

/-- Copying a tensor of a variable, placeholder or queue gives the same tensor. -/
theorem C16_same_partial {fuel : ℕ} {G G' : Graph} {t : Tensor} {y : Node} {cp : Bool} (hn : normScope scope = some s)
    (hs : Setting uniq parents swap s G) (op : Op) (ho : G.ops[t.1]? = some op) (hi : t.2 < op.nOut) (hk : ∀ k, op.kind ≠ .compute k)
    (hkey : ∀ n, (.op t.1, n) ∉ swap) (h : edCopy uniq parents fuel G (.tensor t) swap scope false false cp = some (G', y)) :
    G'.convert y = some t := by
  obtain ⟨C, -, hinv, y', hy, hp⟩ := copies_inv hs (edCopy_copies hn h) (ok_of_mem (x := .tensor t) ⟨op, ho, hi⟩ (by simp) false) _ _ (inv_start G)
  obtain rfl : y = y' := by simpa using hy
  rcases hp with ⟨o, -, h1, -⟩ | ⟨t1, t', h1, h2, h3⟩
  · simp at h1
  · obtain rfl : t = t1 := by simpa [Graph.convert] using h1
    rcases h3 with ⟨-, h3 | ⟨n, h3⟩⟩ | ⟨-, ⟨_, _, _, rfl⟩ | ⟨hC, -⟩⟩
    · simp at h3
    · exact absurd h3 (hkey n)
    · exact h2
    · obtain ⟨q, _, k', h7, _, h8, _⟩ := hinv.img _ _ hC
      rw [ho] at h7
      simp at h7
      subst h7
      exact absurd h8 (hk k')

example : Plain exampleGraph (.tensor (3, 0)) ∧ Plain exampleGraph (.tensor (4, 0)) :=
  ⟨by simp [Plain, Mem, exampleGraph], by simp [Plain, Mem, exampleGraph]⟩

/-- Copying the operation of a placeholder makes a second placeholder. -/
theorem C16_placeholder_fails : ∃ (G G' : Graph) (o o' : ℕ) (op' : Op),
    edCopy (fun _ n => n) (fun _ => []) 10 G (.op o) [] ['c'] false false true = some (G', .op o') ∧
    (G.ops[o]?.map (·.kind)) = some .placeholder ∧ o' ≠ o ∧ G'.ops[o']? = some op' ∧ op'.kind = .placeholder :=
  ⟨⟨[⟨['p'], .placeholder, 1, [], []⟩], []⟩, ⟨[⟨['p'], .placeholder, 1, [], []⟩, ⟨['c', '/', 'p'], .placeholder, 1, [], []⟩], []⟩, 0, 1,
    ⟨['c', '/', 'p'], .placeholder, 1, [], []⟩, by decide, by decide, by decide, by decide, by decide⟩

/-- A control dependency on the initial placeholder does so too, from an ordinary tensor. -/
theorem C16_control_fails : ∃ (G G' : Graph) (t t' : Tensor) (o' : ℕ) (op' : Op),
    edCopy (fun _ n => n) (fun _ => []) 10 G (.tensor t) [] ['c'] false false true = some (G', .tensor t') ∧
    G.ops.length ≤ o' ∧ G'.ops[o']? = some op' ∧ op'.kind = .placeholder :=
  ⟨⟨[⟨['p'], .placeholder, 1, [], []⟩, ⟨['z'], .compute 1, 1, [], [0]⟩], []⟩,
    ⟨[⟨['p'], .placeholder, 1, [], []⟩, ⟨['z'], .compute 1, 1, [], [0]⟩, ⟨['c', '/', 'z'], .compute 1, 1, [], [3]⟩,
      ⟨['c', '/', 'p'], .placeholder, 1, [], []⟩], []⟩, (1, 0), (2, 0), 3, ⟨['c', '/', 'p'], .placeholder, 1, [], []⟩,
    by decide, by decide, by decide, by decide⟩

/-- A variable that is not in `tf.global_variables()`, such as a local variable, is duplicated. -/
theorem C16_local_fails : ∃ (G G' : Graph) (t t' : Tensor) (o' : ℕ) (op' : Op),
    edCopy (fun _ n => n) (fun _ => []) 10 G (.tensor t) [] ['c'] false false true = some (G', .tensor t') ∧
    G.ops.length ≤ o' ∧ G'.ops[o']? = some op' ∧ op'.kind = .variable false :=
  ⟨⟨[⟨['v'], .variable false, 1, [], []⟩, ⟨['z'], .compute 1, 1, [(0, 0)], []⟩], []⟩,
    ⟨[⟨['v'], .variable false, 1, [], []⟩, ⟨['z'], .compute 1, 1, [(0, 0)], []⟩, ⟨['c', '/', 'z'], .compute 1, 1, [(3, 0)], []⟩,
      ⟨['c', '/', 'v'], .variable false, 1, [], []⟩], []⟩, (1, 0), (2, 0), 3, ⟨['c', '/', 'v'], .variable false, 1, [], []⟩,
    by decide, by decide, by decide, by decide⟩

/-! ### C17 -/

/-- Once a scope has a copy of a node, `dict_swap` is ignored for it. -/
theorem C17_ignored {G : Graph} {x y : Node} (hn : normScope scope = some s) (hx : G.globalVar x = none)
    (h : nameStep G s x = some y) (swap : List (Node × Node)) (copyQ cp : Bool) (fuel : ℕ) :
    edCopy uniq parents (fuel + 1) G x swap scope false copyQ cp = some (G, y) := by
  simp [edCopy, hn, copy, swapStep, varStep, hx, h]

/-- So the second copy of `z = f(x)` in a scope, this time with `x` replaced by `q`, does not have the
value of `f(q)`. -/
theorem C17_fails : ∃ (G G1 G2 : Graph) (swap : List (Node × Node)) (t t1 t2 : Tensor) (ρ : ℕ → ℕ → ℤ) (I : ℕ → List ℤ → ℕ → ℤ) (v : ℤ),
    edCopy (fun _ n => n) (fun _ => []) 10 G (.tensor t) [] ['c'] false false true = some (G1, .tensor t1) ∧
    edCopy (fun _ n => n) (fun _ => []) 10 G1 (.tensor t) swap ['c'] false false true = some (G2, .tensor t2) ∧
    EvalTop G1 swap ρ I t v ∧ ¬ Eval G2 ρ I t2 v := by
  let G : Graph := ⟨[⟨['x'], .compute 1, 1, [], []⟩, ⟨['z'], .compute 2, 1, [(0, 0)], []⟩, ⟨['q'], .compute 3, 1, [], []⟩], []⟩
  let G1 : Graph := ⟨G.ops ++ [⟨['c', '/', 'z'], .compute 2, 1, [(4, 0)], []⟩, ⟨['c', '/', 'x'], .compute 1, 1, [], []⟩], []⟩
  let I : ℕ → List ℤ → ℕ → ℤ := fun k vs _ => match k with
    | 2 => vs.headD 0
    | k => k
  refine ⟨G, G1, G1, [(.tensor (0, 0), .tensor (2, 0))], (1, 0), (3, 0), (3, 0), fun _ _ => 0, I, 3, by decide, by decide, ?_, ?_⟩
  · refine .compute 1 0 _ 2 [3] rfl rfl (by decide) rfl ?_
    intro j t v hj hv
    obtain rfl : j = 0 := by
      have := (List.getElem?_eq_some_iff.mp hv).1
      simp at this
      exact this
    simp at hj hv
    subst hj hv
    exact .swapped _ (2, 0) _ (.tensor _ _ (.tensor (2, 0)) (by simp) rfl) (.compute 2 0 _ 3 [] rfl rfl (by decide) rfl (by simp [G1, G]))
  · intro h
    have h' : Eval G1 (fun _ _ => 0) I (3, 0) 1 := by
      refine .compute 3 0 _ 2 [1] rfl rfl (by decide) rfl ?_
      intro j t v hj hv
      obtain rfl : j = 0 := by
        have := (List.getElem?_eq_some_iff.mp hv).1
        simp at this
        exact this
      simp at hj hv
      subst hj hv
      exact .compute 4 0 _ 1 [] rfl rfl (by decide) rfl (by simp [G1, G])
    exact absurd (C15_value_unique h h') (by decide)

/-! ### C18 -/

/-- Copying a node again, with the same arguments, returns the same node and leaves the graph as it
is. Weaker than the claim: `copy_q` is off. -/
theorem C18_again_partial {fuel : ℕ} {G G' : Graph} {x y : Node} {replace cp : Bool} (hn : normScope scope = some s)
    (hs : Setting uniq parents swap s G) {rank : ℕ → ℕ} (ha : Acyclic G parents swap rank) (hx : Mem G x)
    (hop : ∀ o, x = .op o → (replace = false → ∀ n, (.op o, n) ∉ swap) ∧
      ∃ op : Op, G.ops[o]? = some op ∧ ((∃ k, op.kind = .compute k) ∨ op.kind = .queue))
    (h : edCopy uniq parents fuel G x swap scope replace false cp = some (G', y)) :
    ∃ N, ∀ fuel', N ≤ fuel' → edCopy uniq parents fuel' G' x swap scope replace false cp = some (G', y) := by
  obtain ⟨N, hN⟩ := copy_of_copies (copies_again hs ha ⟨hx, hop⟩ (edCopy_copies hn h))
  refine ⟨N, fun fuel' hf => ?_⟩
  obtain ⟨y', hy, hc⟩ := hN fuel' hf
  obtain rfl : y = y' := by simpa using hy
  simp only [edCopy, hn, Option.bind_some]
  exact hc

example : ∃ G' y, edCopy (fun _ n => n) exampleParents 10 exampleGraph (.tensor (3, 0)) [] ['c'] false false true = some (G', y) ∧
    G'.ops.length = 7 ∧ G'.rvs.length = 2 ∧
    edCopy (fun _ n => n) exampleParents 10 G' (.tensor (3, 0)) [] ['c'] false false true = some (G', y) :=
  ⟨_, _, rfl, rfl, rfl, rfl⟩

/-- `r ~ F(z)`, `z = f(k)`. -/
def loopGraph : Graph :=
  ⟨[⟨['r', '/'] ++ sampleSuffix, .compute 1, 1, [(1, 0)], []⟩, ⟨['z'], .compute 2, 1, [(2, 0)], []⟩,
    ⟨['k'], .compute 3, 1, [], []⟩], [⟨['r', '/'], 1, [.tensor (1, 0)], 0⟩]⟩

/-- With `copy_q` and `k` replaced by `r`, `r` is copied twice under one name, and the second call returns the
other copy. -/
theorem C18_copy_q_fails : ∃ (G' : Graph) (y y' : Node),
    edCopy (fun _ n => n) (fun _ => []) 10 loopGraph (.rv 0) [(.tensor (2, 0), .rv 0)] ['c'] false true true = some (G', y) ∧
    edCopy (fun _ n => n) (fun _ => []) 10 G' (.rv 0) [(.tensor (2, 0), .rv 0)] ['c'] false true true = some (G', y') ∧ y ≠ y' :=
  ⟨_, _, _, rfl, rfl, by decide⟩

/-! ### C85 -/

/-- Without `copy_q`, no cycles arise. -/
theorem C85_no_cycle_partial {fuel : ℕ} {G G' : Graph} {x y : Node} {replace cp : Bool} (hn : normScope scope = some s)
    (hs : Setting uniq parents swap s G) (hx : Mem G x)
    (hop : ∀ o, x = .op o → (replace = false → ∀ n, (.op o, n) ∉ swap) ∧
      ∃ op : Op, G.ops[o]? = some op ∧ ((∃ k, op.kind = .compute k) ∨ op.kind = .queue))
    (hval : ∀ k n, (k, n) ∈ swap → Mem G n) (hc : NoCycle G)
    (h : edCopy uniq parents fuel G x swap scope replace false cp = some (G', y)) : NoCycle G' := by
  obtain ⟨C, -, hinv, -⟩ := copies_inv hs (edCopy_copies hn h) (⟨hx, hop⟩ : OkOne G swap x replace) _ _ (inv_start G)
  obtain ⟨rank, hr⟩ := hc
  classical
  obtain ⟨B, hB⟩ : ∃ B, ∀ o < G.ops.length, rank o < B := by
    have : ∀ n, ∃ B, ∀ o < n, rank o < B := by
      intro n
      induction n with
      | zero => exact ⟨0, by simp⟩
      | succ n ih =>
        obtain ⟨B, hB⟩ := ih
        refine ⟨B + rank n + 1, fun o ho => ?_⟩
        rcases Nat.lt_succ_iff_lt_or_eq.mp ho with h | rfl
        · have := hB o h
          omega
        · omega
    exact this _
  have hval' : ∀ t t', SwapTo G swap t t' → t.1 < G.ops.length → t'.1 < G.ops.length := by
    have key : ∀ k n t', (k, n) ∈ swap → G.convert n = some t' → t'.1 < G.ops.length := fun k n t' h hc => by
      obtain ⟨op, ho, -⟩ := mem_of_convert hs.proper (hval k n h) hc
      exact (List.getElem?_eq_some_iff.mp ho).1
    intro t t' hsw ht
    cases hsw with
    | tensor _ _ n h hc => exact key _ _ _ h hc
    | rv r _ _ n h _ hc => exact key _ _ _ h hc
    | var o _ n h hc => exact key _ _ _ h hc
    | op o o' i h => exact hval _ _ h
  let orig : ℕ → ℕ := fun o' => if h : ∃ o, C o o' then h.choose else 0
  have horig : ∀ o o', C o o' → orig o' = o := fun o o' hC => by
    have h : ∃ o, C o o' := ⟨o, hC⟩
    simp only [orig, dif_pos h]
    exact hinv.inj _ _ _ h.choose_spec hC
  refine ⟨fun o' => if o' < G.ops.length then rank o' else B + rank (orig o'), fun o' op' ho' t' ht' => ?_⟩
  by_cases hnew : o' < G.ops.length
  · have ho : G.ops[o']? = some op' := by
      rw [List.getElem?_eq_getElem hnew]
      rw [prefix_getElem? hinv.ext.1 (List.getElem?_eq_getElem hnew)] at ho'
      exact ho'
    obtain ⟨p, hp, -⟩ := hs.proper.inputs op' (List.mem_of_getElem? ho) t' ht'
    simp only [hnew, if_true, (List.getElem?_eq_some_iff.mp hp).1]
    exact hr o' op' ho t' ht'
  · obtain ⟨o, hC, -⟩ := hinv.new o' op' ho' (Nat.le_of_not_lt hnew)
    obtain ⟨op, p', k, h1, h2, h3, h4, h5, -, h6⟩ := hinv.img _ _ hC
    obtain rfl : p' = op' := by rw [ho'] at h2; simpa using h2.symm
    obtain ⟨hl, hrel⟩ := List.forall₂_iff_get.mp (h6 id)
    obtain ⟨j, hj, rfl⟩ := List.getElem_of_mem ht'
    have hj' : j < op.inputs.length := by omega
    have hmem : op.inputs[j] ∈ op.inputs := List.getElem_mem hj'
    have hin : op.inputs[j].1 < G.ops.length := by
      obtain ⟨p, hp, -⟩ := hs.proper.inputs op (List.mem_of_getElem? h1) _ hmem
      exact (List.getElem?_eq_some_iff.mp hp).1
    have hlt := hr o op h1 _ hmem
    simp only [hnew, if_false, horig o o' hC]
    have hold : ∀ a, a < G.ops.length → (if a < G.ops.length then rank a else B + rank (orig a)) < B + rank o := by
      intro a ha
      rw [if_pos ha]
      have := hB a ha
      omega
    rcases hrel j hj' hj with hsw | ⟨-, ⟨_, _, _, he⟩ | ⟨hC', -⟩⟩
    · exact hold _ (hval' _ _ hsw hin)
    · simp only [List.get_eq_getElem] at he
      rw [he]
      exact hold _ hin
    · simp only [List.get_eq_getElem] at hC'
      rw [if_neg (Nat.not_lt.mpr (hinv.fresh _ _ hC')), horig _ _ hC']
      omega

example : NoCycle exampleGraph := ⟨id, exampleAcyclic.inputs⟩

/-- With `copy_q`, replacing something `r` depends on by `r` makes the copy of `r` depend on itself: the graph has a
cycle, and the copy has no value. -/
theorem C85_copy_q_fails : NoCycle loopGraph ∧ ∃ (G' : Graph) (y : Node),
    edCopy (fun _ n => n) (fun _ => []) 10 loopGraph (.rv 0) [(.tensor (2, 0), .rv 0)] ['c'] false true true = some (G', y) ∧
    ¬ NoCycle G' := by
  refine ⟨⟨fun o => 3 - o, ?_⟩, _, _, rfl, ?_⟩
  · intro o op ho t ht
    have : o < 3 := (List.getElem?_eq_some_iff.mp ho).1
    interval_cases o <;> simp [loopGraph] at ho <;> subst ho <;> simp at ht <;> subst ht <;> simp
  · rintro ⟨rank, hr⟩
    have h1 := hr 3 _ rfl (4, 0) (by decide)
    have h2 := hr 4 _ rfl (3, 0) (by decide)
    simp only at h1 h2
    omega

end Edward
