/-
What the accumulation loops of the variational objectives compute.
-/
import Mathlib.Algebra.BigOperators.Fin
import Mathlib.Algebra.BigOperators.Field
import Mathlib.Algebra.BigOperators.Ring.Finset
import Mathlib.Data.List.FinRange
import Mathlib.Algebra.Order.BigOperators.Ring.List
import Mathlib.Tactic.Ring
import Mathlib.Tactic.FieldSimp
import Verif.Spec.Variational

namespace Edward
set_option linter.unusedSectionVars false
variable {Z X I Ω : Type} [Fintype I]

theorem addAt_foldl {K : Type} (s : ℕ) (t : K → ℝ) (keys : List K) (arr : List ℝ) :
    keys.foldl (fun arr k => addAt arr s (t k)) arr = arr.modify s (· + (keys.map t).sum) := by
  induction keys generalizing arr with
  | nil => apply List.ext_getElem? ; intro i; by_cases h : s = i <;> simp [h]
  | cons k ks ih =>
    rw [List.foldl_cons, ih]
    apply List.ext_getElem?
    intro i
    by_cases h : s = i
    · subst h
      simp only [addAt, List.map_cons, List.sum_cons, List.getElem?_modify, if_true]
      cases arr[s]? <;> simp; ring
    · simp [addAt, h]

theorem foldl_modify_getElem? {n : ℕ} (f : Fin n → ℝ) (L : List (Fin n)) (arr : List ℝ) (i : ℕ) :
    (L.foldl (fun arr s => arr.modify s.val (· + f s)) arr)[i]? =
      arr[i]?.map (· + ((L.filter (fun s => s.val = i)).map f).sum) := by
  induction L generalizing arr with
  | nil => simp
  | cons a L ih =>
    rw [List.foldl_cons, ih, List.getElem?_modify]
    by_cases h : a.val = i
    · rw [List.filter_cons_of_pos (by simpa using h)]
      simp only [h, if_true, List.map_cons, List.sum_cons]
      cases arr[i]? <;> simp; ring
    · rw [List.filter_cons_of_neg (by simpa using h)]
      simp [h]

theorem finRange_filter_val {n : ℕ} (i : Fin n) : (List.finRange n).filter (fun s => s.val = i.val) = [i] := by
  have h : (fun s : Fin n => decide (s.val = i.val)) = (fun s => s == i) := by
    funext s; rw [Bool.eq_iff_iff]; simp [Fin.ext_iff]
  rw [h, List.filter_beq, List.count_eq_one_of_mem (List.nodup_finRange n) (List.mem_finRange i)]
  rfl

theorem foldl_modify_eq {n : ℕ} (f : Fin n → ℝ) :
    (List.finRange n).foldl (fun arr s => arr.modify s.val (· + f s)) (List.replicate n 0) = List.ofFn f := by
  apply List.ext_getElem?
  intro i
  rw [foldl_modify_getElem?]
  by_cases h : i < n
  · rw [List.getElem?_replicate, if_pos h, finRange_filter_val ⟨i, h⟩, List.getElem?_ofFn, dif_pos h]
    simp
  · rw [List.getElem?_replicate, if_neg h, List.getElem?_ofFn, dif_neg h]; rfl

theorem accumulate_eq {K : Type} (n : ℕ) (draws : Fin n → Ω) (keys : List K) (term : K → Ω → ℝ) :
    accumulate n draws keys term (List.replicate n 0) =
      List.ofFn fun s => (keys.map fun k => term k (draws s)).sum := by
  rw [← foldl_modify_eq, accumulate]
  congr 1
  funext arr s
  exact addAt_foldl _ _ _ _

theorem qLogProb_eq (v : ViProblem Z X I Ω) (n : ℕ) (draws : Fin n → Ω) :
    qLogProb v n draws = List.ofFn fun s => Spec.logApprox v (draws s) := accumulate_eq _ _ _ _

theorem pLogLik_eq (v : ViProblem Z X I Ω) (n : ℕ) (draws : Fin n → Ω) :
    pLogLik v n draws = List.ofFn fun s => Spec.logLik v (draws s) := accumulate_eq _ _ _ _

theorem pLogProb_eq (v : ViProblem Z X I Ω) (n : ℕ) (draws : Fin n → Ω) :
    pLogProb v n draws = List.ofFn fun s => Spec.logJoint v (draws s) := by
  rw [← foldl_modify_eq, pLogProb]
  congr 1
  funext arr s
  dsimp only
  rw [addAt_foldl s.val (fun z => v.termP z (draws s)), addAt_foldl s.val (fun x => v.termX x (draws s))]
  apply List.ext_getElem?
  intro i
  by_cases h : s.val = i
  · simp only [List.getElem?_modify, h, if_true]
    cases arr[i]? <;> simp [Spec.logJoint, ViProblem.termP, ViProblem.termX]; ring
  · simp [h]

theorem listMean_ofFn {n : ℕ} (f : Fin n → ℝ) : listMean (List.ofFn f) = Spec.average f := by
  rw [listMean, List.sum_ofFn, List.length_ofFn, Spec.average]

theorem zipWith_ofFn {n : ℕ} (g : ℝ → ℝ → ℝ) (f h : Fin n → ℝ) :
    List.zipWith g (List.ofFn f) (List.ofFn h) = List.ofFn fun s => g (f s) (h s) := by
  apply List.ext_getElem
  · simp
  · intro i h1 h2; simp

theorem average_sub {n : ℕ} (f g : Fin n → ℝ) :
    Spec.average (fun s => f s - g s) = Spec.average f - Spec.average g := by
  simp only [Spec.average, Finset.sum_sub_distrib, sub_div]

theorem average_neg {n : ℕ} (f : Fin n → ℝ) : Spec.average (fun s => -f s) = -Spec.average f := by
  simp only [Spec.average, Finset.sum_neg_distrib, neg_div]

theorem average_const {n : ℕ} (hn : 0 < n) (c : ℝ) : Spec.average (fun _ : Fin n => c) = c := by
  have : (n : ℝ) ≠ 0 := by positivity
  simp [Spec.average]; field_simp

/-! ### The tables of the Rao-Blackwellised loss -/

theorem setItem_refs {K : Type} [DecidableEq K] (l : DictList K) (s : ℕ) (k : K) (t : ℝ) :
    (l.setItem s k t).refs = l.refs := by
  unfold DictList.setItem; split <;> rfl

theorem foldl_setItem_refs {K J : Type} [DecidableEq K] (s : ℕ) (key : J → K) (t : J → ℝ) (js : List J)
    (l : DictList K) : (js.foldl (fun l j => l.setItem s (key j) (t j)) l).refs = l.refs := by
  induction js generalizing l with
  | nil => rfl
  | cons j js ih => rw [List.foldl_cons, ih, setItem_refs]

theorem getItem_setItem {K : Type} [DecidableEq K] (l : DictList K) (n : ℕ) (hl : l.refs = List.replicate n 0)
    {s s' : ℕ} (hs : s < n) (hs' : s' < n) (k k' : K) (t : ℝ) :
    (l.setItem s k t).getItem s' k' = if k' = k then t else l.getItem s' k' := by
  unfold DictList.getItem
  rw [setItem_refs]
  unfold DictList.setItem
  simp only [hl, List.getElem?_replicate, if_pos hs, if_pos hs', true_and]
  split <;> rfl

theorem getItem_foldl {K J : Type} [DecidableEq K] (n : ℕ) {s s' : ℕ} (hs : s < n) (hs' : s' < n) (key : J → K)
    (hk : Function.Injective key) (t : J → ℝ) (js : List J) (l : DictList K) (hl : l.refs = List.replicate n 0)
    (k : K) :
    (∀ j ∈ js, key j = k →
      (js.foldl (fun l j => l.setItem s (key j) (t j)) l).getItem s' k = t j) ∧
    ((∀ j ∈ js, key j ≠ k) →
      (js.foldl (fun l j => l.setItem s (key j) (t j)) l).getItem s' k = l.getItem s' k) := by
  induction js generalizing l with
  | nil => simp
  | cons a js ih =>
    have hl' : (l.setItem s (key a) (t a)).refs = List.replicate n 0 := by rw [setItem_refs, hl]
    obtain ⟨h1, h2⟩ := ih (l.setItem s (key a) (t a)) hl'
    constructor
    · intro j hj hjk
      rw [List.foldl_cons]
      by_cases hin : ∃ j' ∈ js, key j' = k
      · obtain ⟨j', hj', e⟩ := hin
        rw [h1 j' hj' e, hk (e.trans hjk.symm)]
      · rw [h2 (fun j' hj' e => hin ⟨j', hj', e⟩), getItem_setItem l n hl hs hs']
        have : j = a := by
          rcases List.mem_cons.mp hj with h | h
          · exact h
          · exact absurd ⟨j, h, hjk⟩ hin
        subst this
        rw [if_pos hjk.symm]
    · intro hne
      rw [List.foldl_cons, h2 (fun j hj => hne j (List.mem_cons_of_mem _ hj)), getItem_setItem l n hl hs hs',
        if_neg (fun e => hne a List.mem_cons_self e.symm)]

/-- One iteration of the sampling loop. -/
private def rbStep [DecidableEq Z] [DecidableEq X] (v : ViProblem Z X I Ω) (s : ℕ) (ω : Ω)
    (pq : DictList (Z ⊕ X) × DictList Z) : DictList (Z ⊕ X) × DictList Z :=
  let q := v.latents.foldl (fun q z => q.setItem s z (v.termQ z ω)) pq.2
  let p := v.latents.foldl (fun p z => p.setItem s (.inl z) (v.termP z ω)) pq.1
  let p := v.observed.foldl (fun p x => p.setItem s (.inr x) (v.termX x ω)) p
  (p, q)

private theorem rbTables_eq [DecidableEq Z] [DecidableEq X] (v : ViProblem Z X I Ω) (n : ℕ) (draws : Fin n → Ω) :
    rbTables v n draws =
      (List.finRange n).foldl (fun pq (s : Fin n) => rbStep v s (draws s) pq) (DictList.mk' _ n, DictList.mk' _ n) :=
  rfl

private theorem rbStep_refs [DecidableEq Z] [DecidableEq X] (v : ViProblem Z X I Ω) (s : ℕ) (ω : Ω)
    (pq : DictList (Z ⊕ X) × DictList Z) :
    (rbStep v s ω pq).1.refs = pq.1.refs ∧ (rbStep v s ω pq).2.refs = pq.2.refs := by
  unfold rbStep
  dsimp only
  exact ⟨by rw [foldl_setItem_refs s (Sum.inr) (fun x => v.termX x ω),
      foldl_setItem_refs s (Sum.inl) (fun x => v.termP x ω)],
    foldl_setItem_refs s id (fun z => v.termQ z ω) _ _⟩

private theorem rbFold_refs [DecidableEq Z] [DecidableEq X] (v : ViProblem Z X I Ω) (n : ℕ) (draws : Fin n → Ω)
    (L : List (Fin n)) (pq : DictList (Z ⊕ X) × DictList Z) :
    (L.foldl (fun pq (s : Fin n) => rbStep v s (draws s) pq) pq).1.refs = pq.1.refs ∧
      (L.foldl (fun pq (s : Fin n) => rbStep v s (draws s) pq) pq).2.refs = pq.2.refs := by
  induction L generalizing pq with
  | nil => exact ⟨rfl, rfl⟩
  | cons a L ih =>
    rw [List.foldl_cons]
    exact ⟨(ih _).1.trans (rbStep_refs v _ _ pq).1, (ih _).2.trans (rbStep_refs v _ _ pq).2⟩

/-- Every entry of the tables holds the value of the last draw. -/
theorem rbTables_getItem [DecidableEq Z] [DecidableEq X] (v : ViProblem Z X I Ω) (m : ℕ)
    (draws : Fin (m + 1) → Ω) (s : Fin (m + 1)) :
    (∀ z ∈ v.latents, (rbTables v (m + 1) draws).1.getItem s (.inl z) = v.termP z (draws (Fin.last m))) ∧
    (∀ x ∈ v.observed, (rbTables v (m + 1) draws).1.getItem s (.inr x) = v.termX x (draws (Fin.last m))) ∧
    (∀ z ∈ v.latents, (rbTables v (m + 1) draws).2.getItem s z = v.termQ z (draws (Fin.last m))) := by
  rw [rbTables_eq, List.finRange_succ_last, List.foldl_append, List.foldl_cons, List.foldl_nil]
  obtain ⟨r1, r2⟩ := rbFold_refs v (m + 1) draws ((List.finRange m).map Fin.castSucc)
    (DictList.mk' _ (m + 1), DictList.mk' _ (m + 1))
  generalize (List.foldl _ _ _) = pq at r1 r2
  have r1' : pq.1.refs = List.replicate (m + 1) 0 := r1
  have r2' : pq.2.refs = List.replicate (m + 1) 0 := r2
  have hl : ((Fin.last m : Fin (m + 1)) : ℕ) < m + 1 := (Fin.last m).isLt
  unfold rbStep
  dsimp only
  set ω := draws (Fin.last m)
  have hp' : (v.latents.foldl (fun p z => p.setItem (Fin.last m : Fin (m + 1)) (.inl z) (v.termP z ω)) pq.1).refs =
      List.replicate (m + 1) 0 := by rw [foldl_setItem_refs _ Sum.inl (fun z => v.termP z ω), r1']
  refine ⟨fun z hz => ?_, fun x hx => ?_, fun z hz => ?_⟩
  · rw [(getItem_foldl (m + 1) hl s.isLt Sum.inr Sum.inr_injective (fun x => v.termX x ω) v.observed _ hp'
      (Sum.inl z)).2 (by simp)]
    exact (getItem_foldl (m + 1) hl s.isLt Sum.inl Sum.inl_injective (fun z => v.termP z ω) v.latents _ r1'
      (Sum.inl z)).1 z hz rfl
  · exact (getItem_foldl (m + 1) hl s.isLt Sum.inr Sum.inr_injective (fun x => v.termX x ω) v.observed _ hp'
      (Sum.inr x)).1 x hx rfl
  · exact (getItem_foldl (m + 1) hl s.isLt id Function.injective_id (fun z => v.termQ z ω) v.latents _ r2'
      z).1 z hz rfl

/-! ### Averages over independent draws -/

theorem sum_drawsProb_mul [Fintype Ω] {n : ℕ} (q : Ω → ℝ) (hq : ∑ ω, q ω = 1) (s : Fin n) (g : Ω → ℝ) :
    ∑ d : Fin n → Ω, Spec.drawsProb q d * g (d s) = ∑ ω, q ω * g ω := by
  classical
  have h := Finset.prod_univ_sum (fun _ : Fin n => (Finset.univ : Finset Ω))
    (fun t ω => if t = s then q ω * g ω else q ω)
  rw [Fintype.piFinset_univ] at h
  have hl : (∏ t : Fin n, ∑ ω, (if t = s then q ω * g ω else q ω)) = ∑ ω, q ω * g ω := by
    rw [Finset.prod_eq_single s]
    · simp
    · intro t _ ht; simp [ht, hq]
    · simp
  rw [← hl, h]
  refine Finset.sum_congr rfl fun d _ => ?_
  rw [Spec.drawsProb]
  have : ∀ t : Fin n, (if t = s then q (d t) * g (d t) else q (d t)) =
      q (d t) * (if t = s then g (d t) else 1) := by intro t; split <;> simp
  simp_rw [this]
  rw [Finset.prod_mul_distrib, Finset.prod_ite_eq' Finset.univ s (fun t => g (d t))]
  simp

theorem sum_drawsProb [Fintype Ω] {n : ℕ} (q : Ω → ℝ) (hq : ∑ ω, q ω = 1) :
    ∑ d : Fin n → Ω, Spec.drawsProb q d = 1 := by
  classical
  have h := Finset.prod_univ_sum (fun _ : Fin n => (Finset.univ : Finset Ω)) (fun _ ω => q ω)
  rw [Fintype.piFinset_univ] at h
  simp only [Spec.drawsProb]
  rw [← h]; simp [hq]

theorem expect_average [Fintype Ω] {n : ℕ} (hn : 0 < n) (q : Ω → ℝ) (hq : ∑ ω, q ω = 1) (g : Ω → ℝ) :
    ∑ d : Fin n → Ω, Spec.drawsProb q d * Spec.average (fun s => g (d s)) = ∑ ω, q ω * g ω := by
  have hn' : (n : ℝ) ≠ 0 := by positivity
  simp only [Spec.average, ← mul_div_assoc, Finset.mul_sum]
  rw [← Finset.sum_div, Finset.sum_comm]
  simp_rw [sum_drawsProb_mul q hq]
  simp; field_simp

end Edward
