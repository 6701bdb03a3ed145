/-
C51: the blankets that `build_score_rb_loss_and_gradients` computes from the graph are large enough for the gradient to be unbiased.
-/
import Verif.Model.Blankets
import Verif.Spec.Blankets
import Verif.Props.Graph
import Verif.Props.ScoreGradientRb

namespace Edward
open Relation Filter Topology
variable {T O R Z X I Val E : Type} {V : Z → Type}

section values
variable {m : Spec.GraphVi T O R Z X I Val E V}

/-- A tensor of the model that does not depend on the parameter has one value. -/
theorem evP_unshared (hok : m.Ok) {l l' : E} {ω : ∀ z, V z} {ev ev' : T → Val} (h : m.IsModelValue l ω ev) (h' : m.IsModelValue l' ω ev') {t : T}
    (ht : ¬ m.g.Reaches m.var t) : ev t = ev' t := by
  induction t using hok.acyclic.induction with
  | _ t ih =>
    by_cases hs : m.g.IsSample m.pRvs t
    · obtain ⟨c, hc, rfl⟩ := hs
      rcases List.mem_append.mp hc with hc | hc
      · obtain ⟨z, -, rfl⟩ := List.mem_map.mp hc
        rw [h.latent, h'.latent]
      · obtain ⟨x, hx, rfl⟩ := List.mem_map.mp hc
        rw [h.observed x hx, h'.observed x hx]
    · have hv : t ≠ m.var := fun e => ht (e ▸ ReflTransGen.refl)
      rw [h.other t hv hs, h'.other t hv hs]
      congr 1
      exact List.map_congr_left fun s hs' => ih s hs' fun hr => ht (hr.tail hs')

/-- A tensor of the approximation that does not depend on the parameter has one value. -/
theorem evQ_unshared (hok : m.Ok) {l l' : E} {ev ev' : T → Val} (h : m.IsApproxValue l ev) (h' : m.IsApproxValue l' ev') {t : T}
    (ht : ¬ m.g.Reaches m.var t) : ev t = ev' t := by
  induction t using hok.acyclic.induction with
  | _ t ih =>
    have hv : t ≠ m.var := fun e => ht (e ▸ ReflTransGen.refl)
    rw [h.other t hv, h'.other t hv]
    congr 1
    exact List.map_congr_left fun s hs' => ih s hs' fun hr => ht (hr.tail hs')

theorem Direct.transGen {E' : T → T → Prop} {S : T → Prop} {a b : T} (h : Direct E' S a b) : TransGen E' a b := by
  induction h with
  | edge h => exact .single h
  | cons h _ _ ih => exact .head h ih

/-- The arguments of `w` depend on the parents of `w` only. -/
theorem evP_parents (hok : m.Ok) {l : E} {ω ω' : ∀ z, V z} {ev ev' : T → Val} (h : m.IsModelValue l ω ev) (h' : m.IsModelValue l ω' ev') {w : R}
    (hw : w ∈ m.pRvs) (hp : ∀ z, m.g.ParentOf m.pRvs (m.pz z) w → ω z = ω' z) {t : T} (hd : Direct m.g.Edge (m.g.IsSample m.pRvs) t (m.g.value w))
    (hv : ¬ m.g.Reaches m.var t) : ev t = ev' t := by
  induction t using hok.acyclic.induction with
  | _ t ih =>
    by_cases hs : m.g.IsSample m.pRvs t
    · obtain ⟨c, hc, rfl⟩ := hs
      rcases List.mem_append.mp hc with hc' | hc'
      · obtain ⟨z, -, rfl⟩ := List.mem_map.mp hc'
        rw [h.latent, h'.latent, hp z ⟨hc, hw, ?_, hd⟩]
        rintro e
        rw [e] at hd
        exact hok.acyclic.transGen.irrefl.irrefl _ hd.transGen
      · obtain ⟨x, hx, rfl⟩ := List.mem_map.mp hc'
        rw [h.observed x hx, h'.observed x hx]
    · have hv' : t ≠ m.var := fun e => hv (e ▸ ReflTransGen.refl)
      rw [h.other t hv' hs, h'.other t hv' hs]
      congr 1
      exact List.map_congr_left fun s hs' => ih s hs' (.cons hs' hs hd) fun hr => hv (hr.tail hs')

end values

section sets
variable [DecidableEq T] [DecidableEq R] [Fintype T] [Fintype R]

theorem mem_rbUnion (g : Graph T O R) (sched : ℕ → ℕ → ℕ → ℕ) (target : R → R) (ds rvs : List R) (r : R) :
    r ∈ rbUnion g sched target ds rvs ↔
      ∃ i, ∃ h : i < ds.length, r ∈ getBlanket g (sched i) (.rv (target ds[i])) rvs ∨ r = target ds[i] := by
  have key : ∀ (l : List (R × ℕ)) (s : List R), r ∈ l.foldl (fun s d => setUpdate s (getBlanket g (sched d.2) (.rv (target d.1)) rvs ++ [target d.1])) s ↔
      r ∈ s ∨ ∃ d ∈ l, r ∈ getBlanket g (sched d.2) (.rv (target d.1)) rvs ∨ r = target d.1 := by
    intro l
    induction l with
    | nil => simp
    | cons a l ih =>
      intro s
      rw [List.foldl_cons, ih, mem_setUpdate, List.mem_append, List.mem_singleton, List.exists_mem_cons_iff, or_assoc]
  rw [rbUnion, key]
  simp only [List.not_mem_nil, false_or]
  constructor
  · rintro ⟨⟨a, i⟩, h, hP⟩
    rw [List.mk_mem_zipIdx_iff_getElem?] at h
    obtain ⟨hi, rfl⟩ := List.getElem?_eq_some_iff.mp h
    exact ⟨i, hi, hP⟩
  · rintro ⟨i, hi, hP⟩
    exact ⟨(ds[i], i), List.mk_mem_zipIdx_iff_getElem?.mpr (List.getElem?_eq_getElem hi), hP⟩

theorem nodup_setUpdate' {N : Type} [DecidableEq N] (s new : List N) (h : s.Nodup) : (setUpdate s new).Nodup := by
  unfold setUpdate
  induction new generalizing s with
  | nil => exact h
  | cons a l ih => exact ih _ (h.insert)

theorem nodup_rbUnion (g : Graph T O R) (sched : ℕ → ℕ → ℕ → ℕ) (target : R → R) (ds rvs : List R) : (rbUnion g sched target ds rvs).Nodup := by
  have key : ∀ (l : List (R × ℕ)) (s : List R), s.Nodup →
      (l.foldl (fun s d => setUpdate s (getBlanket g (sched d.2) (.rv (target d.1)) rvs ++ [target d.1])) s).Nodup := by
    intro l
    induction l with
    | nil => exact fun s h => h
    | cons a l ih => exact fun s h => ih _ (nodup_setUpdate' _ _ h)
  exact key _ _ List.nodup_nil

variable [Fintype I] [NormedAddCommGroup E] [NormedSpace ℝ E]
variable {m : Spec.GraphVi T O R Z X I Val E V} {v : E → ViProblem Z X I (∀ z, V z)} {qf : E → ∀ z, V z → ℝ}
  {evP : E → (∀ z, V z) → T → Val} {evQ : E → T → Val}

/-- **C51** (blankets). The factors that `build_score_rb_loss_and_gradients` selects with `get_descendants` and `get_blanket` for a parameter satisfy what
`C51_rb_partial` and `C51_rb_general_partial` need: every factor left out is independent of the variables whose approximation depends on the parameter. -/
theorem C51_rb_blankets (hok : m.Ok) (hv : m.Describes v qf evP evQ) {l₀ : E} (s₁ : ℕ → ℕ) (s₂ s₃ : ℕ → ℕ → ℕ → ℕ) {rev : R → R}
    (hrev : ∀ z, rev (m.qz z) = m.pz z) {D : Finset Z} (hD : ∀ z, z ∈ D ↔ m.qz z ∈ rbDescendants m.g s₁ m.var m.qRvs) {varP : List (Z ⊕ X)}
    (hP : varP.map (Sum.elim m.pz m.px) = rbUnion m.g s₂ rev (rbDescendants m.g s₁ m.var m.qRvs) m.pRvs) {varQ : List Z}
    (hQ : varQ.map m.qz = rbUnion m.g s₃ id (rbDescendants m.g s₁ m.var m.qRvs) m.qRvs)
    (hdiff : ∀ z x, DifferentiableAt ℝ (fun l => qf l z x) l₀) (hpos : ∀ᶠ l in 𝓝 l₀, ∀ z x, 0 < qf l z x) :
    RbOk v qf l₀ D varP varQ m.lat m.obs := by
  have hpz : ∀ z, m.pz z ∈ m.pRvs := fun z => List.mem_append_left _ (List.mem_map_of_mem (hok.lat_all z))
  have hqz : ∀ z, m.qz z ∈ m.qRvs := fun z => List.mem_map_of_mem (hok.lat_all z)
  have hdesc : ∀ r, r ∈ rbDescendants m.g s₁ m.var m.qRvs ↔ r ∈ m.qRvs ∧ m.g.Reaches m.var (m.g.value r) := by
    intro r
    rw [rbDescendants, (C02_getDescendants_exact m.g hok.consistent s₁ (.tensor m.var) m.qRvs).2 r, lastWith_iff_mem m.g _ hok.distinctQ]
    simp [Graph.toTensor]
  have hnode : Function.Injective (Sum.elim m.pz m.px) :=
    hok.pz_inj.sumElim hok.px_inj hok.pz_ne_px
  -- children of variables in `D`, and these variables themselves, are selected
  have hsel : ∀ w, w ∈ m.pRvs → w ∉ rbUnion m.g s₂ rev (rbDescendants m.g s₁ m.var m.qRvs) m.pRvs → ∀ z ∈ D, w ≠ m.pz z ∧ ¬ m.g.ParentOf m.pRvs (m.pz z) w := by
    intro w hw hn z hz
    obtain ⟨i, hi, he⟩ := List.getElem_of_mem ((hD z).mp hz)
    have hne : w ≠ m.pz z := fun e => hn ((mem_rbUnion ..).mpr ⟨i, hi, Or.inr (by rw [he, hrev]; exact e)⟩)
    refine ⟨hne, fun hpar => hn ((mem_rbUnion ..).mpr ⟨i, hi, Or.inl ?_⟩)⟩
    rw [he, hrev, C07_getBlanket_exact m.g hok.consistent _ _ hok.distinctP _ (hpz z)]
    exact ⟨hne, Or.inr (Or.inl hpar)⟩
  have hargs : ∀ w, w ∈ m.pRvs → w ∉ rbUnion m.g s₂ rev (rbDescendants m.g s₁ m.var m.qRvs) m.pRvs → ∀ ω ω' : ∀ z, V z, (∀ z, z ∉ D → ω z = ω' z) →
      (m.params w).map (evP l₀ ω) = (m.params w).map (evP l₀ ω') := by
    intro w hw hn ω ω' he
    refine List.map_congr_left fun t ht => ?_
    refine evP_parents hok (hv.valueP l₀ ω) (hv.valueP l₀ ω') hw (fun z hz => he z fun hzD => ?_) (hok.params_p w hw t ht) (hok.unshared w hw t ht)
    exact (hsel w hw hn z hzD).2 hz
  have hsame : ∀ l ω w, w ∈ m.pRvs → (m.params w).map (evP l ω) = (m.params w).map (evP l₀ ω) := by
    intro l ω w hw
    exact List.map_congr_left fun t ht => evP_unshared hok (hv.valueP l ω) (hv.valueP l₀ ω) (hok.unshared w hw t ht)
  refine ⟨hv.latents, hv.observed, hok.lat_nodup, hok.lat_all, hok.obs_nodup, ?_, ?_, ?_, ?_, ?_, ?_, hdiff, hpos, ?_, ?_, ?_⟩
  · exact List.Nodup.of_map (Sum.elim m.pz m.px) (hP ▸ nodup_rbUnion ..)
  · intro x hx
    have h1 : m.px x ∈ rbUnion m.g s₂ rev (rbDescendants m.g s₁ m.var m.qRvs) m.pRvs := hP ▸ List.mem_map.mpr ⟨Sum.inr x, hx, rfl⟩
    obtain ⟨i, hi, h2⟩ := (mem_rbUnion ..).mp h1
    have hmem : (rbDescendants m.g s₁ m.var m.qRvs)[i] ∈ m.qRvs := ((hdesc _).mp (List.getElem_mem hi)).1
    obtain ⟨z, -, hz⟩ := List.mem_map.mp hmem
    rw [← hz, hrev] at h2
    rcases h2 with h2 | h2
    · rw [C07_getBlanket_exact m.g hok.consistent _ _ hok.distinctP _ (hpz z)] at h2
      have hxm : m.px x ∈ m.pRvs := by
        rcases h2.2 with h | h | ⟨c, -, h⟩
        · exact h.1
        · exact h.2.1
        · exact h.1
      rcases List.mem_append.mp hxm with h | h
      · obtain ⟨z', -, h'⟩ := List.mem_map.mp h
        exact absurd h' (hok.pz_ne_px z' x)
      · obtain ⟨x', h', h''⟩ := List.mem_map.mp h
        exact hok.px_inj h'' ▸ h'
    · exact absurd h2.symm (hok.pz_ne_px z x)
  · exact List.Nodup.of_map m.qz (hQ ▸ nodup_rbUnion ..)
  · intro z hz
    obtain ⟨i, hi, he⟩ := List.getElem_of_mem ((hD z).mp hz)
    have h1 : m.qz z ∈ varQ.map m.qz := by
      rw [hQ, mem_rbUnion]
      exact ⟨i, hi, Or.inr he.symm⟩
    obtain ⟨z', h', h''⟩ := List.mem_map.mp h1
    exact hok.qz_inj h'' ▸ h'
  · intro z hz ω ω' he
    have hn : m.pz z ∉ rbUnion m.g s₂ rev (rbDescendants m.g s₁ m.var m.qRvs) m.pRvs := by
      rw [← hP]
      intro hc
      obtain ⟨k, h1, h2⟩ := List.mem_map.mp hc
      exact hz (hnode (a₁ := k) (a₂ := Sum.inl z) h2 ▸ h1)
    have hzD : z ∉ D := fun h => (hsel _ (hpz z) hn z h).1 rfl
    refine Finset.sum_congr rfl fun i _ => ?_
    rw [hv.prior, hv.prior, hargs _ (hpz z) hn ω ω' he, he z hzD]
  · intro x hx hnx ω ω' he
    have hn : m.px x ∉ rbUnion m.g s₂ rev (rbDescendants m.g s₁ m.var m.qRvs) m.pRvs := by
      rw [← hP]
      intro hc
      obtain ⟨k, h1, h2⟩ := List.mem_map.mp hc
      exact hnx (hnode (a₁ := k) (a₂ := Sum.inr x) h2 ▸ h1)
    have hxm : m.px x ∈ m.pRvs := List.mem_append_right _ (List.mem_map_of_mem hx)
    refine Finset.sum_congr rfl fun i _ => ?_
    rw [hv.likelihood l₀ x hx, hv.likelihood l₀ x hx, hargs _ hxm hn ω ω' he]
  · refine Eventually.of_forall fun l z hz => ?_
    have hr : ¬ m.g.Reaches m.var (m.g.value (m.qz z)) := fun h => hz ((hD z).mpr ((hdesc _).mpr ⟨hqz z, h⟩))
    funext x
    rw [hv.density, hv.density]
    congr 1
    exact List.map_congr_left fun t ht => evQ_unshared hok (hv.valueQ l) (hv.valueQ l₀) fun h => hr (h.trans (hok.params_q z t ht))
  · exact Eventually.of_forall fun l => hv.approx l
  · refine Eventually.of_forall fun l ω => ?_
    simp only [Spec.logJoint, hv.latents, hv.observed, hv.scaleZ l l₀, hv.scaleX l l₀]
    congr 1
    · refine congrArg List.sum (List.map_congr_left fun z _ => Finset.sum_congr rfl fun i _ => ?_)
      rw [hv.prior, hv.prior, hsame l ω _ (hpz z)]
    · refine congrArg List.sum (List.map_congr_left fun x hx => Finset.sum_congr rfl fun i _ => ?_)
      rw [hv.likelihood l x hx, hv.likelihood l₀ x hx, hsame l ω _ (List.mem_append_right _ (List.mem_map_of_mem hx))]

omit [Fintype I] [NormedAddCommGroup E] [NormedSpace ℝ E] in
/-- **C51** (blankets). Which factors are selected: the variables whose approximation depends on the parameter, their parents, their children and the other
parents of their children. For the approximation likewise. -/
theorem C51_rb_sets_exact (hok : m.Ok) (s₁ : ℕ → ℕ) (s : ℕ → ℕ → ℕ → ℕ) {rev : R → R} {coll : List R} (hcoll : DistinctValues m.g coll)
    (hrev : ∀ z, rev (m.qz z) ∈ coll) (r : R) :
    r ∈ rbUnion m.g s rev (rbDescendants m.g s₁ m.var m.qRvs) coll ↔
      ∃ z, m.g.Reaches m.var (m.g.value (m.qz z)) ∧ (r = rev (m.qz z) ∨ m.g.ParentOf coll r (rev (m.qz z)) ∨ m.g.ParentOf coll (rev (m.qz z)) r ∨
        ∃ c, m.g.ParentOf coll (rev (m.qz z)) c ∧ m.g.ParentOf coll r c) := by
  have hdesc : ∀ r, r ∈ rbDescendants m.g s₁ m.var m.qRvs ↔ r ∈ m.qRvs ∧ m.g.Reaches m.var (m.g.value r) := by
    intro r
    rw [rbDescendants, (C02_getDescendants_exact m.g hok.consistent s₁ (.tensor m.var) m.qRvs).2 r, lastWith_iff_mem m.g _ hok.distinctQ]
    simp [Graph.toTensor]
  rw [mem_rbUnion]
  constructor
  · rintro ⟨i, hi, h⟩
    obtain ⟨h1, h2⟩ := (hdesc _).mp (List.getElem_mem hi)
    obtain ⟨z, -, hz⟩ := List.mem_map.mp h1
    rw [← hz] at h h2
    refine ⟨z, h2, ?_⟩
    rw [C07_getBlanket_exact m.g hok.consistent _ _ hcoll _ (hrev z)] at h
    exact h.elim (fun h => Or.inr h.2) Or.inl
  · rintro ⟨z, h1, h2⟩
    obtain ⟨i, hi, he⟩ := List.getElem_of_mem ((hdesc _).mpr ⟨List.mem_map_of_mem (hok.lat_all z), h1⟩)
    refine ⟨i, hi, ?_⟩
    rw [he, C07_getBlanket_exact m.g hok.consistent _ _ hcoll _ (hrev z)]
    by_cases hr : r = rev (m.qz z)
    · exact Or.inr hr
    · exact Or.inl ⟨hr, h2.resolve_left hr⟩

omit [Fintype I] [NormedAddCommGroup E] [NormedSpace ℝ E] in
/-- **C51** (blankets). The sets of the code are sets of the model's and the approximation's variables. -/
theorem C51_rb_blankets_exist [Fintype Z] (hok : m.Ok) (s₁ : ℕ → ℕ) (s₂ s₃ : ℕ → ℕ → ℕ → ℕ) {rev : R → R} (hrev : ∀ z, rev (m.qz z) = m.pz z) :
    ∃ (D : Finset Z) (varP : List (Z ⊕ X)) (varQ : List Z), (∀ z, z ∈ D ↔ m.qz z ∈ rbDescendants m.g s₁ m.var m.qRvs) ∧
      varP.map (Sum.elim m.pz m.px) = rbUnion m.g s₂ rev (rbDescendants m.g s₁ m.var m.qRvs) m.pRvs ∧
      varQ.map m.qz = rbUnion m.g s₃ id (rbDescendants m.g s₁ m.var m.qRvs) m.qRvs := by
  classical
  have hpz : ∀ z, m.pz z ∈ m.pRvs := fun z => List.mem_append_left _ (List.mem_map_of_mem (hok.lat_all z))
  have hds : ∀ r ∈ rbDescendants m.g s₁ m.var m.qRvs, ∃ z, m.qz z = r := by
    intro r hr
    have := (((C02_getDescendants_exact m.g hok.consistent s₁ (.tensor m.var) m.qRvs).2 r).mp hr).1
    obtain ⟨z, -, h⟩ := List.mem_map.mp ((lastWith_iff_mem m.g _ hok.distinctQ _).mp this)
    exact ⟨z, h⟩
  have hmemP : ∀ r ∈ rbUnion m.g s₂ rev (rbDescendants m.g s₁ m.var m.qRvs) m.pRvs, r ∈ m.pRvs := by
    intro r hr
    obtain ⟨i, hi, h⟩ := (mem_rbUnion ..).mp hr
    obtain ⟨z, hz⟩ := hds _ (List.getElem_mem hi)
    rw [← hz, hrev] at h
    rcases h with h | h
    · rw [C07_getBlanket_exact m.g hok.consistent _ _ hok.distinctP _ (hpz z)] at h
      rcases h.2 with h | h | ⟨c, -, h⟩
      · exact h.1
      · exact h.2.1
      · exact h.1
    · exact h ▸ hpz z
  have hmemQ : ∀ r ∈ rbUnion m.g s₃ id (rbDescendants m.g s₁ m.var m.qRvs) m.qRvs, r ∈ m.qRvs := by
    intro r hr
    obtain ⟨i, hi, h⟩ := (mem_rbUnion ..).mp hr
    obtain ⟨z, hz⟩ := hds _ (List.getElem_mem hi)
    have hq : m.qz z ∈ m.qRvs := List.mem_map_of_mem (hok.lat_all z)
    rw [← hz, id] at h
    rcases h with h | h
    · rw [C07_getBlanket_exact m.g hok.consistent _ _ hok.distinctQ _ hq] at h
      rcases h.2 with h | h | ⟨c, -, h⟩
      · exact h.1
      · exact h.2.1
      · exact h.1
    · exact h ▸ hq
  have hP : rbUnion m.g s₂ rev (rbDescendants m.g s₁ m.var m.qRvs) m.pRvs ∈ Set.range (List.map (Sum.elim m.pz m.px)) := by
    rw [Set.range_list_map]
    intro r hr
    rcases List.mem_append.mp (hmemP r hr) with h | h
    · obtain ⟨z, -, rfl⟩ := List.mem_map.mp h
      exact ⟨.inl z, rfl⟩
    · obtain ⟨x, -, rfl⟩ := List.mem_map.mp h
      exact ⟨.inr x, rfl⟩
  have hQ : rbUnion m.g s₃ id (rbDescendants m.g s₁ m.var m.qRvs) m.qRvs ∈ Set.range (List.map m.qz) := by
    rw [Set.range_list_map]
    intro r hr
    obtain ⟨z, -, rfl⟩ := List.mem_map.mp (hmemQ r hr)
    exact ⟨z, rfl⟩
  obtain ⟨varP, hP⟩ := hP
  obtain ⟨varQ, hQ⟩ := hQ
  exact ⟨Finset.univ.filter fun z => m.qz z ∈ rbDescendants m.g s₁ m.var m.qRvs, varP, varQ, by simp, hP, hQ⟩

end sets

namespace BlanketExample

/-- A chain: `z₀`, `z₁` given `z₀` and `x` given `z₁`; `q(z₀)` uses the parameter, `q(z₁)` does not. `none` is the parameter, `(true, _)` the model. -/
def g : Graph (Option (Bool × Fin 3)) (Option (Bool × Fin 3)) (Bool × Fin 3) where
  op := id
  inputs := fun o => if o = some (true, 1) then [some (true, 0)] else if o = some (true, 2) then [some (true, 1)] else
    if o = some (false, 0) then [none] else []
  outputs := fun o => [o]
  consumers := fun t => if t = none then [some (false, 0)] else if t = some (true, 0) then [some (true, 1)] else
    if t = some (true, 1) then [some (true, 2)] else []
  value := some

noncomputable def m : Spec.GraphVi (Option (Bool × Fin 3)) (Option (Bool × Fin 3)) (Bool × Fin 3) (Fin 2) Unit Unit ℝ ℝ fun _ => Bool where
  g := g
  pz := fun z => (true, z.castSucc)
  px := fun _ => (true, 2)
  qz := fun z => (false, z.castSucc)
  lat := [0, 1]
  obs := [()]
  var := none
  run := fun _ a => a.sum
  enc := id
  encZ := fun _ b => if b then 1 else 0
  data := fun _ => 3
  params := fun r => if r = (true, 1) then [some (true, 0)] else if r = (true, 2) then [some (true, 1)] else if r = (false, 0) then [none] else []
  logP := fun _ a b _ => -(a.sum - if b then 1 else 0) ^ 2
  logLik := fun _ a _ => -(a.sum - 3) ^ 2
  q := fun _ a b => Real.exp (if b then a.sum else 0) / (1 + Real.exp a.sum)

noncomputable def evP (l : ℝ) (ω : Fin 2 → Bool) (t : Option (Bool × Fin 3)) : ℝ :=
  if t = none ∨ t = some (false, 0) then l else if t = some (true, 0) then (if ω 0 then 1 else 0) else if t = some (true, 1) then (if ω 1 then 1 else 0)
  else if t = some (true, 2) then 3 else 0

noncomputable def evQ (l : ℝ) (t : Option (Bool × Fin 3)) : ℝ := if t = none ∨ t = some (false, 0) then l else 0

noncomputable def v (l : ℝ) : ViProblem (Fin 2) Unit Unit (Fin 2 → Bool) where
  latents := [0, 1]
  observed := [()]
  scaleZ := fun _ _ => 1
  scaleX := fun _ _ => 1
  logP := fun z ω i => m.logP z ((m.params (m.pz z)).map (evP l ω)) (ω z) i
  logLik := fun x ω i => m.logLik x ((m.params (m.px x)).map (evP l ω)) i
  logQ := fun z ω _ => Real.log (m.q z ((m.params (m.qz z)).map (evQ l)) (ω z))

/-- The length of the longest path to a tensor. -/
def rank : Option (Bool × Fin 3) → ℕ
  | none => 0
  | some a => a.2 + 1

theorem edge_iff (s t : Option (Bool × Fin 3)) : g.Edge s t ↔ (s = some (true, 0) ∧ t = some (true, 1)) ∨ (s = some (true, 1) ∧ t = some (true, 2)) ∨
    (s = none ∧ t = some (false, 0)) := by
  revert s t
  unfold Graph.Edge
  decide

theorem reaches_var {t : Option (Bool × Fin 3)} (h : g.Reaches none t) : t = none ∨ t = some (false, 0) := by
  induction h with
  | refl => exact Or.inl rfl
  | tail _ he ih =>
    rw [edge_iff] at he
    rcases ih with rfl | rfl <;> simp_all

theorem ok : m.Ok where
  acyclic := by
    refine Subrelation.wf (r := InvImage (· < ·) rank) (fun {s t} h => ?_) (InvImage.wf rank wellFounded_lt)
    rcases (edge_iff s t).mp h with ⟨rfl, rfl⟩ | ⟨rfl, rfl⟩ | ⟨rfl, rfl⟩ <;> simp [InvImage, rank]
  consistent := ⟨by show ∀ t o, o ∈ g.consumers t ↔ t ∈ g.inputs o; decide, by show ∀ t o, t ∈ g.outputs o ↔ g.op t = o; decide⟩
  distinctP := fun a _ b _ h => Option.some.inj h
  distinctQ := fun a _ b _ h => Option.some.inj h
  pz_inj := by show Function.Injective fun z : Fin 2 => (true, z.castSucc); decide
  px_inj := fun _ _ _ => rfl
  qz_inj := by show Function.Injective fun z : Fin 2 => (false, z.castSucc); decide
  pz_ne_px := by show ∀ (z : Fin 2) (_ : Unit), (true, z.castSucc) ≠ ((true, 2) : Bool × Fin 3); decide
  lat_nodup := by show ([0, 1] : List (Fin 2)).Nodup; decide
  lat_all := by show ∀ z : Fin 2, z ∈ [0, 1]; decide
  obs_nodup := by show [()].Nodup; decide
  params_p := by
    have h : ∀ w ∈ ([(true, 0), (true, 1), (true, 2)] : List (Bool × Fin 3)), ∀ t ∈ (if w = (true, 1) then [some (true, 0)] else
        if w = (true, 2) then [some (true, 1)] else if w = (false, 0) then [none] else [] : List (Option (Bool × Fin 3))), t ∈ g.inputs (some w) := by
      decide
    exact fun w hw t ht => .edge (h w hw t ht)
  params_q := by
    have h : ∀ (z : Fin 2), ∀ t ∈ (if (false, z.castSucc) = ((true, 1) : Bool × Fin 3) then [some (true, 0)] else
        if (false, z.castSucc) = ((true, 2) : Bool × Fin 3) then [some (true, 1)] else if (false, z.castSucc) = ((false, 0) : Bool × Fin 3) then [none]
        else [] : List (Option (Bool × Fin 3))), t ∈ g.inputs (some (false, z.castSucc)) := by
      decide
    exact fun z t ht => Relation.ReflTransGen.single (h z t ht)
  unshared := by
    have h : ∀ w ∈ ([(true, 0), (true, 1), (true, 2)] : List (Bool × Fin 3)), ∀ t ∈ (if w = (true, 1) then [some (true, 0)] else
        if w = (true, 2) then [some (true, 1)] else if w = (false, 0) then [none] else [] : List (Option (Bool × Fin 3))),
        t ≠ none ∧ t ≠ some (false, 0) := by
      decide
    exact fun w hw t ht hr => (reaches_var hr).elim (h w hw t ht).1 (h w hw t ht).2

theorem describes : m.Describes v (fun l z x => m.q z ((m.params (m.qz z)).map (evQ l)) x) evP evQ where
  valueP l ω := by
    refine ⟨by simp [m, evP], fun z => ?_, fun x _ => by simp [m, g, evP], fun t hv hs => ?_⟩
    · fin_cases z <;> simp [m, g, evP]
    · rcases t with _ | ⟨b, i⟩
      · exact absurd rfl hv
      · cases b
        · fin_cases i <;> simp [m, g, evP]
        · exact absurd ⟨(true, i), by fin_cases i <;> simp [m, Spec.GraphVi.pRvs], rfl⟩ hs
  valueQ l := by
    refine ⟨by simp [m, evQ], fun t hv => ?_⟩
    rcases t with _ | ⟨b, i⟩
    · exact absurd rfl hv
    · cases b <;> fin_cases i <;> simp [m, g, evQ]
  latents _ := rfl
  observed _ := rfl
  scaleZ _ _ := rfl
  scaleX _ _ := rfl
  prior _ _ _ _ := rfl
  likelihood _ _ _ _ _ := rfl
  density _ _ _ := rfl
  approx _ _ _ := by simp [v]

/-- The hypotheses of `C51_rb_sets_exact` hold; in the chain the likelihood is left out. -/
example : ((true, 2) : Bool × Fin 3) ∉ rbUnion g (fun _ _ _ => 0) (fun r => (true, r.2)) (rbDescendants g (fun _ => 0) none [(false, 0), (false, 1)])
    [(true, 0), (true, 1), (true, 2)] := by
  intro h
  obtain ⟨z, h1, h2⟩ := (C51_rb_sets_exact (m := m) ok (fun _ => 0) (fun _ _ _ => 0) (rev := fun r => (true, r.2)) ok.distinctP
    (fun z => List.mem_append_left _ (List.mem_map_of_mem (ok.lat_all z))) (true, 2)).mp h
  have hz : z = 0 := by
    rcases reaches_var h1 with h | h
    · exact absurd h (by simp [m, g])
    · revert h; fin_cases z <;> simp [m, g]
  subst hz
  have hsample : g.IsSample m.pRvs (some (true, 1)) := ⟨(true, 1), List.mem_append_left _ (List.mem_map_of_mem (ok.lat_all 1)), rfl⟩
  have hfrom2 : ∀ {b}, ¬ Direct g.Edge (g.IsSample m.pRvs) (some (true, 2)) b := by
    intro b hd
    cases hd with
    | edge h => rw [edge_iff] at h; simp at h
    | cons h => rw [edge_iff] at h; simp at h
  rcases h2 with h | h | h | ⟨c, -, h⟩
  · simp [m] at h
  · exact hfrom2 h.2.2.2
  · have hd : Direct g.Edge (g.IsSample m.pRvs) (some (true, 0)) (some (true, 2)) := h.2.2.2
    cases hd with
    | edge h => rw [edge_iff] at h; simp at h
    | cons h hn =>
      rw [edge_iff] at h
      simp only [Option.some.injEq, Prod.mk.injEq, true_and, reduceCtorEq, false_and, or_false] at h
      rcases h with h | h
      · exact hn (h ▸ hsample)
      · exact absurd h.1 (by decide)
  · exact hfrom2 h.2.2.2

/-- The hypotheses of `C51_rb_blankets` hold. -/
example : ∃ (D : Finset (Fin 2)) (varP : List (Fin 2 ⊕ Unit)) (varQ : List (Fin 2)),
    RbOk v (fun l z x => m.q z ((m.params (m.qz z)).map (evQ l)) x) 0 D varP varQ [0, 1] [()] := by
  obtain ⟨D, varP, varQ, hD, hP, hQ⟩ := C51_rb_blankets_exist ok (fun _ => 0) (fun _ _ _ => 0) (fun _ _ _ => 0) (rev := fun r => (true, r.2)) fun _ => rfl
  refine ⟨D, varP, varQ, C51_rb_blankets ok describes _ _ _ (fun _ => rfl) hD hP hQ (fun z x => ?_) (Eventually.of_forall fun l z x => ?_)⟩
  · have hd : ∀ t, Differentiable ℝ fun l => evQ l t := by
      intro t
      unfold evQ
      by_cases h : t = none ∨ t = some (false, 0)
      · simp only [h, if_true]; exact differentiable_id
      · simp only [h, if_false]; exact differentiable_const _
    have hs : ∀ ts : List (Option (Bool × Fin 3)), Differentiable ℝ fun l => (ts.map (evQ l)).sum := by
      intro ts
      induction ts with
      | nil => simp
      | cons a ts ih => simp only [List.map_cons, List.sum_cons]; exact (hd a).add ih
    show DifferentiableAt ℝ (fun l => Real.exp (if x then ((m.params (m.qz z)).map (evQ l)).sum else 0) / (1 + Real.exp ((m.params (m.qz z)).map (evQ l)).sum)) 0
    have h1 := hs (m.params (m.qz z))
    have h2 : ∀ l, (1 + Real.exp ((m.params (m.qz z)).map (evQ l)).sum) ≠ 0 := fun l => by positivity
    cases x
    · simp only [Bool.false_eq_true, if_false]
      exact (differentiableAt_const _).div ((differentiableAt_const _).add (h1 0).exp) (h2 0)
    · simp only [if_true]
      exact (h1 0).exp.div ((differentiableAt_const _).add (h1 0).exp) (h2 0)
  · show 0 < Real.exp _ / (1 + Real.exp _)
    positivity

end BlanketExample

end Edward
