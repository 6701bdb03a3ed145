/-
Property C123: inference from a list of latent variables.
-/
import Verif.Model.ListInit
import Verif.Props.Transform
import Verif.Props.Unconstrained
import Verif.Props.MonteCarlo

namespace Edward
open Spec

/-! ### Construction -/

theorem dimsCompat_host (a b : List ℕ) : dimsCompat (a.map some) (b.map some) = true ↔ a = b := by
  induction a generalizing b with
  | nil => cases b <;> simp [dimsCompat]
  | cons x a ih => cases b <;> simp [dimsCompat, dimCompat, ih]

/-- The check of `check_latent_vars`. -/
theorem checkLatent_made (ps : List (LatentVar × MadeVar)) :
    checkLatentVars (some (ps.map fun p => (DKey.rv ⟨hostShape p.1.rv.shape, p.1.dtype⟩, DVal.rv ⟨hostShape p.2.rv.shape, p.2.dtype⟩))) = .ok () ↔
      ∀ p ∈ ps, p.2.rv.shape = p.1.rv.shape ∧ p.2.dtype = p.1.dtype := by
  unfold checkLatentVars
  dsimp only
  induction ps with
  | nil => simp [checkLatentVars.go]
  | cons p ps ih =>
    have hp : checkLatentPair (DKey.rv ⟨hostShape p.1.rv.shape, p.1.dtype⟩) (DVal.rv ⟨hostShape p.2.rv.shape, p.2.dtype⟩) = true ↔
        p.2.rv.shape = p.1.rv.shape ∧ p.2.dtype = p.1.dtype := by
      have h := dimsCompat_host p.1.rv.shape p.2.rv.shape
      show (if !dimsCompat (p.1.rv.shape.map some) (p.2.rv.shape.map some) then false else decide (p.1.dtype = p.2.dtype)) = true ↔ _
      by_cases hc : dimsCompat (p.1.rv.shape.map some) (p.2.rv.shape.map some) = true
      · rw [if_neg (by rw [hc]; simp), decide_eq_true_iff]
        exact ⟨fun e => ⟨(h.mp hc).symm, e.symm⟩, fun e => e.2.symm⟩
      · have : p.2.rv.shape ≠ p.1.rv.shape := fun e => hc (h.mpr e.symm)
        rw [if_pos (by simpa using hc)]
        simp [this]
    rw [List.map_cons, checkLatentVars.go, List.forall_mem_cons, ← ih, ← hp]
    by_cases hc : checkLatentPair (DKey.rv ⟨hostShape p.1.rv.shape, p.1.dtype⟩) (DVal.rv ⟨hostShape p.2.rv.shape, p.2.dtype⟩) = true
    · simp only [hc, if_true, true_and]
    · simp [hc]

theorem initList_ok (make : ℕ → LatentVar → Except PyErr MadeVar) (n : ℕ) (zs : List LatentVar) (ps : List (LatentVar × MadeVar)) :
    initList make n zs = .ok ps ↔ makeAll make n zs = .ok ps ∧ ∀ p ∈ ps, p.2.rv.shape = p.1.rv.shape ∧ p.2.dtype = p.1.dtype := by
  unfold initList
  rcases hm : makeAll make n zs with e | qs
  · simp
  · have h := checkLatent_made qs
    dsimp only
    rcases hc : checkLatentVars (some (qs.map fun p => (DKey.rv ⟨hostShape p.1.rv.shape, p.1.dtype⟩, DVal.rv ⟨hostShape p.2.rv.shape, p.2.dtype⟩))) with e | u
    · rw [hc] at h
      simp only [reduceCtorEq, false_iff] at h
      rw [hc]
      simp only [reduceCtorEq, Except.ok.injEq, false_iff]
      rintro ⟨rfl, h2⟩
      exact h h2
    · rw [hc] at h
      have := h.mp rfl
      rw [hc]
      simp only [Except.ok.injEq]
      exact ⟨fun e => ⟨e, e ▸ this⟩, fun e => e.1⟩

/-- What each constructor makes of the variables of the list. -/
theorem makeAll_ok (make : ℕ → LatentVar → Except PyErr MadeVar) (n : ℕ) (zs : List LatentVar) (ps : List (LatentVar × MadeVar)) :
    makeAll make n zs = .ok ps ↔ ps.map (·.1) = zs ∧ ∀ i z q, ps[i]? = some (z, q) → make (n + i) z = .ok q := by
  induction zs generalizing n ps with
  | nil =>
    simp only [makeAll, Except.ok.injEq, List.map_eq_nil_iff]
    constructor
    · rintro rfl; simp
    · rintro ⟨rfl, -⟩; rfl
  | cons z zs ih =>
    rw [makeAll]
    rcases hm : make n z with e | q
    · simp only [reduceCtorEq, false_iff]
      rintro ⟨h1, h2⟩
      rcases ps with _ | ⟨⟨z', q'⟩, ps⟩
      · simp at h1
      · simp only [List.map_cons, List.cons.injEq] at h1
        obtain ⟨rfl, -⟩ := h1
        have := h2 0 z' q' rfl
        rw [Nat.add_zero, hm] at this
        simp at this
    · dsimp only
      constructor
      · intro h
        rcases hr : makeAll make (n + 1) zs with e | qs
        · simp [hr] at h
        · simp only [hr, Except.ok.injEq] at h
          subst h
          obtain ⟨h1, h2⟩ := (ih (n + 1) qs).mp hr
          refine ⟨by simp [h1], fun i z' q' hi => ?_⟩
          rcases i with _ | i
          · simp only [List.getElem?_cons_zero, Option.some.injEq, Prod.mk.injEq] at hi
            obtain ⟨rfl, rfl⟩ := hi
            exact hm
          · rw [← h2 i z' q' (by simpa using hi)]
            congr 1
            omega
      · rintro ⟨h1, h2⟩
        rcases ps with _ | ⟨⟨z', q'⟩, ps⟩
        · simp at h1
        · simp only [List.map_cons, List.cons.injEq] at h1
          obtain ⟨rfl, h1⟩ := h1
          have hq := h2 0 z' q' rfl
          rw [Nat.add_zero, hm, Except.ok.injEq] at hq
          subst hq
          have hr : makeAll make (n + 1) zs = .ok ps := (ih (n + 1) ps).mpr ⟨h1, fun i z'' q'' hi => by
            rw [← h2 (i + 1) z'' q'' (by simpa using hi)]
            congr 1
            omega⟩
          rw [hr]

/-- The constructor returns exactly when each variable has an approximation of its shape and
dtype. -/
theorem initList_ok_iff (make : ℕ → LatentVar → Except PyErr MadeVar) (n : ℕ) (zs : List LatentVar) :
    (∃ ps, initList make n zs = .ok ps) ↔
      ∀ i z, zs[i]? = some z → ∃ q, make (n + i) z = .ok q ∧ q.rv.shape = z.rv.shape ∧ q.dtype = z.dtype := by
  constructor
  · rintro ⟨ps, h⟩ i z hi
    obtain ⟨h1, h2⟩ := (initList_ok make n zs ps).mp h
    obtain ⟨h3, h4⟩ := (makeAll_ok make n zs ps).mp h1
    rw [← h3, List.getElem?_map, Option.map_eq_some_iff] at hi
    obtain ⟨⟨z', q⟩, hp, rfl⟩ := hi
    exact ⟨q, h4 i z' q hp, h2 _ (List.mem_of_getElem? hp)⟩
  · intro h
    have : ∃ ps, makeAll make n zs = .ok ps := by
      have h' : ∀ i z, zs[i]? = some z → ∃ q, make (n + i) z = .ok q := fun i z hi => by
        obtain ⟨q, hq, -⟩ := h i z hi
        exact ⟨q, hq⟩
      clear h
      induction zs generalizing n with
      | nil => exact ⟨[], rfl⟩
      | cons z zs ih =>
        obtain ⟨q, hq⟩ := h' 0 z rfl
        obtain ⟨ps, hps⟩ := ih (n + 1) fun i z' hi => by
          obtain ⟨q, hq⟩ := h' (i + 1) z' (by simpa using hi)
          exact ⟨q, by rw [← hq]; congr 1; omega⟩
        rw [Nat.add_zero] at hq
        exact ⟨(z, q) :: ps, by rw [makeAll, hq]; simp only [hps]⟩
    obtain ⟨ps, hps⟩ := this
    refine ⟨ps, (initList_ok make n zs ps).mpr ⟨hps, ?_⟩⟩
    obtain ⟨h3, h4⟩ := (makeAll_ok make n zs ps).mp hps
    intro p hp
    obtain ⟨i, hi⟩ := List.mem_iff_getElem?.mp hp
    obtain ⟨q, hq, hs⟩ := h i p.1 (by rw [← h3, List.getElem?_map, hi]; rfl)
    have := h4 i p.1 p.2 hi
    rw [hq, Except.ok.injEq] at this
    rw [← this]
    exact hs

/-- A variable has as many axes as its sample shape, or more. -/
def LatentVar.WellFormed (z : LatentVar) : Prop := z.sampleRank ≤ z.rv.shape.length

theorem batchEvent_eq {z : LatentVar} (h : z.WellFormed) : z.batchEvent = z.rv.shape ↔ z.sampleRank = 0 := by
  unfold LatentVar.batchEvent
  constructor
  · intro e
    have := congrArg List.length e
    rw [List.length_drop] at this
    unfold LatentVar.WellFormed at h
    omega
  · intro e
    rw [e, List.drop_zero]

/-! ### KLqp and KLpq -/

theorem klMake_ok (n : ℕ) (z : LatentVar) (q : MadeVar) :
    klMake n z = .ok q ↔ (∃ s, z.rv.support = some s ∧ Continuous' s) ∧ q = ⟨.base n z.batchEvent (some .real), .float32⟩ := by
  unfold klMake
  rcases z.rv.support with _ | s
  · simp
  · cases s <;> simp [Continuous', eq_comm]

/-- C123: `KLqp` and `KLpq` accept a list exactly when all its variables are continuous, have
no sample shape and are 32 bit floats. -/
theorem C123_kl_iff (n : ℕ) (zs : List LatentVar) (hwf : ∀ z ∈ zs, z.WellFormed) :
    (∃ ps, initList klMake n zs = .ok ps) ↔
      ∀ z ∈ zs, (∃ s, z.rv.support = some s ∧ Continuous' s) ∧ z.sampleRank = 0 ∧ z.dtype = .float32 := by
  rw [initList_ok_iff]
  constructor
  · intro h z hz
    obtain ⟨i, hi⟩ := List.mem_iff_getElem?.mp hz
    obtain ⟨q, hq, hs, hd⟩ := h i z hi
    obtain ⟨hc, rfl⟩ := (klMake_ok _ _ _).mp hq
    exact ⟨hc, (batchEvent_eq (hwf z hz)).mp hs, hd.symm⟩
  · intro h i z hi
    have hz := List.mem_of_getElem? hi
    obtain ⟨hc, hr, hd⟩ := h z hz
    exact ⟨_, (klMake_ok _ _ _).mpr ⟨hc, rfl⟩, (batchEvent_eq (hwf z hz)).mpr hr, hd.symm⟩

theorem autoStep_kl (st : AutoState) (z qz : RVar) (s : Support) (hs : z.support = some s) (hc : Continuous' s) (hq : qz.support = some .real) :
    (autoStep st (z, qz)).2 = none := by
  unfold autoStep
  by_cases hn : needsTransform z qz
  · simp only [hn, if_true]
    cases s <;> simp only [Continuous'] at hc <;> simp [transform, hs, hq]
  · simp [hn]

theorem autoTransform_kl (n : ℕ) (ps : List (RVar × RVar)) (h : ∀ p ∈ ps, (∃ s, p.1.support = some s ∧ Continuous' s) ∧ p.2.support = some .real) :
    ∃ st, autoTransform n ps = (st, none) := by
  unfold autoTransform
  generalize (⟨[], [], [], n⟩ : AutoState) = st
  induction ps generalizing st with
  | nil => exact ⟨st, rfl⟩
  | cons p ps ih =>
    obtain ⟨⟨s, hs, hc⟩, hq⟩ := h p List.mem_cons_self
    have h0 := autoStep_kl st p.1 p.2 s hs hc hq
    rcases e : autoStep st p with ⟨st', o⟩
    rw [Prod.mk.eta] at h0
    rw [e] at h0
    dsimp only at h0
    subst h0
    rw [autoLoop, e]
    exact ih (fun p' hp' => h p' (List.mem_cons_of_mem _ hp')) st'

/-- C123: after `initialize`, the approximations made by `KLqp` and `KLpq` cover exactly the
supports, and have the shapes of their variables unless these are on the simplex. -/
theorem C123_kl_covers (U) (n k : ℕ) (zs : List LatentVar) (ps : List (LatentVar × MadeVar)) (h : initList klMake n zs = .ok ps) :
    ∃ st, autoTransform k (ps.map fun p => (p.1.rv, p.2.rv)) = (st, none) ∧
      ∀ (i : ℕ) (z : LatentVar) (s : Support), zs[i]? = some z → z.rv.support = some s → ∃ q, st.latentVars[i]? = some (z.rv, q) ∧
        Set.range (fun ω => draw U ω q) = innerPoints s ∧ (s ≠ .simplex → q.shape = z.rv.shape) := by
  obtain ⟨h1, h2⟩ := (initList_ok _ n zs ps).mp h
  obtain ⟨h3, h4⟩ := (makeAll_ok _ n zs ps).mp h1
  have hps : ∀ p ∈ ps.map (fun p => (p.1.rv, p.2.rv)), (∃ s, p.1.support = some s ∧ Continuous' s) ∧ p.2.support = some .real := by
    intro p hp
    obtain ⟨⟨z, q⟩, hm, rfl⟩ := List.mem_map.mp hp
    obtain ⟨i, hi⟩ := List.mem_iff_getElem?.mp hm
    obtain ⟨hc, rfl⟩ := (klMake_ok _ _ _).mp (h4 i z q hi)
    exact ⟨hc, rfl⟩
  obtain ⟨st, hst⟩ := autoTransform_kl k _ hps
  refine ⟨st, hst, fun i z s hi hs => ?_⟩
  rw [← h3, List.getElem?_map, Option.map_eq_some_iff] at hi
  obtain ⟨⟨z', q⟩, hp, rfl⟩ := hi
  obtain ⟨⟨s', hs', hc⟩, hq⟩ := (klMake_ok _ _ _).mp (h4 i z' q hp)
  dsimp only at hs
  rw [hs, Option.some.injEq] at hs'
  subst hs'
  have hsh := (h2 _ (List.mem_of_getElem? hp)).1
  dsimp only at hsh
  have hpi : (ps.map fun p => (p.1.rv, p.2.rv))[i]? = some (z'.rv, q.rv) := by rw [List.getElem?_map, hp]; rfl
  have hqs : q.rv.support = some .real := by rw [hq]; rfl
  have hrange : Set.range (fun ω => draw U ω q.rv) = Set.univ := by
    rw [Set.range_eq_univ, hq]
    exact fun v => ⟨fun _ => v, rfl⟩
  have hshape : ∀ q', st.latentVars[i]? = some (z'.rv, q') → s ≠ .simplex → q'.shape = z'.rv.shape := by
    intro q' hq' hne
    obtain ⟨q'', _, _, h5, -, h6, -⟩ := C82_shape_partial k _ st hst i z'.rv q.rv hpi hsh.symm (by rw [hs]; simpa using hne) (by rw [hqs]; simp)
    rw [hq', Option.some.injEq, Prod.mk.injEq] at h5
    rw [h5.2, h6]
  obtain ⟨rs, hrs, h5, -⟩ := autoTransform_added k _ st hst
  obtain ⟨r, hr, ha⟩ := forall₂_get hrs i _ hpi
  by_cases hn : needsTransform z'.rv q.rv = true
  · simp only [Added, hn, if_true] at ha
    obtain ⟨a, c, zU, qzU, htz, htq, hcase⟩ := ha
    have hqU : qzU = q.rv := by
      rcases htq with ⟨h6, -⟩ | ⟨-, h6⟩
      · exact h6
      · rw [C48_real c q.rv .real hqs trivial, Except.ok.injEq] at h6
        exact h6.symm
    subst hqU
    rcases hcase with ⟨hz, rfl⟩ | ⟨m, b, hne, hb, rfl⟩
    · have hi' : st.latentVars[i]? = some (z'.rv, q.rv) := by rw [h5, List.getElem?_map, hr]; rfl
      refine ⟨q.rv, hi', ?_, hshape _ hi'⟩
      rw [hrange]
      rcases transform_ok _ _ _ htz with ⟨-, t, ht, hu⟩ | ⟨hne, -⟩
      · rw [hs, Option.some.injEq] at ht
        subst ht
        cases s <;> simp_all [Unconstrained, innerPoints]
      · exact absurd hz hne
    · have hi' : st.latentVars[i]? = some (z'.rv, .transformed m q.rv (.invert b) none) := by rw [h5, List.getElem?_map, hr]; rfl
      refine ⟨_, hi', ?_, hshape _ hi'⟩
      have hnu : ¬ Unconstrained s := by
        intro hu
        rw [C48_real a z'.rv s hs hu, Except.ok.injEq] at htz
        exact hne htz.symm
      obtain ⟨y, b', s'', hy, -, -, hb', -, hbij, hinv⟩ := C48_bijection U a z'.rv s hs hc hnu
      rw [htz, Except.ok.injEq] at hy
      subst hy
      rw [hb, Option.some.injEq] at hb'
      subst hb'
      ext v
      constructor
      · rintro ⟨ω, rfl⟩
        obtain ⟨w, hw, he⟩ := hbij.surjOn (Set.mem_univ (draw U ω q.rv))
        show b.inverse U (draw U ω q.rv) ∈ _
        rw [← he, hinv.1 hw]
        exact hw
      · intro hv
        have : b.forward U v ∈ Set.range (fun ω => draw U ω q.rv) := by rw [hrange]; exact Set.mem_univ _
        obtain ⟨ω, hω⟩ := this
        refine ⟨ω, ?_⟩
        show b.inverse U (draw U ω q.rv) = v
        dsimp only at hω
        rw [hω]
        exact hinv.1 hv
  · have hn' : needsTransform z'.rv q.rv = false := by simpa using hn
    have hr' : r = ((z'.rv, q.rv), (z'.rv, q.rv), none) := by simpa [Added, hn'] using ha
    have hi' : st.latentVars[i]? = some (z'.rv, q.rv) := by rw [h5, List.getElem?_map, hr, hr']; rfl
    refine ⟨q.rv, hi', ?_, hshape _ hi'⟩
    rw [hrange]
    have : s = .real := by
      unfold needsTransform at hn'
      rw [hs, hqs] at hn'
      simpa using hn'
    rw [this]
    rfl

/-- A list with a scalar in `[0,1]`, a vector on the reals and a matrix of positive numbers. -/
example (U) : ∃ ps st, initList klMake 3 [⟨.base 0 [] (some .unit), 0, .float32⟩, ⟨.base 1 [2] (some .real), 0, .float32⟩,
      ⟨.base 2 [2, 2] (some .nonnegative), 0, .float32⟩] = .ok ps ∧
    autoTransform 6 (ps.map fun p => (p.1.rv, p.2.rv)) = (st, none) ∧
    ∃ q, st.latentVars[2]? = some (.base 2 [2, 2] (some .nonnegative), q) ∧ Set.range (fun ω => draw U ω q) = {x | ∀ a ∈ x, 0 < a} ∧ q.shape = [2, 2] := by
  obtain ⟨ps, h⟩ := (C123_kl_iff 3 [⟨.base 0 [] (some .unit), 0, .float32⟩, ⟨.base 1 [2] (some .real), 0, .float32⟩,
      ⟨.base 2 [2, 2] (some .nonnegative), 0, .float32⟩] (by simp [LatentVar.WellFormed])).mpr (by simp [RVar.support, Continuous'])
  obtain ⟨st, h1, h2⟩ := C123_kl_covers U 3 6 _ ps h
  obtain ⟨q, h3, h4, h5⟩ := h2 2 _ _ rfl rfl
  exact ⟨ps, st, h, h1, q, h3, h4, h5 (by simp)⟩

/-- C123 fails for `KLqp` and `KLpq`: a variable with a sample shape, and one with another dtype
than the approximation's, raise TypeError. -/
theorem C123_kl_fails (n id : ℕ) (shape : List ℕ) (r : ℕ) (hr : r ≤ shape.length) (dt : DType) (s : Support) (hc : Continuous' s) (h : 0 < r ∨ dt ≠ .float32) :
    initList klMake n [⟨.base id shape (some s), r, dt⟩] = .error .typeError := by
  have hmk : makeAll klMake n [⟨.base id shape (some s), r, dt⟩] = .ok [(⟨.base id shape (some s), r, dt⟩, ⟨.base n (shape.drop r) (some .real), .float32⟩)] := by
    have := (klMake_ok n ⟨.base id shape (some s), r, dt⟩ _).mpr ⟨⟨s, rfl, hc⟩, rfl⟩
    simp only [makeAll, this]
    rfl
  have hno : ¬ ∃ ps, initList klMake n [⟨.base id shape (some s), r, dt⟩] = .ok ps := by
    rw [C123_kl_iff n _ (by simpa [LatentVar.WellFormed, RVar.shape] using hr)]
    intro hall
    obtain ⟨-, h1, h2⟩ := hall _ (List.mem_singleton.mpr rfl)
    rcases h with h | h
    · exact absurd h1 (by simpa using h.ne')
    · exact h h2
  unfold initList at hno ⊢
  rw [hmk] at hno ⊢
  dsimp only at hno ⊢
  split at hno
  · rfl
  · exact absurd ⟨_, rfl⟩ hno

/-! ### MonteCarlo -/

/-- C123: the Monte Carlo algorithms accept a list exactly when no variable has a sample
shape; approximations then have the shapes and dtypes of their variables. -/
theorem C123_monte_carlo_iff (n : ℕ) (zs : List LatentVar) (hwf : ∀ z ∈ zs, z.WellFormed) :
    (∃ ps, initList monteCarloMake n zs = .ok ps ∧ ∀ p ∈ ps, p.2.rv.shape = p.1.rv.shape ∧ p.2.dtype = p.1.dtype) ↔
      ∀ z ∈ zs, z.sampleRank = 0 := by
  have e : (∃ ps, initList monteCarloMake n zs = .ok ps ∧ ∀ p ∈ ps, p.2.rv.shape = p.1.rv.shape ∧ p.2.dtype = p.1.dtype) ↔
      ∃ ps, initList monteCarloMake n zs = .ok ps :=
    ⟨fun ⟨ps, h, _⟩ => ⟨ps, h⟩, fun ⟨ps, h⟩ => ⟨ps, h, ((initList_ok _ n zs ps).mp h).2⟩⟩
  rw [e, initList_ok_iff]
  constructor
  · intro h z hz
    obtain ⟨i, hi⟩ := List.mem_iff_getElem?.mp hz
    obtain ⟨q, hq, hs, -⟩ := h i z hi
    unfold monteCarloMake at hq
    rw [Except.ok.injEq] at hq
    subst hq
    exact (batchEvent_eq (hwf z hz)).mp hs
  · intro h i z hi
    have hz := List.mem_of_getElem? hi
    exact ⟨_, rfl, (batchEvent_eq (hwf z hz)).mpr (h z hz), rfl⟩

example : ∃ ps, initList monteCarloMake 2 [⟨.base 0 [3] (some .categorical), 0, .int32⟩, ⟨.base 1 [] none, 0, .float64⟩] = .ok ps := by
  obtain ⟨ps, h, -⟩ := (C123_monte_carlo_iff 2 [⟨.base 0 [3] (some .categorical), 0, .int32⟩, ⟨.base 1 [] none, 0, .float64⟩]
    (by simp [LatentVar.WellFormed])).mpr (by simp)
  exact ⟨ps, h⟩

/-- C123: a Monte Carlo run on a list performs 10000 updates, the chain starting at zero, and row
`i` of every approximation is the chain's state after step `i + 1`. -/
theorem C123_monte_carlo_run {Z V H W : Type} [Zero V] [Fintype Z] [DecidableEq Z] [Nonempty Z] (K : Kernel Z V H W) (h0 : H) (ws : ℕ → W) (late : ℕ → Bool) :
    nIter (fun _ : Z => (monteCarloRows : List V)) = 10000 ∧
    ∃ s infos, mcRun K ((List.range 10000).map fun i => (ws i, late i)) (mcInit (fun _ : Z => (monteCarloRows : List V)) h0) = some (s, infos) ∧
      ∀ z, (s.params z).length = 10000 ∧ ∀ i, i < 10000 → (s.params z)[i]? = some ((chain K (fun _ => 0) h0 ws (i + 1)).1 z) := by
  have hlen : (monteCarloRows : List V).length = 10000 := List.length_replicate
  have hn : nIter (fun _ : Z => (monteCarloRows : List V)) = 10000 := by
    unfold nIter
    simp only [hlen]
    exact Finset.inf'_const _ _
  refine ⟨hn, ?_⟩
  have hrow : ∀ _ : Z, (monteCarloRows : List V)[0]? = some 0 := fun _ => by
    unfold monteCarloRows
    rw [List.getElem?_replicate_of_lt (by omega)]
  obtain ⟨s, infos, h1, h2, h3, -⟩ := C30_bookkeeping K (fun _ : Z => (monteCarloRows : List V)) h0 (fun _ => 0) hrow ws late 10000 hn.ge
  exact ⟨s, infos, h1, fun z => ⟨by rw [h2, hlen], fun i hi => h3 z i hi⟩⟩

/-- A chain that adds the draw in every step, with two variables. -/
example (ws : ℕ → ℤ) (late : ℕ → Bool) := C123_monte_carlo_run (Z := Bool) (V := ℤ) (fun _ x (_ : Unit) (w : ℤ) => (fun z => x z + w, (), true)) () ws late

/-! ### Laplace -/

theorem laplaceMake_ok (mvn : PyErr) (n : ℕ) (z : LatentVar) (q : MadeVar) (hz : z.rv.bijector = none) (hwf : z.WellFormed) :
    (laplaceMake mvn n z = .ok q ∧ q.rv.shape = z.rv.shape ∧ q.dtype = z.dtype) ↔
      (z.rv.support = none ∨ ∃ s, z.rv.support = some s ∧ Continuous' s ∧ s ≠ .simplex) ∧ z.sampleRank = 0 ∧ z.rv.shape ≠ [] ∧ z.dtype = .float32 ∧
        q = ⟨.base n z.rv.shape (some .multivariateReal), .float32⟩ := by
  have hb := batchEvent_eq hwf
  have key : laplaceApprox mvn n z.batchEvent z.batchEvent = .ok q ∧ q.rv.shape = z.rv.shape ∧ q.dtype = z.dtype ↔
      z.sampleRank = 0 ∧ z.rv.shape ≠ [] ∧ z.dtype = .float32 ∧ q = ⟨.base n z.rv.shape (some .multivariateReal), .float32⟩ := by
    unfold laplaceApprox
    rcases hl : z.batchEvent.getLast? with _ | d
    · simp only [reduceCtorEq, false_and, false_iff]
      rintro ⟨h1, h2, -⟩
      rw [hb.mpr h1, List.getLast?_eq_none_iff] at hl
      exact h2 hl
    · simp only [if_true, Except.ok.injEq]
      have hne : z.batchEvent ≠ [] := by
        intro e
        rw [e] at hl
        simp at hl
      constructor
      · rintro ⟨rfl, h1, h2⟩
        have h1' : z.batchEvent = z.rv.shape := h1
        exact ⟨hb.mp h1', h1' ▸ hne, h2.symm, by rw [h1']⟩
      · rintro ⟨h1, h2, h3, rfl⟩
        have h1' := hb.mpr h1
        exact ⟨by rw [h1'], rfl, h3.symm⟩
  have step : ∀ s, z.rv.support = some s → Continuous' s → s ≠ .simplex → laplaceLoc n z = .ok z.batchEvent := by
    intro s hs hc hne
    unfold laplaceLoc
    cases s <;> simp only [Continuous'] at hc <;> first
      | exact absurd rfl hne
      | (simp [transform, hs, hz]; done)
      | simp [transform, hs, RVar.bijector, Bij.inverseShape, Bij.forwardShape]
  have bad : ∀ s, z.rv.support = some s → ¬ (Continuous' s ∧ s ≠ .simplex) → laplaceMake mvn n z ≠ .ok q := by
    intro s hs hno
    unfold laplaceMake laplaceLoc laplaceApprox
    cases s
    case simplex =>
      rcases hl : z.batchEvent.getLast? with _ | d <;>
        simp [transform, hs, RVar.bijector, Bij.inverseShape, Bij.forwardShape, hl]
    all_goals first | (exfalso; exact hno ⟨trivial, by simp⟩) | simp [transform, hs]
  rcases hs : z.rv.support with _ | s
  · have h0 : laplaceLoc n z = .ok z.batchEvent := by unfold laplaceLoc; rw [hs]
    unfold laplaceMake
    rw [h0]
    simpa using key
  · by_cases hc : Continuous' s ∧ s ≠ .simplex
    · unfold laplaceMake
      rw [step s hs hc.1 hc.2]
      simpa [hc.1, hc.2] using key
    · constructor
      · rintro ⟨h1, -⟩
        exact absurd h1 (bad s hs hc)
      · rintro ⟨h1 | ⟨s', h1, h2⟩, -⟩
        · simp at h1
        · rw [Option.some.injEq] at h1
          exact absurd (h1 ▸ h2) hc

/-- C123: `Laplace` accepts a list exactly when all its variables have at least one axis, no
sample shape, 32 bit floats, and a continuous support other than the simplex (or none). -/
theorem C123_laplace_iff (mvn : PyErr) (n : ℕ) (zs : List LatentVar) (hwf : ∀ z ∈ zs, z.WellFormed) (hb : ∀ z ∈ zs, z.rv.bijector = none) :
    (∃ ps, initList (laplaceMake mvn) n zs = .ok ps) ↔
      ∀ z ∈ zs, (z.rv.support = none ∨ ∃ s, z.rv.support = some s ∧ Continuous' s ∧ s ≠ .simplex) ∧
        z.sampleRank = 0 ∧ z.rv.shape ≠ [] ∧ z.dtype = .float32 := by
  rw [initList_ok_iff]
  constructor
  · intro h z hz
    obtain ⟨i, hi⟩ := List.mem_iff_getElem?.mp hz
    obtain ⟨q, hq⟩ := h i z hi
    obtain ⟨h1, h2, h3, h4, -⟩ := (laplaceMake_ok mvn _ z q (hb z hz) (hwf z hz)).mp hq
    exact ⟨h1, h2, h3, h4⟩
  · intro h i z hi
    have hz := List.mem_of_getElem? hi
    obtain ⟨h1, h2, h3, h4⟩ := h z hz
    exact ⟨_, (laplaceMake_ok mvn _ z _ (hb z hz) (hwf z hz)).mpr ⟨h1, h2, h3, h4, rfl⟩⟩

/-- C123 fails for `Laplace` with a scalar variable, whatever its support: IndexError. -/
theorem C123_laplace_scalar_fails (mvn : PyErr) (n id : ℕ) (dt : DType) (s : Support) (hc : Continuous' s) :
    initList (laplaceMake mvn) n [⟨.base id [] (some s), 0, dt⟩] = .error .indexError := by
  cases s <;> simp only [Continuous'] at hc <;>
    simp [initList, makeAll, laplaceMake, laplaceLoc, laplaceApprox, transform, RVar.support, RVar.bijector, Bij.inverseShape, Bij.forwardShape, LatentVar.batchEvent, RVar.shape]

example : ∃ ps, initList (laplaceMake .valueError) 1 [⟨.base 0 [3] (some .nonnegative), 0, .float32⟩] = .ok ps :=
  (C123_laplace_iff .valueError 1 _ (by simp [LatentVar.WellFormed]) (by simp [RVar.bijector])).mpr
    (by simp [RVar.support, RVar.shape, Continuous'])

end Edward
