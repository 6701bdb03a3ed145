/-
C86: the samples stored by SGLD and SGHMC.
-/
import Verif.Model.StochasticGradient
import Verif.Props.Unconstrained

namespace Edward

open Spec

abbrev UserBij := ℕ → (List ℝ → List ℝ) × (List ℝ → List ℝ)

/-- Sample `t` of the approximation of latent variable `i`, as the user reads it from `latent_vars`. -/
noncomputable def sampleOf (U : UserBij) (latentVars : List (RVar × RVar)) (raw : List (List (List ℝ))) (i t : ℕ) :
    Option (List ℝ) :=
  ((paramsOf U latentVars raw)[i]?).bind (·[t]?)

/-- What is stored: `qz.params` of the new sample, not the new sample. -/
theorem stored_sample (U : UserBij) (latentVars : List (RVar × RVar)) (move : List (List ℝ) → List (List ℝ)) (t : ℕ)
    (raw : List (List (List ℝ))) (i : ℕ) (p : RVar × RVar) (rows : List (List ℝ)) (s : List ℝ)
    (hp : latentVars[i]? = some p) (hr : raw[i]? = some rows) (ht : t < rows.length)
    (hs : (move (oldSample U latentVars t raw))[i]? = some s) :
    sampleOf U latentVars (storeUpdate U latentVars move t raw) i t = some (paramsRow U p.2 s) := by
  simp [sampleOf, paramsOf, storeUpdate, scatterRows, List.getElem?_zipWith, hp, hr, hs, ht]

/-- Other samples are kept. -/
theorem stored_other (U : UserBij) (latentVars : List (RVar × RVar)) (move : List (List ℝ) → List (List ℝ)) (t : ℕ)
    (raw : List (List (List ℝ))) (i k : ℕ) (p : RVar × RVar) (rows : List (List ℝ)) (s : List ℝ)
    (hp : latentVars[i]? = some p) (hr : raw[i]? = some rows) (hk : k ≠ t)
    (hs : (move (oldSample U latentVars t raw))[i]? = some s) :
    sampleOf U latentVars (storeUpdate U latentVars move t raw) i k = sampleOf U latentVars raw i k := by
  simp [sampleOf, paramsOf, storeUpdate, scatterRows, List.getElem?_zipWith, hp, hr, hs, List.getElem?_set_ne hk.symm]

/-- The state of a sampler with latent variables `ps`: one list of rows for each, and `old` are the samples the
update starts from, at `max (t - 1) 0`; row `t` exists. -/
structure ChainAt (U : UserBij) (ps latentVars : List (RVar × RVar)) (raw : List (List (List ℝ))) (t : ℕ)
    (old : List (List ℝ)) : Prop where
  rows : raw.length = ps.length
  old_length : old.length = ps.length
  old_eq : ∀ i < ps.length, sampleOf U latentVars raw i (t - 1) = old[i]?
  room : ∀ r ∈ raw, t < r.length

theorem ChainAt.oldSample_eq {U : UserBij} {ps latentVars : List (RVar × RVar)} {raw : List (List (List ℝ))} {t : ℕ}
    {old : List (List ℝ)} (h : ChainAt U ps latentVars raw t old) (hl : latentVars.length = ps.length) :
    oldSample U latentVars t raw = old := by
  have hlen : (paramsOf U latentVars raw).length = ps.length := by simp [paramsOf, hl, h.rows]
  refine List.ext_getElem? fun i => ?_
  by_cases hi : i < ps.length
  · have := h.old_eq i hi
    have hi' : i < (paramsOf U latentVars raw).length := by omega
    have ho : i < old.length := by rw [h.old_length]; exact hi
    rw [sampleOf, List.getElem?_eq_getElem hi', Option.bind_some, List.getElem?_eq_getElem ho] at this
    simp [oldSample, List.getElem?_eq_getElem hi', List.getElem?_eq_getElem ho, List.getD_eq_getElem?_getD, this]
  · rw [List.getElem?_eq_none (by simp [oldSample]; omega), List.getElem?_eq_none (by rw [h.old_length]; omega)]

/-- C86, what holds: if the support of every latent variable is unconstrained, an update makes sample `t` of each
variable the result of the step from the samples at `max (t - 1) 0`, and leaves all other samples as they are. This
is for any step, in particular `sgldMove` and `sghmcMove`. -/
theorem C86_stored_partial (U : UserBij) (n : ℕ) (ps : List (RVar × RVar)) (st : AutoState)
    (h : autoTransform n ps = (st, none))
    (hq : ∀ p ∈ ps, ∃ id shape, p.2 = .base id shape (some .points))
    (hz : ∀ p ∈ ps, ∃ s, p.1.support = some s ∧ Unconstrained s)
    (move : List (List ℝ) → List (List ℝ)) (t : ℕ) (raw : List (List (List ℝ))) (old : List (List ℝ))
    (hc : ChainAt U ps st.latentVars raw t old) (hm : (move old).length = ps.length) (i : ℕ) (hi : i < ps.length) :
    sampleOf U st.latentVars (storeUpdate U st.latentVars move t raw) i t = (move old)[i]? ∧
    ∀ k, k ≠ t → sampleOf U st.latentVars (storeUpdate U st.latentVars move t raw) i k =
      sampleOf U st.latentVars raw i k := by
  obtain ⟨rs, hrs, h1, -, -⟩ := autoTransform_added n ps st h
  have hl : st.latentVars.length = ps.length := by rw [h1, List.length_map, hrs.length_eq]
  obtain ⟨r, hr, ha⟩ := forall₂_get hrs i ps[i] (List.getElem?_eq_getElem hi)
  obtain ⟨id, sh, hqi⟩ := hq _ (List.getElem_mem hi)
  obtain ⟨s, hs, hu⟩ := hz _ (List.getElem_mem hi)
  have hlv : st.latentVars[i]? = some (ps[i].1, .base id sh (some .points)) := by
    rw [h1, List.getElem?_map, hr]
    simp only [Added] at ha
    split_ifs at ha
    · obtain ⟨a, c, zU, qzU, htz, htq, hc⟩ := ha
      have e1 : zU = ps[i].1 := by
        have := C48_real a ps[i].1 s hs hu
        rw [this] at htz
        exact (Except.ok.inj htz).symm
      have e2 : qzU = .base id sh (some .points) := by
        rcases htq with ⟨e, -⟩ | ⟨e, -⟩
        · rw [e, hqi]
        · exact absurd (by rw [hqi]; rfl) e
      rcases hc with ⟨-, e⟩ | ⟨k, b, hne, -⟩
      · rw [e, e2]; rfl
      · exact absurd e1 hne
    · rw [ha]
      simp [← hqi]
  have hri : i < raw.length := by rw [hc.rows]; exact hi
  have hmi : i < (move old).length := by omega
  have hs' : (move (oldSample U st.latentVars t raw))[i]? = some (move old)[i] := by
    rw [hc.oldSample_eq hl, List.getElem?_eq_getElem hmi]
  refine ⟨?_, fun k hk => stored_other U _ move t raw i k _ _ _ hlv (List.getElem?_eq_getElem hri) hk hs'⟩
  rw [stored_sample U _ move t raw i _ _ _ hlv (List.getElem?_eq_getElem hri) (hc.room _ (List.getElem_mem hri)) hs',
    List.getElem?_eq_getElem hmi]
  rfl

/-- A Normal latent variable with an Empirical of two samples, after the first SGLD update: sample 1 is the Langevin
step from sample 0. -/
example (U : UserBij) (G : List (List ℝ) → List (List ℝ)) (a b g e : ℝ) (hG : G [[a]] = [[g]]) :
    ∃ st, autoTransform 7 [(.base 0 [] (some .real), .base 1 [] (some .points))] = (st, none) ∧
      sampleOf U st.latentVars (storeUpdate U st.latentVars (sgldMove 0.1 1 G [[e]]) 1 [[[a], [b]]]) 0 1 =
        some [sgldSample 0.1 1 a g e] := by
  have e1 : autoTransform 7 [(.base 0 [] (some .real), .base 1 [] (some .points))] =
      (⟨[(.base 0 [] (some .real), .base 1 [] (some .points))], [(.base 0 [] (some .real), .base 1 [] (some .points))],
        [(.base 0 [] (some .real), .base 0 [] (some .real))], 10⟩, none) := by
    simp [autoTransform, autoLoop, autoStep, needsTransform, transform, RVar.support]
  refine ⟨_, e1, ?_⟩
  have := (C86_stored_partial U 7 _ _ e1 (by simp) (by simp [RVar.support, Unconstrained])
    (sgldMove 0.1 1 G [[e]]) 1 [[[a], [b]]] [[a]]
    ⟨rfl, rfl, by intro i hi; simp at hi; subst hi; simp [sampleOf, paramsOf, paramsRow], by simp⟩
    (by simp [sgldMove, hG]) 0 (by simp)).1
  rw [this]
  simp [sgldMove, hG]

theorem lt_softplusFwd (x : ℝ) : x < softplusFwd x := by
  rw [softplusFwd, Real.lt_log_iff_exp_lt (by positivity)]
  linarith

/-- C86 fails for every latent variable of the library's families on `[0, ∞)`: whatever the step, the state and the
random draws, sample `t` is the softplus of the step's result, and so greater in each entry. -/
theorem C86_nonnegative_fails (U : UserBij) (n id id' : ℕ) (shape shape' : List ℕ) :
    ∃ st, autoTransform n [(.base id shape (some .nonnegative), .base id' shape' (some .points))] = (st, none) ∧
      ∀ (move : List (List ℝ) → List (List ℝ)) (t : ℕ) (raw : List (List (List ℝ))) (old s : List ℝ),
        ChainAt U [(.base id shape (some .nonnegative), .base id' shape' (some .points))] st.latentVars raw t [old] →
        move [old] = [s] → s ≠ [] →
        ∃ s', sampleOf U st.latentVars (storeUpdate U st.latentVars move t raw) 0 t = some s' ∧ s' ≠ s ∧
          s'.length = s.length ∧ ∀ k : Fin s.length, ∀ x, s'[k.1]? = some x → s[k.1] < x := by
  have e : autoTransform n [(.base id shape (some .nonnegative), .base id' shape' (some .points))] =
      (⟨[(.base id shape (some .nonnegative), .transformed (n + 2) (.base id' shape' (some .points))
          (.invert (.invert .softplus)) none)],
        [(.transformed n (.base id shape (some .nonnegative)) (.invert .softplus) (some .real), .base id' shape' (some .points))],
        [(.base id shape (some .nonnegative), .transformed n (.base id shape (some .nonnegative)) (.invert .softplus) (some .real))],
        n + 3⟩, none) := by
    simp [autoTransform, autoLoop, autoStep, needsTransform, transform, RVar.support, RVar.bijector]
  refine ⟨_, e, ?_⟩
  intro move t raw old s hc hm hs
  have hlen : 0 < raw.length := by rw [hc.rows]; simp
  have := stored_sample U _ move t raw 0 _ _ s rfl (List.getElem?_eq_getElem hlen) (hc.room _ (List.getElem_mem hlen))
    (by rw [hc.oldSample_eq rfl, hm]; rfl)
  refine ⟨_, this, ?_, ?_, ?_⟩
  · intro heq
    simp only [paramsRow, Bij.forward, Bij.inverse] at heq
    cases s with
    | nil => exact hs rfl
    | cons a s =>
      simp only [List.map_cons, List.cons.injEq] at heq
      exact absurd heq.1 (lt_softplusFwd a).ne'
  · simp [paramsRow, Bij.forward, Bij.inverse]
  · intro k x hx
    simp only [paramsRow, Bij.forward, Bij.inverse, List.getElem?_map] at hx
    rw [List.getElem?_eq_getElem k.2] at hx
    simp only [Option.map_some, Option.some.injEq] at hx
    rw [← hx]
    exact lt_softplusFwd _

/-- A Gamma latent variable whose SGHMC step goes from 1 to 0.5: the stored sample is not 0.5. -/
example (U : UserBij) (w : ℝ) (hw : softplusFwd w = 1) :
    ∃ st, autoTransform 7 [(.base 0 [] (some .nonnegative), .base 1 [] (some .points))] = (st, none) ∧
      sampleOf U st.latentVars [[[w], [0]]] 0 0 = some [1] ∧
      ∃ s', sampleOf U st.latentVars (storeUpdate U st.latentVars (sghmcMove [[-0.5]]) 1 [[[w], [0]]]) 0 1 = some s' ∧
        s' ≠ [0.5] := by
  obtain ⟨st, h, hs⟩ := C86_nonnegative_fails U 7 0 1 [] []
  have e := h
  simp [autoTransform, autoLoop, autoStep, needsTransform, transform, RVar.support, RVar.bijector] at e
  have h0 : sampleOf U st.latentVars [[[w], [0]]] 0 0 = some [1] := by
    simp [← e, sampleOf, paramsOf, paramsRow, Bij.forward, Bij.inverse, hw]
  refine ⟨st, h, h0, ?_⟩
  obtain ⟨s', h1, h2, -⟩ := hs (sghmcMove [[-0.5]]) 1 [[[w], [0]]] [1] [0.5]
    ⟨rfl, rfl, by intro i hi; simp at hi; subst hi; simpa using h0, by simp⟩ (by norm_num [sghmcMove]) (by simp)
  exact ⟨s', h1, h2⟩

end Edward
