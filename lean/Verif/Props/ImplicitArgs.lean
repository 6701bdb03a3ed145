/-
Property C146: the arguments of `ImplicitKLqp`.
-/
import Verif.Model.ImplicitArgs
import Verif.Spec.ImplicitArgs
import Verif.Props.Transform
import Verif.Props.CheckData

namespace Edward

open Spec

/-- C146: the constructor accepts a callable discriminator with dictionaries that pass the checks of `Inference`; anything else is a
`TypeError`. -/
theorem C146_constructor (c : Bool) (g l d : DictArg) :
    (implicitInit c g l d = .ok () ↔ c = true ∧ checkLatentVars g.orEmpty = .ok () ∧ checkLatentVars l.orEmpty = .ok () ∧ checkData d.orEmpty = .ok ()) ∧
      (implicitInit c g l d ≠ .ok () → implicitInit c g l d = .error .typeError) := by
  unfold implicitInit
  cases c
  · simp
  · rcases checkLatentVars g.orEmpty with _ | _ <;> rcases checkLatentVars l.orEmpty with _ | _ <;> rcases checkData d.orEmpty with _ | _ <;> simp

/-- C146: dictionaries left out are accepted; other objects are not. -/
theorem C146_absent (c : Bool) (g l d : DictArg) :
    (implicitInit true .absent .absent .absent = .ok ()) ∧ implicitInit c .notDict l d = .error .typeError ∧ implicitInit c g .notDict d = .error .typeError ∧
      implicitInit c g l .notDict = .error .typeError := by
  refine ⟨by simp [implicitInit, DictArg.orEmpty, checkLatentVars, checkLatentVars.go, checkData, checkData.go], ?_, ?_, ?_⟩ <;>
    refine (C146_constructor c _ _ _).2 fun h => ?_ <;> have := (C146_constructor c _ _ _).1.mp h <;> simp [DictArg.orEmpty, checkLatentVars, checkData] at this

/-- C146: `ratio_loss` is a callable object, `'log'` or `'hinge'`; anything else is a `ValueError`. -/
theorem C146_ratio_loss (a : RatioArg) :
    (∀ f, ratioLoss a = .ok f ↔ (∃ n, a = .callable n ∧ f = .user n) ∨ (a = .str "log" ∧ f = .log) ∨ (a = .str "hinge" ∧ f = .hinge)) ∧
      ((∀ f, ratioLoss a ≠ .ok f) → ratioLoss a = .error .valueError) := by
  cases a with
  | callable n => simp [ratioLoss, eq_comm]
  | other => simp [ratioLoss]
  | str s =>
    by_cases h1 : s = "log"
    · subst h1; simp [ratioLoss, eq_comm]
    · by_cases h2 : s = "hinge"
      · subst h2; simp [ratioLoss, eq_comm]
      · simp [ratioLoss, h1, h2]

theorem mem_of_left_alone {n : ℕ} {ps : List (RVar × RVar)} {st : AutoState} (h : autoTransform n ps = (st, none)) {p : RVar × RVar} (hp : p ∈ ps)
    (hl : LeftAlone p.1 p.2) : p ∈ st.latentVars := by
  obtain ⟨i, hi⟩ := List.mem_iff_getElem?.mp hp
  exact List.mem_iff_getElem?.mpr ⟨i, (C49_left_alone n ps st h i p.1 p.2 hi hl).1⟩

theorem used_perm {g ls : List (RVar × RVar)} (hg : (g.map Prod.fst).Nodup) (hls : (ls.map Prod.fst).Nodup) (hsub : ∀ p ∈ g, p ∈ ls) :
    ((implicitUsed g ls).1 ++ (implicitUsed g ls).2).Perm ls := by
  have hgn : g.Nodup := hg.of_map _
  have hln : ls.Nodup := hls.of_map _
  refine (List.perm_ext_iff_of_nodup (List.nodup_append'.mpr ⟨hgn, hln.filter _, ?_⟩) hln).mpr fun p => ?_
  · intro p hp hp'
    have h1 := (List.mem_filter.mp hp').2
    have h2 : p.1 ∉ g.map Prod.fst := by simpa using h1
    exact h2 (List.mem_map_of_mem hp)
  · simp only [List.mem_append, List.mem_filter]
    constructor
    · rintro (hp | hp)
      · exact hsub p hp
      · exact hp.1
    · intro hp
      by_cases hk : p.1 ∈ g.map Prod.fst
      · obtain ⟨q, hq, e⟩ := List.mem_map.mp hk
        have : q = p := List.inj_on_of_nodup_map hls (hsub q hq) hp e
        exact .inl (this ▸ hq)
      · exact .inr ⟨hp, by simpa using hk⟩

/-- C146, where every item of `global_vars` is one of `latent_vars` and is not transformed: every latent variable is used once, as global
variable if it is in `global_vars` and as local one otherwise, with the approximation that `auto_transform` makes for it. -/
theorem C146_partial (auto : Bool) (n : ℕ) (g ls : List (RVar × RVar)) (hg : (g.map Prod.fst).Nodup) (hls : (ls.map Prod.fst).Nodup)
    (hsub : ∀ p ∈ g, p ∈ ls) (hl : auto = true → ∀ p ∈ g, LeftAlone p.1 p.2) :
    (∀ st, auto = true → autoTransform n ls = (st, none) →
      ∃ u, implicitInitialize auto n g ls = .ok u ∧ u.1 = g ∧ (u.1 ++ u.2).Perm st.latentVars ∧ ∀ p ∈ u.2, p.1 ∉ g.map Prod.fst) ∧
      (auto = false → ∃ u, implicitInitialize auto n g ls = .ok u ∧ u.1 = g ∧ (u.1 ++ u.2).Perm ls ∧ ∀ p ∈ u.2, p.1 ∉ g.map Prod.fst) := by
  have hloc : ∀ ls', ∀ p ∈ (implicitUsed g ls').2, p.1 ∉ g.map Prod.fst := fun ls' p hp => by
    have := (List.mem_filter.mp hp).2
    simpa using this
  constructor
  · intro st ha h
    refine ⟨implicitUsed g st.latentVars, by simp [implicitInitialize, ha, h], rfl, used_perm hg ?_ fun p hp => mem_of_left_alone h (hsub p hp) (hl ha p hp), hloc _⟩
    rw [(C49_keeps_keys n ls st h).1]
    exact hls
  · intro ha
    exact ⟨implicitUsed g ls, by simp [implicitInitialize, ha], rfl, used_perm hg hls hsub, hloc _⟩

/-- C146: the global variables of the loss are those of `global_vars`, with the approximations given there, whatever `latent_vars` and
`auto_transform` are. -/
theorem C146_globals (auto : Bool) (n : ℕ) (g ls : List (RVar × RVar)) (u) (h : implicitInitialize auto n g ls = .ok u) : u.1 = g := by
  unfold implicitInitialize at h
  split_ifs at h
  · rcases ha : autoTransform n ls with ⟨st, _ | e⟩ <;> rw [ha] at h <;> simp at h
    rw [← h]; rfl
  · simp at h
    rw [← h]; rfl

/-- C146 fails: `auto_transform` has no effect on global variables. For a nonnegative variable approximated by a real one, `latent_vars` holds an
approximation with positive draws only; the loss uses the real one, whose draws may be negative. -/
theorem C146_transform_fails (U) (n : ℕ) (id id' : ℕ) (s s' : List ℕ) (x : List ℝ) :
    ∃ st, autoTransform n [(.base id s (some .nonnegative), .base id' s' (some .real))] = (st, none) ∧
      (∃ q, st.latentVars = [(.base id s (some .nonnegative), q)] ∧ ∀ ω, draw U ω q ∈ innerPoints .nonnegative) ∧
      implicitInitialize true n [(.base id s (some .nonnegative), .base id' s' (some .real))] [(.base id s (some .nonnegative), .base id' s' (some .real))] =
        .ok ([(.base id s (some .nonnegative), .base id' s' (some .real))], []) ∧
      ∃ ω, draw U ω (.base id' s' (some .real)) = x := by
  have hnl : ¬ LeftAlone (.base id s (some .nonnegative)) (.base id' s' (some .real)) := by simp [LeftAlone, RVar.support]
  have e : ∃ st, autoTransform n [(.base id s (some .nonnegative), .base id' s' (some .real))] = (st, none) := by
    simp [autoTransform, autoLoop, autoStep, needsTransform, transform, RVar.support]
  obtain ⟨st, hst⟩ := e
  have hk := (C49_keeps_keys _ _ _ hst).1
  obtain ⟨s1, q, zU, qzU, sU, h1, h2, -, -, -, -, -, h3, -⟩ := C49_support U _ _ _ hst 0 _ _ rfl hnl
  simp only [RVar.support, Option.some.injEq] at h1
  subst h1
  have hlv : st.latentVars = [(.base id s (some .nonnegative), q)] := by
    have hlen : st.latentVars.length = 1 := by simpa using congrArg List.length hk
    obtain ⟨a, ha⟩ := List.length_eq_one_iff.mp hlen
    rw [ha] at h2 ⊢
    simpa using h2
  refine ⟨st, hst, ⟨q, hlv, h3⟩, ?_, fun _ => x, rfl⟩
  simp [implicitInitialize, hst, implicitUsed, hlv]

/-- C146 fails: of a variable bound to different approximations in the two dictionaries, that of `latent_vars` is not used. -/
theorem C146_unused_fails (n : ℕ) (z q q' : RVar) (hq : q ≠ q') :
    ∃ u, implicitInitialize false n [(z, q')] [(z, q)] = .ok u ∧ ∀ p ∈ u.1 ++ u.2, p.2 ≠ q := by
  refine ⟨_, rfl, ?_⟩
  simp [implicitUsed, hq.symm]

/-! ### Scales -/

theorem sum_scale (s : ℝ) (l : List ℝ) : (l.map fun x => s * x).sum = s * l.sum := by
  induction l with
  | nil => simp
  | cons a t ih => simp [ih, mul_add]

theorem lookup_ne {β : Type*} {k a : ℕ} (h : k ≠ a) (b : β) (t : List (ℕ × β)) : List.lookup k ((a, b) :: t) = t.lookup k := by
  rw [List.lookup_cons, beq_false_of_ne h]

theorem scaledRatio_dict {scale : List (ℕ × ℝ)} (h : 2 ≤ scale.length) {r : List (ℕ × List ℝ)} (hin : ∀ ks ∈ scale, ∃ v, r.lookup ks.1 = some v) :
    scaledRatio scale (.dict r) = some (scale.map fun ks => ks.2 * ((r.lookup ks.1).getD []).sum).sum := by
  have hm : ∀ sc : List (ℕ × ℝ), (∀ ks ∈ sc, ∃ v, r.lookup ks.1 = some v) →
      (sc.mapM fun ks => (r.lookup ks.1).map fun v => (v.map fun x => ks.2 * x).sum) = some (sc.map fun ks => ks.2 * ((r.lookup ks.1).getD []).sum) := by
    intro sc
    induction sc with
    | nil => intro _; simp
    | cons a t ih =>
      intro hh
      obtain ⟨v, hv⟩ := hh a (by simp)
      rw [List.mapM_cons, ih fun ks hks => hh ks (by simp [hks])]
      simp [hv, sum_scale]
  simp only [scaledRatio, hm scale hin]
  rw [if_neg (by omega)]
  rfl

theorem lookup_of_mem {β : Type*} {l : List (ℕ × β)} (hn : (l.map Prod.fst).Nodup) {k : ℕ} {v : β} (h : (k, v) ∈ l) : l.lookup k = some v := by
  induction l with
  | nil => simp at h
  | cons a t ih =>
    obtain ⟨a1, a2⟩ := a
    simp only [List.map_cons, List.nodup_cons] at hn
    rcases List.mem_cons.mp h with h | h
    · simp only [Prod.mk.injEq] at h
      simp [h.1, h.2]
    · have : k ≠ a1 := fun e => hn.1 (e ▸ List.mem_map_of_mem (f := Prod.fst) h)
      rw [lookup_ne this, ih hn.2 h]

/-- C146 where the discriminator returns a dictionary and `scale` has two or more keys, the keys of that dictionary: the loss is the sum of the
ratios, each with its scale. Where it returns one tensor, a single scale multiplies it, whatever variable it is bound to. -/
theorem C146_scale_partial (scale : List (ℕ × ℝ)) (hn : (scale.map Prod.fst).Nodup) :
    (2 ≤ scale.length → ∀ r : List (ℕ × List ℝ), (r.map Prod.fst).Perm (scale.map Prod.fst) → scaledRatio scale (.dict r) = some (scaledSum scale r)) ∧
      (∀ k s r, scaledRatio [(k, s)] (.tensor r) = some (s * r.sum)) ∧ (∀ r, scaledRatio [] (.tensor r) = some r.sum) := by
  refine ⟨fun h2 r hp => ?_, fun k s r => by simp [scaledRatio, sum_scale], fun r => by simp [scaledRatio]⟩
  have hrn : (r.map Prod.fst).Nodup := hp.nodup_iff.mpr hn
  have hin : ∀ ks ∈ scale, ∃ v, r.lookup ks.1 = some v := fun ks hks => by
    have : ks.1 ∈ r.map Prod.fst := hp.mem_iff.mpr (List.mem_map_of_mem hks)
    obtain ⟨⟨k, v⟩, hkv, e⟩ := List.mem_map.mp this
    exact ⟨v, lookup_of_mem hrn (by simpa [← e] using hkv)⟩
  rw [scaledRatio_dict h2 hin]
  congr 1
  have e1 : (scale.map fun ks => ks.2 * ((r.lookup ks.1).getD []).sum) = (scale.map Prod.fst).map fun k => scaleOf scale k * ((r.lookup k).getD []).sum := by
    rw [List.map_map]
    refine List.map_congr_left fun ks hks => ?_
    simp [scaleOf, lookup_of_mem hn (show (ks.1, ks.2) ∈ scale from hks)]
  have e2 : scaledSum scale r = ((r.map Prod.fst).map fun k => scaleOf scale k * ((r.lookup k).getD []).sum).sum := by
    rw [scaledSum, List.map_map]
    congr 1
    refine List.map_congr_left fun kv hkv => ?_
    simp [lookup_of_mem hrn (show (kv.1, kv.2) ∈ r from hkv)]
  rw [e1, e2]
  exact ((hp.map _).sum_eq).symm

/-- C146 fails: of the data variables in the discriminator's dictionary, those that `scale` does not mention are not in the loss; with fewer than
two scales the dictionary is an error. -/
theorem C146_scale_fails (k₁ k₂ k₃ : ℕ) (h12 : k₁ ≠ k₂) (h13 : k₁ ≠ k₃) (h23 : k₂ ≠ k₃) (s₁ s₂ : ℝ) (r₁ r₂ r₃ : List ℝ) :
    scaledRatio [(k₁, s₁), (k₂, s₂)] (.dict [(k₁, r₁), (k₂, r₂), (k₃, r₃)]) = some (s₁ * r₁.sum + s₂ * r₂.sum) ∧
      scaledSum [(k₁, s₁), (k₂, s₂)] [(k₁, r₁), (k₂, r₂), (k₃, r₃)] = s₁ * r₁.sum + s₂ * r₂.sum + r₃.sum ∧
      scaledRatio [(k₁, s₁)] (.dict [(k₁, r₁), (k₂, r₂)]) = none := by
  refine ⟨?_, ?_, by simp [scaledRatio]⟩
  · rw [scaledRatio_dict (by simp)]
    · simp [lookup_ne h12.symm]
    · simp [lookup_ne h12.symm]
  · simp [scaledSum, scaleOf, lookup_ne h12.symm, lookup_ne h13.symm, lookup_ne h23.symm]
    ring

/-! ### Examples -/

/-- A nonnegative local variable that is transformed, beside a real global one that is not. -/
example : ∃ u, implicitInitialize true 7 [(.base 0 [] (some .real), .base 1 [] (some .real))]
    [(.base 0 [] (some .real), .base 1 [] (some .real)), (.base 2 [] (some .nonnegative), .base 3 [] (some .real))] = .ok u ∧ u.2.length = 1 := by
  refine ⟨_, by simp [implicitInitialize, autoTransform, autoLoop, autoStep, needsTransform, transform, RVar.support]; rfl, ?_⟩
  simp [implicitUsed]

example : LeftAlone (.base 0 [] (some .real)) (.base 1 [] (some .real)) := by simp [LeftAlone, RVar.support]

example : (([(1, [2, 3]), (0, [5])] : List (ℕ × List ℝ)).map Prod.fst).Perm (([(0, 10), (1, 20)] : List (ℕ × ℝ)).map Prod.fst) := by
  simpa using List.Perm.swap 0 1 []

end Edward
