/-
C82: shapes under automatic transformation. C83: the unconstrained target of HMC.
C84: the list form of MAP.
-/
import Verif.Model.Unconstrained
import Verif.Props.Transform
import Verif.Lemmas.ChangeOfVariables
import Mathlib.Analysis.SpecialFunctions.Log.Deriv
import Mathlib.Analysis.SpecialFunctions.ExpDeriv
import Mathlib.Algebra.BigOperators.Fin
import Mathlib.Analysis.Complex.ExponentialBounds

namespace Edward

open Spec MeasureTheory

/-! ### C82 -/

/-- C82, what holds: if neither support is the simplex, the approximation of `z` after
`initialize` has the shape of `z`, and the unconstrained pair has this shape too. -/
theorem C82_shape_partial (n : ℕ) (ps : List (RVar × RVar)) (st : AutoState) (h : autoTransform n ps = (st, none))
    (i : ℕ) (z qz : RVar) (hi : ps[i]? = some (z, qz)) (hshape : z.shape = qz.shape)
    (hz : z.support ≠ some .simplex) (hq : qz.support ≠ some .simplex) :
    ∃ q zU qzU, st.latentVars[i]? = some (z, q) ∧ st.unconstrained[i]? = some (zU, qzU) ∧
      q.shape = z.shape ∧ zU.shape = z.shape ∧ qzU.shape = z.shape := by
  by_cases hl : LeftAlone z qz
  · obtain ⟨h1, h2, -⟩ := C49_left_alone n ps st h i z qz hi hl
    exact ⟨qz, z, qz, h1, h2, hshape.symm, rfl, hshape.symm⟩
  · obtain ⟨rs, hrs, h1, h2, -⟩ := autoTransform_added n ps st h
    obtain ⟨r, hr, ha⟩ := forall₂_get hrs i _ hi
    simp only [Added, (needsTransform_iff z qz).mpr hl, if_true] at ha
    obtain ⟨a, c, zU, qzU, htz, htq, hc⟩ := ha
    have e1 : zU.shape = z.shape := by rw [C48_shape a z zU htz, if_neg hz]
    have e2 : qzU.shape = z.shape := by
      rcases htq with ⟨rfl, -⟩ | ⟨-, htq⟩
      · exact hshape.symm
      · rw [C48_shape c qz qzU htq, if_neg hq, hshape]
    rcases hc with ⟨-, rfl⟩ | ⟨k, b, hne, hb, rfl⟩
    · exact ⟨qzU, zU, qzU, by simp [h1, hr], by simp [h2, hr], e2, e1, e2⟩
    · refine ⟨.transformed k qzU (.invert b) none, zU, qzU, by simp [h1, hr], by simp [h2, hr], ?_, e1, e2⟩
      have hb' : b = .invert .sigmoid ∨ b = .invert .softplus := by
        unfold transform at htz
        rcases hs : z.support with _ | s
        · simp [hs] at htz
        · rw [hs] at hz
          cases s <;> simp [hs] at htz hz <;> subst htz <;> simp_all [RVar.bijector]
      rcases hb' with rfl | rfl <;> simp [RVar.shape, Bij.forwardShape, Bij.inverseShape, e2]

/-- C82 fails for every latent variable on the simplex approximated on another support:
with `K` entries, after `initialize` its approximation has `K + 1`. -/
theorem C82_simplex_fails (n : ℕ) (z qz : RVar) (d : List ℕ) (K : ℕ) (hz : z.support = some .simplex)
    (_hzs : z.shape = d ++ [K]) (hqs : qz.shape = d ++ [K]) (hq : qz.support = some .points ∨ qz.support = some .real ∨
      qz.support = some .multivariateReal ∨ qz.support = some .nonnegative ∨ qz.support = some .unit) :
    ∃ st q, autoTransform n [(z, qz)] = (st, none) ∧ st.latentVars = [(z, q)] ∧ q.shape = d ++ [K + 1] := by
  have hne : RVar.transformed n z (.invert .softmaxCentered) (some .multivariateReal) ≠ z := by
    intro e
    have := congrArg sizeOf e
    simp at this
    omega
  rcases hq with hq | hq | hq | hq | hq <;>
    simp [autoTransform, autoLoop, autoStep, needsTransform, hz, hq, transform, hne, RVar.bijector, RVar.shape,
      Bij.forwardShape, Bij.inverseShape, hqs]

/-- A Dirichlet with three classes and an Empirical over three numbers. -/
example : ∃ st q, autoTransform 2 [(.base 0 [3] (some .simplex), .base 1 [3] (some .points))] = (st, none) ∧
    st.latentVars = [(.base 0 [3] (some .simplex), q)] ∧ q.shape = [4] :=
  C82_simplex_fails 2 _ _ [] 3 rfl rfl rfl (Or.inl rfl)

/-! ### C83 -/

/-- From an unconstrained number to the support, for supports acting on entries. -/
noncomputable def entryMap : Support → ℝ → ℝ
  | .unit => sigmoidFwd
  | .nonnegative => softplusFwd
  | _ => id

/-- The logarithm of its derivative. -/
noncomputable def entryLog : Support → ℝ → ℝ
  | .unit => fun a => -softplusFwd (-a) - softplusFwd a
  | .nonnegative => fun a => -softplusFwd (-a)
  | _ => fun _ => 0

theorem hasDerivAt_entryMap (s : Support) (x : ℝ) : HasDerivAt (entryMap s) (Real.exp (entryLog s x)) x := by
  have hp := Real.exp_pos x
  have hm := Real.exp_pos (-x)
  have hmul : Real.exp x * Real.exp (-x) = 1 := by rw [← Real.exp_add]; simp
  have hid : HasDerivAt (entryMap .real) (Real.exp (entryLog .real x)) x := by
    simpa [entryMap, entryLog] using hasDerivAt_id x
  cases s
  case unit =>
    have h1 : HasDerivAt (fun x => 1 + Real.exp (-x)) (-Real.exp (-x)) x := by
      have := ((hasDerivAt_id x).neg.exp).const_add 1
      simpa using this
    have h2 := h1.inv (by positivity)
    have e : Real.exp (entryLog .unit x) = -(-Real.exp (-x)) / (1 + Real.exp (-x)) ^ 2 := by
      simp only [entryLog, softplusFwd]
      rw [Real.exp_sub, Real.exp_neg, Real.exp_log (by positivity), Real.exp_log (by positivity)]
      field_simp
      nlinarith
    rw [e]
    have e2 : entryMap .unit = (fun x => 1 + Real.exp (-x))⁻¹ := by
      funext y
      simp [entryMap, sigmoidFwd]
    rw [e2]
    exact h2
  case nonnegative =>
    have h1 : HasDerivAt (fun x => 1 + Real.exp x) (Real.exp x) x := (Real.hasDerivAt_exp x).const_add 1
    have h2 := h1.log (by positivity)
    have e : Real.exp (entryLog .nonnegative x) = Real.exp x / (1 + Real.exp x) := by
      simp only [entryLog, softplusFwd]
      rw [Real.exp_neg, Real.exp_log (by positivity)]
      field_simp
      nlinarith
    rw [e]
    exact h2
  all_goals exact hid

theorem entryMap_injective (s : Support) : Function.Injective (entryMap s) := by
  cases s
  case unit => exact Function.LeftInverse.injective sigmoidInv_fwd
  case nonnegative => exact Function.LeftInverse.injective softplusInv_fwd
  all_goals exact Function.injective_id

/-- The values of all latent variables, variable by variable. -/
def rows {n : ℕ} (d : Fin n → ℕ) (y : (Σ i, Fin (d i)) → ℝ) : List (List ℝ) :=
  List.ofFn fun i => List.ofFn fun k => y ⟨i, k⟩

/-- The latent variables C83 is about: variables of the library's families whose support
is `[0,1]`, `[0,∞)` or unconstrained, each approximated by an Empirical. -/
def HmcPair (p : RVar × RVar) : Prop :=
  (∃ id shape s, p.1 = .base id shape (some s) ∧ Continuous' s ∧ s ≠ .simplex) ∧ p.2.support = some .points

theorem hmcPair_needs {p : RVar × RVar} (h : HmcPair p) : needsTransform p.1 p.2 = true := by
  obtain ⟨⟨id, sh, s, h1, h2, -⟩, h3⟩ := h
  unfold needsTransform
  rw [h1, h3]
  cases s <;> simp_all [RVar.support, Continuous']

/-- The support of a variable that has one. -/
def suppOf (z : RVar) : Support := z.support.getD .other

theorem find?_nodup {α β : Type*} [DecidableEq β] (f : α → β) (l : List α) (h : (l.map f).Nodup) (x : α) (hx : x ∈ l) :
    l.find? (fun a => f a = f x) = some x := by
  induction l with
  | nil => simp at hx
  | cons a l ih =>
    rw [List.map_cons, List.nodup_cons] at h
    rw [List.find?_cons]
    by_cases e : f a = f x
    · simp only [e, decide_true]
      rcases List.mem_cons.mp hx with rfl | hx
      · rfl
      · exact absurd (List.mem_map.mpr ⟨x, hx, e.symm⟩) h.1
    · simp only [e, decide_false]
      rcases List.mem_cons.mp hx with rfl | hx
      · exact absurd rfl e
      · exact ih h.2 hx

/-- What the loop adds for such a pair. -/
theorem hmcPair_added {p r} (h : HmcPair p) (ha : Added p r) : ∃ zU, r.2.1 = (zU, p.2) ∧ r.2.2 = some (p.1, zU) ∧
    r.1.1 = p.1 ∧
    (zU = p.1 ∨ ∃ n b s, zU = .transformed n p.1 b s) ∧
    (∀ U J v, ((zU.bijector.map (·.inverse U v)).getD v = v.map (entryMap (suppOf p.1))) ∧
      (zU.bijector.map (inverseLogDetJacobian J · v)).getD 0 = (v.map (entryLog (suppOf p.1))).sum) ∧
    ∀ U ω, draw U ω r.1.2 = (draw U ω p.2).map (entryMap (suppOf p.1)) := by
  simp only [Added, hmcPair_needs h, if_true] at ha
  obtain ⟨n, m, zU, qzU, hz, hq, hc⟩ := ha
  obtain ⟨⟨id, sh, s, h1, h2, h4⟩, h3⟩ := h
  have hq' : qzU = p.2 := by
    rcases hq with ⟨rfl, -⟩ | ⟨hq, -⟩
    · rfl
    · exact absurd h3 hq
  subst hq'
  obtain ⟨z, qz⟩ := p
  dsimp only at *
  subst h1
  cases s <;> simp [transform, RVar.support, Continuous'] at hz h2 h4 <;> subst hz <;>
    simp [RVar.bijector] at hc <;> (try obtain ⟨k, rfl⟩ := hc) <;>
    simp [RVar.bijector, suppOf, RVar.support, entryMap, entryLog, Bij.inverse, Bij.forward, inverseLogDetJacobian, draw]

/-- C83: for latent variables on `[0,1]`, `[0,∞)` or the reals, with Empirical
approximations, the target HMC works with is the one whose image in the original space is the
model. Precisely: let `y` have the density `exp (_log_joint_unconstrained y)`. Then the values of the
constrained approximations, for unconstrained values `y`, have the density `exp (log_joint)` on
the support. `d i` is the number of entries of the `i`-th variable. -/
theorem C83_hmc_target_partial (U J) (n : ℕ) (ps : List (RVar × RVar)) (st : AutoState)
    (h : autoTransform n ps = (st, none)) (hps : ∀ p ∈ ps, HmcPair p) (hnd : (ps.map Prod.fst).Nodup)
    (d : Fin ps.length → ℕ) (logJoint : List (RVar × List ℝ) → ℝ) :
    ∃ T : ((Σ i, Fin (d i)) → ℝ) → ((Σ i, Fin (d i)) → ℝ),
      (∀ (y : (Σ i, Fin (d i)) → ℝ) (ω : ℕ → List ℝ),
        (st.unconstrained.map fun p => draw U ω p.2) = rows d y →
        (st.latentVars.map fun p => draw U ω p.2) = rows d (T y)) ∧
      (volume.withDensity fun y => ENNReal.ofReal (Real.exp
          (logJointUnconstrained U J st.transformations logJoint ((st.unconstrained.map Prod.fst).zip (rows d y))))).map T =
        (volume.restrict {x | ∀ i, (List.ofFn fun k => x ⟨i, k⟩) ∈ innerPoints (suppOf (ps.get i).1)}).withDensity
          fun x => ENNReal.ofReal (Real.exp (logJoint ((ps.map Prod.fst).zip (rows d x)))) := by
  obtain ⟨rs, hrs, h1, h2, h3⟩ := autoTransform_added n ps st h
  have hlen := hrs.length_eq
  have hget : ∀ i (hi : i < ps.length), Added ps[i] (rs[i]'(hlen ▸ hi)) := fun i hi => hrs.get hi (hlen ▸ hi)
  have hpi : ∀ i (hi : i < ps.length), HmcPair ps[i] := fun i hi => hps _ (List.getElem_mem hi)
  -- the transformations, one for each variable
  have htr : st.transformations = rs.map fun r => (r.1.1, r.2.1.1) := by
    rw [h3, List.filterMap_eq_map_iff_forall_eq_some.mpr]
    intro r hr
    obtain ⟨i, hi, rfl⟩ := List.mem_iff_getElem.mp hr
    have hi' : i < ps.length := hlen ▸ hi
    obtain ⟨zU, e1, e2, e3, -⟩ := hmcPair_added (hpi i hi') (hget i hi')
    rw [e2, e1, e3]
  have hkeys : (st.transformations.map Prod.fst) = ps.map Prod.fst := by
    rw [htr, List.map_map]
    refine List.ext_getElem (by simp [hlen]) fun i h1 h2 => ?_
    have hi' : i < ps.length := by simpa using h2
    obtain ⟨zU, e1, e2, e3, -⟩ := hmcPair_added (hpi i hi') (hget i hi')
    simp [e3]
  have hfst : (st.transformations.map Prod.fst).Nodup := hkeys ▸ hnd
  have hsnd : (st.transformations.map Prod.snd).Nodup := by
    rw [htr, List.map_map, List.nodup_iff_injective_get]
    intro i j hij
    have hi' : i.1 < ps.length := by have := i.2; simpa [hlen] using this
    have hj' : j.1 < ps.length := by have := j.2; simpa [hlen] using this
    obtain ⟨zi, e1, -, -, e4, -⟩ := hmcPair_added (hpi i hi') (hget i hi')
    obtain ⟨zj, f1, -, -, f4, -⟩ := hmcPair_added (hpi j hj') (hget j hj')
    simp only [List.get_eq_getElem, List.getElem_map, Function.comp_apply, e1, f1] at hij
    subst hij
    obtain ⟨⟨a, b, c, e5, -⟩, -⟩ := hpi i hi'
    obtain ⟨⟨a', b', c', f5, -⟩, -⟩ := hpi j hj'
    have hzz : ps[i.1].1 = ps[j.1].1 := by
      rcases e4 with e4 | ⟨_, _, _, e4⟩ <;> rcases f4 with f4 | ⟨_, _, _, f4⟩
      · rw [← e4, ← f4]
      · rw [e4, e5] at f4; simp at f4
      · rw [f4, f5] at e4; simp at e4
      · rw [e4] at f4; simp at f4; exact f4.2.1
    have := (List.nodup_iff_injective_get.mp hnd) (a₁ := ⟨i, by simpa using hi'⟩) (a₂ := ⟨j, by simpa using hj'⟩)
      (by simpa using hzz)
    exact Fin.ext (by simpa using this)
  -- one pass of the loop over the sample
  have hone : ∀ i (hi : i < ps.length) v, toOriginal U J st.transformations ((rs[i]'(hlen ▸ hi)).2.1.1, v) =
      ((ps[i].1, v.map (entryMap (suppOf ps[i].1))), (v.map (entryLog (suppOf ps[i].1))).sum) := by
    intro i hi v
    obtain ⟨zU, e1, e2, e3, -, e5, -⟩ := hmcPair_added (hpi i hi) (hget i hi)
    have hm : (ps[i].1, zU) ∈ st.transformations := by
      rw [htr, List.mem_map]
      exact ⟨rs[i]'(hlen ▸ hi), List.getElem_mem _, by rw [e3, e1]⟩
    have f1 := find?_nodup Prod.snd _ hsnd _ hm
    have f2 := find?_nodup Prod.fst _ hfst _ hm
    dsimp only at f1 f2
    obtain ⟨g1, g2⟩ := e5 U J v
    simp only [toOriginal, e1, f1, f2, Option.bind_some]
    rcases hb : zU.bijector with _ | b
    · simp only [hb, Option.map_none, Option.getD_none] at g1 g2 ⊢
      rw [← g1, ← g2]
    · simp only [hb, Option.map_some, Option.getD_some] at g1 g2 ⊢
      rw [← g1, ← g2]
  let gs : (Σ i, Fin (d i)) → ℝ → ℝ := fun k => entryMap (suppOf (ps.get k.1).1)
  let ls : (Σ i, Fin (d i)) → ℝ → ℝ := fun k => entryLog (suppOf (ps.get k.1).1)
  refine ⟨fun y k => gs k (y k), ?_, ?_⟩
  · intro y ω hy
    refine List.ext_getElem (by simp [h1, rows, hlen]) fun i hi1 hi2 => ?_
    have hi : i < ps.length := by simpa [rows] using hi2
    obtain ⟨zU, e1, -, -, -, -, e6⟩ := hmcPair_added (hpi i hi) (hget i hi)
    have hyi := congrArg (fun l => l[i]?) hy
    simp only [h2, List.map_map, rows, List.getElem?_map, List.getElem?_ofFn, hi, dif_pos,
      List.getElem?_eq_getElem (l := rs) (hlen ▸ hi), Option.map_some, Option.some.injEq, Function.comp_apply, e1] at hyi
    simp only [h1, List.map_map, rows, List.getElem_map, Function.comp_apply, e6, List.getElem_ofFn, hyi, List.map_ofFn, gs]
    rfl
  · have hexp : ∀ y : (Σ i, Fin (d i)) → ℝ,
        logJointUnconstrained U J st.transformations logJoint ((st.unconstrained.map Prod.fst).zip (rows d y)) =
        logJoint ((ps.map Prod.fst).zip (rows d fun k => gs k (y k))) + ∑ k, ls k (y k) := by
      intro y
      have hr1 : (((st.unconstrained.map Prod.fst).zip (rows d y)).map (toOriginal U J st.transformations)) =
          List.ofFn fun i : Fin ps.length => ((ps[i].1, List.ofFn fun k => gs ⟨i, k⟩ (y ⟨i, k⟩)),
            ∑ k, ls ⟨i, k⟩ (y ⟨i, k⟩)) := by
        refine List.ext_getElem (by simp [h2, rows, hlen]) fun i hi1 hi2 => ?_
        have hi : i < ps.length := by simpa using hi2
        simp only [List.getElem_map, List.getElem_zip, h2, List.getElem_ofFn, rows]
        rw [hone i hi]
        simp only [List.map_ofFn, List.sum_ofFn, Function.comp_def]
        rfl
      unfold logJointUnconstrained
      dsimp only
      rw [hr1]
      congr 1
      · congr 1
        refine List.ext_getElem (by simp [rows]) fun i hi1 hi2 => ?_
        simp [rows]
      · rw [List.map_ofFn, List.sum_ofFn, Fintype.sum_sigma]
        rfl
    simp only [hexp]
    refine map_withDensity_coordinatewise gs ls (fun k x => hasDerivAt_entryMap _ x) (fun k => entryMap_injective _)
      (fun x => logJoint ((ps.map Prod.fst).zip (rows d x))) _ ?_
    ext x
    simp only [Set.mem_range, Set.mem_ofPred_eq]
    have hinner : ∀ (i : Fin ps.length) (v : List ℝ), v ∈ innerPoints (suppOf (ps.get i).1) ↔
        ∀ a ∈ v, a ∈ Set.range (entryMap (suppOf (ps.get i).1)) := by
      intro i v
      obtain ⟨⟨a, b, s, e5, hc, hsx⟩, -⟩ := hpi i i.2
      have hs : suppOf (ps.get i).1 = s := by simp [suppOf, e5, RVar.support]
      rw [hs]
      cases s <;> simp only [Continuous', ne_eq, not_true_eq_false] at hc hsx <;>
        simp only [innerPoints, entryMap, Set.mem_univ, Set.range_id, implies_true]
      · refine forall₂_congr fun a _ => ⟨fun ⟨g1, g2⟩ => ⟨_, sigmoidFwd_inv g1 g2⟩, ?_⟩
        rintro ⟨b, rfl⟩; exact sigmoidFwd_mem b
      · refine forall₂_congr fun a _ => ⟨fun g1 => ⟨_, softplusFwd_inv g1⟩, ?_⟩
        rintro ⟨b, rfl⟩; exact softplusFwd_pos b
    constructor
    · rintro ⟨y, rfl⟩ i
      rw [hinner]
      intro a ha
      obtain ⟨k, rfl⟩ := (List.mem_ofFn' _ _).mp ha
      exact ⟨_, rfl⟩
    · intro hx
      have : ∀ k : Σ i, Fin (d i), ∃ a, gs k a = x k := by
        rintro ⟨i, k⟩
        exact (hinner i _).mp (hx i) _ ((List.mem_ofFn' _ _).mpr ⟨k, rfl⟩)
      choose y hy using this
      exact ⟨y, funext hy⟩

/-- A Gamma and a Beta variable, each with an Empirical approximation. -/
example : ∃ st, autoTransform 4 [(.base 0 [] (some .nonnegative), .base 1 [] (some .points)),
      (.base 2 [5] (some .unit), .base 3 [5] (some .points))] = (st, none) ∧
    ∀ p ∈ [((.base 0 [] (some .nonnegative) : RVar), (.base 1 [] (some .points) : RVar)),
      (.base 2 [5] (some .unit), .base 3 [5] (some .points))], HmcPair p := by
  refine ⟨_, rfl, ?_⟩
  intro p hp
  simp only [List.mem_cons, List.not_mem_nil, or_false] at hp
  rcases hp with rfl | rfl
  · exact ⟨⟨0, [], .nonnegative, rfl, trivial, by simp⟩, rfl⟩
  · exact ⟨⟨2, [5], .unit, rfl, trivial, by simp⟩, rfl⟩

/-- C83 fails for a variable that is itself a transformed one with an unconstrained
support, such as `z = ed.transform(Gamma(...))`: HMC takes the bijector of `z` for one it has introduced.
The draws of the approximation are the numbers `y` HMC works with, but its target density at `y` is
not that of `z` at `y`, up to a constant. -/
theorem C83_transformed_fails (U J) : ∃ (z qz : RVar) (st : AutoState) (logJoint : List (RVar × List ℝ) → ℝ),
    transform 1 (.base 0 [] (some .nonnegative)) none = .ok z ∧ qz.support = some .points ∧
    autoTransform 3 [(z, qz)] = (st, none) ∧ st.latentVars = [(z, qz)] ∧ st.unconstrained = [(z, qz)] ∧
    ¬ ∃ c, ∀ y : ℝ, logJointUnconstrained U J st.transformations logJoint [(z, [y])] = logJoint [(z, [y])] + c := by
  refine ⟨.transformed 1 (.base 0 [] (some .nonnegative)) (.invert .softplus) (some .real), .base 2 [] (some .points),
    _, fun l => match l with
      | [(_, [v])] => -v ^ 2 / 2
      | _ => 0, rfl, rfl, rfl, rfl, rfl, ?_⟩
  rintro ⟨c, hc⟩
  have hform : ∀ y : ℝ, -(softplusFwd y) ^ 2 / 2 + -softplusFwd (-y) = -y ^ 2 / 2 + c := by
    intro y
    have := hc y
    simpa [logJointUnconstrained, toOriginal, RVar.bijector, Bij.inverse, Bij.forward, inverseLogDetJacobian] using this
  have h0 := hform 0
  have h10 := hform (-10)
  have hs0 := softplusFwd_pos 0
  have hb1 : softplusFwd (-10) ≤ 1 := by
    have : Real.exp (-10) ≤ 1 := Real.exp_le_one_iff.mpr (by norm_num)
    have h2 := Real.log_le_sub_one_of_pos (show (0 : ℝ) < 1 + Real.exp (-10) by positivity)
    unfold softplusFwd
    linarith
  have hb2 : softplusFwd (- -10) ≤ 11 := by
    have h2 : (1 : ℝ) + Real.exp 10 ≤ Real.exp 11 := by
      have e : Real.exp 11 = Real.exp 10 * Real.exp 1 := by rw [← Real.exp_add]; norm_num
      have h3 : (2 : ℝ) ≤ Real.exp 1 := by linarith [Real.add_one_le_exp 1]
      have h4 : (1 : ℝ) ≤ Real.exp 10 := Real.one_le_exp (by norm_num)
      nlinarith
    unfold softplusFwd
    rw [neg_neg]
    calc Real.log (1 + Real.exp 10) ≤ Real.log (Real.exp 11) := Real.log_le_log (by positivity) h2
      _ = 11 := Real.log_exp 11
  have hb3 := softplusFwd_pos (-10)
  clear hc hform
  have hc0 : c = -(softplusFwd 0) ^ 2 / 2 - softplusFwd 0 := by
    rw [neg_zero] at h0
    linarith
  have hc10 : c = 50 - (softplusFwd (-10)) ^ 2 / 2 - softplusFwd (- -10) := by linarith
  have hsq : softplusFwd (-10) ^ 2 ≤ 1 := pow_le_one₀ hb3.le hb1
  have hsq0 := sq_nonneg (softplusFwd 0)
  generalize softplusFwd (- -10) = a at *
  generalize softplusFwd (-10) = b at *
  generalize softplusFwd 0 = e at *
  clear h0 h10
  linarith

/-! ### C84 -/

/-- C84, what holds: for a variable of the library's families without sample shape, on
`[0,1]`, `[0,∞)` or the reals, `ed.MAP([z])` makes a point mass of the shape of `z` whose values are
exactly the points of the support, as the free parameters range over all values. -/
theorem C84_map_list_partial (U) (n id : ℕ) (shape : List ℕ) (s : Support) (hc : Continuous' s) (hs : s ≠ .simplex) :
    ∃ b, mapList n (.base id shape (some s)) 0 = .ok (shape, b) ∧
      Set.range (pointMassValue U b) = innerPoints s := by
  have hmap : ∀ (f g : ℝ → ℝ) (P : ℝ → Prop), (∀ a, P (f a)) → (∀ a, P a → f (g a) = a) →
      Set.range (fun v : List ℝ => v.map f) = {x | ∀ a ∈ x, P a} := by
    intro f g P h1 h2
    ext x
    constructor
    · rintro ⟨v, rfl⟩ a ha
      obtain ⟨b, -, rfl⟩ := List.mem_map.mp ha
      exact h1 b
    · intro hx
      refine ⟨x.map g, ?_⟩
      dsimp only
      rw [List.map_map]
      conv_rhs => rw [← List.map_id x]
      exact List.map_congr_left fun a ha => h2 a (hx a ha)
  cases s <;> simp only [Continuous', ne_eq, not_true_eq_false] at hc hs
  · exact ⟨some (.invert .sigmoid), by simp [mapList, mapPointMass, transform, RVar.support, RVar.shape, RVar.bijector, Bij.inverseShape, Bij.forwardShape],
      hmap sigmoidFwd sigmoidInv _ sigmoidFwd_mem fun a ha => sigmoidFwd_inv ha.1 ha.2⟩
  · exact ⟨some (.invert .softplus), by simp [mapList, mapPointMass, transform, RVar.support, RVar.shape, RVar.bijector, Bij.inverseShape, Bij.forwardShape],
      hmap softplusFwd softplusInv _ softplusFwd_pos fun a ha => softplusFwd_inv ha⟩
  · exact ⟨none, by simp [mapList, mapPointMass, transform, RVar.support, RVar.shape, RVar.bijector], Set.range_id⟩
  · exact ⟨none, by simp [mapList, mapPointMass, transform, RVar.support, RVar.shape, RVar.bijector], Set.range_id⟩

/-- C84 fails for every variable on the simplex: `ed.MAP([pi])` with a Dirichlet raises a
TypeError. -/
theorem C84_simplex_fails (n id : ℕ) (d : List ℕ) (K : ℕ) :
    mapList n (.base id (d ++ [K]) (some .simplex)) 0 = .error .typeError := by
  simp [mapList, mapPointMass, transform, RVar.support, RVar.shape, RVar.bijector, Bij.inverseShape, Bij.forwardShape]

/-- C84 fails for every variable with a sample shape on these supports: TypeError. -/
theorem C84_sample_shape_fails (n id r : ℕ) (shape : List ℕ) (s : Support) (hr : 0 < r) (hrs : r ≤ shape.length)
    (hc : Continuous' s) (hs : s ≠ .simplex) : mapList n (.base id shape (some s)) r = .error .typeError := by
  have hne : shape ≠ shape.drop r := by
    intro e
    have := congrArg List.length e
    rw [List.length_drop] at this
    omega
  cases s <;> simp only [Continuous', ne_eq, not_true_eq_false] at hc hs <;>
    simp [mapList, mapPointMass, transform, RVar.support, RVar.shape, RVar.bijector, Bij.inverseShape, Bij.forwardShape, hne]

/-- C84 fails for a variable that is itself a transformed one with an unconstrained
support: the point mass for `ed.transform(Gamma(...))`, which takes all real values, is restricted
to positive ones. -/
theorem C84_transformed_fails (U) : ∃ z b, transform 1 (.base 0 [] (some .nonnegative)) none = .ok z ∧
    z.support = some .real ∧ mapList 2 z 0 = .ok ([], b) ∧ ∀ v, ∀ a ∈ pointMassValue U b v, 0 < a := by
  refine ⟨_, some (.invert .softplus), rfl, rfl, rfl, fun v a ha => ?_⟩
  obtain ⟨b, -, rfl⟩ := List.mem_map.mp ha
  exact softplusFwd_pos b

end Edward
