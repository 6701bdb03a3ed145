/-
C48, C49: transformations to unconstrained supports.
-/
import Verif.Spec.Transform
import Mathlib.Data.Set.Function
import Mathlib.Algebra.BigOperators.Group.List.Basic
import Mathlib.Algebra.Order.BigOperators.Group.List
import Mathlib.Tactic.Linarith
import Mathlib.Tactic.FieldSimp
import Mathlib.Tactic.Positivity
import Mathlib.Tactic.Ring

namespace Edward

open Spec

/-! ### The bijectors -/

theorem sigmoidFwd_mem (x : ℝ) : 0 < sigmoidFwd x ∧ sigmoidFwd x < 1 := by
  have := Real.exp_pos (-x)
  unfold sigmoidFwd
  exact ⟨by positivity, by rw [div_lt_one (by positivity)]; linarith⟩

theorem sigmoidInv_fwd (x : ℝ) : sigmoidInv (sigmoidFwd x) = x := by
  have h := Real.exp_pos (-x)
  have e : 1 - 1 / (1 + Real.exp (-x)) = Real.exp (-x) / (1 + Real.exp (-x)) := by field_simp; ring
  rw [sigmoidInv, sigmoidFwd, e, Real.log_div one_ne_zero (by positivity), Real.log_div h.ne' (by positivity),
    Real.log_one, Real.log_exp]
  ring

theorem sigmoidFwd_inv {y : ℝ} (h0 : 0 < y) (h1 : y < 1) : sigmoidFwd (sigmoidInv y) = y := by
  have h : 0 < 1 - y := by linarith
  rw [sigmoidFwd, sigmoidInv, neg_sub, Real.exp_sub, Real.exp_log h, Real.exp_log h0]
  field_simp
  ring

theorem softplusFwd_pos (x : ℝ) : 0 < softplusFwd x :=
  Real.log_pos (by linarith [Real.exp_pos x])

theorem softplusInv_fwd (x : ℝ) : softplusInv (softplusFwd x) = x := by
  rw [softplusInv, softplusFwd, Real.exp_log (by positivity), add_sub_cancel_left, Real.log_exp]

theorem softplusFwd_inv {y : ℝ} (h : 0 < y) : softplusFwd (softplusInv y) = y := by
  have : 0 < Real.exp y - 1 := by linarith [Real.one_lt_exp_iff.mpr h]
  rw [softplusFwd, softplusInv, Real.exp_log this, add_sub_cancel, Real.log_exp]

theorem sum_exp_pos (x : List ℝ) : 0 < ((x ++ [0]).map Real.exp).sum := by
  rw [List.map_append, List.sum_append]
  have : 0 ≤ (x.map Real.exp).sum := List.sum_nonneg (by
    intro a ha
    obtain ⟨b, -, rfl⟩ := List.mem_map.mp ha
    exact (Real.exp_pos b).le)
  simp
  linarith

theorem softmaxCentered_mem (x : List ℝ) : softmaxCenteredFwd x ∈ innerPoints .simplex := by
  have hs := sum_exp_pos x
  refine ⟨fun a ha => ?_, ?_⟩
  · simp only [softmaxCenteredFwd, List.mem_map] at ha
    obtain ⟨_, ⟨b, -, rfl⟩, rfl⟩ := ha
    exact div_pos (Real.exp_pos b) hs
  · simp only [softmaxCenteredFwd, div_eq_mul_inv]
    rw [List.sum_map_mul_right, List.map_id', mul_inv_cancel₀ hs.ne']

theorem softmaxCenteredInv_fwd (x : List ℝ) : softmaxCenteredInv (softmaxCenteredFwd x) = x := by
  have hs := sum_exp_pos x
  unfold softmaxCenteredInv
  have hl : (softmaxCenteredFwd x).getLast? = some (Real.exp 0 / ((x ++ [0]).map Real.exp).sum) := by
    simp [softmaxCenteredFwd]
  have hd : (softmaxCenteredFwd x).dropLast = x.map (fun a => Real.exp a / ((x ++ [0]).map Real.exp).sum) := by
    simp [softmaxCenteredFwd, List.map_append, Function.comp_def]
  rw [hl, hd, List.map_map]
  conv_rhs => rw [← List.map_id x]
  refine List.map_congr_left fun a _ => ?_
  simp only [Function.comp_apply, Option.getD_some, id]
  rw [Real.log_div (Real.exp_pos _).ne' hs.ne', Real.log_div (Real.exp_pos _).ne' hs.ne', Real.log_exp, Real.log_exp]
  ring

theorem softmaxCenteredFwd_inv {y : List ℝ} (h : y ∈ innerPoints .simplex) : softmaxCenteredFwd (softmaxCenteredInv y) = y := by
  obtain ⟨hp, hs⟩ := h
  rcases List.eq_nil_or_concat y with rfl | ⟨l, b, rfl⟩
  · simp at hs
  rw [List.concat_eq_append] at *
  have hb : 0 < b := hp b (by simp)
  have e : ((softmaxCenteredInv (l ++ [b]) ++ [0]).map Real.exp) = (l ++ [b]).map (· / b) := by
    simp only [softmaxCenteredInv, List.dropLast_concat, List.getLast?_concat, Option.getD_some, List.map_append,
      List.map_map]
    congr 1
    · refine List.map_congr_left fun a ha => ?_
      simp only [Function.comp_apply]
      rw [Real.exp_sub, Real.exp_log (hp a (by simp [ha])), Real.exp_log hb]
    · simp [hb.ne']
  have es : ((l ++ [b]).map (· / b)).sum = 1 / b := by
    simp only [div_eq_mul_inv]
    rw [List.sum_map_mul_right, List.map_id', hs]
  simp only [softmaxCenteredFwd]
  rw [e, es, List.map_map]
  conv_rhs => rw [← List.map_id (l ++ [b])]
  refine List.map_congr_left fun a _ => ?_
  simp only [Function.comp_apply, id]
  field_simp

/-! ### C48 -/

/-- C48: variables with an unconstrained support are returned as they are. -/
theorem C48_real (n : ℕ) (x : RVar) (s : Support) (hs : x.support = some s) (h : Unconstrained s) :
    transform n x none = .ok x := by
  cases s <;> simp_all [Unconstrained, transform]

/-- C48: a variable on `[0,1]`, `[0,∞)` or the simplex becomes a variable with an
unconstrained support, whose draws are the images of the draws of `x` under a bijection of
the interior of the support with all vectors, and `bijector.inverse` is its inverse. -/
theorem C48_bijection (U) (n : ℕ) (x : RVar) (s : Support) (hx : x.support = some s) (h : Continuous' s)
    (hr : ¬ Unconstrained s) :
    ∃ y b s', transform n x none = .ok y ∧ y.support = some s' ∧ Unconstrained s' ∧ y.bijector = some b ∧
      (∀ ω, draw U ω y = b.forward U (draw U ω x)) ∧
      Set.BijOn (b.forward U) (innerPoints s) Set.univ ∧ Set.InvOn (b.inverse U) (b.forward U) (innerPoints s) Set.univ := by
  have key : ∀ (b : Bij) (s' : Support), transform n x none = .ok (.transformed n x b (some s')) → Unconstrained s' →
      (∀ v, b.inverse U v ∈ innerPoints s) → Set.InvOn (b.inverse U) (b.forward U) (innerPoints s) Set.univ →
      ∃ y b s', transform n x none = .ok y ∧ y.support = some s' ∧ Unconstrained s' ∧ y.bijector = some b ∧
      (∀ ω, draw U ω y = b.forward U (draw U ω x)) ∧
      Set.BijOn (b.forward U) (innerPoints s) Set.univ ∧ Set.InvOn (b.inverse U) (b.forward U) (innerPoints s) Set.univ := by
    intro b s' ht hu hm hi
    exact ⟨_, b, s', ht, rfl, hu, rfl, fun ω => rfl,
      hi.bijOn (fun _ _ => Set.mem_univ _) (fun v _ => hm v), hi⟩
  cases s <;> simp only [Continuous', Unconstrained, not_true_eq_false] at h hr
  · refine key (.invert .sigmoid) .real (by simp [transform, hx]) trivial ?_ ⟨?_, ?_⟩
    · intro v a ha
      obtain ⟨b, -, rfl⟩ := List.mem_map.mp ha
      exact sigmoidFwd_mem b
    · intro v hv
      simp only [Bij.inverse, Bij.forward, List.map_map]
      conv_rhs => rw [← List.map_id v]
      exact List.map_congr_left fun a ha => sigmoidFwd_inv (hv a ha).1 (hv a ha).2
    · intro v _
      simp only [Bij.inverse, Bij.forward, List.map_map]
      conv_rhs => rw [← List.map_id v]
      exact List.map_congr_left fun a ha => sigmoidInv_fwd a
  · refine key (.invert .softplus) .real (by simp [transform, hx]) trivial ?_ ⟨?_, ?_⟩
    · intro v a ha
      obtain ⟨b, -, rfl⟩ := List.mem_map.mp ha
      exact softplusFwd_pos b
    · intro v hv
      simp only [Bij.inverse, Bij.forward, List.map_map]
      conv_rhs => rw [← List.map_id v]
      exact List.map_congr_left fun a ha => softplusFwd_inv (hv a ha)
    · intro v _
      simp only [Bij.inverse, Bij.forward, List.map_map]
      conv_rhs => rw [← List.map_id v]
      exact List.map_congr_left fun a ha => softplusInv_fwd a
  · exact key (.invert .softmaxCentered) .multivariateReal (by simp [transform, hx]) trivial
      (fun v => softmaxCentered_mem v) ⟨fun v hv => softmaxCenteredFwd_inv hv, fun v _ => softmaxCenteredInv_fwd v⟩

/-- C48: any other support raises, and so does a variable without a support. -/
theorem C48_errors (n : ℕ) (x : RVar) :
    (x.support = none → transform n x none = .error .attributeError) ∧
    (∀ s, x.support = some s → ¬ Continuous' s → transform n x none = .error .valueError) := by
  refine ⟨fun h => by simp [transform, h], fun s hs h => ?_⟩
  cases s <;> simp_all [Continuous', transform]

/-- C48: a bijector passed by the caller is used whatever the support. -/
theorem C48_explicit (U) (n : ℕ) (x : RVar) (b : Bij) :
    ∃ y, transform n x (some b) = .ok y ∧ (∀ ω, draw U ω y = b.forward U (draw U ω x)) ∧ y.support = none :=
  ⟨_, rfl, fun _ => rfl, rfl⟩

/-- C48: with the caller's own bijector, going to the transformed space and back is what that
bijector makes of it, in both directions and also inverted. -/
theorem C48_user (U) (n : ℕ) (A B : Set (List ℝ)) (h : Set.InvOn (U n).2 (U n).1 A B) :
    Set.InvOn ((Bij.user n).inverse U) ((Bij.user n).forward U) A B ∧
    Set.InvOn ((Bij.user n).invert.inverse U) ((Bij.user n).invert.forward U) B A := by
  refine ⟨?_, ?_⟩
  · simpa only [Set.InvOn, Set.LeftInvOn, Set.RightInvOn, Bij.forward, Bij.inverse] using h
  · simpa only [Set.InvOn, Set.LeftInvOn, Set.RightInvOn, Bij.forward, Bij.inverse] using h.symm

example : Set.InvOn (fun y : List ℝ => y.map (· - 1)) (fun x : List ℝ => x.map (· + 1)) Set.univ Set.univ :=
  ⟨fun x _ => by simp [Function.comp_def], fun x _ => by simp [Function.comp_def]⟩

/-- Beyond C48: the number of entries changes only for the simplex, by one. -/
theorem C48_shape (n : ℕ) (x y : RVar) (h : transform n x none = .ok y) :
    y.shape = (if x.support = some .simplex then Bij.inverseShape .softmaxCentered x.shape else x.shape) := by
  unfold transform at h
  rcases hs : x.support with _ | s
  · simp [hs] at h
  · cases s <;> simp [hs] at h <;> subst h <;>
      simp [RVar.shape, Bij.forwardShape, Bij.inverseShape]

example : ∃ y, transform 7 (.base 0 [3] (some .simplex)) none = .ok y ∧ y.shape = [2] ∧ y.support = some .multivariateReal :=
  ⟨_, rfl, rfl, rfl⟩

example : [1 / 2, 1 / 4, 1 / 4] ∈ innerPoints .simplex := by
  refine ⟨?_, ?_⟩
  · simp
  · simp; norm_num

/-! ### C49 -/

/-- What one pass of the loop adds: a pair of `latent_vars`, a pair of
`latent_vars_unconstrained` and perhaps a pair of `transformations`. -/
def Added (p : RVar × RVar) (r : (RVar × RVar) × (RVar × RVar) × Option (RVar × RVar)) : Prop :=
  if needsTransform p.1 p.2 then
    ∃ n m zU qzU, transform n p.1 none = .ok zU ∧
      (qzU = p.2 ∧ p.2.support = some .points ∨ p.2.support ≠ some .points ∧ transform m p.2 none = .ok qzU) ∧
      ((zU = p.1 ∧ r = ((p.1, qzU), (zU, qzU), some (p.1, zU))) ∨
        ∃ k b, zU ≠ p.1 ∧ zU.bijector = some b ∧
          r = ((p.1, .transformed k qzU (.invert b) none), (zU, qzU), some (p.1, zU)))
  else r = (p, p, none)

theorem transform_ok (n : ℕ) (z zU : RVar) (h : transform n z none = .ok zU) :
    (zU = z ∧ ∃ s, z.support = some s ∧ Unconstrained s) ∨
      (zU ≠ z ∧ ∃ b s s', zU = .transformed n z b (some s') ∧ z.support = some s ∧ Continuous' s ∧ ¬ Unconstrained s ∧
        Unconstrained s') := by
  have hne : ∀ b s', RVar.transformed n z b s' ≠ z := by
    intro b s' e
    have := congrArg sizeOf e
    simp at this
    omega
  unfold transform at h
  rcases hs : z.support with _ | s
  · simp [hs] at h
  · cases s <;> simp [hs] at h <;> subst h <;> simp [Continuous', Unconstrained, hne]

theorem autoStep_added (st st' : AutoState) (p : RVar × RVar) (h : autoStep st p = (st', none)) :
    ∃ r, Added p r ∧ st'.latentVars = st.latentVars ++ [r.1] ∧ st'.unconstrained = st.unconstrained ++ [r.2.1] ∧
      st'.transformations = st.transformations ++ r.2.2.toList := by
  obtain ⟨z, qz⟩ := p
  unfold autoStep at h
  by_cases hn : needsTransform z qz
  · simp only [hn, if_true] at h
    rcases hz : transform st.next z none with e | zU
    · simp [hz] at h
    · simp only [hz] at h
      rcases hq : (if qz.support = some .points then Except.ok qz else transform (st.next + 1) qz none) with e | qzU
      · simp [hq] at h
      · simp only [hq] at h
        have hq' : (qzU = qz ∧ qz.support = some .points ∨
            qz.support ≠ some .points ∧ transform (st.next + 1) qz none = .ok qzU) := by
          split_ifs at hq with hc
          · left; exact ⟨(Except.ok.inj hq).symm, hc⟩
          · right; exact ⟨hc, hq⟩
        rcases transform_ok _ _ _ hz with ⟨rfl, -⟩ | ⟨hne, b, s, s', he, -⟩
        · simp only [ne_eq, not_true_eq_false, if_false, Prod.mk.injEq, and_true] at h
          subst h
          refine ⟨((zU, qzU), (zU, qzU), some (zU, zU)), ?_, rfl, rfl, rfl⟩
          simp only [Added, hn, if_true]
          exact ⟨_, _, zU, qzU, hz, hq', Or.inl ⟨rfl, rfl⟩⟩
        · have hb : zU.bijector = some b := by rw [he]; rfl
          simp only [ne_eq, hne, not_false_eq_true, if_true, hb, Prod.mk.injEq, and_true] at h
          subst h
          refine ⟨((z, .transformed (st.next + 1 + 1) qzU (.invert b) none), (zU, qzU), some (z, zU)), ?_, rfl, rfl, rfl⟩
          simp only [Added, hn, if_true]
          exact ⟨_, _, zU, qzU, hz, hq', Or.inr ⟨_, b, hne, hb, rfl⟩⟩
  · simp only [hn] at h
    simp only [Bool.false_eq_true, if_false, Prod.mk.injEq, and_true] at h
    subst h
    exact ⟨((z, qz), (z, qz), none), by simp [Added, hn], rfl, rfl, by simp⟩

theorem autoLoop_added (ps : List (RVar × RVar)) : ∀ (st st' : AutoState), autoLoop st ps = (st', none) →
    ∃ rs : List ((RVar × RVar) × (RVar × RVar) × Option (RVar × RVar)), List.Forall₂ Added ps rs ∧
      st'.latentVars = st.latentVars ++ rs.map (·.1) ∧ st'.unconstrained = st.unconstrained ++ rs.map (·.2.1) ∧
      st'.transformations = st.transformations ++ rs.filterMap (·.2.2) := by
  induction ps with
  | nil =>
    intro st st' h
    simp only [autoLoop, Prod.mk.injEq, and_true] at h
    subst h
    exact ⟨[], .nil, by simp, by simp, by simp⟩
  | cons p ps ih =>
    intro st st' h
    rw [autoLoop] at h
    rcases hs : autoStep st p with ⟨st1, _ | e⟩
    · rw [hs] at h
      obtain ⟨r, hr, h1, h2, h3⟩ := autoStep_added _ _ _ hs
      obtain ⟨rs, hrs, h4, h5, h6⟩ := ih _ _ h
      refine ⟨r :: rs, .cons hr hrs, by simp [h4, h1], by simp [h5, h2], ?_⟩
      rw [h6, h3, List.append_assoc]
      rcases hr2 : r.2.2 with _ | t <;> simp [hr2]
    · rw [hs] at h
      simp at h

theorem autoTransform_added (n : ℕ) (ps : List (RVar × RVar)) (st : AutoState) (h : autoTransform n ps = (st, none)) :
    ∃ rs : List ((RVar × RVar) × (RVar × RVar) × Option (RVar × RVar)), List.Forall₂ Added ps rs ∧
      st.latentVars = rs.map (·.1) ∧ st.unconstrained = rs.map (·.2.1) ∧
      st.transformations = rs.filterMap (·.2.2) := by
  simpa using autoLoop_added ps _ _ h

theorem added_key {p r} (h : Added p r) : r.1.1 = p.1 := by
  unfold Added at h
  split_ifs at h
  · obtain ⟨n, m, zU, qzU, -, -, ⟨-, rfl⟩ | ⟨k, b, -, -, rfl⟩⟩ := h <;> rfl
  · subst h; rfl

theorem added_transformation {p r t} (h : Added p r) (ht : r.2.2 = some t) : t.1 = p.1 ∧ needsTransform p.1 p.2 := by
  unfold Added at h
  split_ifs at h with hn
  · obtain ⟨n, m, zU, qzU, -, -, ⟨-, rfl⟩ | ⟨k, b, -, -, rfl⟩⟩ := h <;>
      (simp only [Option.some.injEq] at ht; subst ht; exact ⟨rfl, hn⟩)
  · subst h; simp at ht

theorem forall₂_get {α β : Type*} {R : α → β → Prop} {l : List α} {l' : List β} (h : List.Forall₂ R l l') (i : ℕ) (a : α)
    (ha : l[i]? = some a) : ∃ b, l'[i]? = some b ∧ R a b := by
  induction h generalizing i with
  | nil => simp at ha
  | cons hr _ ih =>
    cases i with
    | zero => simp at ha; subst ha; exact ⟨_, rfl, hr⟩
    | succ i => simpa using ih i (by simpa using ha)

/-- The pairs the loop leaves alone. -/
def LeftAlone (z qz : RVar) : Prop :=
  z.support = none ∨ qz.support = none ∨ z.support = qz.support ∨ qz.support = some .point

theorem needsTransform_iff (z qz : RVar) : needsTransform z qz = true ↔ ¬ LeftAlone z qz := by
  unfold needsTransform LeftAlone
  rcases z.support with _ | s <;> rcases qz.support with _ | t <;> simp

/-- C49: if `initialize` returns, every latent variable keeps an approximation, and
there is one unconstrained pair for it. -/
theorem C49_keeps_keys (n : ℕ) (ps : List (RVar × RVar)) (st : AutoState) (h : autoTransform n ps = (st, none)) :
    st.latentVars.map Prod.fst = ps.map Prod.fst ∧ st.unconstrained.length = ps.length := by
  obtain ⟨rs, hrs, h1, h2, -⟩ := autoTransform_added n ps st h
  refine ⟨?_, by rw [h2, List.length_map, hrs.length_eq]⟩
  rw [h1, List.map_map]
  clear h h1 h2
  induction hrs with
  | nil => rfl
  | cons hr _ ih => simp [added_key hr, ih]

/-- C49: a pair whose supports agree, one without supports, and a point mass are left as
they are, and no transformation is recorded for them. -/
theorem C49_left_alone (n : ℕ) (ps : List (RVar × RVar)) (st : AutoState) (h : autoTransform n ps = (st, none))
    (i : ℕ) (z qz : RVar) (hi : ps[i]? = some (z, qz)) (hl : LeftAlone z qz) :
    st.latentVars[i]? = some (z, qz) ∧ st.unconstrained[i]? = some (z, qz) ∧
      ((ps.map Prod.fst).Nodup → ∀ t ∈ st.transformations, t.1 ≠ z) := by
  obtain ⟨rs, hrs, h1, h2, h3⟩ := autoTransform_added n ps st h
  have hn : needsTransform z qz = false := by
    rw [← Bool.not_eq_true, needsTransform_iff]; exact fun hh => hh hl
  obtain ⟨r, hr, ha⟩ := forall₂_get hrs i _ hi
  have hr' : r = ((z, qz), (z, qz), none) := by simpa [Added, hn] using ha
  refine ⟨by simp [h1, hr, hr'], by simp [h2, hr, hr'], fun hnd t ht htz => ?_⟩
  rw [h3, List.mem_filterMap] at ht
  obtain ⟨r', hr'm, hr't⟩ := ht
  obtain ⟨j, hj⟩ := List.mem_iff_getElem?.mp hr'm
  obtain ⟨q, hq, haq⟩ := forall₂_get hrs.flip j _ hj
  obtain ⟨e1, e2⟩ := added_transformation haq hr't
  have hij : i = j := by
    have g1 : (ps.map Prod.fst)[i]? = some z := by simp [hi]
    have g2 : (ps.map Prod.fst)[j]? = some z := by simp [hq, ← e1, htz]
    have hlt : i < (ps.map Prod.fst).length := (List.getElem?_eq_some_iff.mp g1).1
    exact (List.getElem?_inj hlt hnd).mp (g1.trans g2.symm)
  subst hij
  rw [hi, Option.some.injEq] at hq
  subst hq
  simp [hn] at e2

/-- C49: for the other pairs the unconstrained pair is unconstrained, and the
approximation of `z` draws within the support of `z`: its draws are the draws of the
unconstrained approximation, mapped back by the inverse of the transformation of `z`. -/
theorem C49_support (U) (n : ℕ) (ps : List (RVar × RVar)) (st : AutoState) (h : autoTransform n ps = (st, none))
    (i : ℕ) (z qz : RVar) (hi : ps[i]? = some (z, qz)) (hl : ¬ LeftAlone z qz) :
    ∃ s q zU qzU sU, z.support = some s ∧ st.latentVars[i]? = some (z, q) ∧ st.unconstrained[i]? = some (zU, qzU) ∧
      (z, zU) ∈ st.transformations ∧ zU.support = some sU ∧ Unconstrained sU ∧
      (qzU = qz ∧ qz.support = some .points ∨ ∃ t, qzU.support = some t ∧ Unconstrained t) ∧
      (∀ ω, draw U ω q ∈ innerPoints s) ∧
      (∀ ω, draw U ω z ∈ innerPoints s → draw U ω zU = draw U ω qzU → draw U ω z = draw U ω q) := by
  obtain ⟨rs, hrs, h1, h2, h3⟩ := autoTransform_added n ps st h
  have hn : needsTransform z qz = true := (needsTransform_iff z qz).mpr hl
  obtain ⟨r, hr, ha⟩ := forall₂_get hrs i _ hi
  simp only [Added, hn, if_true] at ha
  obtain ⟨a, b', zU, qzU, hz, hq, hc⟩ := ha
  have hqU : qzU = qz ∧ qz.support = some .points ∨ ∃ t, qzU.support = some t ∧ Unconstrained t := by
    rcases hq with hq | ⟨-, hq⟩
    · exact Or.inl hq
    · right
      rcases transform_ok _ _ _ hq with ⟨rfl, t, ht, hu⟩ | ⟨-, b, t, t', rfl, -, -, -, hu⟩
      · exact ⟨t, ht, hu⟩
      · exact ⟨t', rfl, hu⟩
  have hmem : ∀ {x}, r.2.2 = some x → x ∈ st.transformations := by
    intro x hx
    rw [h3]
    exact List.mem_filterMap.mpr ⟨r, List.mem_of_getElem? hr, hx⟩
  rcases transform_ok _ _ _ hz with ⟨rfl, s, hs, hu⟩ | ⟨hne, b, s, s', he, hs, hcs, hus, hu⟩
  · rcases hc with ⟨-, rfl⟩ | ⟨k, b, hne, -⟩
    · have hin : innerPoints s = Set.univ := by cases s <;> simp_all [Unconstrained, innerPoints]
      refine ⟨s, qzU, zU, qzU, s, hs, by simp [h1, hr], by simp [h2, hr], hmem rfl, hs, hu, hqU, ?_, ?_⟩
      · intro ω; rw [hin]; trivial
      · intro ω _ e; exact e
    · exact absurd rfl hne
  · rcases hc with ⟨hh, -⟩ | ⟨k, b2, -, hb2, rfl⟩
    · exact absurd hh hne
    · obtain ⟨y, b3, s3, hy, -, -, hb3, hd3, hbij, hinv⟩ := C48_bijection U a z s hs hcs hus
      have hyz : y = zU := Except.ok.inj (hy.symm.trans hz)
      subst hyz
      have hbb : b2 = b3 := Option.some.inj (hb2.symm.trans hb3)
      subst hbb
      refine ⟨s, _, y, qzU, s', hs, by simp [h1, hr]; rfl, by simp [h2, hr], hmem rfl, by rw [he]; rfl, hu, hqU, ?_, ?_⟩
      · intro ω
        change b2.inverse U (draw U ω qzU) ∈ innerPoints s
        obtain ⟨v, hv, hve⟩ := hbij.surjOn (Set.mem_univ (draw U ω qzU))
        rw [← hve, hinv.1 hv]
        exact hv
      · intro ω hm e
        change draw U ω z = b2.inverse U (draw U ω qzU)
        rw [← e, hd3, hinv.1 hm]

theorem autoStep_error (st : AutoState) (z qz : RVar) (s : Support) (hl : ¬ LeftAlone z qz) (hs : z.support = some s)
    (hc : ¬ Continuous' s) : autoStep st (z, qz) = (st, some .valueError) := by
  have hn : needsTransform z qz = true := (needsTransform_iff z qz).mpr hl
  simp [autoStep, hn, (C48_errors st.next z).2 s hs hc]

/-- C49 fails: a latent variable with a discrete support is not left as it is. Whatever
the other pairs, `initialize` raises, e.g. for a Bernoulli or Categorical variable approximated by
an Empirical. -/
theorem C49_discrete_fails (n : ℕ) (ps : List (RVar × RVar)) (z qz : RVar) (s : Support) (hm : (z, qz) ∈ ps)
    (hl : ¬ LeftAlone z qz) (hs : z.support = some s) (hc : ¬ Continuous' s) : (autoTransform n ps).2 ≠ none := by
  intro he
  obtain ⟨rs, hrs, -⟩ := autoTransform_added n ps (autoTransform n ps).1 (Prod.ext rfl he)
  obtain ⟨i, hi⟩ := List.mem_iff_getElem?.mp hm
  obtain ⟨r, -, ha⟩ := forall₂_get hrs i _ hi
  simp only [Added, (needsTransform_iff z qz).mpr hl, if_true] at ha
  obtain ⟨a, -, zU, -, hz, -⟩ := ha
  rw [(C48_errors a z).2 s hs hc] at hz
  simp at hz

example : ¬ LeftAlone (.base 0 [] (some .binary)) (.base 1 [] (some .points)) ∧ ¬ Continuous' .binary ∧
    autoTransform 2 [(.base 0 [] (some .binary), .base 1 [] (some .points))] = (⟨[], [], [], 2⟩, some .valueError) := by
  refine ⟨by simp [LeftAlone, RVar.support], by simp [Continuous'], by rfl⟩

/-- C49 fails: when `initialize` raises, it has already emptied `latent_vars`: the latent
variable that raised has lost its approximation, with all later ones. -/
theorem C49_error_fails (n : ℕ) (ps : List (RVar × RVar)) (h : (autoTransform n ps).2 ≠ none) :
    (autoTransform n ps).1.latentVars.length < ps.length := by
  have key : ∀ (ps : List (RVar × RVar)) (st : AutoState), (autoLoop st ps).2 ≠ none →
      (autoLoop st ps).1.latentVars.length < st.latentVars.length + ps.length := by
    intro ps
    induction ps with
    | nil => intro st h; simp [autoLoop] at h
    | cons p ps ih =>
      intro st h
      rw [autoLoop] at h ⊢
      rcases hs : autoStep st p with ⟨st1, _ | e⟩
      · rw [hs] at h
        obtain ⟨r, -, h1, -⟩ := autoStep_added _ _ _ hs
        have := ih st1 h
        simp only [h1, List.length_append, List.length_cons, List.length_nil] at this ⊢
        omega
      · have hst : st1.latentVars = st.latentVars := by
          obtain ⟨z, qz⟩ := p
          simp only [autoStep] at hs
          by_cases hn : needsTransform z qz
          · simp only [hn, if_true] at hs
            split at hs
            · rw [Prod.mk.injEq] at hs; rw [← hs.1]
            · split at hs
              · rw [Prod.mk.injEq] at hs; rw [← hs.1]
              · simp at hs
          · simp [hn] at hs
        simp [hst]
  simpa [autoTransform] using key ps _ h

/-- C49, second initialisation, what holds: it does not raise, and the approximations of the latent
variables are those of the first. -/
theorem C49_twice_partial (n m : ℕ) (ps : List (RVar × RVar)) (st : AutoState) (h : autoTransform n ps = (st, none)) :
    (autoTransform m st.latentVars).2 = none ∧ (autoTransform m st.latentVars).1.latentVars = st.latentVars := by
  obtain ⟨rs, hrs, h1, -⟩ := autoTransform_added n ps st h
  have step : ∀ p r, Added p r → ∀ st : AutoState, ∃ st', autoStep st r.1 = (st', none) ∧
      st'.latentVars = st.latentVars ++ [r.1] := by
    intro p r ha st
    have alone : needsTransform r.1.1 r.1.2 = false → ∃ st', autoStep st r.1 = (st', none) ∧
        st'.latentVars = st.latentVars ++ [r.1] := by
      intro hf
      simp [autoStep, hf]
    have fixed : ∀ s, r.1.1.support = some s → Unconstrained s →
        (r.1.2.support = some .points ∨ ∃ t, r.1.2.support = some t ∧ Unconstrained t) →
        ∃ st', autoStep st r.1 = (st', none) ∧ st'.latentVars = st.latentVars ++ [r.1] := by
      intro s hs hu hq
      by_cases hn : needsTransform r.1.1 r.1.2
      · rcases hq with hq | ⟨t, ht, hu'⟩
        · simp [autoStep, hn, C48_real _ _ s hs hu, hq]
        · have hp : t ≠ .points := by rintro rfl; simp [Unconstrained] at hu'
          simp [autoStep, hn, C48_real _ _ s hs hu, C48_real _ _ t ht hu', ht, hp]
      · exact alone (by simpa using hn)
    unfold Added at ha
    split_ifs at ha with hn
    · obtain ⟨a, b, zU, qzU, hz, hq, ⟨hzz, rfl⟩ | ⟨k, b2, -, -, rfl⟩⟩ := ha
      · rcases transform_ok _ _ _ hz with ⟨-, s, hs, hu⟩ | ⟨hne, -⟩
        · refine fixed s hs hu ?_
          rcases hq with ⟨rfl, hq⟩ | ⟨-, hq⟩
          · exact Or.inl hq
          · right
            rcases transform_ok _ _ _ hq with ⟨rfl, t, ht, hu'⟩ | ⟨-, _, t, t', rfl, -, -, -, hu'⟩
            · exact ⟨t, ht, hu'⟩
            · exact ⟨t', rfl, hu'⟩
        · exact absurd hzz hne
      · apply alone
        rw [← Bool.not_eq_true, needsTransform_iff, not_not]
        exact Or.inr (Or.inl rfl)
    · subst ha
      exact alone (by simpa using hn)
  have loop : ∀ ps rs, List.Forall₂ Added ps rs → ∀ st : AutoState, ∃ st', autoLoop st (rs.map (·.1)) = (st', none) ∧
      st'.latentVars = st.latentVars ++ rs.map (·.1) := by
    intro ps rs hr
    induction hr with
    | nil => intro st; exact ⟨st, rfl, by simp⟩
    | cons ha _ ih =>
      intro st
      obtain ⟨st1, e1, e2⟩ := step _ _ ha st
      obtain ⟨st2, e3, e4⟩ := ih st1
      refine ⟨st2, ?_, by simp [e4, e2]⟩
      rw [List.map_cons, autoLoop, e1]
      exact e3
  obtain ⟨st', e1, e2⟩ := loop _ _ hrs ⟨[], [], [], m⟩
  rw [h1, autoTransform, e1]
  exact ⟨rfl, by simpa using e2⟩

/-- C49 fails: initialising twice is not the same as once. For any latent variable on a
constrained support approximated on another, the second initialisation records no
transformation and works on `z` itself, on its constrained support, where the first used an
unconstrained variable. -/
theorem C49_twice_fails (n m : ℕ) (z qz : RVar) (s : Support) (st : AutoState) (hl : ¬ LeftAlone z qz)
    (hs : z.support = some s) (hu : ¬ Unconstrained s) (h : autoTransform n [(z, qz)] = (st, none)) :
    (∃ zU qzU sU, st.unconstrained = [(zU, qzU)] ∧ zU.support = some sU ∧ Unconstrained sU) ∧
    (∃ q, (autoTransform m st.latentVars).1.unconstrained = [(z, q)]) ∧
      (autoTransform m st.latentVars).1.transformations = [] := by
  obtain ⟨rs, hrs, h1, h2, -⟩ := autoTransform_added n _ st h
  cases hrs with
  | cons ha hnil =>
    cases hnil
    simp only [Added, (needsTransform_iff z qz).mpr hl, if_true] at ha
    obtain ⟨a, -, zU, qzU, hz, -, ⟨hzz, -⟩ | ⟨k, b2, -, -, rfl⟩⟩ := ha
    · rcases transform_ok _ _ _ hz with ⟨-, t, ht, hu'⟩ | ⟨hne, -⟩
      · rw [hs, Option.some.injEq] at ht; subst ht; exact absurd hu' hu
      · exact absurd hzz hne
    · refine ⟨?_, ?_⟩
      · rcases transform_ok _ _ _ hz with ⟨-, t, ht, hu'⟩ | ⟨-, b, _, s', he, -, -, -, hu'⟩
        · rw [hs, Option.some.injEq] at ht; subst ht; exact absurd hu' hu
        · exact ⟨zU, qzU, s', h2, by rw [he]; rfl, hu'⟩
      · have hf : needsTransform z (.transformed k qzU (.invert b2) none) = false := by
          rw [← Bool.not_eq_true, needsTransform_iff, not_not]
          exact Or.inr (Or.inl rfl)
        rw [h1]
        simp [autoTransform, autoLoop, autoStep, hf]

/-- A Gamma latent variable with an Empirical approximation. -/
example : ∃ st, autoTransform 2 [(.base 0 [] (some .nonnegative), .base 1 [] (some .points))] = (st, none) ∧
    ¬ LeftAlone (.base 0 [] (some .nonnegative)) (.base 1 [] (some .points)) ∧ ¬ Unconstrained .nonnegative :=
  ⟨_, rfl, by simp [LeftAlone, RVar.support], by simp [Unconstrained]⟩

end Edward
