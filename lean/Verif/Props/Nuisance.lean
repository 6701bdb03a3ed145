/-
C142: random variables of the model that are not inferred are integrated out.
-/
import Verif.Props.Variational
import Verif.Props.MetropolisHastings
import Verif.Props.MixtureInference
import Verif.Model.Nuisance
import Verif.Spec.Nuisance

namespace Edward
open MeasureTheory ENNReal
variable {Z X I S W : Type} [Fintype I] [Fintype S] [Fintype W]

theorem gibbs_point_nonneg {a m : ℝ} (ha : 0 ≤ a) (hm : 0 < m) : a - m ≤ a * (Real.log a - Real.log m) ∧
    (a * (Real.log a - Real.log m) = a - m → a = m) := by
  rcases ha.eq_or_lt with rfl | ha
  · exact ⟨by simp [hm.le], fun h => by simp at h; exact h.symm⟩
  · exact gibbs_point ha hm

omit [Fintype S] in
theorem geometric_pos (r : W → ℝ) (logJ : S → W → ℝ) (z : S) : 0 < Spec.geometric r logJ z := Real.exp_pos _

/-- C142, KLqp: the expected loss is the divergence from the geometric mean over the variables that are not inferred. -/
theorem C142_klqp_partial (v : ViProblem Z X I (S × W)) (q : S → ℝ) (r : W → ℝ) (logJ : S → W → ℝ)
    (hq : ∑ z, q z = 1) (hr : ∑ w, r w = 1)
    (hQ : ∀ ω, Spec.logApprox v ω = Real.log (q ω.1)) (hP : ∀ ω, Spec.logJoint v ω = logJ ω.1 ω.2) {n : ℕ} (hn : 0 < n) (reg : ℝ) :
    ∑ d : Fin n → S × W, Spec.drawsProb (pairMass q r) d * reparamLoss v n d reg =
      ∑ z, q z * (Real.log (q z) - Real.log (Spec.geometric r logJ z)) + reg := by
  have h1 : ∑ ω, pairMass q r ω = 1 := by
    simp only [pairMass, Fintype.sum_prod_type, ← Finset.mul_sum, hr, mul_one, hq]
  simp_rw [C52_reparam, mul_add]
  rw [Finset.sum_add_distrib, ← Finset.sum_mul, sum_drawsProb _ h1, one_mul,
    expect_average hn _ h1 (fun ω => Spec.logApprox v ω - Spec.logJoint v ω)]
  congr 1
  simp only [pairMass, Fintype.sum_prod_type, hQ, hP, Spec.geometric, Real.log_exp]
  refine Finset.sum_congr rfl fun z _ => ?_
  simp_rw [mul_assoc, ← Finset.mul_sum, mul_sub]
  rw [Finset.sum_sub_distrib, ← Finset.sum_mul, hr, one_mul]
  ring

/-- One latent variable and one observation, with log joint density `logJ`. -/
noncomputable def pairVi (q : S → ℝ) (logJ : S → W → ℝ) : ViProblem Unit Unit Unit (S × W) :=
  ⟨[()], [()], fun _ _ => 1, fun _ _ => 1, fun _ ω _ => Real.log (q ω.1), fun _ _ _ => 0, fun _ ω _ => logJ ω.1 ω.2⟩

example (q : S → ℝ) (logJ : S → W → ℝ) : (∀ ω, Spec.logApprox (pairVi q logJ) ω = Real.log (q ω.1)) ∧
    ∀ ω, Spec.logJoint (pairVi q logJ) ω = logJ ω.1 ω.2 := by
  constructor <;> intro ω <;> simp [Spec.logApprox, Spec.logJoint, pairVi]

/-- C142, KLqp: the loss is least at the distribution proportional to the geometric mean, and only there. -/
theorem C142_klqp_minimiser_fails [Nonempty S] (q : S → ℝ) (hq0 : ∀ z, 0 ≤ q z) (hq : ∑ z, q z = 1) (r : W → ℝ) (logJ : S → W → ℝ) :
    -Real.log (∑ z, Spec.geometric r logJ z) ≤ ∑ z, q z * (Real.log (q z) - Real.log (Spec.geometric r logJ z)) ∧
    (∑ z, q z * (Real.log (q z) - Real.log (Spec.geometric r logJ z)) = -Real.log (∑ z, Spec.geometric r logJ z) ↔
      q = Spec.normalised (Spec.geometric r logJ)) := by
  set g := Spec.geometric r logJ with hg
  have hgp : ∀ z, 0 < g z := geometric_pos r logJ
  have hs : 0 < ∑ z, g z := Finset.sum_pos (fun z _ => hgp z) Finset.univ_nonempty
  set m := Spec.normalised g with hm
  have hmp : ∀ z, 0 < m z := fun z => div_pos (hgp z) hs
  have hm1 : ∑ z, m z = 1 := by
    simp only [hm, Spec.normalised, ← Finset.sum_div]; exact div_self hs.ne'
  have hlog : ∀ z, Real.log (m z) = Real.log (g z) - Real.log (∑ z, g z) := fun z => Real.log_div (hgp z).ne' hs.ne'
  have e : ∑ z, q z * (Real.log (q z) - Real.log (g z)) =
      ∑ z, q z * (Real.log (q z) - Real.log (m z)) - Real.log (∑ z, g z) := by
    have : ∀ z, q z * (Real.log (q z) - Real.log (g z)) =
        q z * (Real.log (q z) - Real.log (m z)) - q z * Real.log (∑ z, g z) := by intro z; rw [hlog]; ring
    simp_rw [this]
    rw [Finset.sum_sub_distrib, ← Finset.sum_mul, hq, one_mul]
  have h0 : ∑ z, (q z - m z) = 0 := by rw [Finset.sum_sub_distrib, hq, hm1, sub_self]
  have hle := Finset.sum_le_sum fun z (_ : z ∈ Finset.univ) => (gibbs_point_nonneg (hq0 z) (hmp z)).1
  rw [h0] at hle
  rw [e]
  refine ⟨by linarith, fun heq => ?_, fun heq => ?_⟩
  · have hz : ∑ z, (q z - m z) = ∑ z, q z * (Real.log (q z) - Real.log (m z)) := by rw [h0]; linarith
    have := (Finset.sum_eq_sum_iff_of_le fun z (_ : z ∈ Finset.univ) => (gibbs_point_nonneg (hq0 z) (hmp z)).1).mp hz
    funext z
    exact (gibbs_point_nonneg (hq0 z) (hmp z)).2 (this z (Finset.mem_univ z)).symm
  · have : ∀ z, Real.log (q z) - Real.log (m z) = 0 := fun z => by rw [heq, sub_self]
    simp [this]

omit [Fintype S] in
/-- C142, KLqp: minus the loss is still at most the log evidence. -/
theorem C142_bound (r : W → ℝ) (hr0 : ∀ w, 0 ≤ r w) (hr : ∑ w, r w = 1) (logJ : S → W → ℝ) (z : S) :
    Spec.geometric r logJ z ≤ Spec.averaged r logJ z := by
  have := convexOn_exp.map_sum_le (t := Finset.univ) (w := r) (p := fun w => logJ z w) (fun w _ => hr0 w) hr (fun _ _ => Set.mem_univ _)
  simpa [Spec.geometric, Spec.averaged, smul_eq_mul] using this

/-- C142, KLqp: the minimum is the posterior iff arithmetic and geometric means are proportional; in particular if the variables that
are not inferred do not matter. -/
theorem C142_iff [Nonempty S] (r : W → ℝ) (hr0 : ∀ w, 0 ≤ r w) (hr : ∑ w, r w = 1) (logJ : S → W → ℝ) :
    Spec.normalised (Spec.geometric r logJ) = Spec.normalised (Spec.averaged r logJ) ↔
      ∃ c, ∀ z, Spec.averaged r logJ z = c * Spec.geometric r logJ z := by
  have hgp := geometric_pos r logJ
  have hap : ∀ z, 0 < Spec.averaged r logJ z := fun z => (hgp z).trans_le (C142_bound r hr0 hr logJ z)
  have hsg : 0 < ∑ z, Spec.geometric r logJ z := Finset.sum_pos (fun z _ => hgp z) Finset.univ_nonempty
  have hsa : 0 < ∑ z, Spec.averaged r logJ z := Finset.sum_pos (fun z _ => hap z) Finset.univ_nonempty
  constructor
  · intro h
    refine ⟨(∑ z, Spec.averaged r logJ z) / ∑ z, Spec.geometric r logJ z, fun z => ?_⟩
    have := congrFun h z
    simp only [Spec.normalised] at this
    field_simp at this ⊢
    linarith
  · rintro ⟨c, hc⟩
    funext z
    have hc0 : c ≠ 0 := by
      rintro rfl
      have := hap z
      rw [hc z, zero_mul] at this
      exact lt_irrefl _ this
    have hsum : ∑ z, Spec.averaged r logJ z = c * ∑ z, Spec.geometric r logJ z := by
      rw [Finset.mul_sum]; exact Finset.sum_congr rfl fun z _ => hc z
    simp only [Spec.normalised]
    rw [hsum, hc z, mul_div_mul_left _ _ hc0]

example : ∃ (r : Bool → ℝ) (logJ : Bool → Bool → ℝ), (∀ w, 0 ≤ r w) ∧ ∑ w, r w = 1 ∧
    ∃ c, ∀ z, Spec.averaged r logJ z = c * Spec.geometric r logJ z :=
  ⟨fun _ => 1 / 2, fun z _ => if z then 1 else 0, fun _ => by norm_num, by norm_num, 1, fun z => by
    cases z <;> simp [Spec.averaged, Spec.geometric, ← two_mul]⟩

/-- Log likelihoods of two values: the first does not depend on the variable that is not inferred, the second does; the averages
agree. -/
noncomputable def unevenLogJ (z w : Bool) : ℝ := Real.log (if z then 5 else if w then 9 else 1)

/-- C142: the posterior is uniform, the minimum of KLqp is not. -/
theorem C142_fails : (∀ z, Spec.normalised (Spec.averaged (fun _ : Bool => 1 / 2) unevenLogJ) z = 1 / 2) ∧
    Spec.normalised (Spec.geometric (fun _ : Bool => 1 / 2) unevenLogJ) true = 5 / 8 := by
  have ha : ∀ z, Spec.averaged (fun _ : Bool => 1 / 2) unevenLogJ z = 5 := by
    intro z
    have e : ∀ z w, Real.exp (unevenLogJ z w) = if z then 5 else if w then 9 else 1 := fun z w =>
      Real.exp_log (by split <;> [norm_num; (split <;> norm_num)])
    cases z
    all_goals simp [Spec.averaged, e]
    all_goals norm_num
  have hg1 : Spec.geometric (fun _ : Bool => 1 / 2) unevenLogJ true = 5 := by
    simp only [Spec.geometric, Fintype.sum_bool, unevenLogJ, if_true]
    rw [← add_mul]; norm_num [Real.exp_log]
  have hg0 : Spec.geometric (fun _ : Bool => 1 / 2) unevenLogJ false = 3 := by
    simp only [Spec.geometric, Fintype.sum_bool, unevenLogJ]
    norm_num
    rw [show (9 : ℝ) = 3 ^ 2 by norm_num, Real.log_pow, Nat.cast_ofNat, ← mul_assoc]
    norm_num [Real.exp_log]
  refine ⟨fun z => ?_, ?_⟩
  · simp only [Spec.normalised, ha, Fintype.sum_bool]; norm_num
  · simp only [Spec.normalised, Fintype.sum_bool, hg1, hg0]; norm_num

omit [Fintype S] in
/-- C142, MAP: the expected loss is minus the log of the geometric mean. -/
theorem C142_map_fails (v : ViProblem Z X I (S × W)) (r : W → ℝ) (hr : ∑ w, r w = 1) (logJ : S → W → ℝ)
    (hP : ∀ ω, Spec.logJoint v ω = logJ ω.1 ω.2) (z : S) (reg : ℝ) :
    ∑ w, r w * mapLoss v (z, w) reg = -Real.log (Spec.geometric r logJ z) + reg := by
  have hl : ∀ {K : Type} (l : List K) (a : ℝ) (t : K → ℝ), l.foldl (fun p z => p + t z) a = a + (l.map t).sum := by
    intro K l
    induction l with
    | nil => intro a t; simp
    | cons z l ih => intro a t; rw [List.foldl_cons, ih, List.map_cons, List.sum_cons]; ring
  have e : ∀ w, mapLoss v (z, w) reg = -logJ z w + reg := by
    intro w
    rw [← hP (z, w)]
    unfold mapLoss
    simp only [hl, zero_add]
    rfl
  simp_rw [e, mul_add, mul_neg]
  rw [Finset.sum_add_distrib, Finset.sum_neg_distrib, ← Finset.sum_mul, hr, one_mul, Spec.geometric, Real.log_exp]

/-- The model of `unevenLogJ` in MetropolisHastings with a flat prior, proposing the other value. -/
noncomputable def unevenMH : MHModel (Bool × Bool) :=
  ⟨[fun old new => if new.1 = old.1 then 0 else 1], [fun _ => 1], [fun s => ENNReal.ofReal (Real.exp (unevenLogJ s.1 s.2))]⟩

theorem unevenMH_accept (f : Bool → ℝ≥0∞) (z w w' : Bool) :
    ∫⁻ u in Set.Ico (0 : ℝ) 1, f (unevenMH.step (z, w) (!z, w') u).1 =
      ENNReal.ofReal (min 1 (Real.exp (unevenLogJ (!z) w') / Real.exp (unevenLogJ z w))) * f (!z) +
      (1 - ENNReal.ofReal (min 1 (Real.exp (unevenLogJ (!z) w') / Real.exp (unevenLogJ z w)))) * f z := by
  classical
  have hr : unevenMH.ratio (z, w) (!z, w') =
      log (ENNReal.ofReal (Real.exp (unevenLogJ (!z) w') / Real.exp (unevenLogJ z w))) := by
    rw [mh_ratio]
    · simp only [MHModel.joint, MHModel.propose, unevenMH, List.map_cons, List.map_nil, List.prod_cons, List.prod_nil, mul_one, one_mul]
      rw [ENNReal.ofReal_div_of_pos (Real.exp_pos _)]
      cases z <;> simp
    · constructor
      · intro g hg s s'
        simp only [unevenMH, List.mem_singleton] at hg
        subst hg
        show (if _ then _ else _) ≠ _
        split <;> simp
      · intro p hp s
        simp only [unevenMH, List.mem_singleton] at hp
        subst hp
        simp
      · intro p hp s
        simp only [unevenMH, List.mem_singleton] at hp
        subst hp
        simp
    · simp [MHModel.joint, unevenMH, Real.exp_pos]
    · cases z <;> simp [MHModel.propose, unevenMH]
  have e : ∀ u, f (unevenMH.step (z, w) (!z, w') u).1 = if accepts u (unevenMH.ratio (z, w) (!z, w')) then f (!z) else f z := by
    intro u
    unfold MHModel.step
    split <;> rfl
  simp_rw [e]
  rw [lintegral_accept, hr, acceptProb_log, ← ENNReal.ofReal_one, ← ENNReal.ofReal_min, ENNReal.ofReal_one]

/-- C142, MetropolisHastings: the posterior is not invariant. -/
theorem C142_mh_fails : ∃ f : Bool → ℝ≥0∞,
    ∑ z, ENNReal.ofReal (Spec.normalised (Spec.averaged (fun _ : Bool => 1 / 2) unevenLogJ) z) *
        mhNuisanceExpect unevenMH (fun _ => ENNReal.ofReal (1 / 2)) f z ≠
      ∑ z, ENNReal.ofReal (Spec.normalised (Spec.averaged (fun _ : Bool => 1 / 2) unevenLogJ) z) * f z := by
  refine ⟨fun z => if z then 1 else 0, ?_⟩
  have e : ∀ z w, Real.exp (unevenLogJ z w) = if z then 5 else if w then 9 else 1 := fun z w =>
    Real.exp_log (by split <;> [norm_num; (split <;> norm_num)])
  have hp0 : ∀ z w w', unevenMH.propose (z, w) (z, w') = 0 := by intro z w w'; simp [MHModel.propose, unevenMH]
  have hp1 : ∀ z w w', unevenMH.propose (z, w) (!z, w') = 1 := by intro z w w'; cases z <;> simp [MHModel.propose, unevenMH]
  have key : ∀ z, mhNuisanceExpect unevenMH (fun _ => ENNReal.ofReal (1 / 2)) (fun z => if z then 1 else 0) z =
      ENNReal.ofReal (if z then 2 / 5 else 7 / 9) := by
    intro z
    have hA : ∀ w w', ∫⁻ u in Set.Ico (0 : ℝ) 1, (fun z : Bool => if z then (1 : ℝ≥0∞) else 0) (unevenMH.step (z, w) (!z, w') u).1 =
        ENNReal.ofReal (if z then 1 - min 1 ((if w' then 9 else 1) / 5) else min 1 (5 / if w then 9 else 1)) := by
      intro w w'
      rw [unevenMH_accept (fun z : Bool => if z then (1 : ℝ≥0∞) else 0)]
      simp only [e]
      cases z
      · simp
      · simp only [Bool.not_true, Bool.false_eq_true, if_false, mul_zero, zero_add, if_true, mul_one]
        rw [ENNReal.ofReal_sub _ (by positivity), ENNReal.ofReal_one]
    have hz : mhNuisanceExpect unevenMH (fun _ => ENNReal.ofReal (1 / 2)) (fun z => if z then 1 else 0) z =
        ∑ w : Bool, ∑ w' : Bool, ENNReal.ofReal (1 / 2) * ENNReal.ofReal (1 / 2) *
          ENNReal.ofReal (if z then 1 - min 1 ((if w' then 9 else 1) / 5) else min 1 (5 / if w then 9 else 1)) := by
      unfold mhNuisanceExpect
      rw [Fintype.sum_eq_add z (!z) (by cases z <;> decide) (by intro x hx; cases x <;> cases z <;> simp_all)]
      simp only [hp0, hp1, hA, mul_zero, zero_mul, Finset.sum_const_zero, zero_add, mul_one]
    rw [hz]
    have hpos : ∀ w w' : Bool, (0 : ℝ) ≤ if z then 1 - min 1 ((if w' then 9 else 1) / 5) else min 1 (5 / if w then 9 else 1) := by
      intro w w'
      cases z <;> cases w <;> cases w' <;> norm_num
    have hm : ∀ w w' : Bool, ENNReal.ofReal (1 / 2) * ENNReal.ofReal (1 / 2) *
          ENNReal.ofReal (if z then 1 - min 1 ((if w' then 9 else 1) / 5) else min 1 (5 / if w then 9 else 1)) =
        ENNReal.ofReal (1 / 4 * if z then 1 - min 1 ((if w' then 9 else 1) / 5) else min 1 (5 / if w then 9 else 1)) := by
      intro w w'
      rw [← ENNReal.ofReal_mul (by norm_num), ← ENNReal.ofReal_mul (by norm_num)]
      norm_num
    simp_rw [hm]
    simp_rw [fun w : Bool => (ENNReal.ofReal_sum_of_nonneg (s := Finset.univ)
      fun w' _ => mul_nonneg (by norm_num : (0 : ℝ) ≤ 1 / 4) (hpos w w')).symm]
    rw [← ENNReal.ofReal_sum_of_nonneg fun w _ => Finset.sum_nonneg fun w' _ => mul_nonneg (by norm_num) (hpos w w')]
    congr 1
    simp only [Fintype.sum_bool]
    cases z <;> norm_num
  simp only [key, C142_fails.1, Fintype.sum_bool, if_true, Bool.false_eq_true, if_false, mul_one, mul_zero, add_zero]
  rw [← ENNReal.ofReal_mul (by norm_num), ← ENNReal.ofReal_mul (by norm_num), ← ENNReal.ofReal_add (by norm_num) (by norm_num)]
  intro h
  rw [ENNReal.ofReal_eq_ofReal_iff (by norm_num) (by norm_num)] at h
  norm_num at h

end Edward
