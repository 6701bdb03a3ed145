/-
Property C121: HMC samples and their averages converge to the posterior.
-/
import Verif.Lemmas.ErgodicAverage
import Verif.Lemmas.Spread
import Verif.Model.HmcChain
import Verif.Model.Convergence
import Verif.Props.Hmc
import Verif.Props.MonteCarlo

namespace Edward

set_option linter.unusedSectionVars false

open MeasureTheory ProbabilityTheory ENNReal Filter Topology

section
variable {ι : Type} [Fintype ι] [DecidableEq ι] {κ : ι → Type} [∀ i, Fintype (κ i)]

/-! ### Specification -/

/-- The posterior: the (unconstrained) joint density normalised. -/
noncomputable def hmcPosterior (p : Pos κ → ℝ≥0∞) : Measure (Pos κ) := (∫⁻ z, p z)⁻¹ • (volume : Measure (Pos κ)).withDensity p

/-- The law of the draws of one update: standard normal momenta and an independent uniform
number. -/
noncomputable def hmcDraws : Measure (Pos κ × ℝ) := (volume.withDensity momentum).prod (volume.restrict (Set.Ico (0 : ℝ) 1))

/-- Where the integrator ends, as a function of the momentum, has the same null sets as the
momentum. -/
def Spreads (h : ℝ) (G : Pos κ → Pos κ) (n : ℕ) (keys : List ι) : Prop :=
  ∀ z A, MeasurableSet A → (volume {r : Pos κ | (leapfrog h G keys n (z, r)).1 ∈ A} = 0 ↔ volume A = 0)

variable {Ω : Type} [MeasurableSpace Ω]

/-- What is assumed of density, gradient and draws. -/
structure HmcSetup (p : Pos κ → ℝ≥0∞) (G : Pos κ → Pos κ) (h : ℝ) (n : ℕ) (keys : List ι) (Pr : Measure Ω) (d : ℕ → Ω → Pos κ × ℝ) : Prop where
  meas : Measurable p
  fin : ∀ z, p z ≠ ∞
  grad : Measurable G
  evidence_pos : ∫⁻ z, p z ≠ 0
  evidence_fin : ∫⁻ z, p z ≠ ∞
  nodup : keys.Nodup
  keys_all : ∀ i, i ∈ keys
  spreads : Spreads h G n keys
  draws_meas : ∀ i, Measurable (d i)
  draws_law : ∀ i, Pr.map (d i) = hmcDraws
  draws_indep : iIndepFun d Pr

/-! ### The law of one update -/

instance : IsProbabilityMeasure (hmcDraws (κ := κ)) := by
  have h1 : IsProbabilityMeasure ((volume : Measure (Pos κ)).withDensity momentum) :=
    ⟨by rw [withDensity_apply _ MeasurableSet.univ, Measure.restrict_univ, lintegral_momentum]⟩
  have h2 : IsProbabilityMeasure (volume.restrict (Set.Ico (0 : ℝ) 1)) := ⟨by simp⟩
  unfold hmcDraws
  infer_instance

theorem measurable_kinetic : Measurable (kinetic (κ := κ)) := by
  unfold kinetic
  refine Finset.measurable_sum _ fun i _ => Measurable.const_mul ?_ _
  refine Finset.measurable_sum _ fun j _ => Measurable.pow_const ?_ _
  exact (measurable_pi_apply j).comp (measurable_pi_apply i)

theorem measurable_hmcRatio {p : Pos κ → ℝ≥0∞} (hp : Measurable p) :
    Measurable (fun a : (Pos κ × Pos κ) × (Pos κ × Pos κ) => hmcRatio p a.1 a.2) := by
  have hexp : ∀ x : ℝ, (x : EReal) = log (ENNReal.ofReal (Real.exp x)) := by
    intro x
    rw [← EReal.exp_coe, EReal.log_exp]
  have e : (fun a : (Pos κ × Pos κ) × (Pos κ × Pos κ) => hmcRatio p a.1 a.2) =
      fun a => log (ENNReal.ofReal (Real.exp (kinetic a.1.2 - kinetic a.2.2)) * p a.2.1 * (p a.1.1)⁻¹) := by
    funext a
    unfold hmcRatio
    rw [hexp, sub_eq_add_neg, ← log_inv, ← log_mul_add, ← log_mul_add]
  rw [e]
  have hk1 : Measurable (fun a : (Pos κ × Pos κ) × (Pos κ × Pos κ) => kinetic a.1.2) := measurable_kinetic.comp (measurable_snd.comp measurable_fst)
  have hk2 : Measurable (fun a : (Pos κ × Pos κ) × (Pos κ × Pos κ) => kinetic a.2.2) := measurable_kinetic.comp (measurable_snd.comp measurable_snd)
  exact Measurable.ennreal_log (((ENNReal.measurable_ofReal.comp (Real.measurable_exp.comp (hk1.sub hk2))).mul
    (hp.comp (measurable_fst.comp measurable_snd))).mul (hp.comp (measurable_fst.comp measurable_fst)).inv)

theorem measurable_leapfrog (h : ℝ) {G : Pos κ → Pos κ} (hG : Measurable G) (n : ℕ) {keys : List ι} (hn : keys.Nodup) (hk : ∀ i, i ∈ keys) :
    Measurable (leapfrog h G keys n) :=
  (C34_leapfrog_volume (E := fun i => κ i → ℝ) (volume : Measure (Pos κ)) h G hG keys hn hk n).measurable

theorem hmcMove_eq (p : Pos κ → ℝ≥0∞) (G : Pos κ → Pos κ) (h : ℝ) (n : ℕ) (keys : List ι) [∀ a b : EReal, Decidable (a < b)] (z : Pos κ) (d : Pos κ × ℝ) :
    hmcMove p G h n keys z d =
      if log (ENNReal.ofReal d.2) < hmcRatio p (z, d.1) (leapfrog h G keys n (z, d.1)) then (leapfrog h G keys n (z, d.1)).1 else z := by
  unfold hmcMove hmcStep accepts
  dsimp only
  congr

/-- Accepting or rejecting is measurable. -/
theorem measurable_choice {S A : Type} [MeasurableSpace S] [MeasurableSpace A] {u r : A → EReal} {x y : A → S} [∀ a b : EReal, Decidable (a < b)]
    (hu : Measurable u) (hr : Measurable r) (hx : Measurable x) (hy : Measurable y) : Measurable (fun a => if u a < r a then x a else y a) :=
  Measurable.ite (measurableSet_lt hu hr) hx hy

theorem measurable_hmcMove {p : Pos κ → ℝ≥0∞} (hp : Measurable p) (h : ℝ) {G : Pos κ → Pos κ} (hG : Measurable G) (n : ℕ) {keys : List ι}
    (hn : keys.Nodup) (hk : ∀ i, i ∈ keys) : Measurable (fun a : Pos κ × (Pos κ × ℝ) => hmcMove p G h n keys a.1 a.2) := by
  classical
  have hL := measurable_leapfrog h hG n hn hk
  simp only [hmcMove_eq]
  generalize leapfrog h G keys n = L at hL ⊢
  have hzr : Measurable (fun a : Pos κ × (Pos κ × ℝ) => (a.1, a.2.1)) := measurable_fst.prodMk (measurable_fst.comp measurable_snd)
  have hu : Measurable (fun a : Pos κ × (Pos κ × ℝ) => log (ENNReal.ofReal a.2.2)) :=
    Measurable.ennreal_log (ENNReal.measurable_ofReal.comp (measurable_snd.comp measurable_snd))
  have hLz : Measurable (fun a : Pos κ × (Pos κ × ℝ) => L (a.1, a.2.1)) := hL.comp hzr
  have hr : Measurable (fun a : Pos κ × (Pos κ × ℝ) => hmcRatio p (a.1, a.2.1) (L (a.1, a.2.1))) := by
    have := (measurable_hmcRatio hp).comp (hzr.prodMk hLz)
    exact this
  have hx : Measurable (fun a : Pos κ × (Pos κ × ℝ) => (L (a.1, a.2.1)).1) := measurable_fst.comp hLz
  exact measurable_choice hu hr hx measurable_fst

/-- The law of the next sample is the one whose expectations are `hmcExpect` (C35). -/
theorem lintegral_hmcMove {p : Pos κ → ℝ≥0∞} (hp : Measurable p) (h : ℝ) {G : Pos κ → Pos κ} (hG : Measurable G) (n : ℕ) {keys : List ι}
    (hn : keys.Nodup) (hk : ∀ i, i ∈ keys) {f : Pos κ → ℝ≥0∞} (hf : Measurable f) (z : Pos κ) :
    ∫⁻ z', f z' ∂stepKernel (hmcMove p G h n keys) hmcDraws z = hmcExpect p G h n keys f z := by
  have hK := measurable_hmcMove hp h hG n hn hk
  have hKz : Measurable (hmcMove p G h n keys z) := hK.comp (measurable_const.prodMk measurable_id)
  have hF : Measurable (fun d => f (hmcMove p G h n keys z d)) := hf.comp hKz
  rw [stepKernel_apply hK, lintegral_map hf hKz]
  unfold hmcDraws
  rw [lintegral_prod _ hF.aemeasurable, lintegral_withDensity_eq_lintegral_mul _ measurable_momentum hF.lintegral_prod_right']
  rfl

theorem hmc_apply {p : Pos κ → ℝ≥0∞} (hp : Measurable p) (h : ℝ) {G : Pos κ → Pos κ} (hG : Measurable G) (n : ℕ) {keys : List ι}
    (hn : keys.Nodup) (hk : ∀ i, i ∈ keys) (z : Pos κ) {A : Set (Pos κ)} (hA : MeasurableSet A) :
    stepKernel (hmcMove p G h n keys) hmcDraws z A = hmcExpect p G h n keys (A.indicator 1) z := by
  rw [← lintegral_hmcMove hp h hG n hn hk (measurable_one.indicator hA), lintegral_indicator_one hA]

/-- Probability that the proposal is accepted. -/
noncomputable def hmcAccept (p : Pos κ → ℝ≥0∞) (G : Pos κ → Pos κ) (h : ℝ) (n : ℕ) (keys : List ι) (z r : Pos κ) : ℝ≥0∞ :=
  acceptProb (hmcRatio p (z, r) (leapfrog h G keys n (z, r)))

theorem hmcAccept_eq {p : Pos κ → ℝ≥0∞} (hfin : ∀ z, p z ≠ ∞) (G : Pos κ → Pos κ) (h : ℝ) (n : ℕ) (keys : List ι) {z : Pos κ} (hz : p z ≠ 0) (r : Pos κ) :
    hmcAccept p G h n keys z r =
      min 1 (p (leapfrog h G keys n (z, r)).1 * momentum (leapfrog h G keys n (z, r)).2 / (p z * momentum r)) := by
  unfold hmcAccept
  rw [hmc_ratio p hfin _ _ hz, acceptProb_log]

theorem hmcAccept_zero_iff {p : Pos κ → ℝ≥0∞} (hfin : ∀ z, p z ≠ ∞) (G : Pos κ → Pos κ) (h : ℝ) (n : ℕ) (keys : List ι) {z : Pos κ} (hz : p z ≠ 0) (r : Pos κ) :
    hmcAccept p G h n keys z r = 0 ↔ p (leapfrog h G keys n (z, r)).1 = 0 := by
  rw [hmcAccept_eq hfin G h n keys hz]
  constructor
  · intro h0
    rcases min_choice (1 : ℝ≥0∞) (p (leapfrog h G keys n (z, r)).1 * momentum (leapfrog h G keys n (z, r)).2 / (p z * momentum r)) with h1 | h1
    · rw [h1] at h0; exact absurd h0 one_ne_zero
    · rw [h1, ENNReal.div_eq_zero_iff] at h0
      rcases h0 with h0 | h0
      · exact (mul_eq_zero.mp h0).resolve_right (momentum_ne_zero _)
      · exact absurd h0 (ENNReal.mul_ne_top (hfin _) (momentum_ne_top _))
  · intro h0
    rw [h0, zero_mul, ENNReal.zero_div]
    exact min_eq_right zero_le

theorem measurable_hmcAccept {p : Pos κ → ℝ≥0∞} (hp : Measurable p) (hfin : ∀ z, p z ≠ ∞) (h : ℝ) {G : Pos κ → Pos κ} (hG : Measurable G) (n : ℕ)
    {keys : List ι} (hn : keys.Nodup) (hk : ∀ i, i ∈ keys) {z : Pos κ} (hz : p z ≠ 0) : Measurable (hmcAccept p G h n keys z) := by
  have hL : Measurable (fun r => leapfrog h G keys n (z, r)) := (measurable_leapfrog h hG n hn hk).comp (measurable_const.prodMk measurable_id)
  rw [show hmcAccept p G h n keys z = _ from funext (hmcAccept_eq hfin G h n keys hz)]
  exact measurable_const.min (((hp.comp (measurable_fst.comp hL)).mul (measurable_momentum.comp (measurable_snd.comp hL))).div
    (measurable_momentum.const_mul _))

variable {p : Pos κ → ℝ≥0∞} {G : Pos κ → Pos κ} {h : ℝ} {n : ℕ} {keys : List ι} {Pr : Measure Ω} {d : ℕ → Ω → Pos κ × ℝ}

/-- Probability of moving into a set: what is accepted there, and what is rejected. -/
theorem hmc_split (H : HmcSetup p G h n keys Pr d) {z : Pos κ} (hz : p z ≠ 0) {A : Set (Pos κ)} (hA : MeasurableSet A) :
    stepKernel (hmcMove p G h n keys) hmcDraws z A =
      (∫⁻ r, momentum r * hmcAccept p G h n keys z r * A.indicator 1 (leapfrog h G keys n (z, r)).1) +
      A.indicator 1 z * ∫⁻ r, momentum r * (1 - hmcAccept p G h n keys z r) := by
  have ha := measurable_hmcAccept H.meas H.fin h H.grad n H.nodup H.keys_all hz
  have hL : Measurable (fun r => leapfrog h G keys n (z, r)) :=
    (measurable_leapfrog h H.grad n H.nodup H.keys_all).comp (measurable_const.prodMk measurable_id)
  have hI : Measurable (A.indicator (1 : Pos κ → ℝ≥0∞)) := measurable_one.indicator hA
  have h1 : Measurable (fun r => momentum r * hmcAccept p G h n keys z r * A.indicator (1 : Pos κ → ℝ≥0∞) (leapfrog h G keys n (z, r)).1) :=
    (measurable_momentum.mul ha).mul (hI.comp (measurable_fst.comp hL))
  have h2 : Measurable (fun r => momentum r * (1 - hmcAccept p G h n keys z r)) := measurable_momentum.mul (measurable_const.sub ha)
  rw [hmc_apply H.meas h H.grad n H.nodup H.keys_all z hA, hmcExpect_eq, ← lintegral_const_mul _ h2, ← lintegral_add_left h1]
  refine lintegral_congr fun r => ?_
  show momentum r * (hmcAccept p G h n keys z r * _ + (1 - hmcAccept p G h n keys z r) * _) = _
  ring

theorem hmcPosterior_apply {A : Set (Pos κ)} (hA : MeasurableSet A) :
    hmcPosterior p A = (∫⁻ z, p z)⁻¹ * ∫⁻ z, p z * A.indicator 1 z := by
  unfold hmcPosterior
  rw [Measure.smul_apply, withDensity_apply _ hA, smul_eq_mul, ← lintegral_indicator hA]
  congr 1
  refine lintegral_congr fun z => ?_
  by_cases hz : z ∈ A <;> simp [hz]

theorem HmcSetup.prob (H : HmcSetup p G h n keys Pr d) : IsProbabilityMeasure (hmcPosterior p) := by
  refine ⟨?_⟩
  rw [hmcPosterior_apply MeasurableSet.univ]
  simp only [Set.indicator_univ, Pi.one_apply, mul_one]
  exact ENNReal.inv_mul_cancel H.evidence_pos H.evidence_fin

/-- The part of a set where the density is positive. -/
theorem hmcPosterior_zero_iff (H : HmcSetup p G h n keys Pr d) {A : Set (Pos κ)} (hA : MeasurableSet A) :
    hmcPosterior p A = 0 ↔ volume (A ∩ {z | p z ≠ 0}) = 0 := by
  have hm : Measurable (fun z => p z * A.indicator (1 : Pos κ → ℝ≥0∞) z) := H.meas.mul (measurable_one.indicator hA)
  have h0 : (∫⁻ z, p z)⁻¹ ≠ 0 := ENNReal.inv_ne_zero.mpr H.evidence_fin
  rw [hmcPosterior_apply hA, mul_eq_zero, lintegral_eq_zero_iff hm]
  simp only [h0, false_or]
  rw [Filter.EventuallyEq, ae_iff]
  have e : {z | ¬p z * A.indicator (1 : Pos κ → ℝ≥0∞) z = (0 : Pos κ → ℝ≥0∞) z} = A ∩ {z | p z ≠ 0} := by
    ext z
    by_cases hz : z ∈ A <;> simp [hz]
  rw [e]

theorem measurableSet_positive (H : HmcSetup p G h n keys Pr d) : MeasurableSet {z | p z ≠ 0} :=
  (H.meas (measurableSet_singleton 0)).compl

/-- The accepted moves reach a set with positive probability exactly when it has positive
posterior probability. -/
theorem hmc_accepted_zero_iff (H : HmcSetup p G h n keys Pr d) {z : Pos κ} (hz : p z ≠ 0) {A : Set (Pos κ)} (hA : MeasurableSet A) :
    ∫⁻ r, momentum r * hmcAccept p G h n keys z r * A.indicator 1 (leapfrog h G keys n (z, r)).1 = 0 ↔ hmcPosterior p A = 0 := by
  have ha := measurable_hmcAccept H.meas H.fin h H.grad n H.nodup H.keys_all hz
  have hL : Measurable (fun r => leapfrog h G keys n (z, r)) :=
    (measurable_leapfrog h H.grad n H.nodup H.keys_all).comp (measurable_const.prodMk measurable_id)
  have hI : Measurable (A.indicator (1 : Pos κ → ℝ≥0∞)) := measurable_one.indicator hA
  have h1 : Measurable (fun r => momentum r * hmcAccept p G h n keys z r * A.indicator (1 : Pos κ → ℝ≥0∞) (leapfrog h G keys n (z, r)).1) :=
    (measurable_momentum.mul ha).mul (hI.comp (measurable_fst.comp hL))
  rw [lintegral_eq_zero_iff h1, hmcPosterior_zero_iff H hA, ← H.spreads z _ (hA.inter (measurableSet_positive H)), Filter.EventuallyEq, ae_iff]
  have e : {r | ¬momentum r * hmcAccept p G h n keys z r * A.indicator (1 : Pos κ → ℝ≥0∞) (leapfrog h G keys n (z, r)).1 = (0 : Pos κ → ℝ≥0∞) r} =
      {r | (leapfrog h G keys n (z, r)).1 ∈ A ∩ {z | p z ≠ 0}} := by
    ext r
    have hacc := hmcAccept_zero_iff H.fin G h n keys hz r
    by_cases hr : (leapfrog h G keys n (z, r)).1 ∈ A <;> simp [hr, hacc, momentum_ne_zero]
  rw [e]

theorem hmc_reaching (H : HmcSetup p G h n keys Pr d) : Reaching (stepKernel (hmcMove p G h n keys) hmcDraws) (hmcPosterior p) := by
  refine ⟨fun A hA => ?_, ?_⟩
  · have hI : Measurable (A.indicator (1 : Pos κ → ℝ≥0∞)) := measurable_one.indicator hA
    have hm := (stepKernel (hmcMove p G h n keys) hmcDraws).measurable_coe hA
    have hinv := C35_hmc_invariant p H.meas H.fin G H.grad h n keys H.nodup H.keys_all (A.indicator 1) hI
    rw [hmcPosterior_apply hA, ← hinv]
    unfold hmcPosterior
    rw [lintegral_smul_measure, lintegral_withDensity_eq_lintegral_mul _ H.meas hm, smul_eq_mul]
    congr 1
    refine lintegral_congr fun z => ?_
    rw [Pi.mul_apply, hmc_apply H.meas h H.grad n H.nodup H.keys_all z hA]
  · have hpos : ∀ᵐ z ∂hmcPosterior p, p z ≠ 0 := by
      rw [ae_iff, show {z | ¬p z ≠ 0} = {z | p z = 0} by simp, hmcPosterior_zero_iff H (show MeasurableSet {z | p z = 0} from H.meas (measurableSet_singleton 0))]
      have : {z : Pos κ | p z = 0} ∩ {z | p z ≠ 0} = ∅ := by ext z; simp
      rw [this, measure_empty]
    filter_upwards [hpos] with z hz
    refine Measure.AbsolutelyContinuous.mk fun A hA h0 => ?_
    rw [hmc_split H hz hA] at h0
    exact (hmc_accepted_zero_iff H hz hA).mp (add_eq_zero.mp h0).1

theorem hmc_leaves (H : HmcSetup p G h n keys Pr d) {z : Pos κ} (hz : p z ≠ 0) :
    Leaves (stepKernel (hmcMove p G h n keys) hmcDraws) (hmcPosterior p) z := by
  have hmk := stepKernel_markov (ν := hmcDraws) (measurable_hmcMove H.meas h H.grad n H.nodup H.keys_all)
  have hpp := H.prob
  have ha := measurable_hmcAccept H.meas H.fin h H.grad n H.nodup H.keys_all hz
  have hL : Measurable (fun r => (leapfrog h G keys n (z, r)).1) :=
    measurable_fst.comp ((measurable_leapfrog h H.grad n H.nodup H.keys_all).comp (measurable_const.prodMk measurable_id))
  have hma : Measurable (fun r => momentum r * hmcAccept p G h n keys z r) := measurable_momentum.mul ha
  set R := ∫⁻ r, momentum r * (1 - hmcAccept p G h n keys z r) with hR
  set ν : Measure (Pos κ) := ((volume : Measure (Pos κ)).withDensity (fun r => momentum r * hmcAccept p G h n keys z r)).map
    (fun r => (leapfrog h G keys n (z, r)).1) with hν
  have hνA : ∀ A, MeasurableSet A → ν A = ∫⁻ r, momentum r * hmcAccept p G h n keys z r * A.indicator 1 (leapfrog h G keys n (z, r)).1 := by
    intro A hA
    rw [hν, Measure.map_apply hL hA, withDensity_apply _ (hL hA), ← lintegral_indicator (hL hA)]
    refine lintegral_congr fun r => ?_
    by_cases hc : (leapfrog h G keys n (z, r)).1 ∈ A
    · rw [Set.indicator_of_mem (show r ∈ (fun r => (leapfrog h G keys n (z, r)).1) ⁻¹' A from hc), Set.indicator_of_mem hc]; simp
    · rw [Set.indicator_of_notMem (show r ∉ (fun r => (leapfrog h G keys n (z, r)).1) ⁻¹' A from hc), Set.indicator_of_notMem hc]; simp
  have hsplit : ∀ A, MeasurableSet A → stepKernel (hmcMove p G h n keys) hmcDraws z A = ν A + A.indicator 1 z * R := fun A hA => by
    rw [hmc_split H hz hA, hνA A hA]
  have htot := hsplit Set.univ MeasurableSet.univ
  rw [measure_univ] at htot
  simp only [Set.indicator_univ, Pi.one_apply, one_mul] at htot
  have hνpos : ν Set.univ ≠ 0 := by
    rw [hνA _ MeasurableSet.univ, ne_eq, hmc_accepted_zero_iff H hz MeasurableSet.univ, measure_univ]
    exact one_ne_zero
  have hRfin : R ≠ ∞ := by
    intro hc
    rw [hc, add_top] at htot
    exact absurd htot (by simp)
  have hRlt : R < 1 := by
    rw [htot]
    conv_lhs => rw [← zero_add R]
    exact ENNReal.add_lt_add_right hRfin (pos_iff_ne_zero.mpr hνpos)
  refine ⟨R.toReal, ν, ENNReal.toReal_nonneg, ?_, ?_, ?_⟩
  · have := (ENNReal.toReal_lt_toReal hRfin one_ne_top).mpr hRlt
    simpa using this
  · refine Measure.AbsolutelyContinuous.mk fun A hA h0 => ?_
    rw [hνA A hA]
    exact (hmc_accepted_zero_iff H hz hA).mpr h0
  · refine Measure.ext fun A hA => ?_
    have e : (ENNReal.ofReal R.toReal • Measure.dirac z) A = A.indicator 1 z * R := by
      rw [Measure.smul_apply, Measure.dirac_apply' _ hA, ENNReal.ofReal_toReal hRfin, smul_eq_mul, mul_comm]
    rw [hsplit A hA, Measure.add_apply, e, add_comm]

/-! ### Theorems -/

variable [IsProbabilityMeasure Pr]

/-- C121: from every starting point of positive density, the distribution of the `T`-th sample
converges to the posterior. -/
theorem C121_law (H : HmcSetup p G h n keys Pr d) {z0 : Pos κ} (hz : p z0 ≠ 0) {f : Pos κ → ℝ} (hf : Measurable f) {a b : ℝ}
    (hab : ∀ z, a ≤ f z ∧ f z ≤ b) :
    Tendsto (fun T => ∫ ω, f (walk (hmcMove p G h n keys) z0 (fun i => d i ω) T) ∂Pr) atTop (𝓝 (∫ z, f z ∂hmcPosterior p)) :=
  have := H.prob
  law_reaches (measurable_hmcMove H.meas h H.grad n H.nodup H.keys_all) (hmc_reaching H) H.draws_meas H.draws_law H.draws_indep (hmc_leaves H hz) hf hab

/-- C121: averages over the samples converge almost surely to posterior expectations, for every
function that has one. -/
theorem C121_average (H : HmcSetup p G h n keys Pr d) {z0 : Pos κ} (hz : p z0 ≠ 0) {f : Pos κ → ℝ} (hf : Measurable f)
    (hfi : Integrable f (hmcPosterior p)) :
    ∀ᵐ ω ∂Pr, Tendsto (fun T : ℕ => (∑ i ∈ Finset.range T, f (walk (hmcMove p G h n keys) z0 (fun i => d i ω) (i + 1))) / T) atTop
      (𝓝 (∫ z, f z ∂hmcPosterior p)) :=
  have := H.prob
  walk_average (measurable_hmcMove H.meas h H.grad n H.nodup H.keys_all) (hmc_reaching H) H.draws_meas H.draws_law H.draws_indep (hmc_leaves H hz) hf hfi

/-! ### When the integrator spreads the momentum -/

omit [IsProbabilityMeasure Pr] in
theorem leapfrog_lag {F : Type} [NormedAddCommGroup F] [NormedSpace ℝ F] (e : Pos κ ≃L[ℝ] F) {L : ℝ} (hL : 0 ≤ L)
    (hG : ∀ z z', ‖e (G z - G z')‖ ≤ L * ‖e (z - z')‖) (hnd : keys.Nodup) (hk : ∀ i, i ∈ keys) (z r r' : Pos κ) :
    ‖e ((leapfrog h G keys n (z, r)).1 - (leapfrog h G keys n (z, r')).1) - (n * h) • e (r - r')‖ ≤ (lag (h ^ 2 * L) n).1 * |h| * ‖e (r - r')‖ := by
  have hhalf : (0.5 * h : ℝ) = h / 2 := by ring
  set a : ℕ → Pos κ × Pos κ := fun k => (lfStep h G)^[k] (z, r) with ha
  set b : ℕ → Pos κ × Pos κ := fun k => (lfStep h G)^[k] (z, r') with hb
  have ha1 : ∀ k, a (k + 1) = lfStep h G (a k) := fun k => Function.iterate_succ_apply' _ _ _
  have hb1 : ∀ k, b (k + 1) = lfStep h G (b k) := fun k => Function.iterate_succ_apply' _ _ _
  have hz1 : ∀ u : Pos κ × Pos κ, (lfStep h G u).1 = u.1 + h • (u.2 + (h / 2) • G u.1) := fun u => by
    simp only [lfStep, hhalf]
  have hr1 : ∀ u : Pos κ × Pos κ, (lfStep h G u).2 = u.2 + (h / 2) • G u.1 + (h / 2) • G (lfStep h G u).1 := fun u => by
    simp only [lfStep, hhalf]
  have := (verlet_bound (h := h) hL (dz := fun k => e ((a k).1 - (b k).1)) (dr := fun k => e ((a k).2 - (b k).2))
    (dg := fun k => e (G (a k).1 - G (b k).1)) (by simp [ha, hb]) (fun k => hG _ _)
    (fun k => by
      rw [ha1, hb1, hz1, hz1, ← map_smul, ← map_add, ← map_smul, ← map_add]
      congr 1
      simp only [smul_add, smul_sub]
      abel)
    (fun k => by
      rw [ha1, hb1, hr1 (a k), hr1 (b k), ← map_smul, ← map_smul, ← map_add, ← map_add]
      congr 1
      simp only [smul_sub]
      abel) n).1
  rw [leapfrog_eq h G keys hnd hk, leapfrog_eq h G keys hnd hk]
  exact this

omit [IsProbabilityMeasure Pr] in
/-- End points that are a multiple of the momentum, up to a map with a smaller Lipschitz
constant. -/
theorem spreads_of_perturbation {F : Type} [NormedAddCommGroup F] [NormedSpace ℝ F] (e : Pos κ ≃L[ℝ] F) {a c : ℝ} (hc0 : 0 ≤ c) (hc : c < |a|)
    (hb : ∀ z r r', ‖e ((leapfrog h G keys n (z, r)).1 - (leapfrog h G keys n (z, r')).1) - a • e (r - r')‖ ≤ c * ‖e (r - r')‖) :
    Spreads h G n keys := by
  intro z A _
  have hfd : FiniteDimensional ℝ F := e.toLinearEquiv.finiteDimensional
  have hcs : CompleteSpace F := FiniteDimensional.complete ℝ F
  set ψ : F → F := fun s => e (leapfrog h G keys n (z, e.symm s)).1 with hψ
  obtain ⟨⟨K1, h1⟩, ⟨K2, h2⟩, h3⟩ := perturbation (f := ψ) hc hc0 (fun s s' => by
    have := hb z (e.symm s) (e.symm s')
    simpa [hψ, map_sub] using this)
  have hφ : (fun r => (leapfrog h G keys n (z, r)).1) = fun r => e.symm (ψ (e r)) := by
    funext r; simp [hψ]
  have key := null_iff_of_bilipschitz (volume : Measure (Pos κ)) (f := fun r => e.symm (ψ (e r)))
    (e.symm.lipschitz.comp (h1.comp e.lipschitz)) (e.symm.antilipschitz.comp (h2.comp e.antilipschitz))
    (e.symm.surjective.comp (h3.comp e.surjective)) A
  rw [← hφ] at key
  exact key

omit [IsProbabilityMeasure Pr] in
/-- A gradient with Lipschitz constant `L` in some norm, and a step size and number of steps that
are small enough for it. -/
theorem spreads_of_lipschitz {F : Type} [NormedAddCommGroup F] [NormedSpace ℝ F] (e : Pos κ ≃L[ℝ] F) {L : ℝ} (hL : 0 ≤ L) (hh : h ≠ 0)
    (hG : ∀ z z', ‖e (G z - G z')‖ ≤ L * ‖e (z - z')‖) (hn : (lag (h ^ 2 * L) n).1 < n) (hnd : keys.Nodup) (hk : ∀ i, i ∈ keys) :
    Spreads h G n keys := by
  have h0 : 0 < |h| := abs_pos.mpr hh
  refine spreads_of_perturbation e (a := n * h) (c := (lag (h ^ 2 * L) n).1 * |h|)
    (mul_nonneg (lag_nonneg (by positivity) n).1 h0.le) ?_ (leapfrog_lag e hL hG hnd hk)
  rw [abs_mul, abs_of_nonneg (Nat.cast_nonneg n : (0 : ℝ) ≤ n)]
  exact mul_lt_mul_of_pos_right hn h0

omit [IsProbabilityMeasure Pr] in
/-- C121: one step spreads every Lipschitz gradient. -/
theorem C121_one_step {F : Type} [NormedAddCommGroup F] [NormedSpace ℝ F] (e : Pos κ ≃L[ℝ] F) {L : ℝ} (hL : 0 ≤ L) (hh : h ≠ 0)
    (hG : ∀ z z', ‖e (G z - G z')‖ ≤ L * ‖e (z - z')‖) (hnd : keys.Nodup) (hk : ∀ i, i ∈ keys) : Spreads h G 1 keys :=
  spreads_of_lipschitz e hL hh hG (by rw [lag_one]; simp) hnd hk

omit [IsProbabilityMeasure Pr] in
/-- C121: the default number of steps, two, when `step_size² L < 2`; with the default step size
0.25 this is `L < 32`. -/
theorem C121_two_steps {F : Type} [NormedAddCommGroup F] [NormedSpace ℝ F] (e : Pos κ ≃L[ℝ] F) {L : ℝ} (hL : 0 ≤ L) (hh : h ≠ 0)
    (hG : ∀ z z', ‖e (G z - G z')‖ ≤ L * ‖e (z - z')‖) (hx : h ^ 2 * L < 2) (hnd : keys.Nodup) (hk : ∀ i, i ∈ keys) : Spreads h G 2 keys :=
  spreads_of_lipschitz e hL hh hG (by rw [lag_two]; exact_mod_cast hx) hnd hk

omit [IsProbabilityMeasure Pr] in
/-- C121: any number of steps, when `(n_steps step_size)² L ≤ 3`. -/
theorem C121_short {F : Type} [NormedAddCommGroup F] [NormedSpace ℝ F] (e : Pos κ ≃L[ℝ] F) {L : ℝ} (hL : 0 ≤ L) (hh : h ≠ 0)
    (hG : ∀ z z', ‖e (G z - G z')‖ ≤ L * ‖e (z - z')‖) (hn : 0 < n) (hx : (n * h) ^ 2 * L ≤ 3) (hnd : keys.Nodup) (hk : ∀ i, i ∈ keys) :
    Spreads h G n keys :=
  spreads_of_lipschitz e hL hh hG (lag_lt (by positivity) hn (by linarith [hx, mul_pow (n : ℝ) h 2])) hnd hk

end

/-! ### Through `inference.run()` -/

section
variable {Z J : Type} [Fintype Z] [DecidableEq Z] [Nonempty Z] [Fintype J] {Ω : Type} [MeasurableSpace Ω]

/-- C121: what is stored after `T` updates. -/
theorem C121_run {p : Pos (fun _ : Z => J) → ℝ≥0∞} {G : Pos (fun _ : Z => J) → Pos (fun _ : Z => J)} {h : ℝ} {n : ℕ} {keys : List Z} {Pr : Measure Ω}
    [IsProbabilityMeasure Pr] {d : ℕ → Ω → Pos (fun _ : Z => J) × ℝ}
    (H : HmcSetup p G h n keys Pr d) (x0 : Z → J → ℝ) (hx0 : p x0 ≠ 0) (late : ℕ → Bool)
    (p0 : ℕ → Z → List (J → ℝ)) (hlen : ∀ T z, (p0 T z).length = T) (hrow : ∀ T, 0 < T → ∀ z, (p0 T z)[0]? = some (x0 z))
    {f : (J → ℝ) → ℝ} (hf : Measurable f) (z : Z) (hfi : Integrable (fun s => f (s z)) (hmcPosterior p)) :
    ∃ st : ℕ → Ω → MCState Z (J → ℝ) Unit,
      (∀ T, 0 < T → ∀ ω, ∃ infos, mcRun (hmcKernel p G h n keys) ((List.range T).map (fun i => (d i ω, late i)))
        (mcInit (p0 T) ()) = some (st T ω, infos)) ∧
      ∀ᵐ ω ∂Pr, Tendsto (fun T => storedMean f (st T ω) z) atTop (𝓝 (∫ s, f (s z) ∂hmcPosterior p)) := by
  have hchain : ∀ (ws : ℕ → Pos (fun _ : Z => J) × ℝ) i, (chain (hmcKernel p G h n keys) x0 () ws i).1 = walk (hmcMove p G h n keys) x0 ws i := by
    intro ws i
    induction i with
    | zero => rfl
    | succ i ih =>
      show hmcMove p G h n keys (chain (hmcKernel p G h n keys) x0 () ws i).1 (ws i) = hmcMove p G h n keys (walk (hmcMove p G h n keys) x0 ws i) (ws i)
      rw [ih]
  have hrun : ∀ T ω, ∃ s infos, 0 < T → mcRun (hmcKernel p G h n keys) ((List.range T).map (fun i => (d i ω, late i)))
      (mcInit (p0 T) ()) = some (s, infos) ∧ ∀ z, s.params z = (List.range T).map
        (fun i => (walk (hmcMove p G h n keys) x0 (fun i => d i ω) (i + 1)) z) := by
    intro T ω
    by_cases hT : 0 < T
    swap
    · exact ⟨mcInit (p0 T) (), [], fun h => absurd h hT⟩
    obtain ⟨s, infos, e, hl, hr, -⟩ := C30_bookkeeping (hmcKernel p G h n keys) (p0 T) () x0 (hrow T hT) (fun i => d i ω) late T
      ((le_nIter_iff _ _).mpr fun z => (hlen T z).ge)
    refine ⟨s, infos, fun _ => ⟨e, fun z => List.ext_getElem? fun i => ?_⟩⟩
    by_cases hi : i < T
    · rw [hr z i hi, hchain]
      simp [hi]
    · rw [List.getElem?_eq_none (by rw [hl z, hlen T z]; omega), List.getElem?_eq_none (by simp; omega)]
  choose st infos hst using hrun
  refine ⟨st, fun T hT ω => ⟨infos T ω, (hst T ω hT).1⟩, ?_⟩
  have hfz : Measurable (fun s : Pos (fun _ : Z => J) => f (s z)) := hf.comp (measurable_pi_apply z)
  filter_upwards [C121_average H hx0 hfz hfi] with ω hω
  refine hω.congr' ?_
  filter_upwards [eventually_gt_atTop 0] with T hT
  unfold storedMean
  rw [(hst T ω hT).2 z, List.length_map, List.length_range, List.map_map]
  congr 1

end

end Edward
