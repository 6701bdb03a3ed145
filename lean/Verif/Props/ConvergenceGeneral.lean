/-
Property C119: Metropolis-Hastings converges whenever every state of positive
density can be proposed from every other, without a bound on how often.
-/
import Verif.Lemmas.ErgodicAverage
import Verif.Props.Convergence
import Verif.Props.ReplicaExchange
import Mathlib.Probability.Distributions.Gaussian.Real

namespace Edward

set_option linter.unusedSectionVars false

open MeasureTheory ProbabilityTheory ENNReal Filter Topology

section
variable {Y E Ω : Type} [MeasurableSpace Y] [MeasurableSpace E] [MeasurableSpace Ω]

/-- A starting point from which every state of positive density can be proposed, and back. Its
own density may be zero. -/
def MHModel.Start (m : MHModel (Y × Unit)) (y : Y) : Prop :=
  ∀ y', m.joint (y', ()) ≠ 0 → m.propose (y, ()) (y', ()) ≠ 0 ∧ m.propose (y', ()) (y, ()) ≠ 0

/-- The ratio vanishes when the new state has density zero or the old one cannot be proposed
from it, also when the old state has density zero. -/
theorem ratioE_eq_zero {S : Type} {m : MHModel S} (hf : m.Finite) (old new : S) :
    ratioE m old new = 0 ↔ m.joint new = 0 ∨ m.propose new old = 0 := by
  have h1 : (m.proposals.map (fun g => (g old new)⁻¹)).prod ≠ 0 := by
    rw [ne_eq, List.prod_eq_zero_iff, List.mem_map]
    rintro ⟨g, hg, h⟩
    exact hf.proposals g hg _ _ (ENNReal.inv_eq_zero.mp h)
  have h2 : ∀ l : List (S → ℝ≥0∞), (∀ p ∈ l, ∀ s, p s ≠ ∞) →
      ((l.map (fun p => p new * (p old)⁻¹)).prod = 0 ↔ (l.map (fun p => p new)).prod = 0) := by
    intro l hl
    rw [List.prod_eq_zero_iff, List.prod_eq_zero_iff, List.mem_map, List.mem_map]
    refine exists_congr fun p => and_congr_right fun hp => ?_
    rw [mul_eq_zero, ENNReal.inv_eq_zero]
    exact or_iff_left (hl p hp old)
  unfold ratioE MHModel.joint MHModel.propose
  rw [one_mul, mul_eq_zero, mul_eq_zero, mul_eq_zero, h2 _ hf.priors, h2 _ hf.liks, mul_eq_zero]
  tauto

theorem measurable_ratioE_right {m : MHModel (Y × Unit)} (hm : m.Meas) (s : Y × Unit) : Measurable (fun y' : Y => ratioE m s (y', ())) := by
  have hpair : Measurable (fun y' : Y => (((s, (y', ()))) : (Y × Unit) × (Y × Unit))) :=
    measurable_const.prodMk (measurable_id.prodMk measurable_const)
  have h := (measurable_ratioE hm).comp hpair
  simp only [Function.comp_def] at h
  exact h

/-- What is assumed of model, proposals and draws: finite measurable densities, a proper
posterior, normalised proposals, fresh draws in every update, and that every state of positive
density can be proposed from every other one. -/
structure ReachSetup (m : MHModel (Y × Unit)) (μ : Measure Y) (η : Measure E) (sample : Y × Unit → E → Y)
    (Pr : Measure Ω) (d : ℕ → Ω → E × ℝ) : Prop where
  fin : m.Finite
  meas : m.Meas
  evidence_pos : ∫⁻ y, m.joint (y, ()) ∂μ ≠ 0
  evidence_fin : ∫⁻ y, m.joint (y, ()) ∂μ ≠ ∞
  norm : ∀ s : Y × Unit, ∫⁻ y', m.propose s (y', s.2) ∂μ = 1
  samples : Samples m μ η sample
  reach : ∀ y y', m.joint (y, ()) ≠ 0 → m.joint (y', ()) ≠ 0 → m.propose (y, ()) (y', ()) ≠ 0
  draws_meas : ∀ i, Measurable (d i)
  draws_law : ∀ i, Pr.map (d i) = drawLaw η
  draws_indep : iIndepFun d Pr

variable {m : MHModel (Y × Unit)} {μ : Measure Y} [SFinite μ] {η : Measure E} [IsProbabilityMeasure η]
  {sample : Y × Unit → E → Y} {Pr : Measure Ω} [IsProbabilityMeasure Pr] {d : ℕ → Ω → E × ℝ}

theorem ReachSetup.reachMH (h : ReachSetup m μ η sample Pr d) :
    ReachMH m.joint m.propose m.ratio μ (stepKernel (mhMove m sample) (drawLaw η)) where
  mh := m.isMH h.fin h.meas
  evidence_pos := h.evidence_pos
  evidence_fin := h.evidence_fin
  norm := h.norm
  reach := h.reach
  law := fun s A hA => by
    rw [← MHModel.expect_eq_acceptReject, ← lintegral_mhMove h.meas h.samples _ (measurable_one.indicator hA), lintegral_indicator_one hA]

theorem ReachSetup.prob (h : ReachSetup m μ η sample Pr d) : IsProbabilityMeasure (posteriorMeasure m (refMeasure μ)) := h.reachMH.prob

theorem mh_reaching (h : ReachSetup m μ η sample Pr d) :
    Reaching (stepKernel (mhMove m sample) (drawLaw η)) (posteriorMeasure m (refMeasure μ)) := h.reachMH.reaching

/-- States of positive density can serve as starting points. -/
theorem ReachSetup.start (h : ReachSetup m μ η sample Pr d) {y : Y} (hy : m.joint (y, ()) ≠ 0) : m.Start y := fun y' hy' =>
  ⟨h.reach y y' hy hy', h.reach y' y hy' hy⟩

theorem mh_leaves (h : ReachSetup m μ η sample Pr d) {y : Y} (hy : m.Start y) :
    Leaves (stepKernel (mhMove m sample) (drawLaw η)) (posteriorMeasure m (refMeasure μ)) (y, ()) := by
  have := stepKernel_markov (ν := drawLaw η) (measurable_mhMove h.meas h.samples.meas)
  have e : ∀ y', acceptProb (m.ratio (y, ()) (y', ())) = min 1 (ratioE m (y, ()) (y', ())) := fun y' => by
    rw [ratio_eq_log, acceptProb_log]
  have hr : Measurable (fun y' : Y => ratioE m (y, ()) (y', ())) := measurable_ratioE_right h.meas (y, ())
  have hα : Measurable (fun y' : Y => acceptProb (m.ratio (y, ()) (y', ()))) := by
    simp only [e]
    exact measurable_const.min hr
  refine h.reachMH.leaves hα (fun y' hy' => (hy y' hy').1) fun y' _ => ?_
  rw [e, min_eq_zero, ratioE_eq_zero h.fin]
  refine ⟨fun hz => ?_, fun hz => Or.inr (Or.inl hz)⟩
  by_contra hc
  rcases hz with hz | hz | hz
  · exact one_ne_zero hz
  · exact hc hz
  · exact (hy y' hc).2 hz

/-- C119: the distribution of the `n`-th sample converges to the posterior from every starting
point of positive density, and also from those of density zero from which the states of
positive density can be proposed. -/
theorem C119_law (h : ReachSetup m μ η sample Pr d) {y0 : Y} (hy : m.Start y0)
    {f : Y × Unit → ℝ} (hf : Measurable f) {a b : ℝ} (hab : ∀ s, a ≤ f s ∧ f s ≤ b) :
    Tendsto (fun n => ∫ ω, f (walk (mhMove m sample) (y0, ()) (fun i => d i ω) n) ∂Pr) atTop
      (𝓝 (∫ s, f s ∂posteriorMeasure m (refMeasure μ))) :=
  have := h.prob
  law_reaches (measurable_mhMove h.meas h.samples.meas) (mh_reaching h) h.draws_meas h.draws_law h.draws_indep (mh_leaves h hy) hf hab

/-- C119: averages over the samples converge almost surely to posterior expectations, for every
function that has one. -/
theorem C119_average (h : ReachSetup m μ η sample Pr d) {y0 : Y} (hy : m.Start y0)
    {f : Y × Unit → ℝ} (hf : Measurable f) (hfi : Integrable f (posteriorMeasure m (refMeasure μ))) :
    ∀ᵐ ω ∂Pr, Tendsto (fun n : ℕ => (∑ i ∈ Finset.range n, f (walk (mhMove m sample) (y0, ()) (fun i => d i ω) (i + 1))) / n)
      atTop (𝓝 (∫ s, f s ∂posteriorMeasure m (refMeasure μ))) :=
  have := h.prob
  walk_average (measurable_mhMove h.meas h.samples.meas) (mh_reaching h) h.draws_meas h.draws_law h.draws_indep (mh_leaves h hy) hf hfi

end

section
variable {Z V E Ω : Type} [Fintype Z] [DecidableEq Z] [Nonempty Z] [MeasurableSpace V] [MeasurableSpace E] [MeasurableSpace Ω]

/-- C119, end to end: `T` updates filling an `Empirical` with `T` rows succeed, whatever it held
(row 0 being the starting point), and as `T` grows the average over the rows converges almost
surely to the posterior expectation, for every function of a latent variable that has one. With
`f` the identity this is `qz.mean()`. -/
theorem C119_run {m : MHModel ((Z → V) × Unit)} {μ : Measure (Z → V)} [SFinite μ] {η : Measure E} [IsProbabilityMeasure η]
    {sample : (Z → V) × Unit → E → Z → V} {Pr : Measure Ω} [IsProbabilityMeasure Pr] {d : ℕ → Ω → E × ℝ}
    (h : ReachSetup m μ η sample Pr d) (x0 : Z → V) (hx0 : m.Start x0) (late : ℕ → Bool)
    (p0 : ℕ → Z → List V) (hlen : ∀ T z, (p0 T z).length = T) (hrow : ∀ T, 0 < T → ∀ z, (p0 T z)[0]? = some (x0 z))
    {f : V → ℝ} (hf : Measurable f) (z : Z) (hfi : Integrable (fun s => f (s.1 z)) (posteriorMeasure m (refMeasure μ))) :
    ∃ st : ℕ → Ω → MCState Z V Unit,
      (∀ T, 0 < T → ∀ ω, ∃ infos, mcRun (mhKernel m sample) ((List.range T).map (fun i => (d i ω, late i)))
        (mcInit (p0 T) ()) = some (st T ω, infos)) ∧
      ∀ᵐ ω ∂Pr, Tendsto (fun T => storedMean f (st T ω) z) atTop (𝓝 (∫ s, f (s.1 z) ∂posteriorMeasure m (refMeasure μ))) := by
  have hrun : ∀ T ω, ∃ s infos, 0 < T → mcRun (mhKernel m sample) ((List.range T).map (fun i => (d i ω, late i)))
      (mcInit (p0 T) ()) = some (s, infos) ∧ ∀ z, s.params z = (List.range T).map
        (fun i => (walk (mhMove m sample) (x0, ()) (fun i => d i ω) (i + 1)).1 z) := by
    intro T ω
    by_cases hT : 0 < T
    swap
    · exact ⟨mcInit (p0 T) (), [], fun h => absurd h hT⟩
    obtain ⟨s, infos, e, hl, hr, -⟩ := C30_bookkeeping (mhKernel m sample) (p0 T) () x0 (hrow T hT) (fun i => d i ω) late T
      ((le_nIter_iff _ _).mpr fun z => (hlen T z).ge)
    refine ⟨s, infos, fun _ => ⟨e, fun z => List.ext_getElem? fun i => ?_⟩⟩
    by_cases hi : i < T
    · rw [hr z i hi, chain_eq_walk]
      simp [hi]
    · rw [List.getElem?_eq_none (by rw [hl z, hlen T z]; omega), List.getElem?_eq_none (by simp; omega)]
  choose st infos hst using hrun
  refine ⟨st, fun T hT ω => ⟨infos T ω, (hst T ω hT).1⟩, ?_⟩
  have hfz : Measurable (fun s : (Z → V) × Unit => f (s.1 z)) := hf.comp ((measurable_pi_apply z).comp measurable_fst)
  filter_upwards [C119_average h hx0 hfz hfi] with ω hω
  refine hω.congr' ?_
  filter_upwards [eventually_gt_atTop 0] with T hT
  unfold storedMean
  rw [(hst T ω hT).2 z, List.length_map, List.length_range, List.map_map]
  congr 1

end

/-! ### A random walk on the real line -/

/-- One real latent variable with a standard normal prior, an observation `x` with unit variance
and a proposal centred at the current value. The proposal can be arbitrarily less probable than
the posterior, so `ChainSetup` holds for no `ε`. -/
noncomputable def walkModel (x : ℝ) : MHModel ((Unit → ℝ) × Unit) where
  proposals := [fun s s' => gaussianPDF (s.1 ()) 1 (s'.1 ())]
  priors := [fun s => gaussianPDF 0 1 (s.1 ())]
  liks := [fun s => gaussianPDF (s.1 ()) 1 x]

/-- One normal draw. -/
noncomputable abbrev normalDraw : Measure ℝ := gaussianReal 0 1

theorem walk_joint (x : ℝ) (s) : (walkModel x).joint s = gaussianPDF 0 1 (s.1 ()) * gaussianPDF (s.1 ()) 1 x := by
  simp [MHModel.joint, walkModel]

theorem walk_propose (x : ℝ) (s s') : (walkModel x).propose s s' = gaussianPDF (s.1 ()) 1 (s'.1 ()) := by
  simp [MHModel.propose, walkModel]

theorem gaussianPDF_ne_zero (a x : ℝ) : gaussianPDF a 1 x ≠ 0 := by
  unfold gaussianPDF
  simp only [ne_eq, ENNReal.ofReal_eq_zero, not_le]
  exact gaussianPDFReal_pos _ _ _ one_ne_zero

theorem gaussianPDF_ne_top (a x : ℝ) : gaussianPDF a 1 x ≠ ∞ := ENNReal.ofReal_ne_top

theorem measurable_gaussianPDF_pair : Measurable (fun q : ℝ × ℝ => gaussianPDF q.1 1 q.2) := by
  unfold gaussianPDF gaussianPDFReal
  fun_prop

theorem lintegral_unit (g : ℝ → ℝ≥0∞) (hg : Measurable g) : ∫⁻ y : Unit → ℝ, g (y ()) = ∫⁻ x, g x := by
  have h := (volume_preserving_funUnique Unit ℝ)
  exact h.lintegral_comp hg

theorem measurable_value : Measurable (fun s : (Unit → ℝ) × Unit => s.1 ()) := (measurable_pi_apply ()).comp measurable_fst

theorem walk_meas (x : ℝ) : (walkModel x).Meas := by
  refine ⟨?_, ?_, ?_⟩
  · intro g hg
    simp only [walkModel, List.mem_singleton] at hg
    subst hg
    have h := (measurable_value.comp (measurable_fst (β := (Unit → ℝ) × Unit))).prodMk
      (measurable_value.comp (measurable_snd (α := (Unit → ℝ) × Unit)))
    have := measurable_gaussianPDF_pair.comp h
    simp only [Function.comp_def] at this
    exact this
  · intro g hg
    simp only [walkModel, List.mem_singleton] at hg
    subst hg
    have := (measurable_gaussianPDF 0 1).comp measurable_value
    simp only [Function.comp_def] at this
    exact this
  · intro g hg
    simp only [walkModel, List.mem_singleton] at hg
    subst hg
    have := measurable_gaussianPDF_pair.comp (measurable_value.prodMk (measurable_const (a := x)))
    simp only [Function.comp_def] at this
    exact this

theorem walk_fin (x : ℝ) : (walkModel x).Finite := by
  refine ⟨?_, ?_, ?_⟩
  · intro g hg s s'
    simp only [walkModel, List.mem_singleton] at hg
    subst hg; exact gaussianPDF_ne_top _ _
  · intro g hg s
    simp only [walkModel, List.mem_singleton] at hg
    subst hg; exact gaussianPDF_ne_top _ _
  · intro g hg s
    simp only [walkModel, List.mem_singleton] at hg
    subst hg; exact gaussianPDF_ne_top _ _

theorem measurable_walk_density (x : ℝ) : Measurable (fun t : ℝ => gaussianPDF 0 1 t * gaussianPDF t 1 x) := by
  have := measurable_gaussianPDF_pair.comp ((measurable_id (α := ℝ)).prodMk (measurable_const (a := x)))
  simp only [Function.comp_def, id] at this
  exact (measurable_gaussianPDF 0 1).mul this

theorem gaussianPDF_le_one (t x : ℝ) : gaussianPDF t 1 x ≤ 1 := by
  unfold gaussianPDF
  rw [← ENNReal.ofReal_one]
  refine ENNReal.ofReal_le_ofReal ?_
  rw [gaussianPDFReal]
  have h1 : (√(2 * Real.pi * ((1 : NNReal) : ℝ)))⁻¹ ≤ 1 := by
    refine inv_le_one_of_one_le₀ ?_
    rw [Real.one_le_sqrt]
    have := Real.two_le_pi
    push_cast
    linarith
  have h2 : Real.exp (-(x - t) ^ 2 / (2 * ((1 : NNReal) : ℝ))) ≤ 1 := by
    refine Real.exp_le_one_iff.mpr ?_
    have : 0 ≤ (x - t) ^ 2 := sq_nonneg _
    push_cast
    linarith
  calc _ ≤ 1 * 1 := mul_le_mul h1 h2 (Real.exp_pos _).le zero_le_one
    _ = 1 := one_mul 1

theorem walk_evidence_pos (x : ℝ) : ∫⁻ y : Unit → ℝ, (walkModel x).joint (y, ()) ≠ 0 := by
  simp only [walk_joint]
  rw [lintegral_unit (fun t => gaussianPDF 0 1 t * gaussianPDF t 1 x) (measurable_walk_density x)]
  intro h0
  rw [lintegral_eq_zero_iff (measurable_walk_density x)] at h0
  have : ∀ᵐ t : ℝ, False := by
    filter_upwards [h0] with t ht
    exact mul_ne_zero (gaussianPDF_ne_zero _ _) (gaussianPDF_ne_zero _ _) ht
  exact absurd this (by simp [NeZero.ne])

theorem walk_evidence_fin (x : ℝ) : ∫⁻ y : Unit → ℝ, (walkModel x).joint (y, ()) ≠ ∞ := by
  simp only [walk_joint]
  rw [lintegral_unit (fun t => gaussianPDF 0 1 t * gaussianPDF t 1 x) (measurable_walk_density x)]
  have hle : ∀ t : ℝ, gaussianPDF 0 1 t * gaussianPDF t 1 x ≤ gaussianPDF 0 1 t * 1 := fun t =>
    mul_le_mul_right (gaussianPDF_le_one t x) _
  refine ne_top_of_le_ne_top one_ne_top ((lintegral_mono hle).trans ?_)
  simp only [mul_one]
  rw [lintegral_gaussianPDF_eq_one 0 one_ne_zero]

theorem walk_samples (x : ℝ) : Samples (walkModel x) (volume : Measure (Unit → ℝ)) normalDraw (fun s e _ => s.1 () + e) := by
  have hev : Measurable (fun s : (Unit → ℝ) × Unit => s.1 ()) := (measurable_pi_apply ()).comp measurable_fst
  refine ⟨measurable_pi_lambda _ fun _ => (hev.comp measurable_fst).add measurable_snd, fun s => ?_⟩
  have hmeas : Measurable (fun (e : ℝ) (_ : Unit) => s.1 () + e) := measurable_pi_lambda _ fun _ => measurable_const.add measurable_id
  refine Measure.ext fun A hA => ?_
  have hI : Measurable (A.indicator (1 : (Unit → ℝ) → ℝ≥0∞)) := measurable_one.indicator hA
  have hconst : Measurable (fun (t : ℝ) (_ : Unit) => t) := measurable_pi_lambda _ fun _ => measurable_id
  have hu : ∀ y : Unit → ℝ, (fun _ : Unit => y ()) = y := fun y => rfl
  rw [← lintegral_indicator_one hA, ← lintegral_indicator_one hA, lintegral_map hI hmeas]
  have hg : Measurable (fun y' : Unit → ℝ => (walkModel x).propose s (y', s.2)) := by
    simp only [walk_propose]
    exact (measurable_gaussianPDF _ _).comp (measurable_pi_apply ())
  rw [lintegral_withDensity_eq_lintegral_mul _ hg hI]
  have e1 : ∫⁻ y : Unit → ℝ, ((fun y' : Unit → ℝ => (walkModel x).propose s (y', s.2)) * A.indicator (1 : (Unit → ℝ) → ℝ≥0∞)) y =
      ∫⁻ t, gaussianPDF (s.1 ()) 1 t * A.indicator 1 (fun _ => t) := by
    rw [← lintegral_unit (fun t => gaussianPDF (s.1 ()) 1 t * A.indicator 1 (fun _ => t)) ((measurable_gaussianPDF _ _).mul (hI.comp hconst))]
    refine lintegral_congr fun y => ?_
    simp only [Pi.mul_apply, walk_propose]
  have e2 : ∫⁻ e, A.indicator 1 (fun _ : Unit => s.1 () + e) ∂normalDraw = ∫⁻ t, A.indicator 1 (fun _ : Unit => t) ∂gaussianReal (s.1 ()) 1 := by
    have := gaussianReal_map_const_add (μ := 0) (v := 1) (s.1 ())
    rw [zero_add] at this
    rw [← this]
    exact (lintegral_map (f := fun t => A.indicator 1 (fun _ : Unit => t)) (g := fun e => s.1 () + e) (hI.comp hconst)
      (measurable_const.add measurable_id)).symm
  rw [e1, e2, gaussianReal_of_var_ne_zero _ one_ne_zero]
  exact lintegral_withDensity_eq_lintegral_mul _ (measurable_gaussianPDF _ _) (g := fun t => A.indicator 1 (fun _ : Unit => t)) (hI.comp hconst)

theorem walk_setup (x : ℝ) : ReachSetup (walkModel x) (volume : Measure (Unit → ℝ)) normalDraw (fun s e _ => s.1 () + e)
    (Measure.infinitePi (fun _ : ℕ => drawLaw normalDraw)) (fun i ω => ω i) where
  fin := walk_fin x
  meas := walk_meas x
  evidence_pos := walk_evidence_pos x
  evidence_fin := walk_evidence_fin x
  norm := by
    intro s
    simp only [walk_propose]
    rw [lintegral_unit (fun t => gaussianPDF (s.1 ()) 1 t) (measurable_gaussianPDF _ _), lintegral_gaussianPDF_eq_one _ one_ne_zero]
  samples := walk_samples x
  reach := by
    intro y y' _ _
    rw [walk_propose]
    exact gaussianPDF_ne_zero _ _
  draws_meas := fun i => measurable_pi_apply i
  draws_law := fun i => Measure.infinitePi_map_eval _ i
  draws_indep := iIndepFun_infinitePi (X := fun _ x => x) (fun _ => measurable_id)

/-- The posterior of the example has a mean. -/
theorem walk_integrable (x : ℝ) : Integrable (fun s : (Unit → ℝ) × Unit => s.1 ()) (posteriorMeasure (walkModel x) (refMeasure volume)) := by
  refine ⟨measurable_value.aestronglyMeasurable, ?_⟩
  have hj := (walkModel x).measurable_joint (walk_meas x)
  have hn : Measurable (fun s : (Unit → ℝ) × Unit => ‖s.1 ()‖ₑ) := measurable_value.enorm
  rw [hasFiniteIntegral_iff_enorm]
  unfold posteriorMeasure
  rw [lintegral_smul_measure, lintegral_withDensity_eq_lintegral_mul _ hj hn, lintegral_ref _ _ hj, smul_eq_mul]
  refine ENNReal.mul_lt_top (ENNReal.inv_lt_top.mpr (pos_iff_ne_zero.mpr (walk_evidence_pos x))) ?_
  rw [lintegral_ref _ _ (hj.mul hn)]
  simp only [Pi.mul_apply, walk_joint]
  have hm : Measurable (fun t : ℝ => gaussianPDF 0 1 t * gaussianPDF t 1 x * ‖t‖ₑ) := (measurable_walk_density x).mul measurable_enorm
  rw [lintegral_unit (fun t => gaussianPDF 0 1 t * gaussianPDF t 1 x * ‖t‖ₑ) hm]
  have hle : ∀ t : ℝ, gaussianPDF 0 1 t * gaussianPDF t 1 x * ‖t‖ₑ ≤ gaussianPDF 0 1 t * ‖t‖ₑ := fun t =>
    mul_le_mul_left ((mul_le_mul_right (gaussianPDF_le_one t x) _).trans (mul_one _).le) _
  refine (lintegral_mono hle).trans_lt ?_
  have hi : Integrable (fun t : ℝ => t) (gaussianReal 0 1) := (memLp_id_gaussianReal 1).integrable le_rfl
  have h2 := hi.2
  rw [hasFiniteIntegral_iff_enorm, gaussianReal_of_var_ne_zero _ one_ne_zero,
    lintegral_withDensity_eq_lintegral_mul _ (measurable_gaussianPDF _ _) measurable_enorm] at h2
  exact h2

/-- The hypotheses are satisfied by an unbounded posterior and an unbounded function: the mean
of the `Empirical` converges to the posterior mean. -/
example (x : ℝ) (late : ℕ → Bool) :
    ∃ st : ℕ → (ℕ → ℝ × ℝ) → MCState Unit ℝ Unit,
      (∀ T, 0 < T → ∀ ω, ∃ infos, mcRun (mhKernel (walkModel x) (fun s e _ => s.1 () + e)) ((List.range T).map (fun i => (ω i, late i)))
        (mcInit (fun _ => List.replicate T 3) ()) = some (st T ω, infos)) ∧
      ∀ᵐ ω ∂Measure.infinitePi (fun _ : ℕ => drawLaw normalDraw), Tendsto (fun T => storedMean id (st T ω) ()) atTop
        (𝓝 (∫ s, s.1 () ∂posteriorMeasure (walkModel x) (refMeasure volume))) :=
  C119_run (walk_setup x) (fun _ => 3) ((walk_setup x).start (by rw [walk_joint]; exact mul_ne_zero (gaussianPDF_ne_zero _ _) (gaussianPDF_ne_zero _ _))) late
    (fun T _ => List.replicate T 3) (by simp) (by intro T hT _; simp [hT]) (f := id) measurable_id () (walk_integrable x)

/-- The same for the distribution of single samples. -/
example (x : ℝ) (A : Set ((Unit → ℝ) × Unit)) (hA : MeasurableSet A) :
    Tendsto (fun n => ∫ ω, A.indicator (1 : (Unit → ℝ) × Unit → ℝ) (walk (mhMove (walkModel x) (fun s e _ => s.1 () + e)) (fun _ => 3, ()) ω n)
      ∂Measure.infinitePi (fun _ : ℕ => drawLaw normalDraw)) atTop
      (𝓝 (∫ s, A.indicator (1 : (Unit → ℝ) × Unit → ℝ) s ∂posteriorMeasure (walkModel x) (refMeasure volume))) :=
  C119_law (walk_setup x) (y0 := fun _ => 3) ((walk_setup x).start (by rw [walk_joint]; exact mul_ne_zero (gaussianPDF_ne_zero _ _) (gaussianPDF_ne_zero _ _)))
    (measurable_one.indicator hA) (a := 0) (b := 1) (fun s => by by_cases h : s ∈ A <;> simp [h])

end Edward
