/-
Property C115: enough Metropolis-Hastings samples approximate the posterior.
-/
import Verif.Lemmas.Ergodic
import Verif.Lemmas.MHReach
import Verif.Model.Convergence
import Verif.Spec.MonteCarlo
import Verif.Props.MonteCarlo
import Verif.Props.MetropolisHastings
import Mathlib.Probability.Independence.InfinitePi

namespace Edward

open MeasureTheory ProbabilityTheory ENNReal Filter Topology

/-! ### Specification -/

/-- The posterior: the joint density normalised, with respect to the reference measure. -/
noncomputable def posteriorMeasure {S : Type} [MeasurableSpace S] (m : MHModel S) (ρ : Measure S) : Measure S :=
  (∫⁻ s, m.joint s ∂ρ)⁻¹ • ρ.withDensity m.joint

/-- The draws of an update: `sample` turns random numbers with law `η` into a proposal with
the declared density. -/
structure Samples {Y W E : Type} [MeasurableSpace Y] [MeasurableSpace W] [MeasurableSpace E] (m : MHModel (Y × W))
    (μ : Measure Y) (η : Measure E) (sample : Y × W → E → Y) : Prop where
  meas : Measurable (fun a : (Y × W) × E => sample a.1 a.2)
  law : ∀ s, η.map (sample s) = μ.withDensity (fun y' => m.propose s (y', s.2))

/-- Law of the draws of one update: the random numbers of the proposals and a uniform one. -/
noncomputable abbrev drawLaw {E : Type} [MeasurableSpace E] (η : Measure E) : Measure (E × ℝ) :=
  η.prod (volume.restrict (Set.Ico (0 : ℝ) 1))

instance : IsProbabilityMeasure (volume.restrict (Set.Ico (0 : ℝ) 1)) := ⟨by simp⟩

/-! ### One update -/

section
variable {Y W E : Type} [MeasurableSpace Y] [MeasurableSpace W] [MeasurableSpace E]

theorem measurable_foldl {α β : Type} [MeasurableSpace α] (l : List β) (F : EReal → β → α → EReal)
    (h : ∀ b ∈ l, ∀ r : α → EReal, Measurable r → Measurable (fun a => F (r a) b a)) (r : α → EReal) (hr : Measurable r) :
    Measurable (fun a => l.foldl (fun r b => F r b a) (r a)) := by
  induction l generalizing r with
  | nil => exact hr
  | cons b l ih =>
    simp only [List.foldl_cons]
    exact ih (fun c hc => h c (by simp [hc])) _ (h b (by simp) r hr)

theorem MHModel.measurable_ratio {m : MHModel (Y × W)} (hm : m.Meas) :
    Measurable (fun q : (Y × W) × (Y × W) => m.ratio q.1 q.2) := by
  have hneg : Measurable (fun x : EReal => -x) := continuous_neg.measurable
  unfold MHModel.ratio
  dsimp only
  refine measurable_foldl m.liks (fun r p (q : (Y × W) × (Y × W)) => r + log (p q.2) - log (p q.1)) ?_ _ ?_
  · intro p hp r hr
    simp only [sub_eq_add_neg]
    exact (hr.add ((hm.liks p hp).comp measurable_snd).ennreal_log).add (hneg.comp ((hm.liks p hp).comp measurable_fst).ennreal_log)
  refine measurable_foldl m.priors (fun r p (q : (Y × W) × (Y × W)) => r + log (p q.2) - log (p q.1)) ?_ _ ?_
  · intro p hp r hr
    simp only [sub_eq_add_neg]
    exact (hr.add ((hm.priors p hp).comp measurable_snd).ennreal_log).add (hneg.comp ((hm.priors p hp).comp measurable_fst).ennreal_log)
  refine measurable_foldl m.proposals (fun r g (q : (Y × W) × (Y × W)) => r + log (g q.2 q.1)) ?_ _ ?_
  · intro g hg r hr
    exact hr.add ((hm.proposals g hg).comp measurable_swap).ennreal_log
  refine measurable_foldl m.proposals (fun r g (q : (Y × W) × (Y × W)) => r - log (g q.1 q.2)) ?_ _ measurable_const
  intro g hg r hr
  simp only [sub_eq_add_neg]
  exact hr.add (hneg.comp (hm.proposals g hg).ennreal_log)

theorem MHModel.measurable_step {m : MHModel (Y × W)} (hm : m.Meas) :
    Measurable (fun q : ((Y × W) × (Y × W)) × ℝ => m.step q.1.1 q.1.2 q.2) := by
  unfold MHModel.step
  refine Measurable.ite ?_ (measurable_snd.comp measurable_fst) (measurable_fst.comp measurable_fst)
  exact measurableSet_lt (ENNReal.measurable_ofReal.comp measurable_snd).ennreal_log ((m.measurable_ratio hm).comp measurable_fst)

theorem measurable_mhMove {m : MHModel (Y × W)} (hm : m.Meas) {sample : Y × W → E → Y}
    (hs : Measurable (fun a : (Y × W) × E => sample a.1 a.2)) :
    Measurable (fun a : (Y × W) × (E × ℝ) => mhMove m sample a.1 a.2) := by
  unfold mhMove
  refine (m.measurable_step hm).comp ((measurable_fst.prodMk ?_).prodMk (measurable_snd.comp measurable_snd))
  exact (hs.comp (measurable_fst.prodMk (measurable_fst.comp measurable_snd))).prodMk (measurable_snd.comp measurable_fst)

/-- The law of the next state is the one whose expectations are `expect` (C32). -/
theorem lintegral_mhMove {m : MHModel (Y × W)} (hm : m.Meas) {μ : Measure Y} [SFinite μ] {η : Measure E} [IsProbabilityMeasure η]
    {sample : Y × W → E → Y} (hs : Samples m μ η sample) (f : Y × W → ℝ≥0∞) (hf : Measurable f) (s : Y × W) :
    ∫⁻ s', f s' ∂(stepKernel (mhMove m sample) (drawLaw η) s) = m.expect μ f s := by
  have hK := measurable_mhMove hm hs.meas
  have hKs : Measurable (mhMove m sample s) := hK.comp (measurable_const.prodMk measurable_id)
  rw [stepKernel_apply hK, lintegral_map hf hKs,
    lintegral_prod (fun d => f (mhMove m sample s d)) (hf.comp hKs).aemeasurable]
  have hss : Measurable (sample s) := hs.meas.comp (measurable_const.prodMk measurable_id)
  have hinner : Measurable (fun y' : Y => ∫⁻ u in Set.Ico (0 : ℝ) 1, f (m.step s (y', s.2) u)) := by
    refine Measurable.lintegral_prod_right' (f := fun a : Y × ℝ => f (m.step s (a.1, s.2) a.2)) (hf.comp ?_)
    exact (m.measurable_step hm).comp ((measurable_const.prodMk (measurable_fst.prodMk measurable_const)).prodMk measurable_snd)
  have hprop : Measurable (fun y' : Y => m.propose s (y', s.2)) :=
    (m.measurable_propose hm).comp (measurable_const.prodMk (measurable_id.prodMk measurable_const))
  have e := lintegral_map (μ := η) hinner hss
  rw [hs.law s, lintegral_withDensity_eq_lintegral_mul _ hprop hinner] at e
  exact e.symm

end

/-! ### Convergence -/

section
variable {Y E : Type} [MeasurableSpace Y] [MeasurableSpace E]

theorem posterior_apply (m : MHModel (Y × Unit)) (hm : m.Meas) (μ : Measure Y) [SFinite μ] {A : Set (Y × Unit)} (hA : MeasurableSet A) :
    posteriorMeasure m (refMeasure μ) A = (∫⁻ y, m.joint (y, ()) ∂μ)⁻¹ * ∫⁻ y, m.joint (y, ()) * A.indicator 1 (y, ()) ∂μ :=
  normalised_apply (m.measurable_joint hm) hA

/-- The update mixes: it preserves the posterior, never moves to a state of density zero, and
if the proposal density is everywhere at least `ε` times the posterior density, it contains
an `ε` share of the posterior. -/
theorem mh_mixing (m : MHModel (Y × Unit)) (hf : m.Finite) (hm : m.Meas) (μ : Measure Y) [SFinite μ]
    (hz0 : ∫⁻ y, m.joint (y, ()) ∂μ ≠ 0) (hz1 : ∫⁻ y, m.joint (y, ()) ∂μ ≠ ∞)
    (hnorm : ∀ s : Y × Unit, ∫⁻ y', m.propose s (y', s.2) ∂μ = 1) {η : Measure E} [IsProbabilityMeasure η]
    {sample : Y × Unit → E → Y} (hs : Samples m μ η sample) {ε : ℝ} (hε : 0 < ε)
    (hdom : ∀ s y', ENNReal.ofReal ε * ((∫⁻ y, m.joint (y, ()) ∂μ)⁻¹ * m.joint (y', ())) ≤ m.propose s (y', ())) :
    Mixing (stepKernel (mhMove m sample) (drawLaw η)) (posteriorMeasure m (refMeasure μ)) {s | m.joint s ≠ 0} ε := by
  have hj := m.measurable_joint hm
  have hgood : MeasurableSet {s | m.joint s ≠ 0} := (measurableSet_singleton (0 : ℝ≥0∞)).compl.preimage hj
  have hlaw : ∀ s A, MeasurableSet A → stepKernel (mhMove m sample) (drawLaw η) s A = m.expect μ (A.indicator 1) s := by
    intro s A hA
    rw [← lintegral_mhMove hm hs _ (measurable_one.indicator hA), lintegral_indicator_one hA]
  have hminor : ∀ s ∈ {s | m.joint s ≠ 0}, ∀ A, MeasurableSet A →
      ENNReal.ofReal ε * posteriorMeasure m (refMeasure μ) A ≤ stepKernel (mhMove m sample) (drawLaw η) s A := by
    rintro ⟨y, ⟨⟩⟩ hs0 A hA
    rw [hlaw _ A hA, posterior_apply m hm μ hA]
    set Z := ∫⁻ y, m.joint (y, ()) ∂μ with hZ
    have hfin := m.finite_joint hf (y, ())
    have key : m.joint (y, ()) * (ENNReal.ofReal ε * (Z⁻¹ * ∫⁻ y', m.joint (y', ()) * A.indicator 1 (y', ()) ∂μ)) ≤
        m.joint (y, ()) * m.expect μ (A.indicator 1) (y, ()) := by
      rw [MHModel.expect_eq_acceptReject, (m.isMH hf hm).joint_expect μ _ (measurable_one.indicator hA)]
      refine le_trans ?_ le_self_add
      have hmeas : Measurable (fun y' => m.joint (y', ()) * A.indicator (1 : Y × Unit → ℝ≥0∞) (y', ())) :=
        (hj.comp (measurable_id.prodMk measurable_const)).mul
          ((measurable_one.indicator hA).comp (measurable_id.prodMk measurable_const))
      rw [← lintegral_const_mul _ hmeas, ← lintegral_const_mul _ (hmeas.const_mul _), ← lintegral_const_mul _ ((hmeas.const_mul _).const_mul _)]
      refine lintegral_mono fun y' => ?_
      have h1 : m.joint (y, ()) * (ENNReal.ofReal ε * (Z⁻¹ * m.joint (y', ()))) ≤ flow m.joint m.propose (y, ()) y' := by
        unfold flow
        refine le_min (mul_le_mul_right (hdom _ _) _) ?_
        calc _ = m.joint (y', ()) * (ENNReal.ofReal ε * (Z⁻¹ * m.joint (y, ()))) := by ring
          _ ≤ _ := mul_le_mul_right (hdom _ _) _
      calc _ = m.joint (y, ()) * (ENNReal.ofReal ε * (Z⁻¹ * m.joint (y', ()))) * A.indicator 1 (y', ()) := by ring
        _ ≤ _ := mul_le_mul_left h1 _
    exact (ENNReal.mul_le_mul_iff_right hs0 hfin).mp key
  have hpost : posteriorMeasure m (refMeasure μ) Set.univ = 1 := by
    rw [posterior_apply m hm μ MeasurableSet.univ]
    simp only [Set.indicator_univ, Pi.one_apply, mul_one]
    exact ENNReal.inv_mul_cancel hz0 hz1
  refine ⟨hgood, ?_, ?_, hminor, hε, ?_⟩
  · rintro ⟨y, ⟨⟩⟩ hs0
    rw [ae_iff]
    have hbad : MeasurableSet {s : Y × Unit | ¬ s ∈ {s | m.joint s ≠ 0}} := hgood.compl
    rw [hlaw _ _ hbad, MHModel.expect]
    refine lintegral_eq_zero_of_ae_eq_zero (ae_of_all _ fun y' => ?_)
    by_cases hg : m.propose (y, ()) (y', ()) = 0
    · simp [hg]
    have : ∀ u, ({s : Y × Unit | ¬ s ∈ {s | m.joint s ≠ 0}}.indicator 1 (m.step (y, ()) (y', ()) u) : ℝ≥0∞) = 0 := by
      intro u
      refine Set.indicator_of_notMem ?_ _
      simp only [Set.mem_ofPred_eq, not_not]
      by_cases hz : m.joint (y', ()) = 0
      · rw [C32_reject_zero m hf _ _ u hs0 hg hz]; exact hs0
      · rcases C32_step m (y, ()) (y', ()) u with e | e <;> rw [e]
        · exact hz
        · exact hs0
    show _ * (∫⁻ u in Set.Ico (0 : ℝ) 1, {s : Y × Unit | ¬ s ∈ {s | m.joint s ≠ 0}}.indicator 1 (m.step (y, ()) (y', ()) u)) = 0
    rw [lintegral_congr this, lintegral_zero, mul_zero]
  · intro A hA
    simp only [hlaw _ A hA]
    have hinv := C32_invariant m hf hm μ (Measure.dirac ()) hnorm (A.indicator 1) (measurable_one.indicator hA)
    have hem : Measurable (fun s => m.expect μ (A.indicator 1) s) := by
      have := (stepKernel (mhMove m sample) (drawLaw η)).measurable_coe hA
      simpa only [hlaw _ A hA] using this
    have e : ∫⁻ s, (m.joint * fun s => m.expect μ (A.indicator 1) s) s ∂refMeasure μ =
        ∫⁻ y, m.joint (y, ()) * m.expect μ (A.indicator 1) (y, ()) ∂μ := lintegral_ref μ _ (hj.mul hem)
    simp only [lintegral_dirac] at hinv
    rw [posterior_apply m hm μ hA, ← hinv]
    unfold posteriorMeasure
    rw [lintegral_smul_measure, lintegral_withDensity_eq_lintegral_mul _ hj hem, e, lintegral_ref μ _ hj, smul_eq_mul]
  · obtain ⟨⟨y, ⟨⟩⟩, hy⟩ : ∃ s : Y × Unit, m.joint s ≠ 0 := by
      by_contra hc
      push Not at hc
      exact hz0 (by simp [hc])
    have h1 := hminor (y, ()) hy Set.univ MeasurableSet.univ
    have := stepKernel_markov (ν := drawLaw η) (measurable_mhMove hm hs.meas)
    rw [hpost, mul_one, measure_univ] at h1
    have h2 := (ENNReal.toReal_le_toReal ENNReal.ofReal_ne_top ENNReal.one_ne_top).mpr h1
    rwa [ENNReal.toReal_ofReal hε.le, ENNReal.toReal_one] at h2

end

/-! ### The theorems -/

section
variable {Y E Ω : Type} [MeasurableSpace Y] [MeasurableSpace E] [MeasurableSpace Ω]

/-- What is assumed of model, proposals and draws: finite measurable densities, a proper
posterior, normalised proposals whose densities are at least `ε` times that of the posterior,
fresh draws in every update. -/
structure ChainSetup (m : MHModel (Y × Unit)) (μ : Measure Y) (η : Measure E) (sample : Y × Unit → E → Y) (ε : ℝ)
    (Pr : Measure Ω) (d : ℕ → Ω → E × ℝ) : Prop where
  fin : m.Finite
  meas : m.Meas
  evidence_pos : ∫⁻ y, m.joint (y, ()) ∂μ ≠ 0
  evidence_fin : ∫⁻ y, m.joint (y, ()) ∂μ ≠ ∞
  norm : ∀ s : Y × Unit, ∫⁻ y', m.propose s (y', s.2) ∂μ = 1
  samples : Samples m μ η sample
  pos : 0 < ε
  dom : ∀ s y', ENNReal.ofReal ε * ((∫⁻ y, m.joint (y, ()) ∂μ)⁻¹ * m.joint (y', ())) ≤ m.propose s (y', ())
  draws_meas : ∀ i, Measurable (d i)
  draws_law : ∀ i, Pr.map (d i) = drawLaw η
  draws_indep : iIndepFun d Pr

variable {m : MHModel (Y × Unit)} {μ : Measure Y} [SFinite μ] {η : Measure E} [IsProbabilityMeasure η]
  {sample : Y × Unit → E → Y} {ε : ℝ} {Pr : Measure Ω} [IsProbabilityMeasure Pr] {d : ℕ → Ω → E × ℝ}

omit [IsProbabilityMeasure η] [IsProbabilityMeasure Pr] in
theorem ChainSetup.prob (h : ChainSetup m μ η sample ε Pr d) : IsProbabilityMeasure (posteriorMeasure m (refMeasure μ)) := by
  refine ⟨?_⟩
  rw [posterior_apply m h.meas μ MeasurableSet.univ]
  simp only [Set.indicator_univ, Pi.one_apply, mul_one]
  exact ENNReal.inv_mul_cancel h.evidence_pos h.evidence_fin

omit [IsProbabilityMeasure Pr] in
theorem ChainSetup.mixing (h : ChainSetup m μ η sample ε Pr d) :
    Mixing (stepKernel (mhMove m sample) (drawLaw η)) (posteriorMeasure m (refMeasure μ)) {s | m.joint s ≠ 0} ε :=
  mh_mixing m h.fin h.meas μ h.evidence_pos h.evidence_fin h.norm h.samples h.pos h.dom

/-- C115 (part): from every starting point of positive density, the distribution of the
`n`-th sample approaches the posterior geometrically. -/
theorem C115_law_partial (h : ChainSetup m μ η sample ε Pr d) {z0 : Y × Unit} (hz : m.joint z0 ≠ 0)
    {f : Y × Unit → ℝ} (hf : Measurable f) {a b : ℝ} (hab : ∀ s, a ≤ f s ∧ f s ≤ b) (n : ℕ) :
    |∫ ω, f (walk (mhMove m sample) z0 (fun i => d i ω) n) ∂Pr - ∫ s, f s ∂posteriorMeasure m (refMeasure μ)| ≤
      (1 - ε) ^ n * (b - a) :=
  have := h.prob
  law_converges (measurable_mhMove h.meas h.samples.meas) h.mixing h.draws_meas h.draws_law h.draws_indep hz hf hab n

/-- C115 (part): averages over the samples converge to posterior expectations almost surely,
and the mean square error of the average over `n` samples is at most a constant over `n`. -/
theorem C115_average_partial (h : ChainSetup m μ η sample ε Pr d) {z0 : Y × Unit} (hz : m.joint z0 ≠ 0)
    {f : Y × Unit → ℝ} (hf : Measurable f) {a b : ℝ} (hab : ∀ s, a ≤ f s ∧ f s ≤ b) :
    (∀ n : ℕ, 0 < n → ∫ ω, ((∑ i ∈ Finset.range n, f (walk (mhMove m sample) z0 (fun i => d i ω) (i + 1))) / n -
      ∫ s, f s ∂posteriorMeasure m (refMeasure μ)) ^ 2 ∂Pr ≤ (4 / ε + 1) * (b - a) ^ 2 / n) ∧
    ∀ᵐ ω ∂Pr, Tendsto (fun n : ℕ => (∑ i ∈ Finset.range n, f (walk (mhMove m sample) z0 (fun i => d i ω) (i + 1))) / n)
      atTop (𝓝 (∫ s, f s ∂posteriorMeasure m (refMeasure μ))) := by
  have := h.prob
  obtain ⟨h1, h2⟩ := average_converges (measurable_mhMove h.meas h.samples.meas) h.mixing h.draws_meas h.draws_law
    h.draws_indep hz hf hab
  refine ⟨fun n hn => ?_, h2⟩
  have hn' : (0 : ℝ) < n := by exact_mod_cast hn
  set c := ∫ s, f s ∂posteriorMeasure m (refMeasure μ) with hc
  have e : ∀ ω, ((∑ i ∈ Finset.range n, f (walk (mhMove m sample) z0 (fun i => d i ω) (i + 1))) / n - c) ^ 2 =
      (1 / (n : ℝ) ^ 2) * (∑ i ∈ Finset.range n, (f (walk (mhMove m sample) z0 (fun i => d i ω) (i + 1)) - c)) ^ 2 := by
    intro ω
    rw [Finset.sum_sub_distrib, Finset.sum_const, Finset.card_range, nsmul_eq_mul]
    field_simp
  simp only [e]
  rw [integral_const_mul]
  calc _ ≤ (1 / (n : ℝ) ^ 2) * (n * (4 / ε + 1) * (b - a) ^ 2) := mul_le_mul_of_nonneg_left (h1 n) (by positivity)
    _ = _ := by field_simp

omit [MeasurableSpace E] in
/-- The bookkeeping's chain is the chain of updates. -/
theorem chain_eq_walk {Z V : Type} (m : MHModel ((Z → V) × Unit)) (sample : (Z → V) × Unit → E → Z → V) (x0 : Z → V)
    (ws : ℕ → E × ℝ) (n : ℕ) : (chain (mhKernel m sample) x0 () ws n).1 = (walk (mhMove m sample) (x0, ()) ws n).1 := by
  induction n with
  | zero => rfl
  | succ n ih =>
    show (mhMove m sample ((chain (mhKernel m sample) x0 () ws n).1, ()) (ws n)).1 = (mhMove m sample (walk (mhMove m sample) (x0, ()) ws n) (ws n)).1
    rw [ih]

end

section
variable {Z V E Ω : Type} [Fintype Z] [DecidableEq Z] [Nonempty Z] [MeasurableSpace V] [MeasurableSpace E] [MeasurableSpace Ω]

/-- C115 (part), end to end: `T` updates filling an `Empirical` with `T` rows succeed,
whatever it held (row 0 being the starting point), and as `T` grows the average over the rows
converges almost surely to the posterior expectation. For bounded functions of a latent
variable; with `f` the identity on a bounded support this is `qz.mean()`. -/
theorem C115_run_partial {m : MHModel ((Z → V) × Unit)} {μ : Measure (Z → V)} [SFinite μ] {η : Measure E} [IsProbabilityMeasure η]
    {sample : (Z → V) × Unit → E → Z → V} {ε : ℝ} {Pr : Measure Ω} [IsProbabilityMeasure Pr] {d : ℕ → Ω → E × ℝ}
    (h : ChainSetup m μ η sample ε Pr d) (x0 : Z → V) (hx0 : m.joint (x0, ()) ≠ 0) (late : ℕ → Bool)
    (p0 : ℕ → Z → List V) (hlen : ∀ T z, (p0 T z).length = T) (hrow : ∀ T, 0 < T → ∀ z, (p0 T z)[0]? = some (x0 z))
    {f : V → ℝ} (hf : Measurable f) {a b : ℝ} (hab : ∀ v, a ≤ f v ∧ f v ≤ b) (z : Z) :
    ∃ st : ℕ → Ω → MCState Z V Unit,
      (∀ T, 0 < T → ∀ ω, ∃ infos, mcRun (mhKernel m sample) ((List.range T).map (fun i => (d i ω, late i)))
        (mcInit (p0 T) ()) = some (st T ω, infos)) ∧
      ∀ᵐ ω ∂Pr, Tendsto (fun T => storedMean f (st T ω) z) atTop (𝓝 (∫ s, f (s.1 z) ∂posteriorMeasure m (refMeasure μ))) := by
  have hrun : ∀ T ω, ∃ s infos, 0 < T → mcRun (mhKernel m sample) ((List.range T).map (fun i => (d i ω, late i)))
      (mcInit (p0 T) ()) = some (s, infos) ∧ ∀ z, s.params z = (List.range T).map
        (fun i => (walk (mhMove m sample) (x0, ()) (fun i => d i ω) (i + 1)).1 z) := by
    intro T ω
    by_cases hT : 0 < T
    swap
    · exact ⟨mcInit (p0 T) (), [], fun h => absurd h hT⟩
    obtain ⟨s, infos, e, hl, hr, -⟩ := C30_bookkeeping (mhKernel m sample) (p0 T) () x0 (hrow T hT) (fun i => d i ω) late T
      ((le_nIter_iff _ _).mpr fun z => (hlen T z).ge)
    refine ⟨s, infos, fun _ => ⟨e, fun z => List.ext_getElem? fun i => ?_⟩⟩
    by_cases hi : i < T
    · rw [hr z i hi, chain_eq_walk]
      simp [hi]
    · rw [List.getElem?_eq_none (by rw [hl z, hlen T z]; omega), List.getElem?_eq_none (by simp; omega)]
  choose st infos hst using hrun
  refine ⟨st, fun T hT ω => ⟨infos T ω, (hst T ω hT).1⟩, ?_⟩
  have hfz : Measurable (fun s : (Z → V) × Unit => f (s.1 z)) := hf.comp ((measurable_pi_apply z).comp measurable_fst)
  filter_upwards [(C115_average_partial h hx0 hfz (fun s => hab _)).2] with ω hω
  refine hω.congr' ?_
  filter_upwards [eventually_gt_atTop 0] with T hT
  unfold storedMean
  rw [(hst T ω hT).2 z, List.length_map, List.length_range, List.map_map]
  congr 1

end

/-- The recorded acceptance says which of the two happened: the proposal was stored, or the
old sample again. -/
theorem C115_flag {Z V E : Type} (m : MHModel ((Z → V) × Unit)) (sample : (Z → V) × Unit → E → Z → V) (t : ℕ) (old : Z → V) (d : E × ℝ) :
    ((mhKernel m sample t old () d).2.2 = true → (mhKernel m sample t old () d).1 = sample (old, ()) d.1) ∧
    ((mhKernel m sample t old () d).2.2 = false → (mhKernel m sample t old () d).1 = old) := by
  unfold mhKernel mhMove MHModel.step
  by_cases h : accepts d.2 (m.ratio (old, ()) (sample (old, ()) d.1, ())) <;> simp [h]

/-! ### Finite state spaces -/

/-- C115 (part): on a finite state space it is enough that every state can be proposed from
every other: then some `ε` satisfies the assumption on the proposal density. -/
theorem C115_finite_partial {Y : Type} [Fintype Y] [Nonempty Y] [MeasurableSpace Y] [MeasurableSingletonClass Y] (m : MHModel (Y × Unit))
    (hf : m.Finite) (hpos : ∀ s y', m.propose s (y', ()) ≠ 0) :
    ∃ ε : ℝ, 0 < ε ∧ ∀ s y', ENNReal.ofReal ε * ((∫⁻ y, m.joint (y, ()) ∂Measure.count)⁻¹ * m.joint (y', ())) ≤
      m.propose s (y', ()) := by
  obtain ⟨⟨s0, y0⟩, h0⟩ := Finite.exists_min (fun q : (Y × Unit) × Y => (m.propose q.1 (q.2, ())).toReal)
  refine ⟨(m.propose s0 (y0, ())).toReal, ENNReal.toReal_pos (hpos _ _) (m.finite_propose hf _ _), fun s y' => ?_⟩
  have hle : m.joint (y', ()) ≤ ∫⁻ y, m.joint (y, ()) ∂Measure.count := by
    rw [lintegral_count, tsum_fintype]
    exact Finset.single_le_sum (f := fun y => m.joint (y, ())) (fun _ _ => zero_le) (Finset.mem_univ y')
  have hz1 : ∫⁻ y, m.joint (y, ()) ∂Measure.count ≠ ∞ := by
    rw [lintegral_count, tsum_fintype]
    exact (ENNReal.sum_lt_top.mpr fun y _ => (m.finite_joint hf _).lt_top).ne
  have h1 : (∫⁻ y, m.joint (y, ()) ∂Measure.count)⁻¹ * m.joint (y', ()) ≤ 1 := by
    rw [mul_comm, ← div_eq_mul_inv]
    exact ENNReal.div_le_of_le_mul (by rw [one_mul]; exact hle)
  rw [ENNReal.ofReal_toReal (m.finite_propose hf _ _)]
  calc _ ≤ m.propose s0 (y0, ()) * 1 := mul_le_mul_right h1 _
    _ = m.propose s0 (y0, ()) := mul_one _
    _ ≤ _ := (ENNReal.toReal_le_toReal (m.finite_propose hf _ _) (m.finite_propose hf _ _)).mp (h0 (s, y'))

/-! ### Proposing from the prior -/

/-- C115 (part), any state space: proposing from the prior satisfies the assumption on the
proposal density as soon as the likelihood is bounded. -/
theorem C115_prior_partial {Y : Type} [MeasurableSpace Y] (m : MHModel (Y × Unit)) (μ : Measure Y) (p l : Y → ℝ≥0∞)
    (hprop : ∀ s y', m.propose s (y', ()) = p y') (hjoint : ∀ y, m.joint (y, ()) = p y * l y) (B : ℝ≥0∞) (hB : B ≠ ∞)
    (hl : ∀ y, l y ≤ B) (hz0 : ∫⁻ y, m.joint (y, ()) ∂μ ≠ 0) (hz1 : ∫⁻ y, m.joint (y, ()) ∂μ ≠ ∞) :
    ∃ ε : ℝ, 0 < ε ∧ ∀ s y', ENNReal.ofReal ε * ((∫⁻ y, m.joint (y, ()) ∂μ)⁻¹ * m.joint (y', ())) ≤ m.propose s (y', ()) := by
  have hB0 : B ≠ 0 := by
    rintro rfl
    apply hz0
    have : ∀ y, m.joint (y, ()) = 0 := fun y => by rw [hjoint, nonpos_iff_eq_zero.mp (hl y), mul_zero]
    simp [this]
  set c := ∫⁻ y, m.joint (y, ()) ∂μ with hc
  have hcB : c / B ≠ ∞ := ENNReal.div_ne_top hz1 hB0
  refine ⟨(c / B).toReal, ENNReal.toReal_pos (ENNReal.div_ne_zero.mpr ⟨hz0, hB⟩) hcB, fun s y' => ?_⟩
  rw [ENNReal.ofReal_toReal hcB, hprop, hjoint]
  calc c / B * (c⁻¹ * (p y' * l y')) = (c * c⁻¹) * (p y' * (l y' / B)) := by simp only [div_eq_mul_inv]; ring
    _ ≤ 1 * (p y' * 1) := by
        gcongr
        · exact (ENNReal.mul_inv_cancel hz0 hz1).le
        · exact ENNReal.div_le_of_le_mul (by rw [one_mul]; exact hl y')
    _ = p y' := by rw [one_mul, mul_one]

example : ∃ (l : Bool → ℝ≥0∞) (B : ℝ≥0∞), B ≠ ∞ ∧ ∀ y, l y ≤ B := ⟨fun y => if y then 3 else 1, 3, by simp, fun y => by cases y <;> norm_num⟩

/-! ### Where it fails -/

/-- All samples of a latent variable without a proposal are its starting value. -/
theorem walk_unproposed {Y W E : Type} (m : MHModel (Y × W)) (sample : Y × W → E → Y) (s0 : Y × W) (d : ℕ → E × ℝ)
    (n : ℕ) : (walk (mhMove m sample) s0 d n).2 = s0.2 := by
  induction n with
  | zero => rfl
  | succ n ih =>
    show (mhMove m sample (walk (mhMove m sample) s0 d n) (d n)).2 = s0.2
    rw [← ih]
    generalize walk (mhMove m sample) s0 d n = s
    unfold mhMove
    rcases C32_step m s (sample s (d n).1, s.2) (d n).2 with e | e <;> rw [e]

/-- C115 fails for a latent variable without a proposal (which the constructor accepts):
whatever the model, the data and the draws, all its samples are its starting value, so the
average over the samples converges to no other number, in particular not to a posterior
expectation that differs. -/
theorem C115_missing_proposal_fails {Y W E : Type} (m : MHModel (Y × W)) (sample : Y × W → E → Y) (s0 : Y × W) (d : ℕ → E × ℝ)
    (f : W → ℝ) (c : ℝ) (hc : c ≠ f s0.2) :
    (∀ n, (walk (mhMove m sample) s0 d n).2 = s0.2) ∧
    ¬ Tendsto (fun n : ℕ => (∑ i ∈ Finset.range n, f (walk (mhMove m sample) s0 d (i + 1)).2) / n) atTop (𝓝 c) := by
  refine ⟨walk_unproposed m sample s0 d, fun h => hc ?_⟩
  refine tendsto_nhds_unique h ?_
  refine tendsto_const_nhds.congr' ?_
  filter_upwards [eventually_gt_atTop 0] with n hn
  have : (n : ℝ) ≠ 0 := by exact_mod_cast hn.ne'
  simp only [walk_unproposed, Finset.sum_const, Finset.card_range, nsmul_eq_mul]
  field_simp

/-- Two equally probable states and a proposal that always flips. -/
noncomputable def flipModel : MHModel (Bool × Unit) where
  proposals := [fun s s' => if s'.1 = !s.1 then 1 else 0]
  priors := [fun _ => 1 / 2]
  liks := []

/-- C115 fails without the overlap of proposal and posterior: densities, proposals and draws
as they should be (finite, proper, normalised), but the `n`-th sample equals the starting point
exactly for even `n`, for every sequence of draws. -/
theorem C115_periodic_fails : flipModel.Finite ∧ (∫⁻ y, flipModel.joint (y, ()) ∂Measure.count = 1) ∧
    (∀ s : Bool × Unit, ∫⁻ y', flipModel.propose s (y', s.2) ∂Measure.count = 1) ∧
    Samples (E := Unit) flipModel Measure.count (Measure.dirac ()) (fun s _ => !s.1) ∧
    ∀ (s0 : Bool × Unit) (d : ℕ → Unit × ℝ), (∀ i, (d i).2 ∈ Set.Ico (0 : ℝ) 1) → ∀ n,
      (walk (mhMove flipModel (fun s _ => !s.1)) s0 d n = s0 ↔ Even n) := by
  have hfin : flipModel.Finite := by
    refine ⟨?_, ?_, ?_⟩
    · intro g hg s s'
      simp only [flipModel, List.mem_singleton] at hg
      subst hg; dsimp only; split_ifs <;> simp
    · intro g hg s
      simp only [flipModel, List.mem_singleton] at hg
      subst hg; exact ENNReal.div_ne_top (by simp) (by simp)
    · intro g hg; simp [flipModel] at hg
  have hjoint : ∀ s, flipModel.joint s = 1 / 2 := fun s => by simp [MHModel.joint, flipModel]
  have hprop : ∀ s s', flipModel.propose s s' = if s'.1 = !s.1 then 1 else 0 := fun s s' => by
    simp [MHModel.propose, flipModel]
  have hone : ∀ s : Bool × Unit, ∑ y' : Bool, flipModel.propose s (y', s.2) = 1 := by
    rintro ⟨y, ⟨⟩⟩
    simp only [hprop, Fintype.sum_bool]
    cases y <;> simp
  refine ⟨hfin, ?_, fun s => ?_, ⟨measurable_of_countable _, fun s => ?_⟩, ?_⟩
  · rw [lintegral_count, tsum_fintype]
    simp only [hjoint, Fintype.sum_bool]
    simp [ENNReal.inv_two_add_inv_two]
  · rw [lintegral_count, tsum_fintype, hone]
  · refine Measure.ext_of_singleton fun y => ?_
    rw [Measure.map_apply (measurable_of_countable _) (measurableSet_singleton y), withDensity_apply _ (measurableSet_singleton y),
      lintegral_singleton, Measure.count_singleton, mul_one, hprop]
    by_cases hy : y = !s.1
    · subst hy; simp
    · rw [if_neg hy, Measure.dirac_apply' _ (measurable_of_countable _ (measurableSet_singleton y)), Set.indicator_of_notMem]
      simpa using Ne.symm hy
  · intro s0 d hd n
    have hmove : ∀ s i, mhMove flipModel (fun s _ => !s.1) s (d i) = (!s.1, s.2) := by
      intro s i
      unfold mhMove MHModel.step
      rw [if_pos]
      rw [mh_ratio flipModel hfin _ _ (by rw [hjoint]; simp) (by rw [hprop]; simp), accepts_log_iff, hjoint, hjoint, hprop, hprop]
      simp only [Bool.not_not, if_true, mul_one]
      rw [ENNReal.div_self (by simp) (by simp), ← ENNReal.ofReal_one, ENNReal.ofReal_lt_ofReal_iff one_pos]
      exact (hd i).2
    have key : ∀ n, walk (mhMove flipModel (fun s _ => !s.1)) s0 d n = (if Even n then s0.1 else !s0.1, s0.2) := by
      intro n
      induction n with
      | zero => simp [walk]
      | succ n ih =>
        rw [walk, ih, hmove]
        by_cases h : Even n
        · simp [h, Nat.even_add_one]
        · simp [h, Nat.even_add_one]
    rw [key n]
    by_cases h : Even n
    · simp [h]
    · simp only [h, if_false, iff_false]
      intro he
      have := congrArg Prod.fst he
      simp at this

/-! ### A concrete case -/

/-- One binary latent variable, twice as probable `true` as `false`, and a proposal that tosses a fair coin. -/
noncomputable def coinModel : MHModel ((Unit → Bool) × Unit) where
  proposals := [fun _ _ => 1 / 2]
  priors := [fun s => if s.1 () then 2 else 1]
  liks := []

/-- The law of a fair coin. -/
noncomputable abbrev fairCoin : Measure (Unit → Bool) := Measure.count.withDensity (fun _ => 1 / 2)

instance : IsProbabilityMeasure fairCoin := ⟨by
  rw [withDensity_apply _ MeasurableSet.univ]
  simp only [lintegral_const, Measure.restrict_univ]
  rw [← Set.coe_toFinset (Set.univ : Set (Unit → Bool)), Measure.count_apply_finset]
  simp [ENNReal.inv_mul_cancel]⟩

theorem coin_joint (y : Unit → Bool) : coinModel.joint (y, ()) = if y () then 2 else 1 := by
  simp [MHModel.joint, coinModel]

theorem coin_propose (s s') : coinModel.propose s s' = 1 / 2 := by
  simp [MHModel.propose, coinModel]

theorem coin_evidence : ∫⁻ y, coinModel.joint (y, ()) ∂Measure.count = 3 := by
  rw [lintegral_count, tsum_fintype]
  simp only [coin_joint]
  rw [← (Equiv.funUnique Unit Bool).symm.sum_comp]
  simp only [Fintype.sum_bool]
  norm_num

theorem coin_setup : ChainSetup coinModel Measure.count fairCoin (fun _ e => e) (1 / 2)
    (Measure.infinitePi (fun _ : ℕ => drawLaw fairCoin)) (fun i ω => ω i) where
  fin := by
    refine ⟨?_, ?_, ?_⟩
    · intro g hg s s'
      simp only [coinModel, List.mem_singleton] at hg
      subst hg; exact ENNReal.div_ne_top (by simp) (by simp)
    · intro g hg s
      simp only [coinModel, List.mem_singleton] at hg
      subst hg; dsimp only; split_ifs <;> simp
    · intro g hg; simp [coinModel] at hg
  meas := ⟨fun _ _ => measurable_of_countable _, fun _ _ => measurable_of_countable _, fun _ _ => measurable_of_countable _⟩
  evidence_pos := by rw [coin_evidence]; simp
  evidence_fin := by rw [coin_evidence]; simp
  norm := fun s => by
    have := measure_univ (μ := fairCoin)
    rw [withDensity_apply _ MeasurableSet.univ, Measure.restrict_univ] at this
    simpa only [coin_propose] using this
  samples := ⟨measurable_snd, fun s => by simp only [coin_propose]; exact Measure.map_id⟩
  pos := by norm_num
  dom := fun s y' => by
    rw [coin_evidence, coin_joint, coin_propose]
    have h1 : (3 : ℝ≥0∞)⁻¹ * (if y' () then 2 else 1) ≤ 1 := by
      rw [mul_comm, ← div_eq_mul_inv]
      refine ENNReal.div_le_of_le_mul ?_
      split_ifs <;> norm_num
    calc _ ≤ ENNReal.ofReal (1 / 2) * 1 := mul_le_mul_right h1 _
      _ = 1 / 2 := by rw [mul_one, ENNReal.ofReal_div_of_pos (by norm_num)]; simp
  draws_meas := fun i => measurable_pi_apply i
  draws_law := fun i => Measure.infinitePi_map_eval _ i
  draws_indep := iIndepFun_infinitePi (X := fun _ x => x) (fun _ => measurable_id)

example (x0 : Unit → Bool) : coinModel.joint (x0, ()) ≠ 0 := by
  rw [coin_joint]; split_ifs <;> simp

example : ∀ s y', coinModel.propose s (y', ()) ≠ 0 := fun s y' => by rw [coin_propose]; simp

/-- For this model the fraction of `true` rows converges to 2/3. -/
example : ∫ s, (if s.1 () then (1 : ℝ) else 0) ∂posteriorMeasure coinModel (refMeasure Measure.count) = 2 / 3 := by
  have hp := coin_setup.prob
  have e : (fun s : (Unit → Bool) × Unit => if s.1 () then (1 : ℝ) else 0) = ({s | s.1 () = true} : Set ((Unit → Bool) × Unit)).indicator 1 := by
    funext s; simp [Set.indicator_apply]
  have hA : MeasurableSet ({s | s.1 () = true} : Set ((Unit → Bool) × Unit)) := measurable_of_countable (fun s : (Unit → Bool) × Unit => s.1 ()) (measurableSet_singleton true)
  rw [e, integral_indicator_one hA, Measure.real, posterior_apply _ coin_setup.meas _ hA, coin_evidence, lintegral_count, tsum_fintype,
    ← (Equiv.funUnique Unit Bool).symm.sum_comp]
  simp only [Fintype.sum_bool, coin_joint]
  simp [Set.indicator_apply]
  norm_num

end Edward
