/-
Property C122: replica exchange converges to the posterior.
-/
import Mathlib.Probability.Distributions.Gamma
import Verif.Lemmas.Fades
import Verif.Model.ReplicaChain
import Verif.Props.ConvergenceGeneral
import Verif.Props.ReplicaExchange

namespace Edward

set_option linter.unusedSectionVars false

open MeasureTheory ProbabilityTheory ENNReal Filter Topology

/-! ### Specification -/

/-- A uniform number. -/
noncomputable abbrev uniformLaw : Measure ℝ := volume.restrict (Set.Ico (0 : ℝ) 1)

/-- A fair choice between 0 and 1. -/
noncomputable def fairStart : Measure (Fin 2) := (2⁻¹ : ℝ≥0∞) • Measure.count

/-- Law of the draws of one update: all independent. -/
noncomputable abbrev replicaLaw (n : ℕ) {E : Type} [MeasurableSpace E] (η : Measure E) : Measure (ReplicaDraws n E) :=
  (Measure.pi fun _ => drawLaw η).prod (uniformLaw.prod (fairStart.prod (Measure.pi fun _ => uniformLaw)))

section
variable {Y E Ω : Type} [MeasurableSpace Y] [MeasurableSpace E] [MeasurableSpace Ω] {n : ℕ}

/-- What is assumed of model, proposals, temperatures and draws: finite measurable densities,
proper posteriors at all temperatures, positive inverse temperatures, normalised symmetric
proposals, fresh draws in every update, and that every state of positive density can be
proposed from every other one. -/
structure ReplicaSetup (m : MHModel (Y × Unit)) (μ : Measure Y) (b : Fin n → ℝ) (η : Measure E) (sample : Y × Unit → E → Y)
    (Pr : Measure Ω) (d : ℕ → Ω → ReplicaDraws n E) : Prop where
  fin : m.Finite
  meas : m.Meas
  temp_pos : ∀ i, 0 < b i
  evidence_pos : ∀ i, ∫⁻ y, m.joint (y, ()) ^ b i ∂μ ≠ 0
  evidence_fin : ∀ i, ∫⁻ y, m.joint (y, ()) ^ b i ∂μ ≠ ∞
  norm : ∀ s : Y × Unit, ∫⁻ y', m.propose s (y', s.2) ∂μ = 1
  symm : m.Symmetric
  samples : Samples m μ η sample
  reach : ∀ y y', m.joint (y, ()) ≠ 0 → m.joint (y', ()) ≠ 0 → m.propose (y, ()) (y', ()) ≠ 0
  draws_meas : ∀ i, Measurable (d i)
  draws_law : ∀ i, Pr.map (d i) = replicaLaw n η
  draws_indep : iIndepFun d Pr

end

/-! ### Exchange with explicit draws -/

instance : IsProbabilityMeasure fairStart := ⟨by
  unfold fairStart
  rw [Measure.smul_apply, Measure.count_univ]
  simp [ENNReal.inv_mul_cancel]⟩

theorem lintegral_fairStart (f : Fin 2 → ℝ≥0∞) : ∫⁻ s, f s ∂fairStart = 2⁻¹ * ∑ s, f s := by
  unfold fairStart
  rw [lintegral_smul_measure, lintegral_count, tsum_fintype, smul_eq_mul]

section
variable {S : Type} {n : ℕ}

theorem loopDraws_of_lt (us : Fin n → ℝ) {i : ℕ} (h : i < n) : loopDraws us i = us ⟨i, h⟩ := dif_pos h

/-- The loop does not read earlier positions. -/
theorem exchangeLoop_congr {R : Type} (us vs : ℕ → ℝ) (lr : Fin n → EReal) (b : Fin n → ℝ) (k : (Fin n → Fin n) → R) (i : ℕ) (idx : Fin n → Fin n)
    (h : ∀ j, i ≤ j → us j = vs j) :
    exchangeLoop (fun i g => g (us i)) lr b k i idx = exchangeLoop (fun i g => g (vs i)) lr b k i idx := by
  induction hk : n - i using Nat.strong_induction_on generalizing i idx with
  | _ t ih =>
    rw [exchangeLoop]
    conv_rhs => rw [exchangeLoop]
    by_cases hi : i + 1 < n
    · rw [dif_pos hi, dif_pos hi]
      dsimp only
      rw [h i le_rfl]
      exact ih (n - (i + 2)) (by omega) _ _ (fun j hj => h j (by omega)) rfl
    · rw [dif_neg hi, dif_neg hi]

theorem exchangeLoop_apply {R : Type} (us : ℕ → ℝ) (lr : Fin n → EReal) (b : Fin n → ℝ) (k : (Fin n → Fin n) → R) (i : ℕ) (idx : Fin n → Fin n) :
    exchangeLoop (fun i g => g (us i)) lr b k i idx = k (exchangeLoop (fun i g => g (us i)) lr b id i idx) := by
  induction hk : n - i using Nat.strong_induction_on generalizing i idx with
  | _ t ih =>
    rw [exchangeLoop]
    conv_rhs => rw [exchangeLoop]
    by_cases hi : i + 1 < n
    · rw [dif_pos hi, dif_pos hi]
      exact ih (n - (i + 2)) (by omega) _ _ rfl
    · rw [dif_neg hi, dif_neg hi]; rfl

variable [MeasurableSpace S]

theorem measurableSet_accepts_pair {α : Type} [MeasurableSpace α] (m : MHModel S) (hm : Measurable m.joint) (t : ℝ) (x y : Fin n)
    {u : α → ℝ} (hu : Measurable u) {z : α → Fin n → S} (hz : Measurable z) :
    MeasurableSet {a | accepts (u a) ((replicaRatio m (z a x) - replicaRatio m (z a y)) * ((t : ℝ) : EReal))} := by
  have e : {a | accepts (u a) ((replicaRatio m (z a x) - replicaRatio m (z a y)) * ((t : ℝ) : EReal))} =
      {a | ENNReal.ofReal (u a) < (m.joint (z a x) * (m.joint (z a y))⁻¹) ^ t} := by
    ext a
    rw [Set.mem_ofPred_eq, Set.mem_ofPred_eq, replicaRatio_eq, replicaRatio_eq, pair_ratio_eq, accepts_log_iff]
  rw [e]
  have hx : ∀ i, Measurable (fun a => m.joint (z a i)) := fun i => hm.comp ((measurable_pi_apply i).comp hz)
  exact measurableSet_lt (ENNReal.measurable_ofReal.comp hu) (((hx x).mul (hx y).inv).pow_const _)

theorem measurable_exchangeIdx {α : Type} [MeasurableSpace α] (m : MHModel S) (hm : Measurable m.joint) (b : Fin n → ℝ)
    {us : α → ℕ → ℝ} (hu : Measurable us) {z : α → Fin n → S} (hz : Measurable z) (i : ℕ) (idx : Fin n → Fin n) :
    Measurable (fun a => exchangeLoop (fun i g => g (us a i)) (fun j => replicaRatio m (z a j)) b id i idx) := by
  classical
  induction hk : n - i using Nat.strong_induction_on generalizing i idx with
  | _ t ih =>
    by_cases hi : i + 1 < n
    · have e : (fun a => exchangeLoop (fun i g => g (us a i)) (fun j => replicaRatio m (z a j)) b id i idx) = fun a =>
          if accepts (us a i) ((replicaRatio m (z a ⟨i, by omega⟩) - replicaRatio m (z a ⟨i + 1, hi⟩)) * ((b ⟨i + 1, hi⟩ - b ⟨i, by omega⟩ : ℝ) : EReal)) then
            exchangeLoop (fun i g => g (us a i)) (fun j => replicaRatio m (z a j)) b id (i + 2) (scatterSwap idx ⟨i, by omega⟩ ⟨i + 1, hi⟩)
          else exchangeLoop (fun i g => g (us a i)) (fun j => replicaRatio m (z a j)) b id (i + 2) idx := by
        funext a
        rw [exchangeLoop, dif_pos hi]
        dsimp only
        split <;> rfl
      rw [e]
      exact Measurable.ite (measurableSet_accepts_pair m hm _ _ _ ((measurable_pi_apply i).comp hu) hz)
        (ih (n - (i + 2)) (by omega) _ _ rfl) (ih (n - (i + 2)) (by omega) _ _ rfl)
    · have e : (fun a => exchangeLoop (fun i g => g (us a i)) (fun j => replicaRatio m (z a j)) b id i idx) = fun _ => idx := by
        funext a
        rw [exchangeLoop, dif_neg hi]; rfl
      rw [e]
      exact measurable_const

theorem measurable_loopDraws : Measurable (loopDraws : (Fin n → ℝ) → ℕ → ℝ) := by
  refine measurable_pi_lambda _ fun i => ?_
  unfold loopDraws
  by_cases h : i < n
  · simp only [dif_pos h]; exact measurable_pi_apply _
  · simp only [dif_neg h]; exact measurable_const

theorem measurable_permuted {α : Type} [MeasurableSpace α] {z : α → Fin n → S} (hz : Measurable z) {idx : α → Fin n → Fin n} (hi : Measurable idx) :
    Measurable (fun a i => z a (idx a i)) := by
  refine measurable_pi_lambda _ fun i => ?_
  have h : Measurable (fun q : Fin n × (Fin n → S) => q.2 q.1) := measurable_from_prod_countable_right fun j => measurable_pi_apply j
  exact h.comp (((measurable_pi_apply i).comp hi).prodMk hz)

theorem measurable_exchangeStep (m : MHModel S) (hm : Measurable m.joint) (b : Fin n → ℝ) (freq : ℝ) :
    Measurable (fun a : (Fin n → S) × (ℝ × Fin 2 × (Fin n → ℝ)) => exchangeStep m b freq a.2.1 (loopDraws a.2.2.2) a.2.2.1 a.1) := by
  classical
  unfold exchangeStep
  refine Measurable.ite (measurableSet_lt (measurable_fst.comp measurable_snd) measurable_const) ?_ measurable_fst
  have hu : Measurable (fun a : (Fin n → S) × (ℝ × Fin 2 × (Fin n → ℝ)) => loopDraws a.2.2.2) :=
    measurable_loopDraws.comp (measurable_snd.comp (measurable_snd.comp measurable_snd))
  refine measurable_permuted measurable_fst ?_
  unfold exchangeIdx
  have e : (fun a : (Fin n → S) × (ℝ × Fin 2 × (Fin n → ℝ)) => exchangeLoop (fun i g => g (loopDraws a.2.2.2 i)) (fun j => replicaRatio m (a.1 j)) b id (a.2.2.1 : ℕ) id) =
      fun a => if a.2.2.1 = 0 then exchangeLoop (fun i g => g (loopDraws a.2.2.2 i)) (fun j => replicaRatio m (a.1 j)) b id 0 id
        else exchangeLoop (fun i g => g (loopDraws a.2.2.2 i)) (fun j => replicaRatio m (a.1 j)) b id 1 id := by
    funext a
    by_cases h : a.2.2.1 = 0
    · rw [if_pos h, h]; rfl
    · rw [if_neg h]
      have : ((a.2.2.1 : Fin 2) : ℕ) = 1 := by
        have h1 := a.2.2.1.isLt
        have h2 : ((a.2.2.1 : Fin 2) : ℕ) ≠ 0 := fun hc => h (Fin.ext hc)
        omega
      rw [this]
  rw [e]
  refine Measurable.ite ?_ (measurable_exchangeIdx m hm b hu measurable_fst _ _) (measurable_exchangeIdx m hm b hu measurable_fst _ _)
  exact (measurable_fst.comp (measurable_snd.comp measurable_snd)) (measurableSet_singleton (0 : Fin 2))

theorem lintegral_pi_resample (F : (Fin n → ℝ) → ℝ≥0∞) (hF : Measurable F) (i : Fin n) :
    ∫⁻ us, F us ∂(Measure.pi fun _ : Fin n => uniformLaw) =
      ∫⁻ us, ∫⁻ u, F (Function.update us i u) ∂uniformLaw ∂(Measure.pi fun _ : Fin n => uniformLaw) := by
  have hup : Measurable (fun q : (Fin n → ℝ) × ℝ => Function.update q.1 i q.2) := by
    refine measurable_pi_lambda _ fun j => ?_
    by_cases h : j = i
    · subst h; simp only [Function.update_self]; exact measurable_snd
    · simp only [Function.update_of_ne h]; exact (measurable_pi_apply j).comp measurable_fst
  have hG : Measurable (fun us => ∫⁻ u, F (Function.update us i u) ∂uniformLaw) :=
    Measurable.lintegral_prod_right' (f := fun q : (Fin n → ℝ) × ℝ => F (Function.update q.1 i q.2)) (hF.comp hup)
  refine lintegral_eq_of_lmarginal_eq {i} hF hG ?_
  rw [lmarginal_singleton, lmarginal_singleton]
  funext us
  simp only [Function.update_idem, lintegral_const, measure_univ, mul_one]

/-- Averaging over the uniform numbers. -/
theorem lintegral_exchangeLoop (m : MHModel S) (hm : Measurable m.joint) (b : Fin n → ℝ) (k : (Fin n → Fin n) → ℝ≥0∞) (z : Fin n → S)
    (i : ℕ) (idx : Fin n → Fin n) :
    ∫⁻ us, exchangeLoop (fun i g => g (loopDraws us i)) (fun j => replicaRatio m (z j)) b k i idx ∂(Measure.pi fun _ : Fin n => uniformLaw) =
      exchangeLoop (fun _ => unif) (fun j => replicaRatio m (z j)) b k i idx := by
  classical
  have hmeas : ∀ i idx, Measurable (fun us : Fin n → ℝ => exchangeLoop (fun i g => g (loopDraws us i)) (fun j => replicaRatio m (z j)) b k i idx) := by
    intro i idx
    simp only [exchangeLoop_apply _ _ _ k]
    exact (measurable_of_finite k).comp (measurable_exchangeIdx m hm b measurable_loopDraws measurable_const i idx)
  induction hk : n - i using Nat.strong_induction_on generalizing i idx with
  | _ t ih =>
    by_cases hi : i + 1 < n
    · rw [lintegral_pi_resample _ (hmeas i idx) ⟨i, by omega⟩]
      conv_rhs => rw [exchangeLoop, dif_pos hi]
      dsimp only
      set x : Fin n := ⟨i, by omega⟩ with hx
      set y : Fin n := ⟨i + 1, hi⟩ with hy
      set ratio := (replicaRatio m (z x) - replicaRatio m (z y)) * ((b y - b x : ℝ) : EReal) with hratio
      have hin : ∀ us : Fin n → ℝ, ∫⁻ u, exchangeLoop (fun i g => g (loopDraws (Function.update us x u) i)) (fun j => replicaRatio m (z j)) b k i idx ∂uniformLaw =
          acceptProb ratio * exchangeLoop (fun i g => g (loopDraws us i)) (fun j => replicaRatio m (z j)) b k (i + 2) (scatterSwap idx x y) +
          (1 - acceptProb ratio) * exchangeLoop (fun i g => g (loopDraws us i)) (fun j => replicaRatio m (z j)) b k (i + 2) idx := by
        intro us
        rw [← lintegral_accept]
        refine lintegral_congr fun u => ?_
        rw [exchangeLoop, dif_pos hi]
        dsimp only
        rw [← hx, ← hy, ← hratio, show loopDraws (Function.update us x u) i = u by
          rw [loopDraws_of_lt _ (by omega : i < n), ← hx, Function.update_self]]
        have hc : ∀ idx, exchangeLoop (fun i g => g (loopDraws (Function.update us x u) i)) (fun j => replicaRatio m (z j)) b k (i + 2) idx =
            exchangeLoop (fun i g => g (loopDraws us i)) (fun j => replicaRatio m (z j)) b k (i + 2) idx := by
          intro idx
          refine exchangeLoop_congr _ _ _ _ _ _ _ fun j hj => ?_
          unfold loopDraws
          by_cases hj' : j < n
          · rw [dif_pos hj', dif_pos hj', Function.update_of_ne]
            intro he
            have := congrArg Fin.val he
            simp only [hx] at this
            omega
          · rw [dif_neg hj', dif_neg hj']
        rw [hc]
        split <;> rfl
      simp only [hin]
      rw [lintegral_add_left ((hmeas _ _).const_mul _), lintegral_const_mul _ (hmeas _ _), lintegral_const_mul _ (hmeas _ _),
        ih (n - (i + 2)) (by omega) _ _ rfl, ih (n - (i + 2)) (by omega) _ _ rfl, ← lintegral_accept]
      unfold unif
      refine lintegral_congr fun u => ?_
      split <;> rfl
    · have e : ∀ us : Fin n → ℝ, exchangeLoop (fun i g => g (loopDraws us i)) (fun j => replicaRatio m (z j)) b k i idx = k idx := by
        intro us
        rw [exchangeLoop, dif_neg hi]
      simp only [e, lintegral_const, measure_univ, mul_one]
      rw [exchangeLoop, dif_neg hi]

/-- The law of the replicas after the exchange is the one whose expectations are
`exchangeExpect` (C37). -/
theorem lintegral_exchangeStep (m : MHModel S) (hm : Measurable m.joint) (b : Fin n → ℝ) (freq : ℝ) (f : (Fin n → S) → ℝ≥0∞) (hf : Measurable f)
    (z : Fin n → S) :
    ∫⁻ e : ℝ × Fin 2 × (Fin n → ℝ), f (exchangeStep m b freq e.1 (loopDraws e.2.2) e.2.1 z)
      ∂(uniformLaw.prod (fairStart.prod (Measure.pi fun _ => uniformLaw))) = exchangeExpect m b freq f z := by
  classical
  have hK := measurable_exchangeStep m hm b freq
  have hKz : Measurable (fun e : ℝ × Fin 2 × (Fin n → ℝ) => f (exchangeStep m b freq e.1 (loopDraws e.2.2) e.2.1 z)) :=
    hf.comp (hK.comp (measurable_const.prodMk measurable_id))
  rw [lintegral_prod _ hKz.aemeasurable]
  unfold exchangeExpect unif
  refine lintegral_congr fun u => ?_
  have hu : Measurable (fun e : Fin 2 × (Fin n → ℝ) => f (exchangeStep m b freq u (loopDraws e.2) e.1 z)) :=
    hKz.comp (measurable_const.prodMk measurable_id)
  rw [lintegral_prod _ hu.aemeasurable, lintegral_fairStart]
  by_cases h : u < freq
  · rw [if_pos h]
    congr 1
    refine Finset.sum_congr rfl fun start _ => ?_
    have := lintegral_exchangeLoop m hm b (fun idx => f (fun i => z (idx i))) z start id
    unfold unif at this
    rw [← this]
    refine lintegral_congr fun us => ?_
    unfold exchangeStep exchangeIdx
    rw [if_pos h, exchangeLoop_apply _ _ _ (fun idx => f (fun i => z (idx i)))]
  · rw [if_neg h]
    simp only [exchangeStep, if_neg h, lintegral_const, measure_univ, mul_one, Fin.sum_univ_two]
    rw [← two_mul, ← mul_assoc, ENNReal.inv_mul_cancel (by simp) (by simp), one_mul]

end

/-! ### Convergence -/

section
variable {Y E Ω : Type} [MeasurableSpace Y] [MeasurableSpace E] [MeasurableSpace Ω] {n : ℕ}
  {m : MHModel (Y × Unit)} {μ : Measure Y} [SigmaFinite μ] {b : Fin n → ℝ} {η : Measure E} [IsProbabilityMeasure η]
  {sample : Y × Unit → E → Y} {Pr : Measure Ω} [IsProbabilityMeasure Pr] {d : ℕ → Ω → ReplicaDraws n E}

theorem measurable_temperedMove (hm : m.Meas) (t : ℝ) (hs : Measurable (fun a : (Y × Unit) × E => sample a.1 a.2)) :
    Measurable (fun a : (Y × Unit) × (E × ℝ) => temperedMove m t sample a.1 a.2) := by
  classical
  have hnew : Measurable (fun a : (Y × Unit) × (E × ℝ) => ((sample a.1 a.2.1, a.1.2) : Y × Unit)) :=
    (hs.comp (measurable_fst.prodMk (measurable_fst.comp measurable_snd))).prodMk (measurable_snd.comp measurable_fst)
  unfold temperedMove
  refine Measurable.ite ?_ hnew measurable_fst
  have e : {a : (Y × Unit) × (E × ℝ) | accepts a.2.2 (temperedRatio m t a.1 (sample a.1 a.2.1, a.1.2))} =
      {a | ENNReal.ofReal a.2.2 < ratioE m a.1 (sample a.1 a.2.1, a.1.2) ^ t} := by
    ext a
    rw [Set.mem_ofPred_eq, Set.mem_ofPred_eq, temperedRatio_eq, accepts_log_iff]
  rw [e]
  exact measurableSet_lt (ENNReal.measurable_ofReal.comp (measurable_snd.comp measurable_snd))
    (((measurable_ratioE hm).comp (measurable_fst.prodMk hnew)).pow_const t)

/-- The law of one move. -/
theorem lintegral_temperedMove (hm : m.Meas) (t : ℝ) (hs : Samples m μ η sample) (f : Y × Unit → ℝ≥0∞) (hf : Measurable f) (s : Y × Unit) :
    ∫⁻ s', f s' ∂(stepKernel (temperedMove m t sample) (drawLaw η) s) = acceptReject μ m.propose (temperedRatio m t) f s := by
  classical
  have hK := measurable_temperedMove hm t hs.meas
  have hKs : Measurable (temperedMove m t sample s) := hK.comp (measurable_const.prodMk measurable_id)
  rw [stepKernel_apply hK, lintegral_map hf hKs,
    lintegral_prod (fun d => f (temperedMove m t sample s d)) (hf.comp hKs).aemeasurable]
  have hss : Measurable (sample s) := hs.meas.comp (measurable_const.prodMk measurable_id)
  have hpair : Measurable (fun y' : Y => ((y', s.2) : Y × Unit)) := measurable_id.prodMk measurable_const
  have hprop : Measurable (fun y' : Y => m.propose s (y', s.2)) :=
    (m.measurable_propose hm).comp (measurable_const.prodMk hpair)
  have hval : ∀ y' : Y, ∫⁻ u in Set.Ico (0 : ℝ) 1, f (if accepts u (temperedRatio m t s (y', s.2)) then (y', s.2) else s) =
      acceptProb (temperedRatio m t s (y', s.2)) * f (y', s.2) + (1 - acceptProb (temperedRatio m t s (y', s.2))) * f s := by
    intro y'
    rw [← lintegral_accept]
    refine lintegral_congr fun u => ?_
    split <;> rfl
  have hacc : Measurable (fun y' : Y => acceptProb (temperedRatio m t s (y', s.2))) :=
    Measurable.comp (g := fun q : (Y × Unit) × (Y × Unit) => acceptProb (temperedRatio m t q.1 q.2)) (f := fun y' : Y => (s, ((y', s.2) : Y × Unit)))
      (measurable_temperedAccept hm t) (measurable_const.prodMk hpair)
  have hinner : Measurable (fun y' : Y => ∫⁻ u in Set.Ico (0 : ℝ) 1, f (if accepts u (temperedRatio m t s (y', s.2)) then (y', s.2) else s)) := by
    simp only [hval]
    exact (hacc.mul (hf.comp hpair)).add ((measurable_const.sub hacc).mul_const _)
  have e := lintegral_map (μ := η) hinner hss
  rw [hs.law s, lintegral_withDensity_eq_lintegral_mul _ hprop hinner] at e
  refine Eq.trans e.symm ?_
  unfold acceptReject
  refine lintegral_congr fun y' => ?_
  rw [Pi.mul_apply]

/-- The target of replica `i`. -/
noncomputable abbrev temperedPosterior (m : MHModel (Y × Unit)) (b : Fin n → ℝ) (μ : Measure Y) (i : Fin n) : Measure (Y × Unit) :=
  normalised (fun s => m.joint s ^ b i) (refMeasure μ)

theorem ReplicaSetup.reachMH (h : ReplicaSetup m μ b η sample Pr d) (i : Fin n) :
    ReachMH (fun s => m.joint s ^ b i) m.propose (temperedRatio m (b i)) μ (stepKernel (temperedMove m (b i) sample) (drawLaw η)) where
  mh := tempered_isMH h.fin h.meas h.symm (b i) (h.temp_pos i)
  evidence_pos := h.evidence_pos i
  evidence_fin := h.evidence_fin i
  norm := h.norm
  reach := fun y y' hy hy' => h.reach y y' (fun hc => hy (by rw [hc, ENNReal.zero_rpow_of_pos (h.temp_pos i)]))
    (fun hc => hy' (by rw [hc, ENNReal.zero_rpow_of_pos (h.temp_pos i)]))
  law := fun s A hA => by
    rw [← lintegral_temperedMove h.meas (b i) h.samples _ (measurable_one.indicator hA), lintegral_indicator_one hA]

/-- The exchange as a transition. -/
noncomputable abbrev exchangeKernel (m : MHModel (Y × Unit)) (b : Fin n → ℝ) (freq : ℝ) : ProbabilityTheory.Kernel (Fin n → Y × Unit) (Fin n → Y × Unit) :=
  stepKernel (fun z (e : ℝ × Fin 2 × (Fin n → ℝ)) => exchangeStep m b freq e.1 (loopDraws e.2.2) e.2.1 z)
    (uniformLaw.prod (fairStart.prod (Measure.pi fun _ => uniformLaw)))

theorem measurable_replicaStep (hm : m.Meas) (b : Fin n → ℝ) (freq : ℝ) (hs : Measurable (fun a : (Y × Unit) × E => sample a.1 a.2)) :
    Measurable (fun a : (Fin n → Y × Unit) × ReplicaDraws n E => replicaStep m b freq sample a.1 a.2) := by
  have hmove : Measurable (fun (a : (Fin n → Y × Unit) × ReplicaDraws n E) i => temperedMove m (b i) sample (a.1 i) (a.2.1 i)) :=
    measurable_pi_lambda _ fun i => Measurable.comp (g := fun a : (Y × Unit) × (E × ℝ) => temperedMove m (b i) sample a.1 a.2)
      (f := fun a : (Fin n → Y × Unit) × ReplicaDraws n E => (a.1 i, a.2.1 i)) (measurable_temperedMove hm (b i) hs)
      (((measurable_pi_apply i).comp measurable_fst).prodMk ((measurable_pi_apply i).comp (measurable_fst.comp measurable_snd)))
  exact (measurable_exchangeStep m (m.measurable_joint hm) b freq).comp (hmove.prodMk (measurable_snd.comp measurable_snd))

/-- One update moves all replicas, then exchanges. -/
theorem replica_kernel (hm : m.Meas) (b : Fin n → ℝ) (freq : ℝ) (hs : Measurable (fun a : (Y × Unit) × E => sample a.1 a.2))
    [∀ i, IsMarkovKernel (stepKernel (temperedMove m (b i) sample) (drawLaw η))] :
    stepKernel (replicaStep m b freq sample) (replicaLaw n η) =
      exchangeKernel m b freq ∘ₖ piKernel (fun i => stepKernel (temperedMove m (b i) sample) (drawLaw η)) := by
  have hX := measurable_exchangeStep m (m.measurable_joint hm) b freq
  have hK := measurable_replicaStep hm b freq hs
  refine ProbabilityTheory.Kernel.ext fun z => Measure.ext fun A hA => ?_
  have hKz : Measurable (replicaStep m b freq sample z) := hK.comp (measurable_const.prodMk measurable_id)
  have hmi : ∀ i, Measurable (temperedMove m (b i) sample (z i)) := fun i =>
    (measurable_temperedMove hm (b i) hs).comp (measurable_const.prodMk measurable_id)
  have hmove : Measurable (fun (d : Fin n → E × ℝ) i => temperedMove m (b i) sample (z i) (d i)) :=
    measurable_pi_lambda _ fun i => (hmi i).comp (measurable_pi_apply i)
  have hpi : piKernel (fun i => stepKernel (temperedMove m (b i) sample) (drawLaw η)) z =
      (Measure.pi fun _ : Fin n => drawLaw η).map (fun d i => temperedMove m (b i) sample (z i) (d i)) := by
    rw [piKernel_apply, Measure.pi_map_pi fun i => (hmi i).aemeasurable]
    congr 1
    funext i
    rw [stepKernel_apply (measurable_temperedMove hm (b i) hs)]
  rw [stepKernel_apply hK, Measure.map_apply hKz hA, Measure.prod_apply (hKz hA), ProbabilityTheory.Kernel.comp_apply' _ _ _ hA, hpi,
    lintegral_map ((exchangeKernel m b freq).measurable_coe hA) hmove]
  refine lintegral_congr fun d1 => ?_
  have hXz : ∀ z, Measurable (fun e : ℝ × Fin 2 × (Fin n → ℝ) => exchangeStep m b freq e.1 (loopDraws e.2.2) e.2.1 z) := fun z =>
    hX.comp (measurable_const.prodMk measurable_id)
  rw [stepKernel_apply hX, Measure.map_apply (hXz _) hA]
  rfl

theorem ReplicaSetup.permuted (h : ReplicaSetup m μ b η sample Pr d) (freq : ℝ) :
    Permuted (fun i => stepKernel (temperedMove m (b i) sample) (drawLaw η)) (temperedPosterior m b μ) (exchangeKernel m b freq) := by
  have hj := m.measurable_joint h.meas
  have hX := measurable_exchangeStep m hj b freq
  have hXz : ∀ z, Measurable (fun e : ℝ × Fin 2 × (Fin n → ℝ) => exchangeStep m b freq e.1 (loopDraws e.2.2) e.2.1 z) := fun z =>
    hX.comp (measurable_const.prodMk measurable_id)
  have := fun i => (h.reachMH i).prob
  have hp : ∀ i, Measurable (fun s => m.joint s ^ b i) := fun i => hj.pow_const _
  refine ⟨fun i => (h.reachMH i).reaching, fun i j => ?_, fun z A hA => ?_, ?_⟩
  · refine Measure.AbsolutelyContinuous.mk fun A hA h0 => ?_
    rw [normalised_zero_iff (hp j) (h.evidence_fin j) hA] at h0
    rw [normalised_zero_iff (hp i) (h.evidence_fin i) hA]
    filter_upwards [h0] with y hy
    rcases mul_eq_zero.mp hy with hz | hz
    · rw [ENNReal.rpow_eq_zero_iff_of_pos (h.temp_pos j)] at hz
      rw [hz, ENNReal.zero_rpow_of_pos (h.temp_pos i), zero_mul]
    · rw [hz, mul_zero]
  · rw [stepKernel_apply hX, Measure.map_apply (hXz z) hA, ← lintegral_indicator_one (hXz z hA)]
    calc ∫⁻ e, ((fun e : ℝ × Fin 2 × (Fin n → ℝ) => exchangeStep m b freq e.1 (loopDraws e.2.2) e.2.1 z) ⁻¹' A).indicator 1 e
          ∂(uniformLaw.prod (fairStart.prod (Measure.pi fun _ => uniformLaw)))
        ≤ ∫⁻ _, ∑ σ : Equiv.Perm (Fin n), A.indicator 1 (fun i => z (σ i)) ∂(uniformLaw.prod (fairStart.prod (Measure.pi fun _ => uniformLaw))) := by
          refine lintegral_mono fun e => ?_
          obtain ⟨σ, hσ, -⟩ := C36_exchange_permutes m b freq e.1 (loopDraws e.2.2) e.2.1 z
          refine le_trans (le_of_eq ?_) (Finset.single_le_sum (f := fun σ : Equiv.Perm (Fin n) => A.indicator (1 : (Fin n → Y × Unit) → ℝ≥0∞) (fun i => z (σ i)))
            (fun _ _ => zero_le) (Finset.mem_univ σ))
          rw [← funext hσ]
          rfl
      _ = _ := by simp
  · have hD : ∀ i, SigmaFinite ((refMeasure μ).withDensity (fun s => m.joint s ^ b i)) := fun i =>
      SigmaFinite.withDensity_of_ne_top (ae_of_all _ fun s => ENNReal.rpow_ne_top_of_nonneg (h.temp_pos i).le (m.finite_joint h.fin s))
    have hc : ∃ c : ℝ≥0∞, ∀ A, MeasurableSet A → Measure.pi (temperedPosterior m b μ) A =
        c * ∫⁻ z, temperedTarget m b z * A.indicator 1 z ∂(Measure.pi fun _ => refMeasure μ) := by
      refine ⟨∏ i, (∫⁻ s, m.joint s ^ b i ∂refMeasure μ)⁻¹, fun A hA => ?_⟩
      have hsm : Measure.pi (temperedPosterior m b μ) = (∏ i, (∫⁻ s, m.joint s ^ b i ∂refMeasure μ)⁻¹) •
          Measure.pi (fun i => (refMeasure μ).withDensity (fun s => m.joint s ^ b i)) := by
        refine Measure.pi_eq fun s hs => ?_
        rw [Measure.smul_apply, Measure.pi_pi, smul_eq_mul, ← Finset.prod_mul_distrib]
        rfl
      rw [hsm, Measure.smul_apply, smul_eq_mul, pi_withDensity _ _ hp, withDensity_apply _ hA, ← lintegral_indicator hA]
      congr 1
      refine lintegral_congr fun z => ?_
      by_cases hz : z ∈ A <;> simp [hz, temperedTarget]
    obtain ⟨c, hc⟩ := hc
    have hint : ∀ f : (Fin n → Y × Unit) → ℝ≥0∞, Measurable f → ∫⁻ z, f z ∂Measure.pi (temperedPosterior m b μ) =
        c * ∫⁻ z, temperedTarget m b z * f z ∂(Measure.pi fun _ => refMeasure μ) := by
      have e : Measure.pi (temperedPosterior m b μ) = c • (Measure.pi fun _ => refMeasure μ).withDensity (temperedTarget m b) := by
        refine Measure.ext fun A hA => ?_
        rw [hc A hA, Measure.smul_apply, withDensity_apply _ hA, ← lintegral_indicator hA, smul_eq_mul]
        congr 1
        refine lintegral_congr fun z => ?_
        by_cases hz : z ∈ A <;> simp [hz]
      intro f hf
      rw [e, lintegral_smul_measure, lintegral_withDensity_eq_lintegral_mul _ (measurable_target m hj b) hf, smul_eq_mul]
      rfl
    refine Measure.ext fun A hA => ?_
    rw [Measure.bind_apply hA (ProbabilityTheory.Kernel.aemeasurable _), hint _ ((exchangeKernel m b freq).measurable_coe hA), hc A hA,
      ← C37_exchange_invariant m hj (m.finite_joint h.fin) b h.temp_pos freq (refMeasure μ) _ (measurable_one.indicator hA)]
    congr 1
    refine lintegral_congr fun z => ?_
    rw [stepKernel_apply hX, Measure.map_apply (hXz z) hA, ← lintegral_exchangeStep m hj b freq _ (measurable_one.indicator hA),
      ← lintegral_indicator_one (hXz z hA)]
    rfl

theorem ReplicaSetup.reaching (h : ReplicaSetup m μ b η sample Pr d) (freq : ℝ) :
    Reaching (stepKernel (replicaStep m b freq sample) (replicaLaw n η)) (Measure.pi (temperedPosterior m b μ)) := by
  have := fun i => (h.reachMH i).prob
  have := fun i => stepKernel_markov (ν := drawLaw η) (measurable_temperedMove h.meas (b i) h.samples.meas)
  have := stepKernel_markov (ν := uniformLaw.prod (fairStart.prod (Measure.pi fun _ : Fin n => uniformLaw)))
    (K := fun z (e : ℝ × Fin 2 × (Fin n → ℝ)) => exchangeStep m b freq e.1 (loopDraws e.2.2) e.2.1 z)
    (measurable_exchangeStep m (m.measurable_joint h.meas) b freq)
  rw [replica_kernel h.meas b freq h.samples.meas]
  exact (h.permuted freq).reach

variable [MeasurableSingletonClass Y]

theorem ReplicaSetup.fades (h : ReplicaSetup m μ b η sample Pr d) (freq : ℝ) (y : Fin n → Y) (hy : ∀ i, m.Start (y i)) :
    Fades (stepKernel (replicaStep m b freq sample) (replicaLaw n η)) (Measure.pi (temperedPosterior m b μ)) (fun i => (y i, ())) := by
  have := fun i => (h.reachMH i).prob
  have hmk := fun i => stepKernel_markov (ν := drawLaw η) (measurable_temperedMove h.meas (b i) h.samples.meas)
  have := stepKernel_markov (ν := uniformLaw.prod (fairStart.prod (Measure.pi fun _ : Fin n => uniformLaw)))
    (K := fun z (e : ℝ × Fin 2 × (Fin n → ℝ)) => exchangeStep m b freq e.1 (loopDraws e.2.2) e.2.1 z)
    (measurable_exchangeStep m (m.measurable_joint h.meas) b freq)
  rw [replica_kernel h.meas b freq h.samples.meas]
  have e : ∀ i k y', acceptProb (temperedRatio m (b i) (y k, ()) (y', ())) = min 1 (ratioE m (y k, ()) (y', ()) ^ b i) := fun i k y' => by
    rw [temperedRatio_eq, acceptProb_log]
  have hz : ∀ i (x : ℝ≥0∞), x ^ b i = 0 ↔ x = 0 := fun i x => ENNReal.rpow_eq_zero_iff_of_pos (h.temp_pos i)
  have hα : ∀ i k, Measurable (fun y' : Y => acceptProb (temperedRatio m (b i) (y k, ()) (y', ()))) := by
    intro i k
    have hr := measurable_ratioE_right h.meas (y k, ())
    simp only [e]
    exact measurable_const.min (hr.pow_const _)
  refine (h.permuted freq).fades _ fun i k => (h.reachMH i).leaves (hα i k) (fun y' hy' => (hy k y' fun hc => hy' ((hz i _).mpr hc)).1) fun y' _ => ?_
  rw [e, min_eq_zero, hz, hz, ratioE_eq_zero h.fin]
  refine ⟨fun hw => ?_, fun hw => Or.inr (Or.inl hw)⟩
  by_contra hc
  rcases hw with hw | hw | hw
  · exact one_ne_zero hw
  · exact hc hw
  · exact (hy k y' hc).2 hw

/-- States of positive density can serve as starting points. -/
theorem ReplicaSetup.start (h : ReplicaSetup m μ b η sample Pr d) {y : Y} (hy : m.joint (y, ()) ≠ 0) : m.Start y := fun y' hy' =>
  ⟨h.reach y y' hy hy', h.reach y' y hy' hy⟩

/-- C122: from all starting points (of positive density, or from which the states of positive
density can be proposed) the joint distribution of the replicas
converges to that of independent draws, replica `i` from the posterior with the joint density
raised to its inverse temperature. -/
theorem C122_law (h : ReplicaSetup m μ b η sample Pr d) (freq : ℝ) {y0 : Fin n → Y} (hy : ∀ i, m.Start (y0 i))
    {f : (Fin n → Y × Unit) → ℝ} (hf : Measurable f) {lo hi : ℝ} (hb : ∀ z, lo ≤ f z ∧ f z ≤ hi) :
    Tendsto (fun t => ∫ ω, f (walk (replicaStep m b freq sample) (fun i => (y0 i, ())) (fun i => d i ω) t) ∂Pr) atTop
      (𝓝 (∫ z, f z ∂Measure.pi (temperedPosterior m b μ))) :=
  have := fun i => (h.reachMH i).prob
  law_fades (measurable_replicaStep h.meas b freq h.samples.meas) (h.reaching freq) h.draws_meas h.draws_law h.draws_indep (h.fades freq y0 hy) hf hb

theorem temperedPosterior_first (b : Fin n → ℝ) {i : Fin n} (hi : b i = 1) (m : MHModel (Y × Unit)) (μ : Measure Y) :
    temperedPosterior m b μ i = posteriorMeasure m (refMeasure μ) := by
  unfold temperedPosterior posteriorMeasure normalised
  simp only [hi, ENNReal.rpow_one]

/-- C122: averages over the samples of a replica with inverse temperature one converge almost
surely to posterior expectations, for every function that has one. -/
theorem C122_average (h : ReplicaSetup m μ b η sample Pr d) (freq : ℝ) {y0 : Fin n → Y} (hy : ∀ i, m.Start (y0 i))
    {i : Fin n} (hi : b i = 1) {f : Y × Unit → ℝ} (hf : Measurable f) (hfi : Integrable f (posteriorMeasure m (refMeasure μ))) :
    ∀ᵐ ω ∂Pr, Tendsto (fun T : ℕ => (∑ t ∈ Finset.range T, f (walk (replicaStep m b freq sample) (fun i => (y0 i, ())) (fun i => d i ω) (t + 1) i)) / T)
      atTop (𝓝 (∫ s, f s ∂posteriorMeasure m (refMeasure μ))) := by
  have := fun i => (h.reachMH i).prob
  have hmk := stepKernel_markov (ν := replicaLaw n η) (measurable_replicaStep h.meas b freq h.samples.meas)
  rw [← temperedPosterior_first b hi] at hfi ⊢
  have hmp := measurePreserving_eval (temperedPosterior m b μ) i
  have h1 : Integrable (fun z : Fin n → Y × Unit => f (z i)) (Measure.pi (temperedPosterior m b μ)) := hmp.integrable_comp_of_integrable hfi
  have h2 : ∫ z : Fin n → Y × Unit, f (z i) ∂Measure.pi (temperedPosterior m b μ) = ∫ s, f s ∂temperedPosterior m b μ i := by
    rw [← hmp.map_eq, integral_map hmp.measurable.aemeasurable hf.aestronglyMeasurable]
  rw [← h2]
  exact walk_average_regular (measurable_replicaStep h.meas b freq h.samples.meas) (h.reaching freq) h.draws_meas h.draws_law h.draws_indep
    (h.fades freq y0 hy).regular (hf.comp (measurable_pi_apply i)) h1

end

section
variable {Z V E Ω : Type} {n : ℕ}

/-- The bookkeeping's chain is the chain of updates; the approximations follow the first
replica. -/
theorem chain_replica (m : MHModel ((Z → V) × Unit)) (b : Fin (n + 1) → ℝ) (freq : ℝ) (sample : (Z → V) × Unit → E → Z → V)
    (x0 : Option (Fin (n + 1)) × Z → V) (ws : ℕ → ReplicaDraws (n + 1) E) (t : ℕ) :
    (∀ i z, (chain (replicaKernel m b freq sample) x0 () ws t).1 (some i, z) =
      (walk (replicaStep m b freq sample) (fun i => (fun z => x0 (some i, z), ())) ws t i).1 z) ∧
    ∀ z, (chain (replicaKernel m b freq sample) x0 () ws (t + 1)).1 (none, z) =
      (walk (replicaStep m b freq sample) (fun i => (fun z => x0 (some i, z), ())) ws (t + 1) 0).1 z := by
  induction t with
  | zero => exact ⟨fun _ _ => rfl, fun _ => rfl⟩
  | succ t ih =>
    have h : (fun i : Fin (n + 1) => ((fun x => (chain (replicaKernel m b freq sample) x0 () ws t).1 (some i, x), ()) : (Z → V) × Unit)) =
        walk (replicaStep m b freq sample) (fun i => (fun z => x0 (some i, z), ())) ws t := by
      funext i
      refine Prod.ext (funext fun z => ih.1 i z) rfl
    have h1 : ∀ i z, (chain (replicaKernel m b freq sample) x0 () ws (t + 1)).1 (some i, z) =
        (walk (replicaStep m b freq sample) (fun i => (fun z => x0 (some i, z), ())) ws (t + 1) i).1 z := by
      intro i z
      show (replicaStep m b freq sample (fun i => (fun x => (chain (replicaKernel m b freq sample) x0 () ws t).1 (some i, x), ())) (ws t) i).1 z =
        (replicaStep m b freq sample (walk (replicaStep m b freq sample) (fun i => (fun z => x0 (some i, z), ())) ws t) (ws t) i).1 z
      rw [h]
    refine ⟨h1, fun z => ?_⟩
    have h' : (fun i : Fin (n + 1) => ((fun x => (chain (replicaKernel m b freq sample) x0 () ws (t + 1)).1 (some i, x), ()) : (Z → V) × Unit)) =
        walk (replicaStep m b freq sample) (fun i => (fun z => x0 (some i, z), ())) ws (t + 1) := by
      funext i
      refine Prod.ext (funext fun z => h1 i z) rfl
    show (replicaStep m b freq sample (fun i => (fun x => (chain (replicaKernel m b freq sample) x0 () ws (t + 1)).1 (some i, x), ())) (ws (t + 1)) 0).1 z =
      (replicaStep m b freq sample (walk (replicaStep m b freq sample) (fun i => (fun z => x0 (some i, z), ())) ws (t + 1)) (ws (t + 1)) 0).1 z
    rw [h']

variable [Fintype Z] [DecidableEq Z] [Nonempty Z] [MeasurableSpace V] [MeasurableSingletonClass V] [Zero V] [MeasurableSpace E] [MeasurableSpace Ω]

/-- C122, end to end: `T` updates filling an `Empirical` with `T` rows succeed whatever it held,
the stored rows do not depend on what it held, and as `T` grows the average over the rows
converges almost surely to the posterior expectation, for every function of a latent variable
that has one. All replicas start from zero, which need not have positive density. -/
theorem C122_run {m : MHModel ((Z → V) × Unit)} {μ : Measure (Z → V)} [SigmaFinite μ] {b : Fin (n + 1) → ℝ} {η : Measure E} [IsProbabilityMeasure η]
    {sample : (Z → V) × Unit → E → Z → V} {Pr : Measure Ω} [IsProbabilityMeasure Pr] {d : ℕ → Ω → ReplicaDraws (n + 1) E}
    (h : ReplicaSetup m μ b η sample Pr d) (freq : ℝ) (hb : b 0 = 1) (h0 : m.Start 0) (late : ℕ → Bool)
    {f : V → ℝ} (hf : Measurable f) (z : Z) (hfi : Integrable (fun s => f (s.1 z)) (posteriorMeasure m (refMeasure μ))) :
    ∃ rows : ℕ → Ω → Z → List V,
      (∀ (qz : Z → List V) T, 0 < T → (∀ z, (qz z).length = T) → ∀ ω, ∃ st infos,
        mcRun (replicaKernel m b freq sample) ((List.range T).map (fun i => (d i ω, late i))) (mcInit (replicaInit qz) ()) = some (st, infos) ∧
        ∀ z, st.params (none, z) = rows T ω z) ∧
      ∀ᵐ ω ∂Pr, Tendsto (fun T => ((rows T ω z).map f).sum / (rows T ω z).length) atTop (𝓝 (∫ s, f (s.1 z) ∂posteriorMeasure m (refMeasure μ))) := by
  refine ⟨fun T ω z => (List.range T).map (fun i => (walk (replicaStep m b freq sample) (fun _ => (0, ())) (fun i => d i ω) (i + 1) 0).1 z), ?_, ?_⟩
  · intro qz T hT hlen ω
    have hq : ∀ z, ∃ v, (qz z)[0]? = some v := fun z => ⟨(qz z)[0]'(by rw [hlen z]; exact hT), by simp [hlen z, hT]⟩
    choose v hv using hq
    let x0 : Option (Fin (n + 1)) × Z → V := fun q => match q with
      | (none, z) => v z
      | (some _, _) => 0
    have hx0 : ∀ q, (replicaInit (n := n) qz q)[0]? = some (x0 q) := by
      rintro ⟨_ | i, z⟩
      · exact hv z
      · show (List.replicate (qz z).length (0 : V))[0]? = some 0
        rw [hlen z]
        simp [hT]
    have hlen' : ∀ q, (replicaInit (n := n) qz q).length = T := by
      rintro ⟨_ | i, z⟩
      · exact hlen z
      · show (List.replicate (qz z).length (0 : V)).length = T
        rw [List.length_replicate, hlen z]
    obtain ⟨s, infos, e, hl, hr, -⟩ := C30_bookkeeping (replicaKernel m b freq sample) (replicaInit qz) () x0 hx0 (fun i => d i ω) late T
      ((le_nIter_iff _ _).mpr fun q => (hlen' q).ge)
    refine ⟨s, infos, e, fun z => List.ext_getElem? fun i => ?_⟩
    by_cases hi : i < T
    · rw [hr (none, z) i hi, (chain_replica m b freq sample x0 (fun i => d i ω) i).2 z]
      simp [hi]
      rfl
    · rw [List.getElem?_eq_none (by rw [hl (none, z), hlen' (none, z)]; omega), List.getElem?_eq_none (by simp; omega)]
  · have hfz : Measurable (fun s : (Z → V) × Unit => f (s.1 z)) := hf.comp ((measurable_pi_apply z).comp measurable_fst)
    filter_upwards [C122_average h freq (y0 := fun _ => 0) (fun _ => h0) hb hfz hfi] with ω hω
    refine hω.congr fun T => ?_
    rw [List.length_map, List.length_range, List.map_map]
    congr 1

end

/-! ### The default temperatures on the real line -/

theorem gaussian_rpow_fin {t : ℝ} (ht : 0 < t) : ∫⁻ x : ℝ, gaussianPDF 0 1 x ^ t ≠ ∞ := by
  have hle : ∀ x : ℝ, gaussianPDF 0 1 x ^ t ≤ ENNReal.ofReal (Real.exp (-(t / 2) * x ^ 2)) := by
    intro x
    have h1 : gaussianPDF 0 1 x ≤ ENNReal.ofReal (Real.exp (-x ^ 2 / 2)) := by
      unfold gaussianPDF
      refine ENNReal.ofReal_le_ofReal ?_
      rw [gaussianPDFReal]
      have h1 : (√(2 * Real.pi * ((1 : NNReal) : ℝ)))⁻¹ ≤ 1 := by
        refine inv_le_one_of_one_le₀ ?_
        rw [Real.one_le_sqrt]
        have := Real.two_le_pi
        push_cast
        linarith
      calc _ ≤ 1 * Real.exp (-(x - 0) ^ 2 / (2 * ((1 : NNReal) : ℝ))) := mul_le_mul_of_nonneg_right h1 (Real.exp_pos _).le
        _ = _ := by norm_num
    refine (ENNReal.rpow_le_rpow h1 ht.le).trans (le_of_eq ?_)
    rw [ENNReal.ofReal_rpow_of_nonneg (Real.exp_pos _).le ht.le, ← Real.exp_mul]
    congr 2
    ring
  refine ne_top_of_le_ne_top ?_ (lintegral_mono hle)
  exact (integrable_exp_neg_mul_sq (by positivity : 0 < t / 2)).lintegral_lt_top.ne

/-- The default inverse temperatures, `np.logspace(0, -2, 5)`. -/
noncomputable def defaultTemperatures (i : Fin 5) : ℝ := (10 : ℝ) ^ (-(i : ℝ) / 2)

theorem replica_walk_setup (x : ℝ) : ReplicaSetup (walkModel x) (volume : Measure (Unit → ℝ)) defaultTemperatures normalDraw (fun s e _ => s.1 () + e)
    (Measure.infinitePi (fun _ : ℕ => replicaLaw 5 normalDraw)) (fun i ω => ω i) where
  fin := walk_fin x
  meas := walk_meas x
  temp_pos := fun i => Real.rpow_pos_of_pos (by norm_num) _
  evidence_pos := by
    intro i
    have ht : 0 < defaultTemperatures i := Real.rpow_pos_of_pos (by norm_num) _
    simp only [walk_joint]
    rw [lintegral_unit (fun t => (gaussianPDF 0 1 t * gaussianPDF t 1 x) ^ defaultTemperatures i) ((measurable_walk_density x).pow_const _)]
    intro h0
    rw [lintegral_eq_zero_iff ((measurable_walk_density x).pow_const _)] at h0
    have : ∀ᵐ t : ℝ, False := by
      filter_upwards [h0] with t hz
      rw [Pi.zero_apply, ENNReal.rpow_eq_zero_iff_of_pos ht] at hz
      exact mul_ne_zero (gaussianPDF_ne_zero _ _) (gaussianPDF_ne_zero _ _) hz
    exact absurd this (by simp [NeZero.ne])
  evidence_fin := by
    intro i
    have ht : 0 < defaultTemperatures i := Real.rpow_pos_of_pos (by norm_num) _
    simp only [walk_joint]
    rw [lintegral_unit (fun t => (gaussianPDF 0 1 t * gaussianPDF t 1 x) ^ defaultTemperatures i) ((measurable_walk_density x).pow_const _)]
    refine ne_top_of_le_ne_top (gaussian_rpow_fin ht) (lintegral_mono fun t => ENNReal.rpow_le_rpow ?_ ht.le)
    exact (mul_le_mul_right (gaussianPDF_le_one t x) _).trans (mul_one _).le
  norm := (walk_setup x).norm
  symm := by
    intro s s'
    rw [walk_propose, walk_propose]
    unfold gaussianPDF gaussianPDFReal
    congr 3
    ring
  samples := walk_samples x
  reach := (walk_setup x).reach
  draws_meas := fun i => measurable_pi_apply i
  draws_law := fun i => Measure.infinitePi_map_eval _ i
  draws_indep := iIndepFun_infinitePi (X := fun _ x => x) (fun _ => measurable_id)

/-- The hypotheses are satisfied with the default temperatures and exchange frequency. -/
example (x : ℝ) (late : ℕ → Bool) :
    ∃ rows : ℕ → (ℕ → ReplicaDraws 5 ℝ) → Unit → List ℝ,
      (∀ (qz : Unit → List ℝ) T, 0 < T → (∀ z, (qz z).length = T) → ∀ ω, ∃ st infos,
        mcRun (replicaKernel (walkModel x) defaultTemperatures 0.1 (fun s e _ => s.1 () + e)) ((List.range T).map (fun i => (ω i, late i)))
          (mcInit (replicaInit qz) ()) = some (st, infos) ∧ ∀ z, st.params (none, z) = rows T ω z) ∧
      ∀ᵐ ω ∂Measure.infinitePi (fun _ : ℕ => replicaLaw 5 normalDraw), Tendsto (fun T => ((rows T ω ()).map id).sum / (rows T ω ()).length) atTop
        (𝓝 (∫ s, s.1 () ∂posteriorMeasure (walkModel x) (refMeasure volume))) :=
  C122_run (replica_walk_setup x) 0.1 (by simp [defaultTemperatures])
    ((replica_walk_setup x).start (by rw [walk_joint]; exact mul_ne_zero (gaussianPDF_ne_zero _ _) (gaussianPDF_ne_zero _ _))) late (f := id) measurable_id () (walk_integrable x)

/-- The same for the joint law of the replicas. -/
example (x : ℝ) (A : Set (Fin 5 → (Unit → ℝ) × Unit)) (hA : MeasurableSet A) :
    Tendsto (fun t => ∫ ω, A.indicator (1 : (Fin 5 → (Unit → ℝ) × Unit) → ℝ)
        (walk (replicaStep (walkModel x) defaultTemperatures 0.1 (fun s e _ => s.1 () + e)) (fun _ => (fun _ => 0, ())) ω t)
      ∂Measure.infinitePi (fun _ : ℕ => replicaLaw 5 normalDraw)) atTop
      (𝓝 (∫ z, A.indicator (1 : (Fin 5 → (Unit → ℝ) × Unit) → ℝ) z ∂Measure.pi (temperedPosterior (walkModel x) defaultTemperatures volume))) :=
  C122_law (replica_walk_setup x) 0.1 (y0 := fun _ _ => 0) (fun _ => (replica_walk_setup x).start (by rw [walk_joint]; exact mul_ne_zero (gaussianPDF_ne_zero _ _) (gaussianPDF_ne_zero _ _)))
    (measurable_one.indicator hA) (lo := 0) (hi := 1) (fun s => by by_cases h : s ∈ A <;> simp [h])

/-! ### A start of density zero -/

/-- A positive latent variable with a `Gamma(2, 1)` prior, an observation and a proposal on the
whole line. Zero, where the replicas start, has density zero. -/
noncomputable def gammaModel (x : ℝ) : MHModel ((Unit → ℝ) × Unit) where
  proposals := [fun s s' => gaussianPDF (s.1 ()) 1 (s'.1 ())]
  priors := [fun s => gammaPDF 2 1 (s.1 ())]
  liks := [fun s => gaussianPDF (s.1 ()) 1 x]

theorem gamma_joint (x : ℝ) (s) : (gammaModel x).joint s = gammaPDF 2 1 (s.1 ()) * gaussianPDF (s.1 ()) 1 x := by
  simp [MHModel.joint, gammaModel]

theorem gamma_propose (x : ℝ) (s s') : (gammaModel x).propose s s' = gaussianPDF (s.1 ()) 1 (s'.1 ()) := by
  simp [MHModel.propose, gammaModel]

theorem measurable_gammaPDF21 : Measurable (gammaPDF 2 1) := (measurable_gammaPDFReal 2 1).ennreal_ofReal

theorem measurable_gamma_density (x : ℝ) : Measurable (fun t : ℝ => gammaPDF 2 1 t * gaussianPDF t 1 x) := by
  have := measurable_gaussianPDF_pair.comp ((measurable_id (α := ℝ)).prodMk (measurable_const (a := x)))
  simp only [Function.comp_def, id] at this
  exact measurable_gammaPDF21.mul this

theorem gamma_rpow_fin {t : ℝ} (ht : 0 < t) : ∫⁻ x : ℝ, gammaPDF 2 1 x ^ t ≠ ∞ := by
  have e : ∀ x : ℝ, gammaPDF 2 1 x ^ t = (Set.Ioi 0).indicator (fun x => ENNReal.ofReal (x ^ t * Real.exp (-t * x ^ (1 : ℝ)))) x := by
    intro x
    by_cases hx : 0 < x
    · rw [Set.indicator_of_mem (Set.mem_Ioi.mpr hx), gammaPDF_eq, if_pos hx.le]
      have h2 : (1 : ℝ) ^ (2 : ℝ) / Real.Gamma 2 * x ^ ((2 : ℝ) - 1) * Real.exp (-(1 * x)) = x * Real.exp (-x) := by
        rw [show (2 : ℝ) - 1 = 1 by norm_num, Real.rpow_one, Real.one_rpow, show Real.Gamma 2 = 1 by simp]
        norm_num
      rw [h2, ENNReal.ofReal_rpow_of_nonneg (by positivity) ht.le, Real.mul_rpow hx.le (Real.exp_pos _).le, ← Real.exp_mul, Real.rpow_one]
      congr 3
      ring
    · rw [Set.indicator_of_notMem (by simpa using hx), gammaPDF_eq]
      rcases lt_or_eq_of_le (not_lt.mp hx) with h | h
      · rw [if_neg (not_le.mpr h), ENNReal.ofReal_zero, ENNReal.zero_rpow_of_pos ht]
      · subst h
        rw [if_pos le_rfl, Real.zero_rpow (by norm_num), mul_zero, zero_mul, ENNReal.ofReal_zero, ENNReal.zero_rpow_of_pos ht]
  simp only [e]
  rw [lintegral_indicator measurableSet_Ioi]
  exact (integrableOn_rpow_mul_exp_neg_mul_rpow (by linarith) one_pos ht).lintegral_lt_top.ne

theorem gamma_evidence_pos (x : ℝ) {t : ℝ} (ht : 0 < t) : ∫⁻ y : Unit → ℝ, (gammaModel x).joint (y, ()) ^ t ≠ 0 := by
  simp only [gamma_joint]
  rw [lintegral_unit (fun s => (gammaPDF 2 1 s * gaussianPDF s 1 x) ^ t) ((measurable_gamma_density x).pow_const _)]
  intro h0
  rw [lintegral_eq_zero_iff ((measurable_gamma_density x).pow_const _)] at h0
  have h1 : ∀ᵐ s : ℝ, gammaPDF 2 1 s = 0 := by
    filter_upwards [h0] with s hz
    rw [Pi.zero_apply, ENNReal.rpow_eq_zero_iff_of_pos ht] at hz
    exact (mul_eq_zero.mp hz).resolve_right (gaussianPDF_ne_zero _ _)
  have h2 := lintegral_gammaPDF_eq_one (a := 2) (r := 1) (by norm_num) (by norm_num)
  rw [lintegral_congr_ae h1, lintegral_zero] at h2
  exact zero_ne_one h2

theorem gamma_evidence_fin (x : ℝ) {t : ℝ} (ht : 0 < t) : ∫⁻ y : Unit → ℝ, (gammaModel x).joint (y, ()) ^ t ≠ ∞ := by
  simp only [gamma_joint]
  rw [lintegral_unit (fun s => (gammaPDF 2 1 s * gaussianPDF s 1 x) ^ t) ((measurable_gamma_density x).pow_const _)]
  refine ne_top_of_le_ne_top (gamma_rpow_fin ht) (lintegral_mono fun s => ENNReal.rpow_le_rpow ?_ ht.le)
  exact (mul_le_mul_right (gaussianPDF_le_one s x) _).trans (mul_one _).le

theorem replica_gamma_setup (x : ℝ) : ReplicaSetup (gammaModel x) (volume : Measure (Unit → ℝ)) defaultTemperatures normalDraw (fun s e _ => s.1 () + e)
    (Measure.infinitePi (fun _ : ℕ => replicaLaw 5 normalDraw)) (fun i ω => ω i) where
  fin := by
    refine ⟨(walk_fin x).proposals, ?_, (walk_fin x).liks⟩
    intro g hg s
    simp only [gammaModel, List.mem_singleton] at hg
    subst hg; exact ENNReal.ofReal_ne_top
  meas := by
    refine ⟨(walk_meas x).proposals, ?_, (walk_meas x).liks⟩
    intro g hg
    simp only [gammaModel, List.mem_singleton] at hg
    subst hg
    have := measurable_gammaPDF21.comp measurable_value
    simp only [Function.comp_def] at this
    exact this
  temp_pos := fun i => Real.rpow_pos_of_pos (by norm_num) _
  evidence_pos := fun i => gamma_evidence_pos x (Real.rpow_pos_of_pos (by norm_num) _)
  evidence_fin := fun i => gamma_evidence_fin x (Real.rpow_pos_of_pos (by norm_num) _)
  norm := (replica_walk_setup x).norm
  symm := (replica_walk_setup x).symm
  samples := ⟨(walk_samples x).meas, (walk_samples x).law⟩
  reach := by
    intro y y' _ _
    rw [gamma_propose]
    exact gaussianPDF_ne_zero _ _
  draws_meas := fun i => measurable_pi_apply i
  draws_law := fun i => Measure.infinitePi_map_eval _ i
  draws_indep := iIndepFun_infinitePi (X := fun _ x => x) (fun _ => measurable_id)

/-- The replicas start where the density is zero, and converge. -/
example (x : ℝ) (A : Set (Fin 5 → (Unit → ℝ) × Unit)) (hA : MeasurableSet A) : (gammaModel x).joint (0, ()) = 0 ∧
    Tendsto (fun t => ∫ ω, A.indicator (1 : (Fin 5 → (Unit → ℝ) × Unit) → ℝ)
        (walk (replicaStep (gammaModel x) defaultTemperatures 0.1 (fun s e _ => s.1 () + e)) (fun _ => (0, ())) ω t)
      ∂Measure.infinitePi (fun _ : ℕ => replicaLaw 5 normalDraw)) atTop
      (𝓝 (∫ z, A.indicator (1 : (Fin 5 → (Unit → ℝ) × Unit) → ℝ) z ∂Measure.pi (temperedPosterior (gammaModel x) defaultTemperatures volume))) := by
  refine ⟨?_, C122_law (replica_gamma_setup x) 0.1 (y0 := fun _ => 0) (fun _ y' _ => ?_)
    (measurable_one.indicator hA) (lo := 0) (hi := 1) (fun s => by by_cases h : s ∈ A <;> simp [h])⟩
  · rw [gamma_joint, gammaPDF_eq]
    norm_num
  · rw [gamma_propose, gamma_propose]
    exact ⟨gaussianPDF_ne_zero _ _, gaussianPDF_ne_zero _ _⟩

end Edward
