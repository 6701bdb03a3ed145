/-
Reversibility of accept/reject kernels whose ratio is the log of
`π(new) g(new → old) / (π(old) g(old → new))`.
-/
import Mathlib.MeasureTheory.Measure.Prod
import Mathlib.Analysis.SpecialFunctions.Log.ENNRealLogExp
import Verif.Lemmas.Accept

set_option linter.unusedSectionVars false

namespace Edward

open MeasureTheory ENNReal

theorem acceptProb_eq (r : EReal) : acceptProb r = min 1 (EReal.exp r) := by
  conv_lhs => rw [← EReal.log_exp r]
  rw [acceptProb_log]

theorem measurable_acceptProb : Measurable acceptProb := by
  have : acceptProb = fun r => min 1 (EReal.exp r) := funext acceptProb_eq
  rw [this]
  exact measurable_const.min EReal.measurable_exp

variable {Y W : Type} [MeasurableSpace Y] [MeasurableSpace W]

/-- `ratio` is the Metropolis-Hastings ratio for target `π` and proposal `g` wherever the
current state and the move have positive density. -/
structure IsMH (π : Y × W → ℝ≥0∞) (g : Y × W → Y × W → ℝ≥0∞) (ratio : Y × W → Y × W → EReal) :
    Prop where
  joint_meas : Measurable π
  joint_fin : ∀ s, π s ≠ ∞
  prop_meas : Measurable (fun q : (Y × W) × (Y × W) => g q.1 q.2)
  prop_fin : ∀ s s', g s s' ≠ ∞
  ratio_eq : ∀ old new, π old ≠ 0 → g old new ≠ 0 →
    ratio old new = log (π new * g new old / (π old * g old new))

/-- One update, with the uniform draw integrated out. -/
theorem acceptReject_eq (μ : Measure Y) (g : Y × W → Y × W → ℝ≥0∞) (ratio : Y × W → Y × W → EReal)
    (f : Y × W → ℝ≥0∞) (s : Y × W) :
    acceptReject μ g ratio f s = ∫⁻ y', g s (y', s.2) *
      (acceptProb (ratio s (y', s.2)) * f (y', s.2) + (1 - acceptProb (ratio s (y', s.2))) * f s) ∂μ := by
  classical
  unfold acceptReject
  congr 1
  funext y'
  congr 1
  rw [← lintegral_accept]
  congr 1
  funext u
  split <;> rfl

theorem acceptReject_one (μ : Measure Y) (g : Y × W → Y × W → ℝ≥0∞) (ratio : Y × W → Y × W → EReal)
    (s : Y × W) (hnorm : ∫⁻ y', g s (y', s.2) ∂μ = 1) :
    acceptReject μ g ratio (fun _ => 1) s = 1 := by
  rw [acceptReject_eq]
  have : ∀ y', g s (y', s.2) * (acceptProb (ratio s (y', s.2)) * 1 +
      (1 - acceptProb (ratio s (y', s.2))) * 1) = g s (y', s.2) := by
    intro y'
    rw [mul_one, mul_one, add_tsub_cancel_of_le (acceptProb_le_one _), mul_one]
  simp only [this, hnorm]

variable {π : Y × W → ℝ≥0∞} {g : Y × W → Y × W → ℝ≥0∞} {ratio : Y × W → Y × W → EReal}

/-- Flow from `s` to `(y', s.2)`. -/
noncomputable def flow (π : Y × W → ℝ≥0∞) (g : Y × W → Y × W → ℝ≥0∞) (s : Y × W) (y' : Y) : ℝ≥0∞ :=
  min (π s * g s (y', s.2)) (π (y', s.2) * g (y', s.2) s)

theorem flow_symm (y y' : Y) (w : W) : flow π g (y, w) y' = flow π g (y', w) y := by
  unfold flow; exact min_comm _ _

theorem IsMH.accept (h : IsMH π g ratio) (s : Y × W) (y' : Y) :
    π s * g s (y', s.2) * acceptProb (ratio s (y', s.2)) = flow π g s y' := by
  unfold flow
  by_cases h0 : π s = 0
  · simp [h0]
  by_cases hg : g s (y', s.2) = 0
  · simp [hg]
  rw [h.ratio_eq _ _ h0 hg, acceptProb_log, mul_min_one_div (mul_ne_zero h0 hg)
    (ENNReal.mul_ne_top (h.joint_fin s) (h.prop_fin _ _))]

/-- `π * K f` splits into the flow and the rejected mass. -/
theorem IsMH.joint_expect (h : IsMH π g ratio) (μ : Measure Y)
    (f : Y × W → ℝ≥0∞) (hfm : Measurable f) (s : Y × W) :
    π s * acceptReject μ g ratio f s = (∫⁻ y', flow π g s y' * f (y', s.2) ∂μ) +
      f s * ∫⁻ y', π s * g s (y', s.2) * (1 - acceptProb (ratio s (y', s.2))) ∂μ := by
  have hmr : Measurable (fun y' : Y => π s * g s (y', s.2)) :=
    measurable_const.mul (h.prop_meas.comp
      (measurable_const.prodMk (measurable_id.prodMk measurable_const)))
  have hmr2 : Measurable (fun y' : Y => π (y', s.2) * g (y', s.2) s) :=
    (h.joint_meas.comp (measurable_id.prodMk measurable_const)).mul
      (h.prop_meas.comp ((measurable_id.prodMk measurable_const).prodMk measurable_const))
  have hflow : Measurable (fun y' => flow π g s y' * f (y', s.2)) :=
    (hmr.min hmr2).mul (hfm.comp (measurable_id.prodMk measurable_const))
  have hfin : π s ≠ ∞ := h.joint_fin s
  rw [acceptReject_eq, ← lintegral_const_mul' _ _ hfin, mul_comm (f s)]
  have hacc : ∀ y', π s * g s (y', s.2) * (1 - acceptProb (ratio s (y', s.2))) =
      π s * g s (y', s.2) - flow π g s y' := by
    intro y'
    rw [ENNReal.mul_sub (fun _ _ => ENNReal.mul_ne_top hfin (h.prop_fin _ _)), mul_one, h.accept]
  have hrej : Measurable (fun y' => π s * g s (y', s.2) * (1 - acceptProb (ratio s (y', s.2)))) := by
    simp only [hacc]; exact hmr.sub (hmr.min hmr2)
  rw [← lintegral_mul_const _ hrej, ← lintegral_add_left hflow]
  congr 1
  funext y'
  rw [← h.accept s y']
  ring

theorem IsMH.reversible (hi : IsMH π g ratio) (μ : Measure Y) [SFinite μ]
    (ν : Measure W) (f h : Y × W → ℝ≥0∞) (hfm : Measurable f) (hhm : Measurable h) :
    ∫⁻ w, ∫⁻ y, π (y, w) * h (y, w) * acceptReject μ g ratio f (y, w) ∂μ ∂ν =
    ∫⁻ w, ∫⁻ y, π (y, w) * f (y, w) * acceptReject μ g ratio h (y, w) ∂μ ∂ν := by
  congr 1
  funext w
  set R : Y → ℝ≥0∞ := fun y => ∫⁻ y', π (y, w) * g (y, w) (y', w) *
    (1 - acceptProb (ratio (y, w) (y', w))) ∂μ with hR
  have mflow : Measurable (fun q : Y × Y => flow π g (q.1, w) q.2) := by
    unfold flow
    have a : Measurable (fun q : Y × Y => ((q.1, w) : Y × W)) := measurable_fst.prodMk measurable_const
    have b : Measurable (fun q : Y × Y => ((q.2, w) : Y × W)) := measurable_snd.prodMk measurable_const
    exact ((hi.joint_meas.comp a).mul (hi.prop_meas.comp (a.prodMk b))).min
      ((hi.joint_meas.comp b).mul (hi.prop_meas.comp (b.prodMk a)))
  have ma : ∀ k : Y × W → ℝ≥0∞, Measurable k → Measurable (fun y => k (y, w)) := fun k hk =>
    hk.comp (measurable_id.prodMk measurable_const)
  have split : ∀ f h : Y × W → ℝ≥0∞, Measurable f → Measurable h →
      ∫⁻ y, π (y, w) * h (y, w) * acceptReject μ g ratio f (y, w) ∂μ =
      (∫⁻ y, ∫⁻ y', flow π g (y, w) y' * (h (y, w) * f (y', w)) ∂μ ∂μ) +
        ∫⁻ y, h (y, w) * (f (y, w) * R y) ∂μ := by
    intro f h hfm hhm
    have mi : Measurable (fun q : Y × Y => flow π g (q.1, w) q.2 * (h (q.1, w) * f (q.2, w))) :=
      mflow.mul ((((ma h hhm)).comp measurable_fst).mul ((ma f hfm).comp measurable_snd))
    have mleft : Measurable (fun y => ∫⁻ y', flow π g (y, w) y' * (h (y, w) * f (y', w)) ∂μ) :=
      mi.lintegral_prod_right'
    rw [← lintegral_add_left mleft]
    congr 1
    funext y
    have := hi.joint_expect μ f hfm (y, w)
    calc π (y, w) * h (y, w) * acceptReject μ g ratio f (y, w)
        = h (y, w) * (π (y, w) * acceptReject μ g ratio f (y, w)) := by ring
      _ = h (y, w) * ((∫⁻ y', flow π g (y, w) y' * f (y', w) ∂μ) + f (y, w) * R y) := by rw [this]
      _ = h (y, w) * (∫⁻ y', flow π g (y, w) y' * f (y', w) ∂μ) + h (y, w) * (f (y, w) * R y) := by
          rw [mul_add]
      _ = _ := by
          congr 1
          rw [← lintegral_const_mul]
          · congr 1; funext y'; ring
          · exact (mflow.comp (measurable_const.prodMk measurable_id)).mul (ma f hfm)
  rw [split f h hfm hhm, split h f hhm hfm]
  congr 1
  · have mi : Measurable (fun q : Y × Y => flow π g (q.1, w) q.2 * (h (q.1, w) * f (q.2, w))) :=
      mflow.mul ((((ma h hhm)).comp measurable_fst).mul ((ma f hfm).comp measurable_snd))
    rw [lintegral_lintegral_swap mi.aemeasurable]
    congr 1
    funext y
    congr 1
    funext y'
    rw [flow_symm y' y w]
    ring
  · congr 1
    funext y
    ring

theorem IsMH.invariant (hi : IsMH π g ratio) (μ : Measure Y) [SFinite μ]
    (ν : Measure W) (hnorm : ∀ s : Y × W, ∫⁻ y', g s (y', s.2) ∂μ = 1)
    (f : Y × W → ℝ≥0∞) (hfm : Measurable f) :
    ∫⁻ w, ∫⁻ y, π (y, w) * acceptReject μ g ratio f (y, w) ∂μ ∂ν = ∫⁻ w, ∫⁻ y, π (y, w) * f (y, w) ∂μ ∂ν := by
  have h := hi.reversible μ ν f (fun _ => 1) hfm measurable_const
  simp only [mul_one] at h
  rw [h]
  simp only [acceptReject_one _ _ _ _ (hnorm _), mul_one]

end Edward
