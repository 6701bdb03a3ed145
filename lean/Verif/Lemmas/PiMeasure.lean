/-
Products of finitely many measures: integrals of products, densities, absolute
continuity, and transitions that move every coordinate independently.
-/
import Mathlib.MeasureTheory.Constructions.Pi
import Mathlib.MeasureTheory.Measure.Decomposition.RadonNikodym
import Mathlib.Probability.Kernel.Basic
import Mathlib.Probability.Kernel.Composition.MeasureComp

namespace Edward

open MeasureTheory ENNReal

variable {S : Type} [MeasurableSpace S]

theorem lintegral_fin_prod : ∀ {n : ℕ} (μ : Fin n → Measure S) [∀ i, SigmaFinite (μ i)] (f : Fin n → S → ℝ≥0∞) (_ : ∀ i, Measurable (f i)),
    ∫⁻ z, ∏ i, f i (z i) ∂Measure.pi μ = ∏ i, ∫⁻ s, f i s ∂μ i
  | 0, μ, _, f, _ => by simp
  | n + 1, μ, _, f, hf => by
    have hmp := (measurePreserving_piFinSuccAbove μ 0)
    have hg : Measurable (fun q : S × (Fin n → S) => f 0 q.1 * ∏ i : Fin n, f i.succ (q.2 i)) :=
      ((hf 0).comp measurable_fst).mul (Finset.measurable_prod _ fun i _ => (hf _).comp ((measurable_pi_apply i).comp measurable_snd))
    have h := hmp.lintegral_comp hg
    have e : ∀ z : Fin (n + 1) → S, (fun q : S × (Fin n → S) => f 0 q.1 * ∏ i : Fin n, f i.succ (q.2 i)) (MeasurableEquiv.piFinSuccAbove (fun _ => S) 0 z) = ∏ i, f i (z i) := by
      intro z
      rw [Fin.prod_univ_succ]
      rfl
    simp only [e] at h
    rw [h, Fin.prod_univ_succ, lintegral_prod_mul (f := f 0) (g := fun q : Fin n → S => ∏ i : Fin n, f i.succ (q i)) (hf 0).aemeasurable
      (Finset.measurable_prod _ fun i _ => (hf _).comp (measurable_pi_apply i)).aemeasurable]
    congr 1
    exact lintegral_fin_prod (fun i => μ i.succ) (fun i => f i.succ) fun i => hf _

variable {n : ℕ}

theorem pi_withDensity (μ : Fin n → Measure S) [∀ i, SigmaFinite (μ i)] (f : Fin n → S → ℝ≥0∞) (hf : ∀ i, Measurable (f i))
    [∀ i, SigmaFinite ((μ i).withDensity (f i))] :
    Measure.pi (fun i => (μ i).withDensity (f i)) = (Measure.pi μ).withDensity (fun z => ∏ i, f i (z i)) := by
  refine Measure.pi_eq fun s hs => ?_
  have hm : MeasurableSet (Set.univ.pi s) := MeasurableSet.univ_pi hs
  rw [withDensity_apply _ hm, ← lintegral_indicator hm]
  have e : ∀ z, (Set.univ.pi s).indicator (fun z : Fin n → S => ∏ i, f i (z i)) z = ∏ i, (s i).indicator (f i) (z i) := by
    intro z
    by_cases hz : z ∈ Set.univ.pi s
    · rw [Set.indicator_of_mem hz]
      exact Finset.prod_congr rfl fun i _ => (Set.indicator_of_mem (hz i (Set.mem_univ i)) _).symm
    · rw [Set.indicator_of_notMem hz]
      simp only [Set.mem_univ_pi, not_forall] at hz
      obtain ⟨i, hi⟩ := hz
      exact (Finset.prod_eq_zero (Finset.mem_univ i) (Set.indicator_of_notMem hi _)).symm
  simp only [e]
  rw [lintegral_fin_prod μ _ fun i => (hf i).indicator (hs i)]
  refine Finset.prod_congr rfl fun i _ => ?_
  rw [withDensity_apply _ (hs i), lintegral_indicator (hs i)]

theorem pi_absolutelyContinuous {μ ν : Fin n → Measure S} [∀ i, SigmaFinite (μ i)] [∀ i, SigmaFinite (ν i)] (h : ∀ i, μ i ≪ ν i) :
    Measure.pi μ ≪ Measure.pi ν := by
  have e : μ = fun i => (ν i).withDensity ((μ i).rnDeriv (ν i)) := funext fun i => (Measure.withDensity_rnDeriv_eq _ _ (h i)).symm
  have hs : ∀ i, SigmaFinite ((ν i).withDensity ((μ i).rnDeriv (ν i))) := fun i => by rw [Measure.withDensity_rnDeriv_eq _ _ (h i)]; infer_instance
  rw [e, pi_withDensity ν _ fun i => Measure.measurable_rnDeriv _ _]
  exact withDensity_absolutelyContinuous _ _

section
variable (κ : Fin n → ProbabilityTheory.Kernel S S) [∀ i, ProbabilityTheory.IsMarkovKernel (κ i)]

theorem measurable_piKernel : Measurable (fun z : Fin n → S => Measure.pi fun i => κ i (z i)) := by
  refine Measurable.measure_of_isPiSystem_of_isProbabilityMeasure (generateFrom_pi (α := fun _ : Fin n => S)).symm
    (isPiSystem_pi) ?_
  rintro _ ⟨s, hs, rfl⟩
  simp only [Measure.pi_pi]
  exact Finset.measurable_prod _ fun i _ => ((κ i).measurable_coe (hs i (Set.mem_univ i))).comp (measurable_pi_apply i)

/-- Every coordinate moves by its own transition. -/
noncomputable def piKernel : ProbabilityTheory.Kernel (Fin n → S) (Fin n → S) where
  toFun z := Measure.pi fun i => κ i (z i)
  measurable' := measurable_piKernel κ

theorem piKernel_apply (z : Fin n → S) : piKernel κ z = Measure.pi fun i => κ i (z i) := rfl

instance : ProbabilityTheory.IsMarkovKernel (piKernel κ) := ⟨fun z => by rw [piKernel_apply]; infer_instance⟩

theorem pi_bind (μ : Fin n → Measure S) [∀ i, IsFiniteMeasure (μ i)] :
    (Measure.pi μ).bind (piKernel κ) = Measure.pi (fun i => (μ i).bind (κ i)) := by
  refine (Measure.pi_eq fun s hs => ?_).symm
  rw [Measure.bind_apply (MeasurableSet.univ_pi hs) (piKernel κ).aemeasurable]
  simp only [piKernel_apply, Measure.pi_pi]
  rw [lintegral_fin_prod μ (fun i s' => κ i s' (s i)) fun i => (κ i).measurable_coe (hs i)]
  exact Finset.prod_congr rfl fun i _ => (Measure.bind_apply (hs i) (κ i).aemeasurable).symm

end

end Edward
