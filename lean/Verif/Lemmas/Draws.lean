/-
Sequences of independent draws: the first draw and the rest.
-/
import Mathlib.Probability.Independence.InfinitePi

namespace Edward

open MeasureTheory ProbabilityTheory

/-- The first draw and the following ones are independent, and the following ones are again
a sequence of independent draws. -/
theorem head_tail {E : Type} [MeasurableSpace E] (ν : Measure E) [IsProbabilityMeasure ν] :
    (Measure.infinitePi (fun _ : ℕ => ν)).map (fun w => (w 0, fun n => w (n + 1))) = ν.prod (Measure.infinitePi (fun _ : ℕ => ν)) := by
  set P := Measure.infinitePi (fun _ : ℕ => ν) with hP
  have h0 : Measurable (fun w : ℕ → E => w 0) := measurable_pi_apply 0
  have h1 : Measurable (fun (w : ℕ → E) (n : ℕ) => w (n + 1)) := measurable_pi_lambda _ fun n => measurable_pi_apply (n + 1)
  have hind : iIndepFun (fun (i : ℕ) (w : ℕ → E) => w i) P := iIndepFun_infinitePi (X := fun _ x => x) (fun _ => measurable_id)
  have hI : IndepFun (fun w : ℕ → E => w 0) (fun (w : ℕ → E) (n : ℕ) => w (n + 1)) P := by
    have h := indep_iSup_of_disjoint (μ := P) (m := fun i => MeasurableSpace.comap (fun w : ℕ → E => w i) inferInstance)
      (fun i => (measurable_pi_apply i).comap_le) hind (S := {0}) (T := {i | 0 < i}) (by simp)
    refine indep_of_indep_of_le_right (indep_of_indep_of_le_left h (by simp)) ?_
    rw [MeasurableSpace.pi, MeasurableSpace.comap_iSup]
    refine iSup_le fun n => ?_
    rw [MeasurableSpace.comap_comp]
    exact le_iSup₂_of_le (n + 1) (Nat.succ_pos n) le_rfl
  rw [(indepFun_iff_map_prod_eq_prod_map_map h0.aemeasurable h1.aemeasurable).mp hI, hP, Measure.infinitePi_map_eval]
  congr 1
  exact Measure.map_infinitePi_infinitePi_of_inj (f := fun n : ℕ => n + 1) (add_left_injective 1)

theorem lintegral_head_tail {E : Type} [MeasurableSpace E] (ν : Measure E) [IsProbabilityMeasure ν]
    {g : E × (ℕ → E) → ENNReal} (hg : Measurable g) :
    ∫⁻ w, g (w 0, fun n => w (n + 1)) ∂Measure.infinitePi (fun _ : ℕ => ν) =
      ∫⁻ e, ∫⁻ w, g (e, w) ∂Measure.infinitePi (fun _ : ℕ => ν) ∂ν := by
  have hm : Measurable (fun w : ℕ → E => (w 0, fun n => w (n + 1))) :=
    (measurable_pi_apply 0).prodMk (measurable_pi_lambda _ fun n => measurable_pi_apply (n + 1))
  rw [← lintegral_map (f := g) hg hm, head_tail, lintegral_prod _ hg.aemeasurable]

end Edward
