/-
C70: the tensors that `ParamMixture.mean` and `ParamMixture.variance` return, for events of any shape.
-/
import Verif.Model.MixtureMoments
import Verif.Props.MixtureArgs
import Verif.Props.Distributions
import Mathlib.Probability.Distributions.Gaussian.Real

namespace Edward
open MeasureTheory ProbabilityTheory

theorem weightedSum_eq (K : ℕ) (E : List ℕ) (w c : NDArr ℝ) (hw : w.shape = [K]) (hc : c.shape = K :: E) :
    ∃ t, weightedSum E.length w c = .ok t ∧ t.shape = E ∧
      ∀ e, Spec.IndexOf e E → t.get e = ∑ k : Fin K, c.get (k :: e) * w.get [(k : ℕ)] := by
  have hshape : (expandTo w (w.shape.length + E.length)).shape = K :: List.replicate E.length 1 := by simp [expandTo, hw]
  have hall : List.Forall₂ (fun a b => b = a ∨ b = 1) c.shape.reverse (expandTo w (w.shape.length + E.length)).shape.reverse := by
    rw [List.forall₂_reverse_iff, hshape, hc]
    refine .cons (Or.inl rfl) ?_
    clear * -
    induction E with
    | nil => exact .nil
    | cons a E ih => exact .cons (Or.inr rfl) ih
  obtain ⟨h1, h2⟩ := broadcastable_of _ _ hall
  unfold weightedSum broadcastMul
  rw [if_pos h1]
  simp only [h2, List.reverse_reverse]
  have hres : resolveAxis c.shape.length 0 = some 0 := by
    rw [hc]
    simp [resolveAxis]
  unfold reduceSumAxis
  simp only [hres]
  refine ⟨_, rfl, ?_, fun e he => ?_⟩
  · rw [hc]; rfl
  · simp only [hc, List.getD_cons_zero, List.insertIdx_zero]
    rw [Finset.sum_range]
    refine Finset.sum_congr rfl fun k _ => ?_
    have hix : Spec.IndexOf ((k : ℕ) :: e) (K :: E) := .cons k.2 he
    have e1 : (bidx (K :: E).reverse ((k : ℕ) :: e).reverse).reverse = (k : ℕ) :: e := by
      rw [bidx_index _ _ (List.forall₂_reverse_iff.mpr hix), List.reverse_reverse]
    have hlen : e.length = E.length := he.length_eq
    have hix2 : Spec.IndexOf [(k : ℕ)] [K] := .cons k.2 .nil
    have e2 : (bidx (K :: List.replicate E.length 1).reverse ((k : ℕ) :: e).reverse).reverse =
        (k : ℕ) :: (bidx (List.replicate E.length 1) e.reverse).reverse := by
      have a1 : (K :: List.replicate E.length 1).reverse = List.replicate E.length 1 ++ [K] := by simp
      have a2 : ((k : ℕ) :: e).reverse = e.reverse ++ [(k : ℕ)] := by simp
      rw [a1, a2, bidx_concat _ _ _ _ (by simp [hlen]), bidx_index _ _ hix2]
      simp
    rw [e1, hshape, e2]
    simp [expandTo, hw]

/-- C70: for one vector of weights and events of any shape, `mean()` and `variance()` have the shape of the event, and hold at each
index the mean and the variance of the mixture of the components' laws there. -/
theorem C70_moments_tensor (K : ℕ) (E : List ℕ) (w m v : NDArr ℝ) (hw : w.shape = [K]) (hm : m.shape = K :: E)
    (hpos : ∀ k : Fin K, 0 ≤ w.get [(k : ℕ)]) (hsum : ∑ k : Fin K, w.get [(k : ℕ)] = 1)
    (ν : List ℕ → Fin K → Measure ℝ) [∀ e k, IsProbabilityMeasure (ν e k)] (hν : ∀ e k, MemLp id 2 (ν e k))
    (hmean : ∀ e (k : Fin K), m.get (k :: e) = ∫ x, x ∂(ν e k)) (hvar : ∀ e (k : Fin K), v.get (k :: e) = Var[id; ν e k]) :
    ∃ a s, mixtureMoments E.length w (some m) (some v) = some (a, s) ∧ a.shape = E ∧ s.shape = E ∧ ∀ e, Spec.IndexOf e E →
      a.get e = ∫ x, x ∂(∑ k : Fin K, ENNReal.ofReal (w.get [(k : ℕ)]) • ν e k) ∧
      s.get e = Var[id; ∑ k : Fin K, ENNReal.ofReal (w.get [(k : ℕ)]) • ν e k] := by
  obtain ⟨a, ha, has, hae⟩ := weightedSum_eq K E w m hw hm
  obtain ⟨q, hq, hqs, hqe⟩ := weightedSum_eq K E w ⟨m.shape, fun ix => m.get ix ^ 2 + v.get ix⟩ hw hm
  refine ⟨a, ⟨a.shape, fun ix => q.get ix - a.get ix ^ 2⟩, ?_, has, has, fun e he => ?_⟩
  · simp [mixtureMoments, hw, ha, hq]
  · obtain ⟨h1, h2, -⟩ := C70_moments (fun k : Fin K => w.get [(k : ℕ)]) hpos hsum (ν e) (hν e)
    simp only [mixtureMean, mixtureVariance, mixtureLaw] at h1 h2
    refine ⟨?_, ?_⟩
    · rw [hae e he, ← h1]
      simp only [hmean]
    · rw [← h2]
      simp only [hqe e he, hae e he, hmean, hvar]

/-- C70 fails: a mixture with a batch of weights has no mean and no variance, whatever the components; nor has one whose components
lack either. -/
theorem C70_missing_fails (r : ℕ) (w : NDArr ℝ) (m v : Option (NDArr ℝ)) :
    (2 ≤ w.shape.length → mixtureMoments r w m v = none) ∧ mixtureMoments r w none v = none ∧ mixtureMoments r w m none = none := by
  refine ⟨fun h => ?_, ?_, ?_⟩
  · unfold mixtureMoments
    rw [if_neg (by omega)]
  · simp [mixtureMoments]
  · unfold mixtureMoments
    cases m <;> simp

/-- Two normal components for events of length two, around 0 and 4. -/
example : ∃ a s, mixtureMoments 1 ⟨[2], fun _ => 1 / 2⟩ (some ⟨[2, 2], fun ix => 4 * ix.getD 0 0⟩) (some ⟨[2, 2], fun _ => 1⟩) = some (a, s) ∧
    a.shape = [2] ∧ s.shape = [2] ∧ ∀ e, Spec.IndexOf e [2] →
      a.get e = ∫ x, x ∂(∑ k : Fin 2, ENNReal.ofReal (1 / 2) • gaussianReal (4 * (k : ℕ)) 1) ∧
      s.get e = Var[id; ∑ k : Fin 2, ENNReal.ofReal (1 / 2) • gaussianReal (4 * (k : ℕ)) 1] :=
  C70_moments_tensor 2 [2] ⟨[2], fun _ => 1 / 2⟩ ⟨[2, 2], fun ix => 4 * ix.getD 0 0⟩ ⟨[2, 2], fun _ => 1⟩ rfl rfl (fun _ => by norm_num) (by norm_num)
    (fun _ k => gaussianReal (4 * (k : ℕ)) 1) (fun _ _ => memLp_id_gaussianReal 2) (fun e k => by simp) (fun e k => by simp)

end Edward
