/-
C133: training on batches. With the factor N/M on the variables of the plate the losses and gradients of the batches
average to those of all data, for the losses which use `scale`; the documented sum over an epoch does not.
-/
import Mathlib.Probability.ProbabilityMassFunction.Integrals
import Mathlib.MeasureTheory.Integral.Prod
import Mathlib.Data.Nat.Count
import Mathlib.Data.Int.CardIntervalMod
import Verif.Model.Batch
import Verif.Spec.Batch
import Verif.Props.Descent
import Verif.Props.ScoreGradient

namespace Edward
set_option linter.unusedSectionVars false
open MeasureTheory Filter Topology ProbabilityTheory InformationTheory

section
variable {Z X I Ω β : Type} [Fintype I] [Fintype β] {N M : ℕ} {p : β → ℝ} {b : β → Fin M → Fin N}

theorem Spec.Balanced.sum_share (h : Spec.Balanced p b) (f : Fin N → ℝ) :
    ∑ k, p k * ∑ m, f (b k m) = (M : ℝ) / N * ∑ n, f n := by
  have h1 : ∀ k, ∑ m, f (b k m) = ∑ n, (∑ m, if b k m = n then 1 else 0) * f n := fun k => by
    simp_rw [Finset.sum_mul]
    rw [Finset.sum_comm]
    refine Finset.sum_congr rfl fun m _ => ?_
    simp
  simp_rw [h1, Finset.mul_sum]
  rw [Finset.sum_comm]
  refine Finset.sum_congr rfl fun n _ => ?_
  rw [← h.share n, Finset.sum_mul]
  exact Finset.sum_congr rfl fun k _ => by ring

theorem plate_mean (h : Spec.Balanced p b) (hN : 0 < N) (hM : 0 < M) {c : Bool} {f : I ⊕ Fin N → ℝ} (hf : Spec.OnPlate c f) :
    ∑ k, p k * ∑ i : I ⊕ Fin M, Spec.plateScale N M c * f (i.map id (b k)) = ∑ i, f i := by
  have hN' : (N : ℝ) ≠ 0 := by positivity
  have hM' : (M : ℝ) ≠ 0 := by positivity
  cases c with
  | true =>
    simp only [Spec.OnPlate, if_true] at hf
    simp only [Fintype.sum_sum_type, Sum.map_inl, Sum.map_inr, hf, Spec.plateScale, if_true, Finset.sum_const_zero, zero_add,
      ← Finset.mul_sum]
    have := h.sum_share fun n => f (.inr n)
    calc ∑ k, p k * ((N : ℝ) / M * ∑ m, f (.inr (b k m))) = (N : ℝ) / M * ∑ k, p k * ∑ m, f (.inr (b k m)) := by
          rw [Finset.mul_sum]; exact Finset.sum_congr rfl fun k _ => by ring
      _ = ∑ n, f (.inr n) := by rw [this]; field_simp
  | false =>
    simp only [Spec.OnPlate, Bool.false_eq_true, if_false] at hf
    simp only [Fintype.sum_sum_type, Sum.map_inl, Sum.map_inr, hf, Spec.plateScale, Bool.false_eq_true, if_false, one_mul,
      Finset.sum_const_zero, add_zero, id, ← Finset.sum_mul, h.one]

theorem list_mean {K : Type} (l : List K) (t : β → K → ℝ) : ∑ k, p k * (l.map (t k)).sum = (l.map fun z => ∑ k, p k * t k z).sum := by
  induction l with
  | nil => simp
  | cons a l ih => simp only [List.map_cons, List.sum_cons, mul_add, Finset.sum_add_distrib, ih]

theorem average_mean {n : ℕ} (A : β → Fin n → ℝ) : ∑ k, p k * Spec.average (A k) = Spec.average fun s => ∑ k, p k * A k s := by
  simp only [Spec.average]
  rw [Finset.sum_comm]
  rw [Finset.sum_div]
  refine Finset.sum_congr rfl fun k _ => ?_
  rw [← Finset.mul_sum]
  ring

/-- The batch `k` with the factors of the plate. -/
noncomputable abbrev plateBatch (v : ViProblem Z X (I ⊕ Fin N) Ω) (inZ : Z → Bool) (inX : X → Bool) (b : Fin M → Fin N) :
    ViProblem Z X (I ⊕ Fin M) Ω :=
  v.batch (fun z => Spec.plateScale N M (inZ z)) (fun x => Spec.plateScale N M (inX x)) b

variable {v : ViProblem Z X (I ⊕ Fin N) Ω} {inZ : Z → Bool} {inX : X → Bool}

theorem batch_latents (b : Fin M → Fin N) : (plateBatch v inZ inX b).latents = v.latents := rfl

theorem batch_logJoint (h : Spec.Balanced p b) (hv : Spec.Plated v inZ inX) (hN : 0 < N) (hM : 0 < M) (ω : Ω) :
    ∑ k, p k * Spec.logJoint (plateBatch v inZ inX (b k)) ω = Spec.logJoint v ω := by
  simp only [Spec.logJoint, mul_add, Finset.sum_add_distrib, plateBatch, ViProblem.batch]
  rw [list_mean, list_mean]
  simp only [hv.scaleZ, hv.scaleX, one_mul]
  congr 3
  · funext z; exact plate_mean h hN hM (hv.logP z ω)
  · funext x; exact plate_mean h hN hM (hv.logLik x ω)

theorem batch_logLik (h : Spec.Balanced p b) (hv : Spec.Plated v inZ inX) (hN : 0 < N) (hM : 0 < M) (ω : Ω) :
    ∑ k, p k * Spec.logLik (plateBatch v inZ inX (b k)) ω = Spec.logLik v ω := by
  simp only [Spec.logLik, plateBatch, ViProblem.batch]
  rw [list_mean]
  simp only [hv.scaleX, one_mul]
  congr 2
  funext x; exact plate_mean h hN hM (hv.logLik x ω)

theorem batch_logApprox (h : Spec.Balanced p b) (hv : Spec.Plated v inZ inX) (hN : 0 < N) (hM : 0 < M) (ω : Ω) :
    ∑ k, p k * Spec.logApprox (plateBatch v inZ inX (b k)) ω = Spec.logApprox v ω := by
  simp only [Spec.logApprox, plateBatch, ViProblem.batch]
  rw [list_mean]
  simp only [hv.scaleZ, one_mul]
  congr 2
  funext z; exact plate_mean h hN hM (hv.logQ z ω)

/-- C133, the losses of `KLqp` without analytic terms, and of `MAP`: the mean over the batches is the loss with all data, whatever
the draws and the number of samples. -/
theorem C133_loss_partial (h : Spec.Balanced p b) (hv : Spec.Plated v inZ inX) (hN : 0 < N) (hM : 0 < M) (n : ℕ) (d : Fin n → Ω)
    (reg : ℝ) :
    ∑ k, p k * reparamLoss (plateBatch v inZ inX (b k)) n d reg = reparamLoss v n d reg ∧
    ∑ k, p k * scoreLoss (plateBatch v inZ inX (b k)) n d reg = scoreLoss v n d reg ∧
    ∀ ω, ∑ k, p k * mapLoss (plateBatch v inZ inX (b k)) ω 0 = mapLoss v ω 0 := by
  have h1 : ∑ k, p k * (Spec.average (fun s => Spec.logApprox (plateBatch v inZ inX (b k)) (d s) -
      Spec.logJoint (plateBatch v inZ inX (b k)) (d s)) + reg) =
      Spec.average (fun s => Spec.logApprox v (d s) - Spec.logJoint v (d s)) + reg := by
    simp only [mul_add, Finset.sum_add_distrib, ← Finset.sum_mul, h.one, one_mul]
    rw [average_mean]
    simp only [mul_sub, Finset.sum_sub_distrib, batch_logApprox h hv hN hM, batch_logJoint h hv hN hM]
  refine ⟨?_, ?_, fun ω => ?_⟩
  · simp only [C52_reparam]; exact h1
  · simp only [C52_score]; exact h1
  · simp only [(C56_own_scale_partial _ 0 Fin.elim0).2.2.2]
    have := batch_logJoint h hv hN hM ω
    simp only [Spec.logJoint] at this
    rw [← this, ← Finset.sum_neg_distrib]
    exact Finset.sum_congr rfl fun k _ => by ring

/-- C133, the losses of `KLqp` with the analytic KL: right on average when `kl_scaling` has the factors of the plate. -/
theorem C133_kl_partial (h : Spec.Balanced p b) (hv : Spec.Plated v inZ inX) (hN : 0 < N) (hM : 0 < M) (n : ℕ) (hn : 0 < n) (d : Fin n → Ω)
    (reg : ℝ) {kl : Z → I ⊕ Fin N → ℝ} (hkl : ∀ z, Spec.OnPlate (inZ z) (kl z)) :
    ∑ k, p k * reparamKlLoss (plateBatch v inZ inX (b k)) n d (fun z _ => Spec.plateScale N M (inZ z)) (batchEntries kl (b k)) reg =
      reparamKlLoss v n d (fun _ _ => 1) kl reg := by
  simp only [C52_kl _ n hn]
  rw [average_mean]
  simp only [mul_add, Finset.sum_add_distrib, mul_neg, Finset.sum_neg_distrib, batch_logLik h hv hN hM, ← Finset.sum_mul, h.one, one_mul,
    batch_latents]
  rw [list_mean]
  have : ∀ z, ∑ k, p k * ∑ i, Spec.plateScale N M (inZ z) * batchEntries kl (b k) z i = ∑ i, kl z i := fun z =>
    plate_mean h hN hM (hkl z)
  simp only [this]

/-- C133, the losses of `KLqp` with the analytic entropy: the mean over the batches is too large by the entropy of the local
variables, times 1 - M/N. It is right when all latent variables are outside the plate. -/
theorem C133_entropy_partial (h : Spec.Balanced p b) (hv : Spec.Plated v inZ inX) (hN : 0 < N) (hM : 0 < M) (n : ℕ) (hn : 0 < n)
    (d : Fin n → Ω) (reg : ℝ) {H : Z → I ⊕ Fin N → ℝ} (hH : ∀ z, Spec.OnPlate (inZ z) (H z)) :
    ∑ k, p k * reparamEntropyLoss (plateBatch v inZ inX (b k)) n d (batchEntries H (b k)) reg =
      reparamEntropyLoss v n d H reg + (1 - M / N) * ((v.latents.filter inZ).map fun z => ∑ i, H z i).sum := by
  have hN' : (N : ℝ) ≠ 0 := by positivity
  have hM' : (M : ℝ) ≠ 0 := by positivity
  have hz : ∀ z, ∑ k, p k * ∑ i, batchEntries H (b k) z i = if inZ z then (M : ℝ) / N * ∑ i, H z i else ∑ i, H z i := fun z => by
    have := plate_mean h hN hM (hH z)
    simp only [Spec.plateScale] at this
    by_cases hc : inZ z
    · simp only [hc, if_true, ← Finset.mul_sum] at this ⊢
      rw [← this, Finset.mul_sum]
      refine Finset.sum_congr rfl fun k _ => ?_
      simp only [batchEntries]
      field_simp
    · simp only [hc, Bool.false_eq_true, if_false, one_mul] at this ⊢
      exact this
  have hl : ∀ l : List Z, (l.map fun z => ∑ k, p k * ∑ i, batchEntries H (b k) z i).sum =
      (l.map fun z => ∑ i, H z i).sum - (1 - M / N) * ((l.filter inZ).map fun z => ∑ i, H z i).sum := by
    intro l
    induction l with
    | nil => simp
    | cons a l ih =>
      rw [List.map_cons, List.sum_cons, ih, hz, List.map_cons, List.sum_cons]
      by_cases hc : inZ a
      · rw [List.filter_cons_of_pos hc, if_pos hc, List.map_cons, List.sum_cons]; ring
      · rw [List.filter_cons_of_neg hc, if_neg hc]; ring
  simp only [C52_entropy _ n hn]
  rw [average_mean]
  simp only [mul_add, mul_sub, mul_neg, Finset.sum_add_distrib, Finset.sum_sub_distrib, Finset.sum_neg_distrib, batch_logJoint h hv hN hM,
    ← Finset.sum_mul, h.one, one_mul, batch_latents]
  rw [list_mean]
  simp only [hl]
  have e : ∀ s : Fin n, -Spec.logJoint v (d s) - ((v.latents.map fun z => ∑ i, H z i).sum - (1 - M / N) *
      ((v.latents.filter inZ).map fun z => ∑ i, H z i).sum) + reg = (-Spec.logJoint v (d s) - (v.latents.map fun z => ∑ i, H z i).sum + reg) -
      -((1 - M / N) * ((v.latents.filter inZ).map fun z => ∑ i, H z i).sum) := fun s => by ring
  simp only [e]
  rw [average_sub, average_const hn]
  ring

/-- C133, `SGLD` and `SGHMC`: the log densities they differentiate. -/
theorem C133_mcmc_partial {D W : Type} {m : McmcProblem Z X (I ⊕ Fin N) D W} (h : Spec.Balanced p b) (hm : Spec.PlatedMcmc m inZ inX)
    (hN : 0 < N) (hM : 0 < M) (d : D) (w : W) :
    ∑ k, p k * sgLogJoint (m.batch (fun z => Spec.plateScale N M (inZ z)) (fun x => Spec.plateScale N M (inX x)) (b k)) d w =
      sgLogJoint m d w := by
  have hf : ∀ {K : Type} (t : K → ℝ) (l : List K) (a : ℝ), addTerms l t a = a + (l.map t).sum := by
    intro K t l
    induction l with
    | nil => simp [addTerms]
    | cons b l ih => intro a; simp only [addTerms, List.foldl_cons] at ih ⊢; rw [ih]; simp [add_assoc]
  simp only [sgLogJoint, hf, zero_add, mul_add, Finset.sum_add_distrib, McmcProblem.batch]
  rw [list_mean, list_mean]
  simp only [hm.scaleZ, hm.scaleX, one_mul]
  congr 3
  · funext z; exact plate_mean h hN hM (hm.logPrior z d w)
  · funext x; exact plate_mean h hN hM (hm.logLik x d w)

/-- The loss of one sample of `KLpq`. -/
theorem klpqLoss_one (v : ViProblem Z X I Ω) (ω : Ω) (reg : ℝ) :
    klpqLoss v 1 (fun _ => ω) reg =
      Spec.logJoint { v with scaleZ := fun _ _ => 1, scaleX := fun _ _ => 1 } ω -
        Spec.logApprox { v with scaleZ := fun _ _ => 1, scaleX := fun _ _ => 1 } ω - reg := by
  simp only [klpqLoss, klpqLogProbs, pLogProb_eq, qLogProb_eq, zipWith_ofFn, klpqWeights]
  simp [logSumExp, Spec.logJoint, Spec.logApprox]

/-! ### Gradients -/

section
variable {E : Type} [NormedAddCommGroup E] [InnerProductSpace ℝ E] [CompleteSpace E]

theorem gradient_mean {L : β → E → ℝ} {F : E → ℝ} {l : E} (hd : ∀ k, DifferentiableAt ℝ (L k) l) (h : ∀ l, ∑ k, p k * L k l = F l) :
    ∑ k, p k • gradient (L k) l = gradient F l := by
  have hF : HasGradientAt F (∑ k, p k • gradient (L k) l) l := by
    rw [hasGradientAt_iff_hasFDerivAt]
    have h1 := HasFDerivAt.fun_sum (u := Finset.univ) fun (k : β) _ => ((hd k).hasGradientAt.hasFDerivAt).const_mul (p k)
    have e : InnerProductSpace.toDual ℝ E (∑ k, p k • gradient (L k) l) = ∑ k, p k • InnerProductSpace.toDual ℝ E (gradient (L k) l) := by
      rw [map_sum]
      refine Finset.sum_congr rfl fun k _ => ?_
      rw [map_smulₛₗ]; rfl
    rw [e]
    exact h1.congr_of_eventuallyEq (Eventually.of_forall fun l => (h l).symm)
  exact hF.gradient.symm

/-- C133, the gradients of `KLqp` with reparameterised draws, and of `MAP`: their mean over the batches is the gradient with all
data. -/
theorem C133_gradient_partial {v : E → ViProblem Z X (I ⊕ Fin N) Ω} {A : Type} {T : E → A → Ω} (h : Spec.Balanced p b)
    (hv : ∀ l, Spec.Plated (v l) inZ inX) (hN : 0 < N) (hM : 0 < M) (n : ℕ) (l : E) (d : Fin n → A) {w : ViProblem Z X (I ⊕ Fin N) Ω}
    (hw : Spec.Plated w inZ inX) {U : E → Ω}
    (hd : ∀ k, DifferentiableAt ℝ (fun l => reparamLoss (plateBatch (v l) inZ inX (b k)) n (fun s => T l (d s)) 0) l)
    (hu : ∀ k, DifferentiableAt ℝ (fun l => mapLoss (plateBatch w inZ inX (b k)) (U l) 0) l) :
    ∑ k, p k • reparamGradient (fun l => plateBatch (v l) inZ inX (b k)) T n l d = reparamGradient v T n l d ∧
    ∑ k, p k • mapGradient (plateBatch w inZ inX (b k)) U l = mapGradient w U l :=
  ⟨gradient_mean hd fun l => (C133_loss_partial h (hv l) hN hM n (fun s => T l (d s)) 0).1,
    gradient_mean hu fun l => (C133_loss_partial h hw hN hM n (fun _ => U l) 0).2.2 (U l)⟩

theorem scoreSurrogate_eq (v' v : ViProblem Z X I Ω) (n : ℕ) (d : Fin n → Ω) (reg : ℝ) :
    scoreSurrogate v' v n d reg =
      Spec.average (fun s => Spec.logApprox v' (d s) * (Spec.logApprox v (d s) - Spec.logJoint v (d s))) + reg := by
  rw [scoreSurrogate, pLogProb_eq, qLogProb_eq, qLogProb_eq, zipWith_ofFn, zipWith_ofFn, listMean_ofFn]
  have e : (fun s => Spec.logApprox v' (d s) * (Spec.logApprox v (d s) - Spec.logJoint v (d s))) =
      fun s => -(Spec.logApprox v' (d s) * (Spec.logJoint v (d s) - Spec.logApprox v (d s))) := by funext s; ring
  rw [e, average_neg]
  simp only [Spec.logApprox, Spec.logJoint]
  ring

theorem batch_outside {v : ViProblem Z X (I ⊕ Fin N) Ω} (hv : Spec.Plated v inZ inX) (hz : ∀ z ∈ v.latents, inZ z = false) (b : Fin M → Fin N)
    (ω : Ω) : Spec.logApprox (plateBatch v inZ inX b) ω = Spec.logApprox v ω := by
  simp only [Spec.logApprox, plateBatch, ViProblem.batch]
  refine congrArg List.sum (List.map_congr_left fun z hzm => ?_)
  have h1 := hv.logQ z ω
  rw [hz z hzm] at h1
  simp only [Spec.OnPlate, Bool.false_eq_true, if_false] at h1
  simp [hv.scaleZ, Fintype.sum_sum_type, h1, Spec.plateScale, hz z hzm]

/-- C133, the gradients of `KLqp` with score functions: their mean over the batches is the gradient with all data when the latent
variables are outside the plate. -/
theorem C133_score_partial {v : E → ViProblem Z X (I ⊕ Fin N) Ω} (h : Spec.Balanced p b) (hv : ∀ l, Spec.Plated (v l) inZ inX)
    (hz : ∀ l, ∀ z ∈ (v l).latents, inZ z = false) (hN : 0 < N) (hM : 0 < M) (n : ℕ) (l : E) (d : Fin n → Ω)
    (hd : ∀ s, DifferentiableAt ℝ (fun l => Spec.logApprox (v l) (d s)) l) :
    ∑ k, p k • scoreGradient (fun l => plateBatch (v l) inZ inX (b k)) n l d = scoreGradient v n l d := by
  refine gradient_mean (fun k => ?_) fun l' => ?_
  · simp only [scoreSurrogate_eq, batch_outside (hv _) (hz _), Spec.average, add_zero]
    simp only [div_eq_mul_inv]
    exact (DifferentiableAt.fun_sum fun s _ => (hd s).mul_const _).mul_const _
  · simp only [scoreSurrogate_eq, add_zero]
    rw [average_mean]
    refine congrArg Spec.average (funext fun s => ?_)
    simp only [batch_outside (hv _) (hz _)]
    have e : ∀ k, p k * (Spec.logApprox (v l') (d s) * (Spec.logApprox (v l) (d s) - Spec.logJoint (plateBatch (v l) inZ inX (b k)) (d s))) =
        Spec.logApprox (v l') (d s) * (p k * Spec.logApprox (v l) (d s) - p k * Spec.logJoint (plateBatch (v l) inZ inX (b k)) (d s)) :=
      fun k => by ring
    simp only [e, ← Finset.mul_sum, Finset.sum_sub_distrib, ← Finset.sum_mul, h.one, one_mul, batch_logJoint h (hv l) hN hM]

end

/-! ### An epoch -/

/-- C133: batches in which every data point is once have the same share of every data point. -/
theorem epoch_balanced {K : ℕ} (hK : 0 < K) (hM : 0 < M) (b : Fin K → Fin M → Fin N) (hb : ∀ n, ∑ k, ∑ m, (if b k m = n then 1 else 0) = (1 : ℝ)) :
    N = K * M ∧ Spec.Balanced (fun _ : Fin K => (K : ℝ)⁻¹) b := by
  have hN : N = K * M := by
    have h1 : ∑ n : Fin N, ∑ k, ∑ m, (if b k m = n then 1 else 0) = (N : ℝ) := by simp only [hb]; simp
    rw [Finset.sum_comm] at h1
    simp only [Finset.sum_comm (s := (Finset.univ : Finset (Fin N))) (t := (Finset.univ : Finset (Fin M))), Finset.sum_ite_eq,
      Finset.mem_univ, if_true] at h1
    simp at h1
    exact_mod_cast h1.symm
  refine ⟨hN, by simp [hK.ne'], fun n => ?_⟩
  have hM' : (M : ℝ) ≠ 0 := by positivity
  rw [← Finset.mul_sum, hb, hN]
  push_cast
  field_simp

/-- C133: the sum over an epoch of the losses `KLqp` reports, at the same parameters, is not the loss of the data set but as many
times it as there are batches, contrary to the tutorial on batch training (docs/tex/tutorials/batch-training.tex:192-196). -/
theorem C133_epoch {K : ℕ} (hK : 0 < K) (hM : 0 < M) {b : Fin K → Fin M → Fin N} (hb : ∀ n, ∑ k, ∑ m, (if b k m = n then 1 else 0) = (1 : ℝ))
    (hv : Spec.Plated v inZ inX) (n : ℕ) (d : Fin n → Ω) (reg : ℝ) :
    N = K * M ∧ ∑ k, reparamLoss (plateBatch v inZ inX (b k)) n d reg = K * reparamLoss v n d reg := by
  obtain ⟨hN, h⟩ := epoch_balanced hK hM b hb
  refine ⟨hN, ?_⟩
  have hK' : (K : ℝ) ≠ 0 := by positivity
  have h1 := (C133_loss_partial h hv (by rw [hN]; positivity) hM n d reg).1
  rw [← h1, ← Finset.mul_sum, ← mul_assoc, mul_inv_cancel₀ hK', one_mul]

end

/-! ### The generator of batches -/

theorem sliceRows_length (N i j : ℕ) : (sliceRows N i j).length = min j N - i := by simp [sliceRows]

theorem sliceRows_get (N i j m : ℕ) (h : m < (sliceRows N i j).length) : (sliceRows N i j)[m] = i + m := by simp [sliceRows]

theorem nextBatch_mod {N M start : ℕ} (hs : start ≤ N) (hM : M ≤ N) :
    (nextBatch N M start).1 = ((List.range M).map fun m => (start + m) % N) ∧ (nextBatch N M start).2 ≤ N ∧
      (nextBatch N M start).2 % N = (start + M) % N := by
  rw [nextBatch]
  by_cases h : start + M ≤ N
  · simp only [if_pos h]
    refine ⟨?_, h, trivial⟩
    apply List.ext_getElem
    · simp [sliceRows_length]; omega
    · intro m h1 h2
      rw [sliceRows_get]
      simp only [sliceRows_length] at h1
      simp only [List.getElem_map, List.getElem_range]
      rw [Nat.mod_eq_of_lt]; omega
  · simp only [if_neg h]
    refine ⟨?_, by omega, ?_⟩
    · apply List.ext_getElem
      · simp [sliceRows_length]; omega
      · intro m h1 h2
        simp only [List.length_append, sliceRows_length, List.length_map, List.length_range] at h1 h2
        rw [List.getElem_append]
        simp only [List.getElem_map, List.getElem_range, sliceRows_get, sliceRows_length]
        split_ifs with h3
        · rw [Nat.mod_eq_of_lt]; omega
        · rw [Nat.mod_eq_sub_mod (by omega), Nat.mod_eq_of_lt (by omega)]; omega
    · rw [Nat.mod_eq_sub_mod (a := start + M) (by omega)]

theorem batchStart_mod {N M : ℕ} (hM : M ≤ N) (k : ℕ) : batchStart N M k ≤ N ∧ batchStart N M k % N = (k * M) % N := by
  induction k with
  | zero => simp [batchStart]
  | succ k ih =>
    obtain ⟨_, h2, h3⟩ := nextBatch_mod ih.1 hM
    refine ⟨h2, ?_⟩
    rw [batchStart, h3, Nat.add_mod, ih.2, ← Nat.add_mod, Nat.succ_mul]

theorem batchRows_mod {N M : ℕ} (hM : M ≤ N) (k : ℕ) : batchRows N M k = (List.range M).map fun m => (k * M + m) % N := by
  obtain ⟨h1, h2⟩ := batchStart_mod hM k
  rw [batchRows, (nextBatch_mod h1 hM).1]
  refine List.map_congr_left fun m _ => ?_
  rw [Nat.add_mod, h2, ← Nat.add_mod]

theorem sum_periodic {N : ℕ} [NeZero N] (c M : ℕ) (n : Fin N) :
    ∑ j ∈ Finset.range (M * N), (if (c + j) % N = n then (1 : ℝ) else 0) = M := by
  induction M with
  | zero => simp
  | succ M ih =>
    rw [Nat.succ_mul, Finset.sum_range_add, ih, Nat.cast_succ, add_right_inj]
    rw [← Fin.sum_univ_eq_sum_range (fun x => if (c + (M * N + x)) % N = n then (1 : ℝ) else 0)]
    have h1 : ∀ x : Fin N, (if (c + (M * N + x)) % N = n then (1 : ℝ) else 0) = if x + Fin.ofNat N c = n then 1 else 0 := fun x => by
      have e : (c + (M * N + x)) % N = ((x + Fin.ofNat N c : Fin N) : ℕ) := by
        rw [Fin.val_add, Fin.val_ofNat, Nat.add_mod_mod, show c + (M * N + x) = (x : ℕ) + c + N * M by ring, Nat.add_mul_mod_self_left]
      simp only [e, Fin.ext_iff]
    simp only [h1]
    refine (Fintype.sum_equiv (Equiv.addRight (Fin.ofNat N c)) _ (fun y => if y = n then (1 : ℝ) else 0) fun x => rfl).trans ?_
    simp

/-- C133: with batches no larger than the data, each batch of the generator has the wanted number of rows, and among any `N`
batches in a row all data points have the same share. -/
theorem C133_generator {N M : ℕ} (hN : 0 < N) (hM : M ≤ N) (k₀ : ℕ) :
    ∃ b : Fin N → Fin M → Fin N, (∀ k : Fin N, batchRows N M (k₀ + k) = List.ofFn fun m => (b k m : ℕ)) ∧
      Spec.Balanced (fun _ => (N : ℝ)⁻¹) b := by
  have : NeZero N := ⟨hN.ne'⟩
  have hN' : (N : ℝ) ≠ 0 := by positivity
  refine ⟨fun k m => ⟨((k₀ + k) * M + m) % N, Nat.mod_lt _ hN⟩, fun k => ?_, by simp [hN.ne'], fun n => ?_⟩
  · rw [batchRows_mod hM]
    apply List.ext_getElem <;> simp
  · have h1 : ∑ k : Fin N, ∑ m : Fin M, (if ((k₀ + k) * M + m) % N = n then (1 : ℝ) else 0) = M := by
      rw [← sum_periodic (k₀ * M) M n, ← Fin.sum_univ_eq_sum_range (fun j => if (k₀ * M + j) % N = n then (1 : ℝ) else 0), ← Fintype.sum_prod_type']
      rw [Nat.mul_comm M N]
      refine Fintype.sum_equiv finProdFinEquiv _ _ fun x => ?_
      rw [finProdFinEquiv_apply_val, show (k₀ + (x.1 : ℕ)) * M + x.2 = k₀ * M + (x.2 + M * x.1) by ring]
    simp only [Fin.ext_iff]
    rw [← Finset.mul_sum, h1]
    ring

/-- C133 fails for batches larger than the data: after a while each batch of the generator is the data, which is too few rows. -/
theorem C133_generator_fails {N M : ℕ} (hM : N < M) (k : ℕ) (hk : N ≤ k) : batchRows N M k = List.range N ∧ (batchRows N M k).length < M := by
  have hs : ∀ k, batchStart N M k = k * (M - N) := by
    intro k
    induction k with
    | zero => simp [batchStart]
    | succ k ih =>
      rw [batchStart, nextBatch, if_neg (by omega), ih, Nat.succ_mul]
      simp only []
      omega
  have h1 : batchRows N M k = List.range N := by
    have h2 : N ≤ k * (M - N) := hk.trans (Nat.le_mul_of_pos_right _ (by omega))
    rw [batchRows, hs, nextBatch, if_neg (by omega)]
    have h3 : sliceRows N (k * (M - N)) N = [] := List.length_eq_zero_iff.mp (by rw [sliceRows_length]; omega)
    simp only [h3, List.nil_append]
    rw [sliceRows, List.drop_zero]
    exact List.take_of_length_le (by rw [List.length_range]; omega)
  exact ⟨h1, by rw [h1]; simpa using hM⟩

/-! ### Two data points, in batches of one -/

/-- A latent variable inside the plate (`local` true) or outside, and one observation per data point. -/
def twoPoints (loc : Bool) : ViProblem Unit Unit (Unit ⊕ Fin 2) Unit where
  latents := [()]
  observed := [()]
  scaleZ := fun _ _ => 1
  scaleX := fun _ _ => 1
  logQ := fun _ _ i => match i with
    | .inl _ => if loc then 0 else -1
    | .inr _ => if loc then -1 else 0
  logP := fun _ _ i => match i with
    | .inl _ => if loc then 0 else -2
    | .inr _ => if loc then -2 else 0
  logLik := fun _ _ i => match i with
    | .inl _ => 0
    | .inr n => -1 - n

/-- The batch `k` holds the data point `k`. -/
def oneByOne (k : Fin 2) (_ : Fin 1) : Fin 2 := k

theorem twoPoints_plated (loc : Bool) : Spec.Plated (twoPoints loc) (fun _ => loc) fun _ => true := by
  refine ⟨fun _ _ => rfl, fun _ _ => rfl, fun z ω => ?_, fun z ω => ?_, fun x ω => ?_⟩ <;> cases loc <;> simp [Spec.OnPlate, twoPoints]

theorem oneByOne_once (n : Fin 2) : ∑ k, ∑ m, (if oneByOne k m = n then 1 else 0) = (1 : ℝ) := by
  fin_cases n <;> simp [oneByOne]

theorem oneByOne_balanced : Spec.Balanced (fun _ => (1 / 2 : ℝ)) oneByOne := by
  have := (epoch_balanced (by norm_num) (by norm_num) oneByOne oneByOne_once).2
  simpa using this

/-- The hypotheses of the theorems above hold for it. -/
example (loc : Bool) : ∑ k, (1 / 2 : ℝ) * reparamLoss (plateBatch (twoPoints loc) (fun _ => loc) (fun _ => true) (oneByOne k)) 1 (fun _ => ()) 0 =
    reparamLoss (twoPoints loc) 1 (fun _ => ()) 0 :=
  (C133_loss_partial oneByOne_balanced (twoPoints_plated loc) (by norm_num) (by norm_num) 1 (fun _ => ()) 0).1

example : ∃ b : Fin 5 → Fin 3 → Fin 5, (∀ k : Fin 5, batchRows 5 3 (7 + k) = List.ofFn fun m => (b k m : ℕ)) ∧
    Spec.Balanced (fun _ => ((5 : ℕ) : ℝ)⁻¹) b := C133_generator (by norm_num) (by norm_num) 7

example : batchRows 5 3 1 = [3, 4, 0] ∧ batchRows 5 3 2 = [1, 2, 3] ∧ batchRows 2 3 2 = [0, 1] := by decide

/-- C133 fails for the sum over an epoch, here twice the loss of the data. -/
theorem C133_epoch_fails :
    ∑ k, reparamLoss (plateBatch (twoPoints false) (fun _ => false) (fun _ => true) (oneByOne k)) 1 (fun _ => ()) 0 ≠
      reparamLoss (twoPoints false) 1 (fun _ => ()) 0 := by
  rw [(C133_epoch (by norm_num) (by norm_num) oneByOne_once (twoPoints_plated false) 1 (fun _ => ()) 0).2, C52_reparam]
  norm_num [Spec.average, Spec.logApprox, Spec.logJoint, twoPoints]

/-- C133 fails for `KLpq`, whose loss does not use `scale` (also with the latent variable outside the plate). -/
theorem C133_klpq_fails :
    ∑ k, (1 / 2 : ℝ) * klpqLoss (plateBatch (twoPoints false) (fun _ => false) (fun _ => true) (oneByOne k)) 1 (fun _ => ()) 0 ≠
      klpqLoss (twoPoints false) 1 (fun _ => ()) 0 := by
  simp only [klpqLoss_one]
  norm_num [Spec.logJoint, Spec.logApprox, ViProblem.batch, twoPoints, oneByOne, Fin.sum_univ_two]

/-- C133 fails for `HMC`, whose log density does not use `scale`. -/
theorem C133_hmc_fails : ∃ m : McmcProblem Unit Unit (Unit ⊕ Fin 2) Unit Unit, Spec.PlatedMcmc m (fun _ => false) (fun _ => true) ∧
    ∑ k, (1 / 2 : ℝ) * hmcLogJoint (m.batch (fun _ => Spec.plateScale 2 1 false) (fun _ => Spec.plateScale 2 1 true) (oneByOne k)) () () ≠
      hmcLogJoint m () () := by
  refine ⟨⟨[], [], [()], fun _ _ => 1, fun _ _ => 1, fun _ _ _ _ => 0, fun _ _ _ i => match i with
    | .inl _ => 0
    | .inr _ => -1, fun _ _ _ _ _ => 0⟩, ⟨fun _ _ => rfl, fun _ _ => rfl, fun _ _ _ => by simp [Spec.OnPlate], fun _ _ _ => by simp [Spec.OnPlate]⟩, ?_⟩
  norm_num [hmcLogJoint, addTerms, McmcProblem.batch]

/-- C133 fails for the loss of `KLqp` with the analytic KL, its choice for normal latent variables with normal approximations, when
a latent variable is inside the plate and only `scale` is passed, as documented. -/
theorem C133_kl_fails : ∃ kl : Unit → Unit ⊕ Fin 2 → ℝ, (∀ z, Spec.OnPlate true (kl z)) ∧
    ∑ k, (1 / 2 : ℝ) * reparamKlLoss (plateBatch (twoPoints true) (fun _ => true) (fun _ => true) (oneByOne k)) 1 (fun _ => ()) (fun _ _ => 1)
        (batchEntries kl (oneByOne k)) 0 ≠
      reparamKlLoss (twoPoints true) 1 (fun _ => ()) (fun _ _ => 1) kl 0 := by
  refine ⟨fun _ i => match i with
    | .inl _ => 0
    | .inr _ => 1, fun _ => by simp [Spec.OnPlate], ?_⟩
  simp only [C52_kl _ 1 one_pos]
  norm_num [Spec.average, Spec.logLik, ViProblem.batch, batchEntries, twoPoints, oneByOne, Fin.sum_univ_two, Spec.plateScale]

/-- C133 fails for the loss of `KLqp` with the analytic entropy when a latent variable is inside the plate. -/
theorem C133_entropy_fails : ∃ H : Unit → Unit ⊕ Fin 2 → ℝ, (∀ z, Spec.OnPlate true (H z)) ∧
    ∑ k, (1 / 2 : ℝ) * reparamEntropyLoss (plateBatch (twoPoints true) (fun _ => true) (fun _ => true) (oneByOne k)) 1 (fun _ => ())
        (batchEntries H (oneByOne k)) 0 ≠
      reparamEntropyLoss (twoPoints true) 1 (fun _ => ()) H 0 := by
  have hH : ∀ z : Unit, Spec.OnPlate true ((fun _ i => match i with
    | .inl _ => 0
    | .inr _ => 1) z : Unit ⊕ Fin 2 → ℝ) := fun _ => by simp [Spec.OnPlate]
  refine ⟨_, hH, ?_⟩
  have := C133_entropy_partial oneByOne_balanced (twoPoints_plated true) (by norm_num) (by norm_num) 1 one_pos (fun _ => ()) 0 hH
  rw [this]
  norm_num [twoPoints]

/-- Two coins, one for each data point, whose approximations share the parameter `l`. -/
noncomputable def twoCoins (l : ℝ) : ViProblem Unit Empty (Unit ⊕ Fin 2) (Bool × Bool) where
  latents := [()]
  observed := []
  scaleZ := fun _ _ => 1
  scaleX := fun _ _ => 1
  logQ := fun _ c i => match i with
    | .inl _ => 0
    | .inr n => Real.log (if (if n = 0 then c.1 else c.2) then l else 1 - l)
  logP := fun _ c i => match i with
    | .inl _ => 0
    | .inr n => if (if n = 0 then c.1 else c.2) then 1 else 0
  logLik := fun _ _ _ => 0

/-- C133 fails for the gradients of `KLqp` with score functions when a latent variable is inside the plate, as in the documented
local inference: the factor N/M enters them twice. Here their expectation is -4, and the gradient of the expected loss is -2. -/
theorem C133_score_fails :
    (∀ l, Spec.Plated (twoCoins l) (fun _ => true) fun _ => true) ∧
    ∃ g : Fin 2 → Bool × Bool → ℝ,
      (∀ k c, HasDerivAt (fun l => scoreSurrogate (plateBatch (twoCoins l) (fun _ => true) (fun _ => true) (oneByOne k))
        (plateBatch (twoCoins (1 / 2)) (fun _ => true) (fun _ => true) (oneByOne k)) 1 (fun _ => c) 0) (g k c) (1 / 2)) ∧
      ∑ k, (1 / 2 : ℝ) * ∑ c : Bool × Bool, (if c.1 then (1 / 2 : ℝ) else 1 - 1 / 2) * (if c.2 then (1 / 2 : ℝ) else 1 - 1 / 2) * g k c = -4 ∧
      HasDerivAt (fun l : ℝ => ∑ c : Bool × Bool, (if c.1 then l else 1 - l) * (if c.2 then l else 1 - l) * scoreLoss (twoCoins l) 1 (fun _ => c) 0)
        (-2) (1 / 2) := by
  refine ⟨fun l => ⟨fun _ _ => rfl, fun _ _ => rfl, fun _ _ => by simp [Spec.OnPlate, twoCoins], fun _ _ => by simp [Spec.OnPlate, twoCoins],
    fun x => x.elim⟩, ?_⟩
  obtain ⟨g, hg, hs, hd⟩ := C51_scale_fails
  refine ⟨fun k c => g (if k = 0 then c.1 else c.2), fun k c => ?_, ?_, ?_⟩
  · refine (hg (if k = 0 then c.1 else c.2)).congr_of_eventuallyEq (Eventually.of_forall fun l => ?_)
    simp only [scoreSurrogate_eq]
    norm_num [Spec.average, Spec.logApprox, Spec.logJoint, ViProblem.batch, twoCoins, bernoulliVi, oneByOne, Spec.plateScale]
  · simp only [Fintype.sum_bool, Fintype.sum_prod_type, Fin.sum_univ_two] at hs ⊢
    norm_num at hs ⊢
    linarith
  · have hl : HasDerivAt (fun l : ℝ => Real.log l) 2 (1 / 2) := by
      have := (hasDerivAt_id (1 / 2 : ℝ)).log (by norm_num)
      norm_num at this; exact this
    have hm : HasDerivAt (fun l : ℝ => 1 - l) (-1) (1 / 2) := by
      simpa using (hasDerivAt_id (1 / 2 : ℝ)).const_sub 1
    have hl' : HasDerivAt (fun l : ℝ => Real.log (1 - l)) (-2) (1 / 2) := by
      have := hm.log (by norm_num)
      norm_num at this; exact this
    have h := (((hasDerivAt_id (1 / 2 : ℝ)).mul (hl.sub_const 1)).add (hm.mul hl')).const_mul 2
    refine (h.congr_of_eventuallyEq (Eventually.of_forall fun l => ?_)).congr_deriv ?_
    · simp only [C52_score, Spec.average, Spec.logApprox, Spec.logJoint, twoCoins, Fintype.sum_prod_type, Fintype.sum_bool, Fintype.sum_sum_type,
        Fin.sum_univ_two]
      simp
      ring
    · norm_num

end Edward
