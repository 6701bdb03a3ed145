/-
C107: what the adversarial objectives of GANInference and BiGANInference are.
C79: where regularisation penalties go in the adversarial algorithms.
C109: the gradient of the penalty of WGANInference is a number.
C110: the discriminator compares the observed variable with its data.
-/
import Mathlib.MeasureTheory.Integral.Prod
import Verif.Model.GanLoss
import Verif.Props.Variational
import Verif.Props.Elbo
import Verif.Props.ConjugateLogProbs

open MeasureTheory InformationTheory

namespace Edward

/-! ### C107: the losses of a batch -/

/-- The mean of a nonempty batch. -/
noncomputable def Spec.batchMean (l : List ℝ) : ℝ := l.sum / l.length

theorem sum_zipWith_add : ∀ (a b : List ℝ), a.length = b.length → (List.zipWith (· + ·) a b).sum = a.sum + b.sum
  | [], [], _ => by simp
  | x :: a, y :: b, h => by
    have := sum_zipWith_add a b (by simpa using h)
    simp only [List.zipWith_cons_cons, List.sum_cons, this]
    ring

theorem sum_map_const_add (x : ℝ) : ∀ b : List ℝ, (b.map fun y => x + y).sum = b.length * x + b.sum
  | [] => by simp
  | y :: b => by
    simp only [List.map_cons, List.sum_cons, sum_map_const_add x b, List.length_cons]
    push_cast
    ring

theorem sum_map_add_const (y : ℝ) : ∀ a : List ℝ, (a.map fun x => x + y).sum = a.length * y + a.sum
  | [] => by simp
  | x :: a => by
    simp only [List.map_cons, List.sum_cons, sum_map_add_const y a, List.length_cons]
    push_cast
    ring

/-- When the sum of two tensors exists its mean is the sum of their means. -/
theorem broadcastAdd_mean (a b : List ℝ) (ha : a ≠ []) (hb : b ≠ []) :
    (a.length = b.length ∨ a.length = 1 ∨ b.length = 1 →
      ∃ l, broadcastAdd a b = .ok l ∧ listMean l = Spec.batchMean a + Spec.batchMean b) ∧
    (¬(a.length = b.length ∨ a.length = 1 ∨ b.length = 1) → broadcastAdd a b = .error .valueError) := by
  have la : (a.length : ℝ) ≠ 0 := by exact_mod_cast (List.length_pos_iff.2 ha).ne'
  have lb : (b.length : ℝ) ≠ 0 := by exact_mod_cast (List.length_pos_iff.2 hb).ne'
  constructor
  · intro h
    rw [broadcastAdd]
    by_cases h0 : a.length = b.length
    · rw [if_pos h0]
      refine ⟨_, rfl, ?_⟩
      rw [listMean, Spec.batchMean, Spec.batchMean, sum_zipWith_add a b h0, List.length_zipWith, ← h0, min_self]
      ring
    · rw [if_neg h0]
      by_cases h1 : a.length = 1
      · rw [if_pos h1]
        refine ⟨_, rfl, ?_⟩
        rw [listMean, Spec.batchMean, Spec.batchMean, sum_map_const_add, List.length_map, h1, Nat.cast_one, div_one, add_div,
          mul_div_cancel_left₀ _ lb]
      · have h2 : b.length = 1 := by tauto
        rw [if_neg h1, if_pos h2]
        refine ⟨_, rfl, ?_⟩
        rw [listMean, Spec.batchMean, Spec.batchMean, sum_map_add_const, List.length_map, h2, Nat.cast_one, div_one, add_div,
          mul_div_cancel_left₀ _ la, add_comm]
  · intro h
    push Not at h
    rw [broadcastAdd, if_neg h.1, if_neg h.2.1, if_neg h.2.2]

/-- C107: the losses of GANInference on batches of true and generated data points. They are defined when the batches have
equal sizes or one has a single point, and a ValueError is raised otherwise. The discriminator's loss is the mean cross
entropy of the outputs for true points with label 1 plus that for generated points with label 0, plus its penalties; the
generator's is the mean cross entropy of the outputs for generated points with label 1, plus the other penalties. -/
theorem C107_batch (dTrue dFake : List ℝ) (ht : dTrue ≠ []) (hf : dFake ≠ []) (regs : List (String × ℝ)) :
    (dTrue.length = dFake.length ∨ dTrue.length = 1 ∨ dFake.length = 1 →
      ganLosses dTrue dFake regs = .ok
        (Spec.batchMean (dFake.map (sigmoidCrossEntropy 1)) + regSum (regsOut "Disc" regs),
          Spec.batchMean (dTrue.map (sigmoidCrossEntropy 1)) + Spec.batchMean (dFake.map (sigmoidCrossEntropy 0)) +
            regSum (regsIn "Disc" regs))) ∧
    (¬(dTrue.length = dFake.length ∨ dTrue.length = 1 ∨ dFake.length = 1) →
      ganLosses dTrue dFake regs = .error .valueError) := by
  have h := broadcastAdd_mean (dTrue.map (sigmoidCrossEntropy 1)) (dFake.map (sigmoidCrossEntropy 0)) (by simpa using ht)
    (by simpa using hf)
  simp only [List.length_map] at h
  constructor
  · intro hl
    obtain ⟨l, h1, h2⟩ := h.1 hl
    rw [ganLosses, h1]
    simp only [h2]
    rfl
  · intro hl
    rw [ganLosses, h.2 hl]

example : ganLosses [0] [0, 0, 0] [] = .ok (Spec.batchMean ([0, 0, 0].map (sigmoidCrossEntropy 1)) + 0,
    Spec.batchMean ([0].map (sigmoidCrossEntropy 1)) + Spec.batchMean ([0, 0, 0].map (sigmoidCrossEntropy 0)) + 0) := by
  rw [(C107_batch [0] [0, 0, 0] (by simp) (by simp) []).1 (Or.inr (Or.inl rfl))]
  rfl

theorem ce_neg (x : ℝ) : sigmoidCrossEntropy 0 x = sigmoidCrossEntropy 1 (-x) := by
  rw [sigmoidCrossEntropy, sigmoidCrossEntropy, abs_neg]
  rcases le_total 0 x with h | h
  · rw [max_eq_left h, max_eq_right (neg_nonpos.2 h)]
    ring
  · rw [max_eq_right h, max_eq_left (neg_nonneg.2 h)]
    ring

/-- C107 for BiGANInference: the pairs of generated data and given latent values take the place of the true data points,
and the encoder and decoder minimise the discriminator's loss with the labels exchanged, i.e. for the discriminator with
the opposite sign. -/
theorem C107_bigan (a b : List ℝ) (ha : a ≠ []) (hb : b ≠ []) (regs : List (String × ℝ)) :
    (a.length = b.length ∨ a.length = 1 ∨ b.length = 1 →
      ∃ loss lossD, biganLosses a b regs = .ok (loss, lossD) ∧
        (∃ g, ganLosses a b regs = .ok (g, lossD)) ∧
        ∃ g lossD', ganLosses (a.map (- ·)) (b.map (- ·)) [] = .ok (g, lossD') ∧
          loss = lossD' + regSum (regsIn "Gen" regs)) ∧
    (¬(a.length = b.length ∨ a.length = 1 ∨ b.length = 1) → biganLosses a b regs = .error .valueError) := by
  have h1 := broadcastAdd_mean (a.map (sigmoidCrossEntropy 1)) (b.map (sigmoidCrossEntropy 0)) (by simpa using ha)
    (by simpa using hb)
  have h2 := broadcastAdd_mean (a.map (sigmoidCrossEntropy 0)) (b.map (sigmoidCrossEntropy 1)) (by simpa using ha)
    (by simpa using hb)
  simp only [List.length_map] at h1 h2
  constructor
  · intro hl
    obtain ⟨l1, e1, m1⟩ := h1.1 hl
    obtain ⟨l2, e2, m2⟩ := h2.1 hl
    refine ⟨_, _, by rw [biganLosses, e1, e2], ⟨_, by rw [ganLosses, e1]⟩, ?_⟩
    have h3 := (C107_batch (a.map (- ·)) (b.map (- ·)) (by simpa using ha) (by simpa using hb) []).1 (by simpa using hl)
    refine ⟨_, _, h3, ?_⟩
    have ea : a.map (sigmoidCrossEntropy 0) = (a.map (- ·)).map (sigmoidCrossEntropy 1) := by
      rw [List.map_map]
      exact List.map_congr_left fun x _ => ce_neg x
    have eb : b.map (sigmoidCrossEntropy 1) = (b.map (- ·)).map (sigmoidCrossEntropy 0) := by
      rw [List.map_map]
      exact List.map_congr_left fun x _ => by rw [Function.comp, ce_neg, neg_neg]
    rw [m2, ea, eb]
    simp [regSum, regsIn]
  · intro hl
    rw [biganLosses, h1.2 hl]

/-! ### C107: expected losses -/

variable {X : Type} [MeasurableSpace X]

/-- The expected cross entropy of a discriminator that says 1 for `P` and 0 for `Q`. -/
noncomputable def Spec.discLoss (P Q : Measure X) (D : X → ℝ) : ℝ :=
  (∫ x, sigmoidCrossEntropy 1 (D x) ∂P) + ∫ x, sigmoidCrossEntropy 0 (D x) ∂Q

theorem batchMean_ofFn {N : ℕ} (f : Fin N → ℝ) : Spec.batchMean (List.ofFn f) = Spec.average f := by
  rw [Spec.batchMean, List.sum_ofFn, List.length_ofFn, Spec.average]

/-- C107: the expected losses, when the true points are drawn from `P` and the generated ones from `Q`. -/
theorem C107_expected (P Q : Measure X) [IsProbabilityMeasure P] [IsProbabilityMeasure Q] (D : X → ℝ)
    (h1 : Integrable (fun x => sigmoidCrossEntropy 1 (D x)) P)
    (h0 : Integrable (fun x => sigmoidCrossEntropy 0 (D x)) Q)
    (h1' : Integrable (fun x => sigmoidCrossEntropy 1 (D x)) Q) {N : ℕ} (hN : 0 < N) (regs : List (String × ℝ)) :
    ∃ L : (Fin N → X) × (Fin N → X) → ℝ × ℝ,
      (∀ s, ganLosses (List.ofFn fun n => D (s.1 n)) (List.ofFn fun n => D (s.2 n)) regs = .ok (L s)) ∧
      ∫ s, (L s).2 ∂(Measure.pi fun _ => P).prod (Measure.pi fun _ => Q) =
        Spec.discLoss P Q D + regSum (regsIn "Disc" regs) ∧
      ∫ s, (L s).1 ∂(Measure.pi fun _ => P).prod (Measure.pi fun _ => Q) =
        (∫ x, sigmoidCrossEntropy 1 (D x) ∂Q) + regSum (regsOut "Disc" regs) := by
  have hne : ∀ s : Fin N → X, (List.ofFn fun n => D (s n)) ≠ [] := fun s h => by
    have := congrArg List.length h
    simp at this
    omega
  refine ⟨fun s => (Spec.average (fun n => sigmoidCrossEntropy 1 (D (s.2 n))) + regSum (regsOut "Disc" regs),
    Spec.average (fun n => sigmoidCrossEntropy 1 (D (s.1 n))) +
      Spec.average (fun n => sigmoidCrossEntropy 0 (D (s.2 n))) + regSum (regsIn "Disc" regs)), fun s => ?_, ?_, ?_⟩
  · rw [(C107_batch _ _ (hne s.1) (hne s.2) regs).1 (Or.inl (by simp))]
    simp only [List.map_ofFn, batchMean_ofFn]
    rfl
  · have hI : ∀ (R : Measure X) [IsProbabilityMeasure R] (f : X → ℝ), Integrable f R →
        Integrable (fun d : Fin N → X => Spec.average fun n => f (d n)) (Measure.pi fun _ => R) := fun R _ f hf => by
      unfold Spec.average
      exact (integrable_finsetSum _ fun n _ =>
        integrable_comp_eval (μ := fun _ : Fin N => R) (i := n) hf).div_const _
    have hA := hI P _ h1
    have hB := hI Q _ h0
    have hA' := hA.comp_fst (Measure.pi fun _ : Fin N => Q)
    have hB' := hB.comp_snd (Measure.pi fun _ : Fin N => P)
    have hAB : Integrable (fun s : (Fin N → X) × (Fin N → X) =>
        Spec.average (fun n => sigmoidCrossEntropy 1 (D (s.1 n))) + Spec.average fun n => sigmoidCrossEntropy 0 (D (s.2 n)))
        ((Measure.pi fun _ => P).prod (Measure.pi fun _ => Q)) := hA'.add hB'
    simp only
    rw [integral_add hAB (integrable_const _), integral_add hA' hB',
      integral_fun_fst (fun d : Fin N → X => Spec.average fun n => sigmoidCrossEntropy 1 (D (d n))),
      integral_fun_snd (fun d : Fin N → X => Spec.average fun n => sigmoidCrossEntropy 0 (D (d n))),
      integral_average P hN _ h1, integral_average Q hN _ h0]
    simp [Spec.discLoss]
  · have hB : Integrable (fun d : Fin N → X => Spec.average fun n => sigmoidCrossEntropy 1 (D (d n)))
        (Measure.pi fun _ => Q) := by
      unfold Spec.average
      exact (integrable_finsetSum _ fun n _ =>
        integrable_comp_eval (μ := fun _ : Fin N => Q) (i := n) h1').div_const _
    simp only
    rw [integral_add (hB.comp_snd _) (integrable_const _),
      integral_fun_snd (fun d : Fin N → X => Spec.average fun n => sigmoidCrossEntropy 1 (D (d n))),
      integral_average Q hN _ h1']
    simp

section
variable (μ : Measure X) [SigmaFinite μ] (p q : X → ℝ)

omit [SigmaFinite μ] in
theorem integral_lawOf (hp : ∀ x, 0 < p x) (hpm : Measurable p) (f : X → ℝ) :
    ∫ x, f x ∂Spec.lawOf μ p = ∫ x, p x * f x ∂μ := by
  rw [Spec.lawOf, integral_withDensity_eq_integral_toReal_smul hpm.ennreal_ofReal (by simp)]
  exact integral_congr_ae (.of_forall fun x => by
    show (ENNReal.ofReal (p x)).toReal • f x = p x * f x
    rw [ENNReal.toReal_ofReal (hp x).le, smul_eq_mul])

omit [SigmaFinite μ] in
theorem integrable_lawOf (hp : ∀ x, 0 < p x) (hpm : Measurable p) (f : X → ℝ) :
    Integrable f (Spec.lawOf μ p) ↔ Integrable (fun x => p x * f x) μ := by
  rw [Spec.lawOf, integrable_withDensity_iff_integrable_smul' hpm.ennreal_ofReal (by simp)]
  refine integrable_congr (.of_forall fun x => ?_)
  show (ENNReal.ofReal (p x)).toReal • f x = p x * f x
  rw [ENNReal.toReal_ofReal (hp x).le, smul_eq_mul]

omit [SigmaFinite μ] in
theorem lawOf_probability (hp1 : ∫⁻ x, ENNReal.ofReal (p x) ∂μ = 1) : IsProbabilityMeasure (Spec.lawOf μ p) :=
  ⟨by rw [Spec.lawOf, withDensity_apply _ MeasurableSet.univ, Measure.restrict_univ, hp1]⟩

omit [SigmaFinite μ] in
theorem density_integrable (hp : ∀ x, 0 < p x) (hpm : Measurable p) (hp1 : ∫⁻ x, ENNReal.ofReal (p x) ∂μ = 1) :
    Integrable p μ := by
  refine ⟨hpm.aestronglyMeasurable, ?_⟩
  rw [hasFiniteIntegral_iff_ofReal (.of_forall fun x => (hp x).le), hp1]
  exact ENNReal.one_lt_top

theorem ce_nonneg (x : ℝ) : 0 ≤ sigmoidCrossEntropy 1 x ∧ 0 ≤ sigmoidCrossEntropy 0 x := by
  have h := logistic_pos x
  have h1 : 0 ≤ Real.log (1 + Real.exp (-|x|)) := Real.log_nonneg (by linarith [Real.exp_pos (-|x|)])
  constructor
  · rw [sigmoidCrossEntropy]
    linarith [le_max_left x 0]
  · rw [sigmoidCrossEntropy]
    linarith [le_max_right x 0]

/-- The cross entropies of the log ratio. -/
theorem ce_ratio {a b : ℝ} (ha : 0 < a) (hb : 0 < b) :
    sigmoidCrossEntropy 1 (Real.log (a / b)) = Real.log ((a + b) / a) ∧
    sigmoidCrossEntropy 0 (Real.log (a / b)) = Real.log ((a + b) / b) := by
  have key : ∀ a b : ℝ, 0 < a → 0 < b → sigmoidCrossEntropy 1 (Real.log (a / b)) = Real.log ((a + b) / a) := by
    intro a b ha hb
    rw [sigmoidCrossEntropy]
    rcases le_total 0 (Real.log (a / b)) with h | h
    · rw [max_eq_left h, abs_of_nonneg h, Real.exp_neg, Real.exp_log (by positivity)]
      rw [mul_one, sub_self, zero_add]
      congr 1
      field_simp
    · rw [max_eq_right h, abs_of_nonpos h, neg_neg, Real.exp_log (by positivity), mul_one, zero_sub, ← Real.log_inv,
        ← Real.log_mul (by positivity) (by positivity)]
      congr 1
      field_simp
      ring
  refine ⟨key a b ha hb, ?_⟩
  rw [ce_neg, ← Real.log_inv, inv_div, key b a hb ha, add_comm]

theorem log_ratio_le {a b : ℝ} (ha : 0 < a) (hb : 0 < b) : a * Real.log ((a + b) / a) ≤ b := by
  have h := Real.log_le_sub_one_of_pos (show 0 < (a + b) / a by positivity)
  calc a * Real.log ((a + b) / a) ≤ a * ((a + b) / a - 1) := by gcongr
    _ = b := by field_simp; ring

variable {μ p q}

theorem lintegral_average (hp : ∀ x, 0 < p x) (hpm : Measurable p) (hp1 : ∫⁻ x, ENNReal.ofReal (p x) ∂μ = 1)
    (hq : ∀ x, 0 < q x) (hqm : Measurable q) (hq1 : ∫⁻ x, ENNReal.ofReal (q x) ∂μ = 1) :
    ∫⁻ x, ENNReal.ofReal ((p x + q x) / 2) ∂μ = 1 := by
  have : ∀ x, ENNReal.ofReal ((p x + q x) / 2) =
      (ENNReal.ofReal (p x) + ENNReal.ofReal (q x)) * ENNReal.ofReal (1 / 2) := fun x => by
    rw [← ENNReal.ofReal_add (hp x).le (hq x).le, ← ENNReal.ofReal_mul (by have := hp x; have := hq x; positivity)]
    congr 1
    ring
  simp_rw [this]
  rw [lintegral_mul_const _ (hpm.ennreal_ofReal.fun_add hqm.ennreal_ofReal), lintegral_add_left hpm.ennreal_ofReal, hp1, hq1,
    one_add_one_eq_two, show (2 : ENNReal) = ENNReal.ofReal 2 by simp, ← ENNReal.ofReal_mul (by norm_num)]
  norm_num

/-- The divergence of a law from the average of two is finite. -/
theorem integrable_average (hp : ∀ x, 0 < p x) (hpm : Measurable p) (hp1 : ∫⁻ x, ENNReal.ofReal (p x) ∂μ = 1)
    (hq : ∀ x, 0 < q x) (hqm : Measurable q) (hq1 : ∫⁻ x, ENNReal.ofReal (q x) ∂μ = 1) :
    Integrable (fun x => p x * (Real.log (p x) - Real.log ((p x + q x) / 2))) μ := by
  have hpi := density_integrable μ p hp hpm hp1
  have hqi := density_integrable μ q hq hqm hq1
  have hi : Integrable (fun x => p x * Real.log ((p x + q x) / p x)) μ := by
    refine hqi.mono' (hpm.mul ((hpm.add hqm).div hpm).log).aestronglyMeasurable (.of_forall fun x => ?_)
    have : 0 ≤ Real.log ((p x + q x) / p x) := Real.log_nonneg (by rw [le_div_iff₀ (hp x)]; linarith [hq x])
    rw [Real.norm_eq_abs, abs_of_nonneg (mul_nonneg (hp x).le this)]
    exact log_ratio_le (hp x) (hq x)
  refine ((hpi.mul_const (Real.log 2)).sub hi).congr (.of_forall fun x => ?_)
  have h1 := hp x
  have h2 := hq x
  simp only [Pi.sub_apply]
  rw [Real.log_div (by positivity) (by positivity), Real.log_div (by positivity) (by positivity)]
  ring

/-- The divergence between laws with positive densities. -/
theorem klDiv_law (hp : ∀ x, 0 < p x) (hpm : Measurable p) (hp1 : ∫⁻ x, ENNReal.ofReal (p x) ∂μ = 1)
    (hq : ∀ x, 0 < q x) (hqm : Measurable q) (hq1 : ∫⁻ x, ENNReal.ofReal (q x) ∂μ = 1)
    (hi : Integrable (fun x => Real.log (p x) - Real.log (q x)) (Spec.lawOf μ p)) :
    (klDiv (Spec.lawOf μ p) (Spec.lawOf μ q)).toReal = ∫ x, (Real.log (p x) - Real.log (q x)) ∂Spec.lawOf μ p ∧
      klDiv (Spec.lawOf μ p) (Spec.lawOf μ q) ≠ ⊤ := by
  have hev : Spec.evidence μ q = 1 := by rw [Spec.evidence, hq1, ENNReal.toReal_one]
  have hM : Spec.posterior μ q = Spec.lawOf μ q := by
    rw [Spec.posterior, hev]
    simp only [div_one]
  have hk := klDiv_posterior μ p q (fun x => (hp x).le) hpm hp1 hq hqm (by rw [hq1]; simp) hi
  rw [hM, hev, Real.log_one, add_zero] at hk
  exact hk

/-- C107: the discriminator's expected loss, for any laws with positive densities. Over all discriminators for which it
is defined it is least exactly at the log ratio of the densities of true and generated data (up to null sets), and there
it is twice `log 2` less the divergences of both laws from their average. -/
theorem C107_discriminator (hp : ∀ x, 0 < p x) (hpm : Measurable p) (hp1 : ∫⁻ x, ENNReal.ofReal (p x) ∂μ = 1)
    (hq : ∀ x, 0 < q x) (hqm : Measurable q) (hq1 : ∫⁻ x, ENNReal.ofReal (q x) ∂μ = 1) :
    let P := Spec.lawOf μ p
    let Q := Spec.lawOf μ q
    let M := Spec.lawOf μ fun x => (p x + q x) / 2
    let opt := fun x => Real.log (p x / q x)
    Spec.discLoss P Q opt = 2 * Real.log 2 - (klDiv P M).toReal - (klDiv Q M).toReal ∧
    klDiv P M ≠ ⊤ ∧ klDiv Q M ≠ ⊤ ∧
    ∀ D : X → ℝ, Integrable (fun x => sigmoidCrossEntropy 1 (D x)) P → Integrable (fun x => sigmoidCrossEntropy 0 (D x)) Q →
      Spec.discLoss P Q opt ≤ Spec.discLoss P Q D ∧
      (Spec.discLoss P Q opt = Spec.discLoss P Q D ↔ D =ᵐ[μ] opt) := by
  intro P Q M opt
  have hpi := density_integrable μ p hp hpm hp1
  have hqi := density_integrable μ q hq hqm hq1
  have : IsProbabilityMeasure P := lawOf_probability μ p hp1
  have : IsProbabilityMeasure Q := lawOf_probability μ q hq1
  have hopt : Measurable opt := (hpm.div hqm).log
  have hi1 : Integrable (fun x => p x * sigmoidCrossEntropy 1 (opt x)) μ := by
    refine hqi.mono' ?_ (.of_forall fun x => ?_)
    · simp only [opt, fun x => (ce_ratio (hp x) (hq x)).1]
      exact (hpm.mul ((hpm.add hqm).div hpm).log).aestronglyMeasurable
    · rw [Real.norm_eq_abs, abs_of_nonneg (mul_nonneg (hp x).le (ce_nonneg _).1), (ce_ratio (hp x) (hq x)).1]
      exact log_ratio_le (hp x) (hq x)
  have hi0 : Integrable (fun x => q x * sigmoidCrossEntropy 0 (opt x)) μ := by
    refine hpi.mono' ?_ (.of_forall fun x => ?_)
    · simp only [opt, fun x => (ce_ratio (hp x) (hq x)).2]
      exact (hqm.mul ((hpm.add hqm).div hqm).log).aestronglyMeasurable
    · rw [Real.norm_eq_abs, abs_of_nonneg (mul_nonneg (hq x).le (ce_nonneg _).2), (ce_ratio (hp x) (hq x)).2, add_comm (p x)]
      exact log_ratio_le (hq x) (hp x)
  have hj : ∀ x, 0 < (p x + q x) / 2 := fun x => by have := hp x; have := hq x; positivity
  have hjm : Measurable fun x => (p x + q x) / 2 := (hpm.add hqm).div_const 2
  have hj1 := lintegral_average hp hpm hp1 hq hqm hq1
  have hev : Spec.evidence μ (fun x => (p x + q x) / 2) = 1 := by rw [Spec.evidence, hj1, ENNReal.toReal_one]
  have hM : Spec.posterior μ (fun x => (p x + q x) / 2) = M := by
    rw [Spec.posterior, hev]
    simp only [div_one, M]
  have hl1 : ∀ x, Real.log (p x) - Real.log ((p x + q x) / 2) = Real.log 2 - sigmoidCrossEntropy 1 (opt x) := fun x => by
    have h1 := hp x
    have h2 := hq x
    rw [(ce_ratio h1 h2).1, Real.log_div (by positivity) (by positivity), Real.log_div (by positivity) (by positivity)]
    ring
  have hl0 : ∀ x, Real.log (q x) - Real.log ((p x + q x) / 2) = Real.log 2 - sigmoidCrossEntropy 0 (opt x) := fun x => by
    have h1 := hp x
    have h2 := hq x
    rw [(ce_ratio h1 h2).2, Real.log_div (by positivity) (by positivity), Real.log_div (by positivity) (by positivity)]
    ring
  have hI1 : Integrable (fun x => sigmoidCrossEntropy 1 (opt x)) P := (integrable_lawOf μ p hp hpm _).2 hi1
  have hI0 : Integrable (fun x => sigmoidCrossEntropy 0 (opt x)) Q := (integrable_lawOf μ q hq hqm _).2 hi0
  have hk1 := klDiv_posterior μ p (fun x => (p x + q x) / 2) (fun x => (hp x).le) hpm hp1 hj hjm (by rw [hj1]; simp)
    (by simp only [hl1]; exact (integrable_const _).sub hI1)
  have hk0 := klDiv_posterior μ q (fun x => (p x + q x) / 2) (fun x => (hq x).le) hqm hq1 hj hjm (by rw [hj1]; simp)
    (by simp only [hl0]; exact (integrable_const _).sub hI0)
  rw [hM, hev, Real.log_one, add_zero] at hk1 hk0
  refine ⟨?_, hk1.2, hk0.2, fun D hD1 hD0 => ?_⟩
  · rw [hk1.1, hk0.1]
    simp only [hl1, hl0]
    rw [integral_sub (integrable_const _) hI1, integral_sub (integrable_const _) hI0]
    simp only [integral_const, probReal_univ, one_smul, Spec.discLoss]
    ring
  · have hd1 := (integrable_lawOf μ p hp hpm _).1 hD1
    have hd0 := (integrable_lawOf μ q hq hqm _).1 hD0
    have e : ∀ D : X → ℝ, Integrable (fun x => p x * sigmoidCrossEntropy 1 (D x)) μ →
        Integrable (fun x => q x * sigmoidCrossEntropy 0 (D x)) μ →
        Spec.discLoss P Q D = ∫ x, (p x * sigmoidCrossEntropy 1 (D x) + q x * sigmoidCrossEntropy 0 (D x)) ∂μ :=
      fun D h1 h0 => by
        rw [Spec.discLoss, integral_lawOf μ p hp hpm, integral_lawOf μ q hq hqm, integral_add h1 h0]
    rw [e opt hi1 hi0, e D hd1 hd0]
    have hle : ∀ x, p x * sigmoidCrossEntropy 1 (opt x) + q x * sigmoidCrossEntropy 0 (opt x) ≤
        p x * sigmoidCrossEntropy 1 (D x) + q x * sigmoidCrossEntropy 0 (D x) := fun x =>
      (C60_pointwise (p x) (q x) (hp x) (hq x) (D x)).1
    refine ⟨integral_mono (hi1.add hi0) (hd1.add hd0) hle, ?_⟩
    refine (integral_eq_iff_of_ae_le (hi1.add hi0) (hd1.add hd0) (.of_forall hle)).trans ?_
    exact ⟨fun h => h.mono fun x hx => (C60_pointwise (p x) (q x) (hp x) (hq x) (D x)).2.1 hx,
      fun h => h.mono fun x hx => (C60_pointwise (p x) (q x) (hp x) (hq x) (D x)).2.2 hx⟩

/-- C107: the least expected loss of the discriminator is greatest, twice `log 2`, exactly when the generated data have the
law of the true data. -/
theorem C107_equilibrium (hp : ∀ x, 0 < p x) (hpm : Measurable p) (hp1 : ∫⁻ x, ENNReal.ofReal (p x) ∂μ = 1)
    (hq : ∀ x, 0 < q x) (hqm : Measurable q) (hq1 : ∫⁻ x, ENNReal.ofReal (q x) ∂μ = 1) :
    let least := Spec.discLoss (Spec.lawOf μ p) (Spec.lawOf μ q) fun x => Real.log (p x / q x)
    least ≤ 2 * Real.log 2 ∧ (least = 2 * Real.log 2 ↔ p =ᵐ[μ] q) := by
  intro least
  obtain ⟨-, -, -, h⟩ := C107_discriminator hp hpm hp1 hq hqm hq1
  have : IsProbabilityMeasure (Spec.lawOf μ p) := lawOf_probability μ p hp1
  have : IsProbabilityMeasure (Spec.lawOf μ q) := lawOf_probability μ q hq1
  have h0 : Spec.discLoss (Spec.lawOf μ p) (Spec.lawOf μ q) (fun _ => 0) = 2 * Real.log 2 := by
    simp only [Spec.discLoss, sigmoidCrossEntropy, integral_const, probReal_univ, one_smul]
    norm_num
    ring
  obtain ⟨h1, h2⟩ := h (fun _ => 0) (integrable_const _) (integrable_const _)
  rw [h0] at h1 h2
  refine ⟨h1, h2.trans ?_⟩
  have key : ∀ x, 0 = Real.log (p x / q x) ↔ p x = q x := fun x => by
    rw [eq_comm, Real.log_eq_zero, div_eq_zero_iff, div_eq_one_iff_eq (hq x).ne']
    have h3 := hp x
    have h4 := hq x
    have h5 : p x / q x ≠ -1 := by have : 0 < p x / q x := by positivity
                                   linarith
    constructor
    · rintro ((h | h) | h | h)
      · exact absurd h h3.ne'
      · exact absurd h h4.ne'
      · exact h
      · exact absurd h h5
    · exact fun h => Or.inr (Or.inl h)
  exact ⟨fun h => h.mono fun x hx => (key x).1 hx, fun h => h.mono fun x hx => (key x).2 hx⟩

/-- The hypotheses of `C107_discriminator` and `C107_equilibrium` are met: two laws on two points. -/
example : Spec.discLoss (Spec.lawOf .count fun _ : Bool => 1 / 2) (Spec.lawOf .count fun b : Bool => if b then 1 / 3 else 2 / 3)
    (fun b => Real.log (1 / 2 / if b then 1 / 3 else 2 / 3)) < 2 * Real.log 2 := by
  have h := C107_equilibrium (μ := (Measure.count : Measure Bool)) (p := fun _ => 1 / 2)
    (q := fun b => if b then 1 / 3 else 2 / 3) (fun _ => by norm_num) measurable_const
    (by
      rw [lintegral_count, tsum_bool, ← ENNReal.ofReal_add (by norm_num) (by norm_num)]
      norm_num)
    (fun b => by cases b <;> norm_num) (measurable_of_countable _)
    (by
      rw [lintegral_count, tsum_bool, ← ENNReal.ofReal_add (by norm_num) (by norm_num)]
      norm_num)
  refine lt_of_le_of_ne h.1 fun e => ?_
  have h2 := h.2.1 e
  rw [Filter.EventuallyEq, Measure.ae_count_iff] at h2
  have := h2 true
  norm_num at this

end

/-! ### C107: the generator -/

section
variable {μ : Measure X} [SigmaFinite μ] {p : X → ℝ}

/-- The integrand of `KL(q || p)` less the divergences from the average, and its derivative. -/
theorem generator_term {a : ℝ} (ha : 0 < a) {f : ℝ → ℝ} {f' θ : ℝ} (hf : 0 < f θ) (hd : HasDerivAt f f' θ) :
    HasDerivAt (fun u => f u * (Real.log (f u) - Real.log a) -
      (a * (Real.log a - Real.log ((a + f u) / 2)) + f u * (Real.log (f u) - Real.log ((a + f u) / 2))))
      (f' * (1 + Real.log ((a + f θ) / a) - Real.log 2)) θ := by
  have hpq : 0 < a + f θ := add_pos ha hf
  have h1 := hd.log hf.ne'
  have h2 : HasDerivAt (fun u => Real.log ((a + f u) / 2)) (f' / 2 / ((a + f θ) / 2)) θ := ((hd.const_add a).div_const 2).log (by positivity)
  refine ((hd.fun_mul (h1.sub_const (Real.log a))).fun_sub (((h2.const_sub (Real.log a)).const_mul a).fun_add (hd.fun_mul (h1.fun_sub h2)))).congr_deriv ?_
  rw [Real.log_div hpq.ne' ha.ne', Real.log_div hpq.ne' two_ne_zero]
  field_simp
  ring

/-- C107: the generator's gradient. For the best discriminator of the present generator, held fixed, the derivative of the
generator's expected loss is that of `KL(q || p)` less the divergences of both laws from their average. The densities of the
generated data are differentiable in the parameter and dominated near its present value. -/
theorem C107_generator (hp : ∀ x, 0 < p x) (hpm : Measurable p) (hp1 : ∫⁻ x, ENNReal.ofReal (p x) ∂μ = 1)
    {q q' : ℝ → X → ℝ} {t : ℝ} {N : Set ℝ} (hN : N ∈ nhds t) (hq : ∀ θ ∈ N, ∀ x, 0 < q θ x) (hqm : ∀ θ ∈ N, Measurable (q θ))
    (hq1 : ∀ θ ∈ N, ∫⁻ x, ENNReal.ofReal (q θ x) ∂μ = 1) (hd : ∀ θ ∈ N, ∀ x, HasDerivAt (fun u => q u x) (q' θ x) θ) (hqm' : Measurable (q' t))
    (hkl : ∀ θ ∈ N, Integrable (fun x => Real.log (q θ x) - Real.log (p x)) (Spec.lawOf μ (q θ))) {B : X → ℝ} (hB : Integrable B μ)
    (hdom : ∀ θ ∈ N, ∀ x, |q' θ x| * (1 + Real.log ((p x + q θ x) / p x) + Real.log ((p x + q t x) / p x)) ≤ B x) :
    ∃ g : ℝ, HasDerivAt (fun θ => ∫ x, sigmoidCrossEntropy 1 (Real.log (p x / q t x)) ∂Spec.lawOf μ (q θ)) g t ∧
      HasDerivAt (fun θ => (klDiv (Spec.lawOf μ (q θ)) (Spec.lawOf μ p)).toReal -
        ((klDiv (Spec.lawOf μ p) (Spec.lawOf μ fun x => (p x + q θ x) / 2)).toReal +
          (klDiv (Spec.lawOf μ (q θ)) (Spec.lawOf μ fun x => (p x + q θ x) / 2)).toReal)) g t := by
  have ht : t ∈ N := mem_of_mem_nhds hN
  have hpi := density_integrable μ p hp hpm hp1
  have hl0 : ∀ θ ∈ N, ∀ x, 0 ≤ Real.log ((p x + q θ x) / p x) := fun θ hθ x =>
    Real.log_nonneg (by rw [le_div_iff₀ (hp x)]; linarith [hq θ hθ x])
  have hb1 : ∀ θ ∈ N, ∀ x, |q' θ x| ≤ B x := fun θ hθ x =>
    le_trans (le_mul_of_one_le_right (abs_nonneg _) (by linarith [hl0 θ hθ x, hl0 t ht x])) (hdom θ hθ x)
  have hlog2 : 0 < Real.log 2 ∧ Real.log 2 < 1 := ⟨Real.log_pos one_lt_two, by linarith [Real.log_lt_sub_one_of_pos two_pos (by norm_num)]⟩
  -- the densities stay normalised
  have hq'0 : Integrable (q' t) μ ∧ ∫ x, q' t x ∂μ = 0 := by
    have hqi := density_integrable μ (q t) (hq t ht) (hqm t ht) (hq1 t ht)
    obtain ⟨hi, hder⟩ := hasDerivAt_integral_of_dominated_loc_of_deriv_le (μ := μ) (F := q) (F' := q') hN
      (by filter_upwards [hN] with θ hθ; exact (hqm θ hθ).aestronglyMeasurable) hqi hqm'.aestronglyMeasurable
      (.of_forall fun x θ hθ => hb1 θ hθ x) hB (.of_forall fun x θ hθ => hd θ hθ x)
    refine ⟨hi, ?_⟩
    have hc : (fun θ => ∫ x, q θ x ∂μ) =ᶠ[nhds t] fun _ => 1 := by
      filter_upwards [hN] with θ hθ
      rw [integral_eq_lintegral_of_nonneg_ae (.of_forall fun x => (hq θ hθ x).le) (hqm θ hθ).aestronglyMeasurable, hq1 θ hθ, ENNReal.toReal_one]
    exact (hder.congr_of_eventuallyEq hc.symm).unique (hasDerivAt_const t 1)
  -- integrability of the loss
  have hce : ∀ θ ∈ N, Integrable (fun x => q θ x * Real.log ((p x + q θ x) / p x)) μ := fun θ hθ => by
    have h1 := (integrable_lawOf μ (q θ) (hq θ hθ) (hqm θ hθ) _).1 (hkl θ hθ)
    have h2 : Integrable (fun x => q θ x * Real.log ((q θ x + p x) / q θ x)) μ := by
      refine hpi.mono' ((hqm θ hθ).mul (((hqm θ hθ).add hpm).div (hqm θ hθ)).log).aestronglyMeasurable (.of_forall fun x => ?_)
      have : 0 ≤ Real.log ((q θ x + p x) / q θ x) := Real.log_nonneg (by rw [le_div_iff₀ (hq θ hθ x)]; linarith [hp x])
      rw [Real.norm_eq_abs, abs_of_nonneg (mul_nonneg (hq θ hθ x).le this)]
      exact log_ratio_le (hq θ hθ x) (hp x)
    refine (h1.add h2).congr (.of_forall fun x => ?_)
    have h3 := hp x
    have h4 := hq θ hθ x
    simp only [Pi.add_apply]
    rw [Real.log_div (by positivity) h4.ne', Real.log_div (by positivity) h3.ne', add_comm (q θ x)]
    ring
  have hlm : Measurable (fun x => Real.log ((p x + q t x) / p x)) := ((hpm.add (hqm t ht)).div hpm).log
  obtain ⟨hi1, hder1⟩ := hasDerivAt_integral_of_dominated_loc_of_deriv_le (μ := μ) (F := fun θ x => q θ x * Real.log ((p x + q t x) / p x))
    (F' := fun θ x => q' θ x * Real.log ((p x + q t x) / p x)) hN
    (by filter_upwards [hN] with θ hθ; exact ((hqm θ hθ).mul hlm).aestronglyMeasurable) (hce t ht) (hqm'.mul hlm).aestronglyMeasurable
    (.of_forall fun x θ hθ => by
      rw [norm_mul, Real.norm_eq_abs, Real.norm_eq_abs, abs_of_nonneg (hl0 t ht x)]
      exact le_trans (mul_le_mul_of_nonneg_left (by linarith [hl0 θ hθ x]) (abs_nonneg _)) (hdom θ hθ x)) hB
    (.of_forall fun x θ hθ => (hd θ hθ x).mul_const _)
  refine ⟨_, hder1.congr_of_eventuallyEq ?_, ?_⟩
  · filter_upwards [hN] with θ hθ
    rw [integral_lawOf μ (q θ) (hq θ hθ) (hqm θ hθ)]
    simp only [(ce_ratio (hp _) (hq t ht _)).1]
  -- the divergences as integrals
  set T : ℝ → X → ℝ := fun θ x => q θ x * (Real.log (q θ x) - Real.log (p x)) -
      (p x * (Real.log (p x) - Real.log ((p x + q θ x) / 2)) + q θ x * (Real.log (q θ x) - Real.log ((p x + q θ x) / 2))) with hT
  have key : ∀ θ ∈ N, Integrable (T θ) μ ∧ (klDiv (Spec.lawOf μ (q θ)) (Spec.lawOf μ p)).toReal -
        ((klDiv (Spec.lawOf μ p) (Spec.lawOf μ fun x => (p x + q θ x) / 2)).toReal +
          (klDiv (Spec.lawOf μ (q θ)) (Spec.lawOf μ fun x => (p x + q θ x) / 2)).toReal) = ∫ x, T θ x ∂μ := by
    intro θ hθ
    have hqθ := hq θ hθ
    have hj : ∀ x, 0 < (p x + q θ x) / 2 := fun x => by have := hp x; have := hqθ x; positivity
    have hjm : Measurable fun x => (p x + q θ x) / 2 := (hpm.add (hqm θ hθ)).div_const 2
    have hj1 : ∫⁻ x, ENNReal.ofReal ((p x + q θ x) / 2) ∂μ = 1 := lintegral_average hp hpm hp1 hqθ (hqm θ hθ) (hq1 θ hθ)
    have i1 := (integrable_lawOf μ (q θ) hqθ (hqm θ hθ) _).1 (hkl θ hθ)
    have i2 := integrable_average hp hpm hp1 hqθ (hqm θ hθ) (hq1 θ hθ)
    have i3 := integrable_average hqθ (hqm θ hθ) (hq1 θ hθ) hp hpm hp1
    simp only [fun x => add_comm (q θ x) (p x)] at i3
    have k1 := (klDiv_law hqθ (hqm θ hθ) (hq1 θ hθ) hp hpm hp1 (hkl θ hθ)).1
    have k2 := (klDiv_law hp hpm hp1 hj hjm hj1 ((integrable_lawOf μ p hp hpm _).2 i2)).1
    have k3 := (klDiv_law hqθ (hqm θ hθ) (hq1 θ hθ) hj hjm hj1 ((integrable_lawOf μ (q θ) hqθ (hqm θ hθ) _).2 i3)).1
    refine ⟨i1.sub (i2.add i3), ?_⟩
    rw [k1, k2, k3, integral_lawOf μ (q θ) hqθ (hqm θ hθ), integral_lawOf μ p hp hpm, integral_lawOf μ (q θ) hqθ (hqm θ hθ),
      ← integral_add i2 i3]
    exact (integral_sub i1 (i2.add i3)).symm
  have hTm : ∀ θ ∈ N, AEStronglyMeasurable (T θ) μ := fun θ hθ => (key θ hθ).1.aestronglyMeasurable
  obtain ⟨-, hder2⟩ := hasDerivAt_integral_of_dominated_loc_of_deriv_le (μ := μ) (F := T)
    (F' := fun θ x => q' θ x * (1 + Real.log ((p x + q θ x) / p x) - Real.log 2)) hN
    (by filter_upwards [hN] with θ hθ; exact hTm θ hθ) (key t ht).1 (hqm'.mul ((hlm.const_add 1).sub_const _)).aestronglyMeasurable
    (.of_forall fun x θ hθ => by
      rw [norm_mul, Real.norm_eq_abs, Real.norm_eq_abs, abs_of_nonneg (show 0 ≤ 1 + Real.log ((p x + q θ x) / p x) - Real.log 2 by linarith [hl0 θ hθ x, hlog2.2])]
      exact le_trans (mul_le_mul_of_nonneg_left (by linarith [hl0 t ht x, hlog2.1]) (abs_nonneg _)) (hdom θ hθ x)) hB
    (.of_forall fun x θ hθ => generator_term (hp x) (hq θ hθ x) (hd θ hθ x))
  have hval : ∫ x, q' t x * (1 + Real.log ((p x + q t x) / p x) - Real.log 2) ∂μ = ∫ x, q' t x * Real.log ((p x + q t x) / p x) ∂μ := by
    have e : ∀ x, q' t x * (1 + Real.log ((p x + q t x) / p x) - Real.log 2) =
        q' t x * Real.log ((p x + q t x) / p x) + q' t x * (1 - Real.log 2) := fun x => by ring
    simp only [e]
    rw [integral_add hi1 (hq'0.1.mul_const _), integral_mul_const, hq'0.2, zero_mul, add_zero]
  rw [hval] at hder2
  refine hder2.congr_of_eventuallyEq ?_
  filter_upwards [hN] with θ hθ
  exact (key θ hθ).2

/-- The hypotheses of `C107_generator` are met: uniform data on a circle, and generated data with density proportional to
`1 + θ sin x`. -/
example : ∃ g : ℝ, HasDerivAt (fun θ => ∫ x, sigmoidCrossEntropy 1 (Real.log ((2 * Real.pi)⁻¹ / ((1 + 1 / 3 * Real.sin x) * (2 * Real.pi)⁻¹)))
      ∂Spec.lawOf (volume.restrict (Set.Ioc 0 (2 * Real.pi))) fun x => (1 + θ * Real.sin x) * (2 * Real.pi)⁻¹) g (1 / 3) := by
  have hpi : 0 < (2 * Real.pi)⁻¹ := by positivity
  have hsin : ∀ θ : ℝ, θ ∈ Set.Ioo (0 : ℝ) (1 / 2) → ∀ x, 1 / 2 ≤ 1 + θ * Real.sin x ∧ 1 + θ * Real.sin x ≤ 3 / 2 := fun θ hθ x => by
    constructor <;> nlinarith [hθ.1, hθ.2, Real.neg_one_le_sin x, Real.sin_le_one x]
  have hfin : IsFiniteMeasure (volume.restrict (Set.Ioc (0 : ℝ) (2 * Real.pi))) := ⟨by
    rw [Measure.restrict_apply MeasurableSet.univ, Set.univ_inter, Real.volume_Ioc]; exact ENNReal.ofReal_lt_top⟩
  have hone : ∀ θ : ℝ, θ ∈ Set.Ioo (0 : ℝ) (1 / 2) → ∫⁻ x, ENNReal.ofReal ((1 + θ * Real.sin x) * (2 * Real.pi)⁻¹) ∂volume.restrict (Set.Ioc 0 (2 * Real.pi)) = 1 := by
    intro θ hθ
    have hc : Continuous fun x : ℝ => (1 + θ * Real.sin x) * (2 * Real.pi)⁻¹ := by fun_prop
    rw [← ofReal_integral_eq_lintegral_ofReal (hc.integrableOn_Ioc) (.of_forall fun x => mul_nonneg (by linarith [(hsin θ hθ x).1]) hpi.le),
      ← intervalIntegral.integral_of_le (by positivity), intervalIntegral.integral_mul_const, intervalIntegral.integral_add (by simp)
        ((by fun_prop : Continuous fun x : ℝ => θ * Real.sin x).intervalIntegrable _ _), intervalIntegral.integral_const_mul, integral_sin]
    simp only [Real.cos_zero, Real.cos_two_pi, sub_self, mul_zero, add_zero, intervalIntegral.integral_const, sub_zero, smul_eq_mul, mul_one]
    rw [mul_inv_cancel₀ (by positivity), ENNReal.ofReal_one]
  obtain ⟨g, hg, -⟩ := C107_generator (μ := volume.restrict (Set.Ioc (0 : ℝ) (2 * Real.pi))) (p := fun _ => (2 * Real.pi)⁻¹) (fun _ => hpi) measurable_const
    (by
      rw [lintegral_const, Measure.restrict_apply MeasurableSet.univ, Set.univ_inter, Real.volume_Ioc, sub_zero,
        ← ENNReal.ofReal_mul hpi.le, inv_mul_cancel₀ (by positivity), ENNReal.ofReal_one])
    (q := fun θ x => (1 + θ * Real.sin x) * (2 * Real.pi)⁻¹) (q' := fun _ x => Real.sin x * (2 * Real.pi)⁻¹) (t := 1 / 3) (N := Set.Ioo 0 (1 / 2))
    (Ioo_mem_nhds (by norm_num) (by norm_num)) (fun θ hθ x => mul_pos (by linarith [(hsin θ hθ x).1]) hpi) (fun θ _ => by fun_prop) hone
    (fun θ _ x => by simpa using (((hasDerivAt_id θ).mul_const (Real.sin x)).const_add 1).mul_const (2 * Real.pi)⁻¹) (by fun_prop)
    (fun θ hθ => by
      have := lawOf_probability _ _ (hone θ hθ)
      have e : ∀ x, Real.log ((1 + θ * Real.sin x) * (2 * Real.pi)⁻¹) - Real.log (2 * Real.pi)⁻¹ = Real.log (1 + θ * Real.sin x) := fun x => by
        rw [Real.log_mul (by linarith [(hsin θ hθ x).1]) hpi.ne']; ring
      simp only [e]
      refine Integrable.of_bound ((by fun_prop : Measurable fun x : ℝ => 1 + θ * Real.sin x).log.aestronglyMeasurable) 1 (.of_forall fun x => ?_)
      have h1 := hsin θ hθ x
      have h2 := Real.log_le_sub_one_of_pos (show 0 < 1 + θ * Real.sin x by linarith)
      have h3 := Real.one_sub_inv_le_log_of_pos (show 0 < 1 + θ * Real.sin x by linarith)
      have h4 : (1 + θ * Real.sin x)⁻¹ ≤ 2 := by rw [inv_le_comm₀ (by linarith) (by norm_num)]; linarith
      rw [Real.norm_eq_abs, abs_le]
      constructor <;> linarith)
    (B := fun _ => 4 * (2 * Real.pi)⁻¹) (integrable_const _)
    (fun θ hθ x => by
      have hr : ∀ u : ℝ, ((2 * Real.pi)⁻¹ + u * (2 * Real.pi)⁻¹) / (2 * Real.pi)⁻¹ = 1 + u := fun u => by
        rw [← one_add_mul, mul_div_assoc, div_self hpi.ne', mul_one]
      have hl : ∀ θ ∈ Set.Ioo (0 : ℝ) (1 / 2), Real.log (1 + (1 + θ * Real.sin x)) ≤ 3 / 2 := fun θ hθ => by
        have h1 := hsin θ hθ x
        linarith [Real.log_le_sub_one_of_pos (show 0 < 1 + (1 + θ * Real.sin x) by linarith)]
      simp only [hr]
      rw [abs_mul, abs_of_pos hpi]
      have h1 := hl θ hθ
      have h2 := hl (1 / 3) ⟨by norm_num, by norm_num⟩
      have h3 := Real.abs_sin_le_one x
      have h4 : 0 ≤ Real.log (1 + (1 + θ * Real.sin x)) := Real.log_nonneg (by linarith [(hsin θ hθ x).1])
      have h5 : 0 ≤ Real.log (1 + (1 + 1 / 3 * Real.sin x)) := Real.log_nonneg (by linarith [(hsin (1 / 3) ⟨by norm_num, by norm_num⟩ x).1])
      calc _ ≤ 1 * (2 * Real.pi)⁻¹ * (1 + 3 / 2 + 3 / 2) := by gcongr
        _ = _ := by ring)
  exact ⟨g, hg⟩

end

/-! ### C79 -/

/-- C79 for GANInference and WGANInference: every penalty is added to exactly one of the two losses. -/
theorem C79_adversarial (regs : List (String × ℝ)) (dTrue dFake : List ℝ) (loss lossD loss' lossD' : ℝ)
    (h : ganLosses dTrue dFake regs = .ok (loss, lossD)) (h' : ganLosses dTrue dFake [] = .ok (loss', lossD')) :
    loss + lossD = loss' + lossD' + (regs.map (·.2)).sum ∧
    ∀ (N d : ℕ) (pen : Option ℝ) (f : (Fin d → ℝ) → ℝ) (xt xf e : Fin N → Fin d → ℝ),
      (wganLosses pen f xt xf e regs).1 + (wganLosses pen f xt xf e regs).2 =
        (wganLosses pen f xt xf e []).1 + (wganLosses pen f xt xf e []).2 + (regs.map (·.2)).sum := by
  have key : ∀ l : List (String × ℝ), regSum (regsOut "Disc" l) + regSum (regsIn "Disc" l) = (l.map (·.2)).sum := by
    intro l
    induction l with
    | nil => simp [regSum, regsOut, regsIn]
    | cons r l ih =>
      simp only [regSum, regsOut, regsIn, List.filter_cons] at ih ⊢
      by_cases hr : "Disc".toList.isPrefixOf r.1.toList = true
      · simp only [hr, Bool.not_true, Bool.false_eq_true, if_false, if_true, List.map_cons, List.sum_cons]
        linarith
      · simp only [hr, Bool.not_false, Bool.false_eq_true, if_false, if_true, List.map_cons, List.sum_cons]
        linarith
  have k := key regs
  have k0 : regSum (regsOut "Disc" []) = 0 ∧ regSum (regsIn "Disc" []) = 0 := ⟨rfl, rfl⟩
  constructor
  · rw [ganLosses] at h h'
    cases hb : broadcastAdd (dTrue.map (sigmoidCrossEntropy 1)) (dFake.map (sigmoidCrossEntropy 0)) with
    | error e => rw [hb] at h; cases h
    | ok l =>
      rw [hb] at h h'
      cases h
      cases h'
      rw [k0.1, k0.2]
      linarith
  · intro N d pen f xt xf e
    simp only [wganLosses, k0.1, k0.2]
    linarith

/-- C79 fails for BiGANInference: a penalty made outside the scopes "Disc" and "Gen" is in neither loss, whatever its
value. -/
theorem C79_bigan_fails : ∃ name : String, ∀ (v : ℝ) (a b : List ℝ), biganLosses a b [(name, v)] = biganLosses a b [] := by
  refine ⟨"prior", fun v a b => ?_⟩
  have h1 : regsIn "Gen" [("prior", v)] = [] := by simp [regsIn]
  have h2 : regsIn "Disc" [("prior", v)] = [] := by simp [regsIn]
  rw [biganLosses, biganLosses, h1, h2]
  rfl

/-- C79 fails for GANInference when a penalty of the generator is made in a scope whose name starts with "Disc": it is
added to the loss of the discriminator and not to that of the generator. -/
theorem C79_prefix_fails : ∃ name : String, name ≠ "Disc" ∧ ¬"Disc/".toList <+: name.toList ∧
    ∀ v : ℝ, regSum (regsOut "Disc" [(name, v)]) = 0 ∧ regSum (regsIn "Disc" [(name, v)]) = v := by
  refine ⟨"Discrete/reg", by decide, by decide, fun v => ?_⟩
  simp [regSum, regsOut, regsIn]

/-! ### C109 -/

section
variable {N d : ℕ}

theorem slope_eq_zero {g : Fin d → ℝ} (h : slope g = 0) (i : Fin d) : g i = 0 := by
  rw [slope, Real.sqrt_eq_zero (Finset.sum_nonneg fun i _ => sq_nonneg _),
    Finset.sum_eq_zero_iff_of_nonneg fun i _ => sq_nonneg _] at h
  exact pow_eq_zero_iff (two_ne_zero) |>.1 (h i (Finset.mem_univ i))

theorem xnum_mul_coe (a b : ℝ) : XNum.mul (.val a) (.val b) = .val ((a * b : ℝ) : EReal) := by
  simp [XNum.mul, EReal.coe_ne_top, EReal.coe_ne_bot]

theorem xnum_sum_coe (l : List ℝ) : XNum.sum (l.map fun x : ℝ => XNum.val ((x : ℝ) : EReal)) = .val ((l.sum : ℝ) : EReal) := by
  have : ∀ (l : List ℝ) (a : ℝ), (l.map fun x : ℝ => XNum.val ((x : ℝ) : EReal)).foldl XNum.add (.val (a : EReal)) =
      .val ((a + l.sum : ℝ) : EReal) := by
    intro l
    induction l with
    | nil => intro a; simp
    | cons x l ih =>
      intro a
      have hx : XNum.add (.val (a : EReal)) (.val (x : EReal)) = .val ((a + x : ℝ) : EReal) := by
        simp [XNum.add, EReal.coe_ne_top, EReal.coe_ne_bot]
      rw [List.map_cons, List.foldl_cons, hx, ih, List.sum_cons, add_assoc]
  have := this l 0
  simpa [XNum.sum] using this

/-- C109, where it holds: when the critic's gradient is nonzero at every interpolate, what is computed is the derivative
of the penalty. -/
theorem C109_derivative_partial (c : ℝ) (G : ℝ → Fin N → Fin d → ℝ) (J : Fin N → Fin d → ℝ) (w : ℝ)
    (hG : ∀ n i, HasDerivAt (fun w => G w n i) (J n i) w) (hs : ∀ n, slope (G w n) ≠ 0) :
    ∃ D : ℝ, penaltyGrad c (G w) J = .val (D : EReal) ∧
      HasDerivAt (fun w => c * ((∑ n, (slope (G w n) - 1) ^ 2) / N)) D w := by
  refine ⟨∑ n, ∑ i, c / N * (2 * (slope (G w n) - 1)) * 0.5 / slope (G w n) * (2 * G w n i) * J n i, ?_, ?_⟩
  · have hterm : ∀ n i, (penaltyBackprop c (G w) n i).mul (.val ((J n i : ℝ) : EReal)) =
        .val ((c / N * (2 * (slope (G w n) - 1)) * 0.5 / slope (G w n) * (2 * G w n i) * J n i : ℝ) : EReal) := fun n i => by
      rw [penaltyBackprop, sqrtGrad, if_neg (hs n), xnum_mul_coe, xnum_mul_coe]
    simp only [penaltyGrad, hterm]
    have hl : ((List.finRange N).flatMap fun n => (List.finRange d).map fun i =>
        XNum.val ((c / N * (2 * (slope (G w n) - 1)) * 0.5 / slope (G w n) * (2 * G w n i) * J n i : ℝ) : EReal)) =
        ((List.finRange N).flatMap fun n => (List.finRange d).map fun i =>
          c / N * (2 * (slope (G w n) - 1)) * 0.5 / slope (G w n) * (2 * G w n i) * J n i).map
          fun x : ℝ => XNum.val ((x : ℝ) : EReal) := by
      rw [List.map_flatMap]
      refine List.flatMap_congr fun n _ => ?_
      rw [List.map_map]
      rfl
    rw [hl, xnum_sum_coe, List.flatMap, List.sum_flatten]
    simp only [← List.ofFn_eq_map]
    rw [List.map_ofFn, List.sum_ofFn]
    simp only [Function.comp, List.sum_ofFn]
  · have hslope : ∀ n, HasDerivAt (fun w => slope (G w n)) ((∑ i, 2 * G w n i * J n i) / (2 * slope (G w n))) w := fun n => by
      have hsum : HasDerivAt (fun w => ∑ i, G w n i ^ 2) (∑ i, 2 * G w n i * J n i) w :=
        HasDerivAt.fun_sum fun i _ => ((hG n i).pow 2).congr_deriv (by simp)
      refine hsum.sqrt fun h => hs n ?_
      rw [slope, h, Real.sqrt_zero]
    have hpen := ((HasDerivAt.fun_sum (u := Finset.univ) fun n _ => ((hslope n).sub_const 1).pow 2).div_const (N : ℝ)).const_mul c
    refine hpen.congr_deriv ?_
    rw [Finset.sum_div, Finset.mul_sum]
    refine Finset.sum_congr rfl fun n _ => ?_
    have h := hs n
    have hr : ∀ i, c / N * (2 * (slope (G w n) - 1)) * 0.5 / slope (G w n) * (2 * G w n i) * J n i =
        c / N * (2 * (slope (G w n) - 1)) * 0.5 / slope (G w n) * (2 * G w n i * J n i) := fun i => by ring
    simp only [hr, ← Finset.mul_sum]
    simp only [Nat.cast_ofNat, Nat.add_one_sub_one, pow_one]
    field_simp
    ring

/-- C109 fails: at an interpolate where the critic's gradient is zero the square root has slope zero, and what is
computed is NaN for every weight of the critic. -/
theorem C109_fails {c : ℝ} (hc : c ≠ 0) (g J : Fin N → Fin d → ℝ) (n : Fin N) (hd : 0 < d) (h : slope (g n) = 0) :
    penaltyGrad c g J = .nan := by
  refine xnum_sum_nan _ (List.mem_flatMap.2 ⟨n, List.mem_finRange n, List.mem_map.2 ⟨⟨0, hd⟩, List.mem_finRange _, ?_⟩⟩)
  have hN : (N : ℝ) ≠ 0 := by
    have : 0 < N := n.pos
    positivity
  have hdy : c / N * (2 * (slope (g n) - 1)) ≠ 0 := by
    rw [h]
    exact mul_ne_zero (div_ne_zero hc hN) (by norm_num)
  rw [penaltyBackprop, sqrtGrad, if_pos h, if_neg hdy, slope_eq_zero h]
  split <;> simp [XNum.mul]

/-- A critic that is constant, such as one whose last layer is zero, has such gradients everywhere while its penalty
is a number. -/
example (xt xf e : Fin 2 → Fin 3 → ℝ) (J : Fin 2 → Fin 3 → ℝ) :
    penaltyGrad 10 (fun n => criticGrad (fun _ => 0) (interpolated xt xf e n)) J = .nan ∧
    gradientPenalty (some 10) (fun _ => 0) xt xf e = 10 := by
  have h0 : ∀ n : Fin 2, slope (criticGrad (fun _ => 0) (interpolated xt xf e n)) = 0 := fun n => by
    simp [slope, criticGrad]
  refine ⟨C109_fails (by norm_num) _ _ 0 (by norm_num) (h0 0), ?_⟩
  simp only [gradientPenalty, h0]
  norm_num

end

/-! ### C110 -/

/-- C110, where it holds: when the observed variable is the first item of `data`, the discriminator is given its value as
true data and the variable as generated data. -/
theorem C110_first_partial {V : Type} (x : ℕ) (v : V) (rest : List (GanKey × V)) :
    ganPair ((.observed x, v) :: rest) = .ok (v, .observed x) ∧ ganPair ([] : List (GanKey × V)) = .error .indexError :=
  ⟨rfl, rfl⟩

/-- C110 fails when a placeholder comes first: the discriminator is to tell the placeholder from the value fed to it, and
the observed variable and its data are not used. -/
theorem C110_fails {V : Type} (x y : ℕ) (v : V) : ∀ u u' : V,
    ganPair [(.placeholder y, u), (.observed x, v)] = .ok (u, .placeholder y) ∧
    ganPair [(.placeholder y, u), (.observed x, u')] = ganPair [(.placeholder y, u), (.observed x, v)] :=
  fun _ _ => ⟨rfl, rfl⟩

end Edward
