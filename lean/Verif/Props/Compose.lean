/-
C134: composed inferences. An inference of one block of latent variables in whose `data` the other block is bound to its approximation
has, up to the entropy of that approximation, the divergence of the whole approximation as expected loss.
-/
import Mathlib.MeasureTheory.Measure.WithDensity
import Mathlib.MeasureTheory.Integral.Prod
import Mathlib.Probability.Distributions.Gaussian.Real
import Mathlib.Topology.Order.MonotoneConvergence
import Verif.Model.Compose
import Verif.Spec.Compose
import Verif.Props.Elbo
import Verif.Props.Klpq
import Verif.Props.MapDescent
import Verif.Props.ConvergenceGeneral

namespace Edward
set_option linter.unusedSectionVars false
open MeasureTheory InformationTheory ProbabilityTheory Filter Topology
variable {Z X I Ω A B : Type} [Fintype I] [MeasurableSpace A] [MeasurableSpace B]

theorem sum_filter_split {K : Type} (l : List K) (p : K → Bool) (f : K → ℝ) :
    ((l.filter fun z => p z).map f).sum + ((l.filter fun z => !p z).map f).sum = (l.map f).sum := by
  induction l with
  | nil => simp
  | cons z l ih =>
    cases h : p z <;> simp [h, ← ih] <;> ring

theorem bind_joint (v : ViProblem Z X I Ω) (own : Z → Bool) (ω : Ω) : Spec.logJoint (v.bind own) ω = Spec.logJoint v ω := by
  have h := sum_filter_split v.latents own fun z => ∑ i, v.scaleZ z i * v.logP z ω i
  simp only [Spec.logJoint, ViProblem.bind, List.map_append, List.sum_append, List.map_map, ← h]
  rw [← add_assoc]
  rfl

theorem bind_approx (v : ViProblem Z X I Ω) (own : Z → Bool) (ω : Ω) :
    Spec.logApprox (v.bind own) ω = ((v.latents.filter fun z => own z).map fun z => ∑ i, v.scaleZ z i * v.logQ z ω i).sum := rfl

/-- The law of two independent draws has the product density. -/
theorem lawOf_prod (μ₁ : Measure A) (μ₂ : Measure B) [SigmaFinite μ₁] [SigmaFinite μ₂] {q₁ : A → ℝ} {q₂ : B → ℝ} (h₁ : ∀ a, 0 ≤ q₁ a)
    (m₁ : Measurable q₁) (m₂ : Measurable q₂) :
    Spec.lawOf (μ₁.prod μ₂) (fun ω => q₁ ω.1 * q₂ ω.2) = (Spec.lawOf μ₁ q₁).prod (Spec.lawOf μ₂ q₂) := by
  rw [Spec.lawOf, Spec.lawOf, Spec.lawOf, prod_withDensity₀ m₁.ennreal_ofReal.aemeasurable m₂.ennreal_ofReal.aemeasurable]
  congr 1
  funext ω
  rw [ENNReal.ofReal_mul (h₁ _)]

section
variable {v : ViProblem Z X I (A × B)} {own : Z → Bool} {μ₁ : Measure A} {μ₂ : Measure B} [SigmaFinite μ₁] [SigmaFinite μ₂]
  {q₁ : A → ℝ} {q₂ : B → ℝ} {j : A × B → ℝ}

theorem lawOf_prob {μ : Measure A} {q : A → ℝ} (h : ∫⁻ a, ENNReal.ofReal (q a) ∂μ = 1) : IsProbabilityMeasure (Spec.lawOf μ q) :=
  ⟨by rw [Spec.lawOf, withDensity_apply _ MeasurableSet.univ, Measure.restrict_univ, h]⟩

theorem lawOf_pos {μ : Measure A} {q : A → ℝ} (hqm : Measurable q) : ∀ᵐ ω ∂Spec.lawOf μ q, 0 < q ω := by
  rw [Spec.lawOf, ae_withDensity_iff hqm.ennreal_ofReal]
  exact Filter.Eventually.of_forall fun ω h => by simpa using h

variable (h : Spec.TwoBlocks v own μ₁ μ₂ q₁ q₂ j)
include h

theorem two_mass : ∫⁻ ω, ENNReal.ofReal (q₁ ω.1 * q₂ ω.2) ∂μ₁.prod μ₂ = 1 := by
  have := lawOf_prob h.mass₁
  have := lawOf_prob h.mass₂
  have e : (Spec.lawOf (μ₁.prod μ₂) (fun ω : A × B => q₁ ω.1 * q₂ ω.2)) Set.univ = 1 := by
    rw [lawOf_prod μ₁ μ₂ h.nonneg₁ h.meas₁ h.meas₂]; exact measure_univ
  rwa [Spec.lawOf, withDensity_apply _ MeasurableSet.univ, Measure.restrict_univ] at e

theorem two_log_pos : ∀ᵐ ω ∂(Spec.lawOf μ₁ q₁).prod (Spec.lawOf μ₂ q₂), 0 < q₁ ω.1 ∧ 0 < q₂ ω.2 := by
  have := lawOf_prob h.mass₁
  have := lawOf_prob h.mass₂
  exact ((Measure.quasiMeasurePreserving_fst (μ := Spec.lawOf μ₁ q₁) (ν := Spec.lawOf μ₂ q₂)).ae (lawOf_pos h.meas₁)).and
    ((Measure.quasiMeasurePreserving_snd (μ := Spec.lawOf μ₁ q₁) (ν := Spec.lawOf μ₂ q₂)).ae (lawOf_pos h.meas₂))

theorem two_kl : (klDiv ((Spec.lawOf μ₁ q₁).prod (Spec.lawOf μ₂ q₂)) (Spec.posterior (μ₁.prod μ₂) j)).toReal =
    ∫ a, Real.log (q₁ a) ∂Spec.lawOf μ₁ q₁ + ∫ b, Real.log (q₂ b) ∂Spec.lawOf μ₂ q₂ -
      ∫ ω, Real.log (j ω) ∂(Spec.lawOf μ₁ q₁).prod (Spec.lawOf μ₂ q₂) + Real.log (Spec.evidence (μ₁.prod μ₂) j) := by
  have := lawOf_prob h.mass₁
  have := lawOf_prob h.mass₂
  have hp := lawOf_prod μ₁ μ₂ h.nonneg₁ h.meas₁ h.meas₂
  have hI₁ := h.int₁.comp_fst (Spec.lawOf μ₂ q₂)
  have hI₂ := h.int₂.comp_snd (Spec.lawOf μ₁ q₁)
  have hae : (fun ω : A × B => Real.log (q₁ ω.1) + Real.log (q₂ ω.2) - Real.log (j ω)) =ᵐ[(Spec.lawOf μ₁ q₁).prod (Spec.lawOf μ₂ q₂)]
      fun ω => Real.log (q₁ ω.1 * q₂ ω.2) - Real.log (j ω) := by
    filter_upwards [two_log_pos h] with ω hω
    rw [Real.log_mul hω.1.ne' hω.2.ne']
  have hint : Integrable (fun ω : A × B => Real.log (q₁ ω.1 * q₂ ω.2) - Real.log (j ω))
      (Spec.lawOf (μ₁.prod μ₂) (fun ω => q₁ ω.1 * q₂ ω.2)) := by
    rw [hp]
    exact ((hI₁.add hI₂).sub h.int).congr hae
  have := (klDiv_posterior (μ₁.prod μ₂) (fun ω => q₁ ω.1 * q₂ ω.2) j (fun ω => mul_nonneg (h.nonneg₁ _) (h.nonneg₂ _))
    ((h.meas₁.comp measurable_fst).mul (h.meas₂.comp measurable_snd)) (two_mass h) h.pos h.meas h.finite hint).1
  rw [hp] at this
  have hs : Integrable (fun ω : A × B => Real.log (q₁ ω.1) + Real.log (q₂ ω.2)) ((Spec.lawOf μ₁ q₁).prod (Spec.lawOf μ₂ q₂)) := hI₁.add hI₂
  rw [this, ← integral_congr_ae hae, integral_sub hs h.int, integral_add hI₁ hI₂, integral_fun_fst (fun a => Real.log (q₁ a)), integral_fun_snd (fun b => Real.log (q₂ b))]
  simp

/-- C134: the expected loss of the inference of one block is the divergence of the whole approximation from the posterior, minus the log
evidence, plus the entropy of the approximation of the other block. -/
theorem C134_loss {n : ℕ} (hn : 0 < n) :
    (∫ d, reparamLoss (v.bind own) n d 0 ∂Measure.pi fun _ => (Spec.lawOf μ₁ q₁).prod (Spec.lawOf μ₂ q₂)) =
      (klDiv ((Spec.lawOf μ₁ q₁).prod (Spec.lawOf μ₂ q₂)) (Spec.posterior (μ₁.prod μ₂) j)).toReal -
        Real.log (Spec.evidence (μ₁.prod μ₂) j) - ∫ b, Real.log (q₂ b) ∂Spec.lawOf μ₂ q₂ ∧
    (∫ d, scoreLoss (v.bind own) n d 0 ∂Measure.pi fun _ => (Spec.lawOf μ₁ q₁).prod (Spec.lawOf μ₂ q₂)) =
      (klDiv ((Spec.lawOf μ₁ q₁).prod (Spec.lawOf μ₂ q₂)) (Spec.posterior (μ₁.prod μ₂) j)).toReal -
        Real.log (Spec.evidence (μ₁.prod μ₂) j) - ∫ b, Real.log (q₂ b) ∂Spec.lawOf μ₂ q₂ ∧
    (∫ d, reparamLoss (v.bind fun z => !own z) n d 0 ∂Measure.pi fun _ => (Spec.lawOf μ₁ q₁).prod (Spec.lawOf μ₂ q₂)) =
      (klDiv ((Spec.lawOf μ₁ q₁).prod (Spec.lawOf μ₂ q₂)) (Spec.posterior (μ₁.prod μ₂) j)).toReal -
        Real.log (Spec.evidence (μ₁.prod μ₂) j) - ∫ a, Real.log (q₁ a) ∂Spec.lawOf μ₁ q₁ ∧
    (∫ d, scoreLoss (v.bind fun z => !own z) n d 0 ∂Measure.pi fun _ => (Spec.lawOf μ₁ q₁).prod (Spec.lawOf μ₂ q₂)) =
      (klDiv ((Spec.lawOf μ₁ q₁).prod (Spec.lawOf μ₂ q₂)) (Spec.posterior (μ₁.prod μ₂) j)).toReal -
        Real.log (Spec.evidence (μ₁.prod μ₂) j) - ∫ a, Real.log (q₁ a) ∂Spec.lawOf μ₁ q₁ := by
  have := lawOf_prob h.mass₁
  have := lawOf_prob h.mass₂
  have hI₁ := h.int₁.comp_fst (Spec.lawOf μ₂ q₂)
  have hI₂ := h.int₂.comp_snd (Spec.lawOf μ₁ q₁)
  have e₁ : ∀ᵐ ω ∂(Spec.lawOf μ₁ q₁).prod (Spec.lawOf μ₂ q₂),
      Real.log (q₁ ω.1) - Real.log (j ω) = Spec.logApprox (v.bind own) ω - Spec.logJoint (v.bind own) ω := by
    filter_upwards [two_log_pos h] with ω hω
    rw [bind_approx, bind_joint, h.joint, h.first ω.1 ω.2 hω.1]
  have e₂ : ∀ᵐ ω ∂(Spec.lawOf μ₁ q₁).prod (Spec.lawOf μ₂ q₂),
      Real.log (q₂ ω.2) - Real.log (j ω) = Spec.logApprox (v.bind fun z => !own z) ω - Spec.logJoint (v.bind fun z => !own z) ω := by
    filter_upwards [two_log_pos h] with ω hω
    rw [bind_approx, bind_joint, h.joint, h.second ω.1 ω.2 hω.2]
  have E₁ := integral_average _ hn _ ((hI₁.sub h.int).congr e₁)
  have E₂ := integral_average _ hn _ ((hI₂.sub h.int).congr e₂)
  have k := two_kl h
  rw [← integral_congr_ae e₁, integral_sub hI₁ h.int, integral_fun_fst (fun a => Real.log (q₁ a))] at E₁
  rw [← integral_congr_ae e₂, integral_sub hI₂ h.int, integral_fun_snd (fun b => Real.log (q₂ b))] at E₂
  simp only [probReal_univ, one_smul] at E₁ E₂
  simp_rw [C52_reparam, C52_score, add_zero]
  refine ⟨?_, ?_, ?_, ?_⟩
  · rw [E₁, k]; ring
  · rw [E₁, k]; ring
  · rw [E₂, k]; ring
  · rw [E₂, k]; ring

end

/-! ### Alternating updates -/

section
variable {E F : Type} {v : E → F → ViProblem Z X I (A × B)} {own : Z → Bool} {μ₁ : Measure A} {μ₂ : Measure B} [SigmaFinite μ₁]
  [SigmaFinite μ₂] {q₁ : E → A → ℝ} {q₂ : F → B → ℝ} {j : A × B → ℝ}

/-- The expected loss of the inference of the variables with `own`. -/
noncomputable def Spec.ownLoss (v : E → F → ViProblem Z X I (A × B)) (own : Z → Bool) (μ₁ : Measure A) (μ₂ : Measure B) (q₁ : E → A → ℝ)
    (q₂ : F → B → ℝ) (n : ℕ) (l : E) (m : F) : ℝ :=
  ∫ d, reparamLoss ((v l m).bind own) n d 0 ∂Measure.pi fun _ => (Spec.lawOf μ₁ (q₁ l)).prod (Spec.lawOf μ₂ (q₂ m))

/-- The divergence of the whole approximation from the posterior. -/
noncomputable def Spec.wholeKl (μ₁ : Measure A) (μ₂ : Measure B) (q₁ : E → A → ℝ) (q₂ : F → B → ℝ) (j : A × B → ℝ) (l : E) (m : F) : ℝ :=
  (klDiv ((Spec.lawOf μ₁ (q₁ l)).prod (Spec.lawOf μ₂ (q₂ m))) (Spec.posterior (μ₁.prod μ₂) j)).toReal

/-- C134: an update of one block changes its own expected loss and the divergence of the whole approximation by the same amount. -/
theorem C134_change (h : ∀ l m, Spec.TwoBlocks (v l m) own μ₁ μ₂ (q₁ l) (q₂ m) j) {n : ℕ} (hn : 0 < n) :
    (∀ l l' m, Spec.ownLoss v own μ₁ μ₂ q₁ q₂ n l' m - Spec.ownLoss v own μ₁ μ₂ q₁ q₂ n l m =
      Spec.wholeKl μ₁ μ₂ q₁ q₂ j l' m - Spec.wholeKl μ₁ μ₂ q₁ q₂ j l m) ∧
    ∀ l m m', Spec.ownLoss v (fun z => !own z) μ₁ μ₂ q₁ q₂ n l m' - Spec.ownLoss v (fun z => !own z) μ₁ μ₂ q₁ q₂ n l m =
      Spec.wholeKl μ₁ μ₂ q₁ q₂ j l m' - Spec.wholeKl μ₁ μ₂ q₁ q₂ j l m := by
  refine ⟨fun l l' m => ?_, fun l m m' => ?_⟩
  · rw [Spec.ownLoss, Spec.ownLoss, (C134_loss (h l' m) hn).1, (C134_loss (h l m) hn).1, Spec.wholeKl, Spec.wholeKl]; ring
  · rw [Spec.ownLoss, Spec.ownLoss, (C134_loss (h l m') hn).2.2.1, (C134_loss (h l m) hn).2.2.1, Spec.wholeKl, Spec.wholeKl]; ring

/-- C134: its gradient with respect to the parameters of that block is that of the divergence of the whole approximation. -/
theorem C134_gradient [NormedAddCommGroup E] [NormedSpace ℝ E] [NormedAddCommGroup F] [NormedSpace ℝ F]
    (h : ∀ l m, Spec.TwoBlocks (v l m) own μ₁ μ₂ (q₁ l) (q₂ m) j) {n : ℕ} (hn : 0 < n) (l : E) (m : F) :
    fderiv ℝ (fun l => Spec.ownLoss v own μ₁ μ₂ q₁ q₂ n l m) l = fderiv ℝ (fun l => Spec.wholeKl μ₁ μ₂ q₁ q₂ j l m) l ∧
    fderiv ℝ (fun m => Spec.ownLoss v (fun z => !own z) μ₁ μ₂ q₁ q₂ n l m) m = fderiv ℝ (fun m => Spec.wholeKl μ₁ μ₂ q₁ q₂ j l m) m := by
  obtain ⟨h1, h2⟩ := C134_change h hn
  have e1 : (fun l' => Spec.ownLoss v own μ₁ μ₂ q₁ q₂ n l' m) = fun l' => Spec.wholeKl μ₁ μ₂ q₁ q₂ j l' m +
      (Spec.ownLoss v own μ₁ μ₂ q₁ q₂ n l m - Spec.wholeKl μ₁ μ₂ q₁ q₂ j l m) := funext fun l' => by have := h1 l l' m; linarith
  have e2 : (fun m' => Spec.ownLoss v (fun z => !own z) μ₁ μ₂ q₁ q₂ n l m') = fun m' => Spec.wholeKl μ₁ μ₂ q₁ q₂ j l m' +
      (Spec.ownLoss v (fun z => !own z) μ₁ μ₂ q₁ q₂ n l m - Spec.wholeKl μ₁ μ₂ q₁ q₂ j l m) := funext fun m' => by have := h2 l m m'; linarith
  rw [e1, e2]
  exact ⟨fderiv_add_const _, fderiv_add_const _⟩

/-- C134: any schedule of updates, none of which raises the expected loss of the inference it belongs to, lowers the divergence of the
whole approximation, which converges. -/
theorem C134_alternate (h : ∀ l m, Spec.TwoBlocks (v l m) own μ₁ μ₂ (q₁ l) (q₂ m) j) {n : ℕ} (hn : 0 < n) (l : ℕ → E) (m : ℕ → F)
    (hstep : ∀ t, (m (t + 1) = m t ∧ Spec.ownLoss v own μ₁ μ₂ q₁ q₂ n (l (t + 1)) (m t) ≤ Spec.ownLoss v own μ₁ μ₂ q₁ q₂ n (l t) (m t)) ∨
      (l (t + 1) = l t ∧ Spec.ownLoss v (fun z => !own z) μ₁ μ₂ q₁ q₂ n (l t) (m (t + 1)) ≤
        Spec.ownLoss v (fun z => !own z) μ₁ μ₂ q₁ q₂ n (l t) (m t))) :
    Antitone (fun t => Spec.wholeKl μ₁ μ₂ q₁ q₂ j (l t) (m t)) ∧
      ∃ k, 0 ≤ k ∧ Tendsto (fun t => Spec.wholeKl μ₁ μ₂ q₁ q₂ j (l t) (m t)) atTop (𝓝 k) := by
  obtain ⟨h1, h2⟩ := C134_change h hn
  have ha : Antitone (fun t => Spec.wholeKl μ₁ μ₂ q₁ q₂ j (l t) (m t)) := by
    refine antitone_nat_of_succ_le fun t => ?_
    rcases hstep t with ⟨e, hs⟩ | ⟨e, hs⟩
    · rw [e]
      have := h1 (l t) (l (t + 1)) (m t)
      linarith
    · rw [e]
      have := h2 (l t) (m t) (m (t + 1))
      linarith
  have h0 : ∀ t, 0 ≤ Spec.wholeKl μ₁ μ₂ q₁ q₂ j (l t) (m t) := fun t => ENNReal.toReal_nonneg
  exact ⟨ha, _, le_ciInf h0, tendsto_atTop_ciInf ha ⟨0, by rintro _ ⟨t, rfl⟩; exact h0 t⟩⟩

end

/-! ### Variational EM -/

section
variable {F : Type} {v : F → ViProblem Z X I (A × B)} {own : Z → Bool} {μ : Measure B} [SigmaFinite μ] {q : F → B → ℝ} {j : A → B → ℝ}

/-- The expected loss of `inference_e`: KLqp of the second block, with the point `a` in `data`. -/
noncomputable def Spec.eLoss (v : F → ViProblem Z X I (A × B)) (own : Z → Bool) (μ : Measure B) (q : F → B → ℝ) (n : ℕ) (a : A) (m : F) : ℝ :=
  ∫ d, reparamLoss ((v m).bind fun z => !own z) n (fun s => (a, d s)) 0 ∂Measure.pi fun _ => Spec.lawOf μ (q m)

/-- The expected loss of `inference_m`: MAP of the point, with the approximation of the second block in `data`. -/
noncomputable def Spec.mLoss (v : F → ViProblem Z X I (A × B)) (own : Z → Bool) (μ : Measure B) (q : F → B → ℝ) (a : A) (m : F) : ℝ :=
  ∫ b, mapLoss ((v m).bind own) (a, b) 0 ∂Spec.lawOf μ (q m)

/-- C134: both expected losses are the free energy of the point and the approximation, up to a term that the update of that loss cannot
change. -/
theorem C134_em_loss {m : F} {a : A} (h : Spec.PointBlock (v m) own a μ (q m) (j a)) {n : ℕ} (hn : 0 < n) :
    Spec.eLoss v own μ q n a m =
      (klDiv (Spec.lawOf μ (q m)) (Spec.posterior μ (j a))).toReal - Real.log (Spec.evidence μ (j a)) ∧
    Spec.mLoss v own μ q a m =
      (klDiv (Spec.lawOf μ (q m)) (Spec.posterior μ (j a))).toReal - Real.log (Spec.evidence μ (j a)) -
        ∫ b, Real.log (q m b) ∂Spec.lawOf μ (q m) := by
  have := lawOf_prob h.mass
  have hint := h.intq.sub h.int
  have hkl := (klDiv_posterior μ (q m) (j a) h.nonneg h.qmeas h.mass h.pos h.meas h.finite hint).1
  have e : ∀ᵐ b ∂Spec.lawOf μ (q m), Real.log (q m b) - Real.log (j a b) =
      Spec.logApprox ((v m).bind fun z => !own z) (a, b) - Spec.logJoint ((v m).bind fun z => !own z) (a, b) := by
    filter_upwards [lawOf_pos h.qmeas] with b hb
    rw [bind_approx, bind_joint, h.joint, h.second b hb]
  have E := integral_average _ hn _ (hint.congr e)
  rw [← integral_congr_ae e] at E
  refine ⟨?_, ?_⟩
  · rw [Spec.eLoss]
    simp_rw [C52_reparam, add_zero]
    rw [hkl]
    linarith
  · rw [Spec.mLoss]
    simp_rw [map_value, bind_joint, h.joint]
    rw [hkl, integral_neg, integral_sub h.intq h.int]
    ring

/-- C134, variational EM: any schedule of updates, none of which raises the expected loss of the inference it belongs to, lowers the free
energy, which is the divergence from the posterior given the point minus the log of the density of the point and the data. -/
theorem C134_em (h : ∀ a m, Spec.PointBlock (v m) own a μ (q m) (j a)) {n : ℕ} (hn : 0 < n) (a : ℕ → A) (m : ℕ → F)
    (hstep : ∀ t, (a (t + 1) = a t ∧ Spec.eLoss v own μ q n (a t) (m (t + 1)) ≤ Spec.eLoss v own μ q n (a t) (m t)) ∨
      (m (t + 1) = m t ∧ Spec.mLoss v own μ q (a (t + 1)) (m t) ≤ Spec.mLoss v own μ q (a t) (m t))) :
    Antitone fun t => (klDiv (Spec.lawOf μ (q (m t))) (Spec.posterior μ (j (a t)))).toReal - Real.log (Spec.evidence μ (j (a t))) := by
  refine antitone_nat_of_succ_le fun t => ?_
  rcases hstep t with ⟨e, hs⟩ | ⟨e, hs⟩
  · rw [e]
    rwa [(C134_em_loss (h _ _) hn).1, (C134_em_loss (h _ _) hn).1] at hs
  · rw [e]
    rw [(C134_em_loss (h _ _) hn).2, (C134_em_loss (h _ _) hn).2] at hs
    linarith

/-- C134, exact EM: if the approximation is the posterior given the point, then an M-step that does not raise its expected loss does not
lower the density of the point and the data. -/
theorem C134_em_exact {m : F} {a a' : A} (h : Spec.PointBlock (v m) own a μ (q m) (j a)) (h' : Spec.PointBlock (v m) own a' μ (q m) (j a'))
    (hexact : Spec.lawOf μ (q m) = Spec.posterior μ (j a)) (hm : Spec.mLoss v own μ q a' m ≤ Spec.mLoss v own μ q a m) :
    Spec.evidence μ (j a) ≤ Spec.evidence μ (j a') := by
  have := lawOf_prob h.mass
  have hμ : μ ≠ 0 := by rintro rfl; simpa using h.mass
  rw [(C134_em_loss h one_pos).2, (C134_em_loss h' one_pos).2, ← hexact] at hm
  simp only [klDiv_self, ENNReal.toReal_zero] at hm
  have h0 : 0 ≤ (klDiv (Spec.lawOf μ (q m)) (Spec.posterior μ (j a'))).toReal := ENNReal.toReal_nonneg
  have hle : Real.log (Spec.evidence μ (j a)) ≤ Real.log (Spec.evidence μ (j a')) := by linarith
  exact (Real.log_le_log_iff (evidence_pos μ _ h.pos h.meas hμ h.finite) (evidence_pos μ _ h'.pos h'.meas hμ h'.finite)).mp hle

end

/-! ### A mixture of two normals -/

/-- `beta ~ Normal(0, 1)`, `z ~ Bernoulli(0.5)`, `x ~ Normal(beta, 1)` if `z`, else `Normal(0, 1)`; `qz ~ Bernoulli(r)` with logits `m`. -/
noncomputable def mixVi (x m : ℝ) : ViProblem Bool Unit Unit (ℝ × Bool) where
  latents := [true, false]
  observed := [()]
  scaleZ := fun _ _ => 1
  scaleX := fun _ _ => 1
  logQ := fun z ω _ => if z then 0 else Real.log (Real.exp (if ω.2 then m else 0) / (1 + Real.exp m))
  logP := fun z ω _ => if z then Real.log (gaussianPDFReal 0 1 ω.1) else Real.log (1 / 2)
  logLik := fun _ ω _ => Real.log (gaussianPDFReal (if ω.2 then ω.1 else 0) 1 x)

/-- The joint density. -/
noncomputable def mixJoint (x a : ℝ) (z : Bool) : ℝ := gaussianPDFReal 0 1 a * (1 / 2) * gaussianPDFReal (if z then a else 0) 1 x

theorem mix_mass (m : ℝ) : ∫⁻ z : Bool, ENNReal.ofReal (Real.exp (if z then m else 0) / (1 + Real.exp m)) ∂Measure.count = 1 := by
  rw [lintegral_count, tsum_fintype, Fintype.sum_bool, ← ENNReal.ofReal_add (by positivity) (by positivity), ← ENNReal.ofReal_one]
  congr 1
  simp
  field_simp
  ring

theorem mix_point (x m a : ℝ) : Spec.PointBlock (mixVi x m) id a Measure.count
    (fun z : Bool => Real.exp (if z then m else 0) / (1 + Real.exp m)) (mixJoint x a) where
  nonneg b := by positivity
  qmeas := .of_discrete
  mass := mix_mass m
  pos b := by
    have := gaussianPDFReal_pos 0 1 a one_ne_zero
    have := gaussianPDFReal_pos (if b then a else 0) 1 x one_ne_zero
    unfold mixJoint
    positivity
  meas := .of_discrete
  finite := by
    rw [lintegral_count, tsum_fintype]
    exact ENNReal.sum_ne_top.mpr fun _ _ => ENNReal.ofReal_ne_top
  second b _ := by simp [mixVi]
  joint b := by
    have := gaussianPDFReal_pos 0 1 a one_ne_zero
    have := gaussianPDFReal_pos (if b then a else 0) 1 x one_ne_zero
    simp only [Spec.logJoint, mixVi, mixJoint, List.map_cons, List.map_nil, List.sum_cons, List.sum_nil]
    rw [Real.log_mul (by positivity) (by positivity), Real.log_mul (by positivity) (by positivity)]
    simp
  intq := by have := lawOf_prob (mix_mass m); exact .of_finite
  int := by have := lawOf_prob (mix_mass m); exact .of_finite

/-- C134 for the mixture: exact EM. With the logits of `qz` at the log ratio of the two densities the approximation is the posterior given
`beta`, so each M-step that lowers its expected loss raises the posterior density of `beta`. -/
theorem C134_mixture (x a a' : ℝ)
    (hm : Spec.mLoss (mixVi x) id Measure.count (fun m z => Real.exp (if z then m else 0) / (1 + Real.exp m)) a'
        (Real.log (gaussianPDFReal a 1 x / gaussianPDFReal 0 1 x)) ≤
      Spec.mLoss (mixVi x) id Measure.count (fun m z => Real.exp (if z then m else 0) / (1 + Real.exp m)) a
        (Real.log (gaussianPDFReal a 1 x / gaussianPDFReal 0 1 x))) :
    gaussianPDFReal 0 1 a * (gaussianPDFReal a 1 x + gaussianPDFReal 0 1 x) ≤ gaussianPDFReal 0 1 a' * (gaussianPDFReal a' 1 x + gaussianPDFReal 0 1 x) := by
  have hp := fun c => gaussianPDFReal_pos c 1 x one_ne_zero
  have hq := fun c => gaussianPDFReal_pos 0 1 c one_ne_zero
  have hev : ∀ c, Spec.evidence Measure.count (mixJoint x c) =
      1 / 2 * (gaussianPDFReal 0 1 c * (gaussianPDFReal c 1 x + gaussianPDFReal 0 1 x)) := fun c => by
    have h1 := hp c; have h2 := hq c; have h3 := hp 0
    rw [Spec.evidence, lintegral_count, tsum_fintype, Fintype.sum_bool, ← ENNReal.ofReal_add ((mix_point x 0 c).pos _).le ((mix_point x 0 c).pos _).le,
      ENNReal.toReal_ofReal (add_pos ((mix_point x 0 c).pos _) ((mix_point x 0 c).pos _)).le]
    simp [mixJoint]
    ring
  have := C134_em_exact (mix_point x _ a) (mix_point x _ a') ?_ hm
  · rw [hev, hev] at this
    linarith
  · rw [Spec.posterior, Spec.lawOf, Spec.lawOf]
    congr 1
    funext z
    congr 1
    have h1 := hp a; have h2 := hq a; have h3 := hp 0
    rw [hev, Real.exp_log (by positivity)]
    cases z
    · simp [mixJoint]
      field_simp
      ring
    · simp [mixJoint]
      rw [Real.exp_log (by positivity)]
      field_simp
      ring

/-! ### Two normal variables that explain one observation -/

/-- The variance of `Normal(loc, tf.exp(rho))`. -/
noncomputable def expVar (ρ : ℝ) : NNReal := ⟨Real.exp ρ ^ 2, sq_nonneg _⟩

theorem expVar_ne (ρ : ℝ) : expVar ρ ≠ 0 := by
  have : (0 : ℝ) < Real.exp ρ ^ 2 := by positivity
  exact fun h => this.ne' (congrArg NNReal.toReal h)

/-- `w, z ~ Normal(0, 1)`, `x ~ Normal(w + z, 1)`; `qw`, `qz` normal with locations and log scales `l`, `m`. -/
noncomputable def sumVi (x : ℝ) (l m : ℝ × ℝ) : ViProblem Bool Unit Unit (ℝ × ℝ) where
  latents := [true, false]
  observed := [()]
  scaleZ := fun _ _ => 1
  scaleX := fun _ _ => 1
  logQ := fun z ω _ => if z then Real.log (gaussianPDFReal l.1 (expVar l.2) ω.1) else Real.log (gaussianPDFReal m.1 (expVar m.2) ω.2)
  logP := fun z ω _ => if z then Real.log (gaussianPDFReal 0 1 ω.1) else Real.log (gaussianPDFReal 0 1 ω.2)
  logLik := fun _ ω _ => Real.log (gaussianPDFReal (ω.1 + ω.2) 1 x)

/-- The joint density. -/
noncomputable def sumJoint (x : ℝ) (ω : ℝ × ℝ) : ℝ :=
  gaussianPDFReal 0 1 ω.1 * gaussianPDFReal 0 1 ω.2 * gaussianPDFReal (ω.1 + ω.2) 1 x

/-- The density of the approximation of one variable. -/
noncomputable def sumQ (l : ℝ × ℝ) : ℝ → ℝ := gaussianPDFReal l.1 (expVar l.2)

theorem sumQ_law (l : ℝ × ℝ) : Spec.lawOf volume (sumQ l) = gaussianReal l.1 (expVar l.2) := lawOf_normal _ (expVar_ne _)

theorem normal_center (m : ℝ) (v : NNReal) : Integrable (fun z : ℝ => z - m) (gaussianReal m v) ∧ ∫ z, (z - m) ∂gaussianReal m v = 0 ∧
    Integrable (fun z : ℝ => (z - m) ^ 2) (gaussianReal m v) ∧ ∫ z, (z - m) ^ 2 ∂gaussianReal m v = v := by
  have hmem : MemLp (id : ℝ → ℝ) 2 (gaussianReal m v) := by simpa using memLp_id_gaussianReal (μ := m) (v := v) 2
  have hc : MemLp (fun z : ℝ => z - m) 2 (gaussianReal m v) := hmem.sub (memLp_const m)
  have hi : Integrable (fun z : ℝ => z) (gaussianReal m v) := hmem.integrable (by norm_num)
  refine ⟨hi.sub (integrable_const m), ?_, hc.integrable_sq, ?_⟩
  · rw [integral_sub hi (integrable_const m), integral_id_gaussianReal]; simp
  · have := variance_eq_integral (X := (id : ℝ → ℝ)) (μ := gaussianReal m v) hmem.aestronglyMeasurable.aemeasurable
    rw [variance_id_gaussianReal] at this
    simp only [id_eq, integral_id_gaussianReal] at this
    exact this.symm

/-- Minus the entropy. -/
theorem sumQ_entropy (l : ℝ × ℝ) : Integrable (fun z => Real.log (sumQ l z)) (gaussianReal l.1 (expVar l.2)) ∧
    ∫ z, Real.log (sumQ l z) ∂gaussianReal l.1 (expVar l.2) = Real.log (√(2 * Real.pi))⁻¹ - l.2 - 1 / 2 := by
  obtain ⟨-, -, h3, h4⟩ := normal_center l.1 (expVar l.2)
  have hv : (0 : ℝ) < expVar l.2 := by have := expVar_ne l.2; positivity
  have hlog : Real.log (√(2 * Real.pi * expVar l.2))⁻¹ = Real.log (√(2 * Real.pi))⁻¹ - l.2 := by
    have he : (√(2 * Real.pi * (expVar l.2 : ℝ))) = √(2 * Real.pi) * Real.exp l.2 := by
      rw [Real.sqrt_mul (by positivity)]
      congr 1
      exact Real.sqrt_sq (Real.exp_pos _).le
    rw [he, mul_inv, Real.log_mul (by positivity) (by positivity), Real.log_inv (Real.exp _), Real.log_exp]
    ring
  have e : ∀ z, Real.log (sumQ l z) = (Real.log (√(2 * Real.pi))⁻¹ - l.2) - (z - l.1) ^ 2 / (2 * expVar l.2) := fun z => by
    rw [sumQ, log_normal _ (expVar_ne _), hlog]
  simp_rw [e]
  refine ⟨(integrable_const _).sub (h3.div_const _), ?_⟩
  rw [integral_sub (integrable_const _) (h3.div_const _), integral_div, h4]
  simp
  field_simp

/-- The expected log joint density. -/
theorem sumJoint_mean (x : ℝ) (l m : ℝ × ℝ) :
    Integrable (fun ω => Real.log (sumJoint x ω)) ((gaussianReal l.1 (expVar l.2)).prod (gaussianReal m.1 (expVar m.2))) ∧
    ∫ ω, Real.log (sumJoint x ω) ∂(gaussianReal l.1 (expVar l.2)).prod (gaussianReal m.1 (expVar m.2)) =
      3 * Real.log (√(2 * Real.pi))⁻¹ - (l.1 ^ 2 + m.1 ^ 2 + (x - l.1 - m.1) ^ 2) / 2 - Real.exp l.2 ^ 2 - Real.exp m.2 ^ 2 := by
  obtain ⟨a1, a2, a3, a4⟩ := normal_center l.1 (expVar l.2)
  obtain ⟨b1, b2, b3, b4⟩ := normal_center m.1 (expVar m.2)
  have e : ∀ ω : ℝ × ℝ, Real.log (sumJoint x ω) =
      (3 * Real.log (√(2 * Real.pi))⁻¹ - (l.1 ^ 2 + m.1 ^ 2 + (x - l.1 - m.1) ^ 2) / 2) + (x - 2 * l.1 - m.1) * (ω.1 - l.1) +
        (x - l.1 - 2 * m.1) * (ω.2 - m.1) - (ω.1 - l.1) ^ 2 - (ω.2 - m.1) ^ 2 - (ω.1 - l.1) * (ω.2 - m.1) := fun ω => by
    have h1 := gaussianPDFReal_pos 0 1 ω.1 one_ne_zero
    have h2 := gaussianPDFReal_pos 0 1 ω.2 one_ne_zero
    have h3 := gaussianPDFReal_pos (ω.1 + ω.2) 1 x one_ne_zero
    rw [sumJoint, Real.log_mul (by positivity) (by positivity), Real.log_mul (by positivity) (by positivity), log_normal _ one_ne_zero,
      log_normal _ one_ne_zero, log_normal _ one_ne_zero]
    simp only [NNReal.coe_one, mul_one]
    ring
  have i1 := (a1.comp_fst (gaussianReal m.1 (expVar m.2))).const_mul (x - 2 * l.1 - m.1)
  have i2 := (b1.comp_snd (gaussianReal l.1 (expVar l.2))).const_mul (x - l.1 - 2 * m.1)
  have i3 := a3.comp_fst (gaussianReal m.1 (expVar m.2))
  have i4 := b3.comp_snd (gaussianReal l.1 (expVar l.2))
  have i5 := a1.mul_prod b1
  have i0 : Integrable (fun _ : ℝ × ℝ => 3 * Real.log (√(2 * Real.pi))⁻¹ - (l.1 ^ 2 + m.1 ^ 2 + (x - l.1 - m.1) ^ 2) / 2)
    ((gaussianReal l.1 (expVar l.2)).prod (gaussianReal m.1 (expVar m.2))) := integrable_const _
  simp_rw [e]
  refine ⟨((((i0.add i1).add i2).sub i3).sub i4).sub i5, ?_⟩
  have j1 : ∫ ω : ℝ × ℝ, (x - 2 * l.1 - m.1) * (ω.1 - l.1) ∂(gaussianReal l.1 (expVar l.2)).prod (gaussianReal m.1 (expVar m.2)) = 0 := by
    rw [integral_const_mul, integral_fun_fst (fun a : ℝ => a - l.1), a2]; simp
  have j2 : ∫ ω : ℝ × ℝ, (x - l.1 - 2 * m.1) * (ω.2 - m.1) ∂(gaussianReal l.1 (expVar l.2)).prod (gaussianReal m.1 (expVar m.2)) = 0 := by
    rw [integral_const_mul, integral_fun_snd (fun a : ℝ => a - m.1), b2]; simp
  have j3 : ∫ ω : ℝ × ℝ, (ω.1 - l.1) ^ 2 ∂(gaussianReal l.1 (expVar l.2)).prod (gaussianReal m.1 (expVar m.2)) = Real.exp l.2 ^ 2 := by
    rw [integral_fun_fst (fun a : ℝ => (a - l.1) ^ 2), a4, probReal_univ, one_smul]; rfl
  have j4 : ∫ ω : ℝ × ℝ, (ω.2 - m.1) ^ 2 ∂(gaussianReal l.1 (expVar l.2)).prod (gaussianReal m.1 (expVar m.2)) = Real.exp m.2 ^ 2 := by
    rw [integral_fun_snd (fun a : ℝ => (a - m.1) ^ 2), b4, probReal_univ, one_smul]; rfl
  have j5 : ∫ ω : ℝ × ℝ, (ω.1 - l.1) * (ω.2 - m.1) ∂(gaussianReal l.1 (expVar l.2)).prod (gaussianReal m.1 (expVar m.2)) = 0 := by
    rw [integral_prod_mul (fun a : ℝ => a - l.1) (fun b : ℝ => b - m.1), a2]; simp
  have s1 := integral_add i0 i1
  have s2 := integral_add (i0.add i1) i2
  have s3 := integral_sub ((i0.add i1).add i2) i3
  have s4 := integral_sub (((i0.add i1).add i2).sub i3) i4
  have s5 := integral_sub ((((i0.add i1).add i2).sub i3).sub i4) i5
  simp only [Pi.add_apply, Pi.sub_apply] at s1 s2 s3 s4 s5
  rw [s5, s4, s3, s2, s1, j1, j2, j3, j4, j5]
  simp

theorem normal_le_one (m x : ℝ) : gaussianPDFReal m 1 x ≤ 1 := by
  have h := gaussianPDF_le_one m x
  rw [gaussianPDF, ENNReal.ofReal_le_one] at h
  exact h

theorem sum_blocks (x : ℝ) (l m : ℝ × ℝ) : Spec.TwoBlocks (sumVi x l m) id volume volume (sumQ l) (sumQ m) (sumJoint x) where
  nonneg₁ a := (gaussianPDFReal_pos _ _ _ (expVar_ne _)).le
  nonneg₂ a := (gaussianPDFReal_pos _ _ _ (expVar_ne _)).le
  meas₁ := measurable_gaussianPDFReal _ _
  meas₂ := measurable_gaussianPDFReal _ _
  mass₁ := lintegral_gaussianPDFReal_eq_one _ (expVar_ne _)
  mass₂ := lintegral_gaussianPDFReal_eq_one _ (expVar_ne _)
  pos ω := by
    have h1 := gaussianPDFReal_pos 0 1 ω.1 one_ne_zero
    have h2 := gaussianPDFReal_pos 0 1 ω.2 one_ne_zero
    have h3 := gaussianPDFReal_pos (ω.1 + ω.2) 1 x one_ne_zero
    unfold sumJoint
    positivity
  meas := by
    unfold sumJoint gaussianPDFReal
    fun_prop
  finite := by
    have h1 := fun a => gaussianPDFReal_pos 0 1 a one_ne_zero
    have hle : ∫⁻ ω, ENNReal.ofReal (sumJoint x ω) ∂(volume : Measure ℝ).prod volume ≤
        ∫⁻ ω : ℝ × ℝ, ENNReal.ofReal (gaussianPDFReal 0 1 ω.1) * ENNReal.ofReal (gaussianPDFReal 0 1 ω.2) ∂(volume : Measure ℝ).prod volume := by
      refine lintegral_mono fun ω => ?_
      rw [← ENNReal.ofReal_mul (h1 _).le]
      refine ENNReal.ofReal_le_ofReal ?_
      exact mul_le_of_le_one_right (mul_pos (h1 _) (h1 _)).le (normal_le_one _ _)
    rw [lintegral_prod_mul (measurable_gaussianPDFReal 0 1).ennreal_ofReal.aemeasurable (measurable_gaussianPDFReal 0 1).ennreal_ofReal.aemeasurable,
      lintegral_gaussianPDFReal_eq_one 0 one_ne_zero] at hle
    exact ne_top_of_le_ne_top (by simp) hle
  first a b _ := by simp [sumVi, sumQ]
  second a b _ := by simp [sumVi, sumQ]
  joint ω := by
    have h1 := gaussianPDFReal_pos 0 1 ω.1 one_ne_zero
    have h2 := gaussianPDFReal_pos 0 1 ω.2 one_ne_zero
    have h3 := gaussianPDFReal_pos (ω.1 + ω.2) 1 x one_ne_zero
    rw [sumJoint, Real.log_mul (by positivity) (by positivity), Real.log_mul (by positivity) (by positivity)]
    simp [Spec.logJoint, sumVi]
  int₁ := by rw [sumQ_law]; exact (sumQ_entropy l).1
  int₂ := by rw [sumQ_law]; exact (sumQ_entropy m).1
  int := by rw [sumQ_law, sumQ_law]; exact (sumJoint_mean x l m).1

/-- The expected loss of `KLqp({w: qw}, data={x: x_data, z: qz})`, and the divergence. -/
theorem sum_values (x : ℝ) (l m : ℝ × ℝ) {n : ℕ} (hn : 0 < n) :
    Spec.ownLoss (sumVi x) id volume volume sumQ sumQ n l m =
      (l.1 ^ 2 + m.1 ^ 2 + (x - l.1 - m.1) ^ 2) / 2 - 2 * Real.log (√(2 * Real.pi))⁻¹ - l.2 - 1 / 2 + Real.exp l.2 ^ 2 + Real.exp m.2 ^ 2 ∧
    Spec.wholeKl volume volume sumQ sumQ (sumJoint x) l m =
      (l.1 ^ 2 + m.1 ^ 2 + (x - l.1 - m.1) ^ 2) / 2 - Real.log (√(2 * Real.pi))⁻¹ - 1 + (Real.exp l.2 ^ 2 - l.2) + (Real.exp m.2 ^ 2 - m.2) +
        Real.log (Spec.evidence (volume.prod volume) (sumJoint x)) := by
  have h := sum_blocks x l m
  have hk := two_kl h
  have hl := (C134_loss h hn).1
  rw [hk] at hl
  simp only [sumQ_law, (sumQ_entropy l).2, (sumQ_entropy m).2, (sumJoint_mean x l m).2] at hk hl
  refine ⟨?_, ?_⟩
  · rw [Spec.ownLoss]
    simp only [sumQ_law]
    rw [hl]
    ring
  · rw [Spec.wholeKl]
    simp only [sumQ_law]
    rw [hk]
    ring

/-- The hypotheses of `C134_change` and `C134_alternate` are met, and the alternation has its rest point at the best product
approximation: locations `x / 3`, scales `√(1/2)`. -/
example (x : ℝ) (l m : ℝ × ℝ) {n : ℕ} (hn : 0 < n) :
    Spec.wholeKl volume volume sumQ sumQ (sumJoint x) (x / 3, -(Real.log 2) / 2) (x / 3, -(Real.log 2) / 2) ≤
      Spec.wholeKl volume volume sumQ sumQ (sumJoint x) l m := by
  have hmin : ∀ ρ : ℝ, Real.exp (-(Real.log 2) / 2) ^ 2 - -(Real.log 2) / 2 ≤ Real.exp ρ ^ 2 - ρ := fun ρ => by
    have e1 : ∀ r : ℝ, Real.exp r ^ 2 = Real.exp (2 * r) := fun r => by rw [← Real.exp_nat_mul]; norm_num
    have e2 : Real.exp (2 * (-(Real.log 2) / 2)) = 1 / 2 := by
      rw [show 2 * (-(Real.log 2) / 2) = -Real.log 2 by ring, Real.exp_neg, Real.exp_log (by norm_num)]; norm_num
    have e3 : Real.exp (2 * ρ + Real.log 2) = 2 * Real.exp (2 * ρ) := by rw [Real.exp_add, Real.exp_log (by norm_num)]; ring
    have := Real.add_one_le_exp (2 * ρ + Real.log 2)
    rw [e1, e1, e2]
    linarith
  rw [(sum_values x _ _ hn).2, (sum_values x l m hn).2]
  have h1 := hmin l.2
  have h2 := hmin m.2
  nlinarith [sq_nonneg (l.1 - x / 3), sq_nonneg (m.1 - x / 3), sq_nonneg (l.1 - x / 3 + (m.1 - x / 3))]

/-- C134 fails with the parameters of the other block in `var_list`, as examples/probabilistic_pca_subsampling.py:72-77 has it
(`inference_w` trains `qz_variables`): the expected loss falls with the scale of `qz`, down to a point, and the divergence tends to
infinity meanwhile. -/
theorem C134_var_list_fails (x : ℝ) (l : ℝ × ℝ) (m : ℝ) {n : ℕ} (hn : 0 < n) :
    StrictMono (fun ρ => Spec.ownLoss (sumVi x) id volume volume sumQ sumQ n l (m, ρ)) ∧
    Tendsto (fun ρ => Spec.wholeKl volume volume sumQ sumQ (sumJoint x) l (m, ρ)) atBot atTop := by
  refine ⟨fun ρ ρ' hρ => ?_, ?_⟩
  · simp only [(sum_values x _ _ hn).1]
    have h1 := Real.exp_lt_exp.mpr hρ
    have := pow_lt_pow_left₀ h1 (Real.exp_pos _).le two_ne_zero
    linarith
  · simp only [(sum_values x _ _ hn).2]
    refine tendsto_atTop_add_const_right _ _ (tendsto_atTop_add_const_left _ _ ?_)
    refine tendsto_atTop_mono (fun ρ => ?_) tendsto_neg_atBot_atTop
    have := sq_nonneg (Real.exp ρ)
    linarith

/-! ### Message passing -/

/-- `beta ~ Bernoulli(0.5)`, `x1, x2 ~ Bernoulli(0.75 if beta else 0.25)`, both observed to be 1; `qbeta ~ Bernoulli(0.5 + l)`. The keys
`data` are those of the inference. -/
noncomputable def epVi (data : List Bool) (l : ℝ) : ViProblem Unit Bool Unit Bool where
  latents := [()]
  observed := data
  scaleZ := fun _ _ => 1
  scaleX := fun _ _ => 1
  logQ := fun _ b _ => Real.log (coinQ l b)
  logP := fun _ _ _ => Real.log (1 / 2)
  logLik := fun _ b _ => Real.log (coinJ b)

/-- The joint density of `beta` and `k` data. -/
noncomputable def epJoint (k : ℕ) (b : Bool) : ℝ := 1 / 2 * coinJ b ^ k

theorem epJoint_pos (k : ℕ) (b : Bool) : 0 < epJoint k b := by
  have := coinJ_pos b
  unfold epJoint
  positivity

theorem ep_joint (data : List Bool) (l : ℝ) (b : Bool) :
    Spec.logJoint (Spec.unscaled (epVi data l)) b = Real.log (epJoint data.length b) := by
  have := coinJ_pos b
  rw [epJoint, Real.log_mul (by norm_num) (by positivity), Real.log_pow]
  simp [Spec.logJoint, Spec.unscaled, epVi]

theorem ep_posterior_prob (k : ℕ) : IsProbabilityMeasure (Spec.posterior Measure.count (epJoint k)) :=
  ⟨posterior_univ _ _ (epJoint_pos k) (measurable_of_finite _) (by
    intro h
    have := congrArg (· {true}) h
    simp at this) (by rw [lintegral_coin _ fun b => (epJoint_pos k b).le]; exact ENNReal.ofReal_ne_top)⟩

theorem ep_posterior (k : ℕ) (l : ℝ) (h : ∀ b, coinQ l b = epJoint k b / (epJoint k true + epJoint k false)) :
    Spec.lawOf Measure.count (coinQ l) = Spec.posterior Measure.count (epJoint k) := by
  have hev : Spec.evidence Measure.count (epJoint k) = epJoint k true + epJoint k false := by
    rw [Spec.evidence, lintegral_coin _ fun b => (epJoint_pos k b).le, ENNReal.toReal_ofReal (add_pos (epJoint_pos _ _) (epJoint_pos _ _)).le]
  rw [Spec.posterior, hev]
  congr 1
  exact funext h

theorem ep_one : Spec.lawOf Measure.count (coinQ (1 / 4)) = Spec.posterior Measure.count (epJoint 1) :=
  ep_posterior 1 _ fun b => by cases b <;> norm_num [coinQ, epJoint, coinJ]

theorem ep_two : Spec.lawOf Measure.count (coinQ (2 / 5)) = Spec.posterior Measure.count (epJoint 2) :=
  ep_posterior 2 _ fun b => by cases b <;> norm_num [coinQ, epJoint, coinJ]

theorem ep_gradient (x : Bool) (l₀ ε : ℝ) (hε : 0 < ε) (hl : |l₀| + 2 * ε ≤ 1 / 2) :
    ∀ᵐ d ∂Measure.infinitePi (fun _ : ℕ => Spec.lawOf Measure.count (coinQ l₀)), ∃ G : ℕ → ℝ →L[ℝ] ℝ,
      (∀ n, 0 < n → HasFDerivAt (fun l => klpqSurrogate (epVi [x] l) (epVi [x] l₀) n (fun t => d t) 0) (G n) l₀) ∧
      Tendsto G atTop (𝓝 (-((3 / 4 / (1 / 2 + l₀) - 1 / 4 / (1 / 2 - l₀)) • ContinuousLinearMap.id ℝ ℝ))) := by
  have := ep_posterior_prob 1
  have hpos : ∀ l ∈ Metric.ball l₀ ε, ∀ b, ε < coinQ l b := fun l hb b => by
    rw [Metric.mem_ball, Real.dist_eq] at hb
    have h1 := abs_lt.mp hb
    have h2 := abs_le.mp (le_refl |l₀|)
    cases b <;> simp only [coinQ, Bool.false_eq_true, if_false, if_true] <;> linarith
  have hmem : l₀ ∈ Metric.ball l₀ ε := Metric.mem_ball_self hε
  have hfin : ∫⁻ b, ENNReal.ofReal (epJoint 1 b) ∂Measure.count ≠ ⊤ := by
    rw [lintegral_coin _ fun b => (epJoint_pos 1 b).le]; exact ENNReal.ofReal_ne_top
  have hone : ∀ l ∈ Metric.ball l₀ ε, ∫⁻ b, ENNReal.ofReal (coinQ l b) ∂Measure.count = 1 := fun l hb => by
    rw [lintegral_coin _ fun b => (hε.trans (hpos l hb b)).le]; norm_num [coinQ]
  have hint : Integrable (fun b => Real.log (epJoint 1 b) - Real.log (coinQ l₀ b)) (Spec.posterior Measure.count (epJoint 1)) := Integrable.of_finite
  have hm : AEStronglyMeasurable (fun b => (coinQ l₀ b)⁻¹ • coinQ' l₀ b) (Spec.posterior Measure.count (epJoint 1)) :=
    StronglyMeasurable.of_discrete.aestronglyMeasurable
  have hbd : ∀ᵐ b ∂Spec.posterior Measure.count (epJoint 1), ∀ l ∈ Metric.ball l₀ ε, ‖(coinQ l b)⁻¹ • coinQ' l b‖ ≤ ε⁻¹ :=
    Eventually.of_forall fun b l hb => by
      have h := hpos l hb b
      rw [norm_smul, norm_coinQ', mul_one, norm_inv, Real.norm_of_nonneg (hε.trans h).le]
      exact inv_anti₀ hε h.le
  obtain ⟨D, hD, hG⟩ := C101_gradient Measure.count (epVi [x]) coinQ coinQ' (epJoint 1) l₀ _ (Metric.ball_mem_nhds _ hε)
    (fun l hb b => hε.trans (hpos l hb b)) (fun _ _ => measurable_of_finite _) hone (epJoint_pos 1) (measurable_of_finite _) hfin
    (fun l _ b => by simp [Spec.logApprox, Spec.unscaled, epVi]) (fun b => ep_joint [x] l₀ b) hint
    (fun b l _ => hasFDerivAt_coinQ b l) hm (integrable_const _) hbd (fun _ => 0) (differentiableAt_const _)
  have hD' := hasFDerivAt_klDiv_from_posterior Measure.count coinQ coinQ' (epJoint 1) l₀ _ (Metric.ball_mem_nhds _ hε)
    (fun l hb b => hε.trans (hpos l hb b)) (fun _ _ => measurable_of_finite _) hone (epJoint_pos 1) (measurable_of_finite _) hfin hint
    (fun b l _ => hasFDerivAt_coinQ b l) hm (integrable_const _) hbd
  have e : D + fderiv ℝ (fun _ : ℝ => (0 : ℝ)) l₀ = -((3 / 4 / (1 / 2 + l₀) - 1 / 4 / (1 / 2 - l₀)) • ContinuousLinearMap.id ℝ ℝ) := by
    rw [hD.unique hD', ← ep_one, Spec.lawOf, fderiv_const_apply, add_zero, neg_inj]
    ext
    have := lawOf_prob (hone l₀ hmem)
    rw [integral_withDensity_eq_integral_toReal_smul (by fun_prop) (by simp), integral_fintype]
    · simp [coinQ, coinQ', measureReal_def]
      norm_num
      ring
    · exact Integrable.of_finite
  rw [e] at hG
  exact hG

/-- C134 fails for message passing as documented (docs/tex/api/inference-compositionality.tex:64-107), where `KLpq({beta: qbeta}, {x1: …})`
and `KLpq({beta: qbeta}, {x2: …})` share `qbeta`: each knows the prior and its own data only. At the posterior given all data the gradients
of both inferences, in the limit of many samples, lead away from it; at the posterior given half the data both vanish. -/
theorem C134_message_passing_fails :
    Spec.lawOf Measure.count (coinQ (2 / 5)) = Spec.posterior Measure.count (epJoint 2) ∧
    (∀ l b, Spec.logJoint (Spec.unscaled (epVi [false, true] l)) b = Real.log (epJoint 2 b)) ∧
    (∀ x, ∃ g : ℝ, 0 < g ∧ ∀ᵐ d ∂Measure.infinitePi (fun _ : ℕ => Spec.lawOf Measure.count (coinQ (2 / 5))), ∃ G : ℕ → ℝ →L[ℝ] ℝ,
      (∀ n, 0 < n → HasFDerivAt (fun l => klpqSurrogate (epVi [x] l) (epVi [x] (2 / 5)) n (fun t => d t) 0) (G n) (2 / 5)) ∧
      Tendsto G atTop (𝓝 (g • ContinuousLinearMap.id ℝ ℝ))) ∧
    ∀ x, ∀ᵐ d ∂Measure.infinitePi (fun _ : ℕ => Spec.lawOf Measure.count (coinQ (1 / 4))), ∃ G : ℕ → ℝ →L[ℝ] ℝ,
      (∀ n, 0 < n → HasFDerivAt (fun l => klpqSurrogate (epVi [x] l) (epVi [x] (1 / 4)) n (fun t => d t) 0) (G n) (1 / 4)) ∧
      Tendsto G atTop (𝓝 0) := by
  refine ⟨ep_two, fun l b => ep_joint [false, true] l b, fun x => ⟨5 / 3, by norm_num, ?_⟩, fun x => ?_⟩
  · have h := ep_gradient x (2 / 5) (1 / 20) (by norm_num) (by norm_num [abs_of_pos])
    have e : -((3 / 4 / (1 / 2 + 2 / 5) - 1 / 4 / (1 / 2 - 2 / 5) : ℝ) • ContinuousLinearMap.id ℝ ℝ) = (5 / 3 : ℝ) • ContinuousLinearMap.id ℝ ℝ := by
      ext; norm_num
    rwa [e] at h
  · have h := ep_gradient x (1 / 4) (1 / 8) (by norm_num) (by norm_num [abs_of_pos])
    have e : -((3 / 4 / (1 / 2 + 1 / 4) - 1 / 4 / (1 / 2 - 1 / 4) : ℝ) • ContinuousLinearMap.id ℝ ℝ) = 0 := by
      ext; norm_num
    rwa [e] at h

end Edward
