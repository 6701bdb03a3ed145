/-
Properties C33 (leapfrog is reversible), C34 (it preserves volume), C35 (HMC preserves
the posterior).
-/
import Mathlib.MeasureTheory.Measure.Haar.Unique
import Mathlib.MeasureTheory.Group.Prod
import Mathlib.MeasureTheory.Group.Measure
import Mathlib.MeasureTheory.Integral.Pi
import Mathlib.MeasureTheory.Function.SpecialFunctions.Basic
import Mathlib.Analysis.SpecialFunctions.Log.ENNRealLogExp
import Verif.Lemmas.Accept
import Verif.Model.Hmc

set_option linter.unusedSectionVars false

namespace Edward

open MeasureTheory ENNReal

/-! ### The loops are vector operations -/

section
variable {ι : Type} [DecidableEq ι] {E : ι → Type} [∀ i, AddCommGroup (E i)] [∀ i, Module ℝ (E i)]

theorem kick_apply (h : ℝ) (g : ∀ i, E i) (keys : List ι) (hn : keys.Nodup) (r : ∀ i, E i) (i : ι) :
    kick h g keys r i = if i ∈ keys then r i + (0.5 * h : ℝ) • g i else r i := by
  unfold kick
  induction keys generalizing r with
  | nil => simp
  | cons k l ih =>
    rw [List.foldl_cons, ih (List.nodup_cons.mp hn).2]
    have hk := (List.nodup_cons.mp hn).1
    by_cases hik : i = k
    · subst hik; simp [hk]
    · simp [hik]

theorem kickDrift_apply (h : ℝ) (g : ∀ i, E i) (keys : List ι) (hn : keys.Nodup)
    (zr : (∀ i, E i) × (∀ i, E i)) (i : ι) :
    (kickDrift h g keys zr).2 i = (if i ∈ keys then zr.2 i + (0.5 * h : ℝ) • g i else zr.2 i) ∧
    (kickDrift h g keys zr).1 i =
      (if i ∈ keys then zr.1 i + h • (zr.2 i + (0.5 * h : ℝ) • g i) else zr.1 i) := by
  unfold kickDrift
  induction keys generalizing zr with
  | nil => simp
  | cons k l ih =>
    rw [List.foldl_cons]
    have hk := (List.nodup_cons.mp hn).1
    obtain ⟨h1, h2⟩ := ih (List.nodup_cons.mp hn).2 (Function.update zr.1 k (zr.1 k + h •
      (Function.update zr.2 k (zr.2 k + (0.5 * h : ℝ) • g k)) k),
      Function.update zr.2 k (zr.2 k + (0.5 * h : ℝ) • g k))
    refine ⟨h1.trans ?_, h2.trans ?_⟩
    · by_cases hik : i = k
      · subst hik; simp [hk]
      · simp [hik]
    · by_cases hik : i = k
      · subst hik; simp [hk]
      · simp [hik]

/-- One leapfrog step as a map of phase space. -/
noncomputable def lfStep (h : ℝ) (G : (∀ i, E i) → ∀ i, E i) (zr : (∀ i, E i) × (∀ i, E i)) :
    (∀ i, E i) × (∀ i, E i) :=
  let r1 := zr.2 + (0.5 * h : ℝ) • G zr.1
  let z1 := zr.1 + h • r1
  (z1, r1 + (0.5 * h : ℝ) • G z1)

theorem leapfrog_eq (h : ℝ) (G : (∀ i, E i) → ∀ i, E i) (keys : List ι) (hn : keys.Nodup)
    (hk : ∀ i, i ∈ keys) (n : ℕ) (zr : (∀ i, E i) × (∀ i, E i)) :
    leapfrog h G keys n zr = (lfStep h G)^[n] zr := by
  unfold leapfrog
  induction n generalizing zr with
  | zero => rfl
  | succ n ih =>
    rw [Function.iterate_succ_apply, ← ih]
    simp only [leapfrogLoop]
    have e1 : (kickDrift h (G zr.1) keys zr).1 = (lfStep h G zr).1 := by
      funext i
      rw [(kickDrift_apply h _ keys hn zr i).2, if_pos (hk i)]
      simp [lfStep]
    have e2 : kick h (G (kickDrift h (G zr.1) keys zr).1) keys (kickDrift h (G zr.1) keys zr).2 =
        (lfStep h G zr).2 := by
      funext i
      rw [kick_apply h _ keys hn, if_pos (hk i), (kickDrift_apply h _ keys hn zr i).1, if_pos (hk i), e1]
      simp [lfStep]
    rw [e2, e1]

/-- Momentum flip. -/
def flipR (zr : (∀ i, E i) × (∀ i, E i)) : (∀ i, E i) × (∀ i, E i) := (zr.1, -zr.2)

theorem lfStep_flip (h : ℝ) (G : (∀ i, E i) → ∀ i, E i) (zr : (∀ i, E i) × (∀ i, E i)) :
    lfStep h G (flipR (lfStep h G zr)) = flipR zr := by
  obtain ⟨z, r⟩ := zr
  set r1 := r + (0.5 * h : ℝ) • G z with hr1
  set z1 := z + h • r1 with hz1
  have h1 : -(r1 + (0.5 * h : ℝ) • G z1) + (0.5 * h : ℝ) • G z1 = -r1 := by abel
  have h2 : z1 + h • (-r1) = z := by rw [hz1, smul_neg]; abel
  have h3 : -r1 + (0.5 * h : ℝ) • G z = -r := by rw [hr1]; abel
  change (z1 + h • (-(r1 + (0.5 * h : ℝ) • G z1) + (0.5 * h : ℝ) • G z1), _) = (z, -r)
  simp only [flipR, lfStep]
  rw [← hr1, ← hz1, h1, h2, h3]

/-- C33: integrating, flipping the momentum and integrating for the same number of steps
returns to the start with the momentum flipped; any number of steps, any step size, any
force field, any number of variables. -/
theorem C33_leapfrog_reversible (h : ℝ) (G : (∀ i, E i) → ∀ i, E i) (keys : List ι)
    (hn : keys.Nodup) (hk : ∀ i, i ∈ keys) (n : ℕ) (z r : ∀ i, E i) :
    let new := leapfrog h G keys n (z, r)
    leapfrog h G keys n (new.1, -new.2) = (z, -r) := by
  intro new
  have key : ∀ n zr, (lfStep h G)^[n] (flipR ((lfStep h G)^[n] zr)) = flipR zr := by
    intro n
    induction n with
    | zero => intro zr; rfl
    | succ n ih =>
      intro zr
      rw [Function.iterate_succ_apply, Function.iterate_succ_apply', lfStep_flip, ih]
  have := key n (z, r)
  rw [← leapfrog_eq h G keys hn hk, ← leapfrog_eq h G keys hn hk] at this
  exact this

/-! ### Volume -/

variable [∀ i, MeasurableSpace (E i)] [∀ i, MeasurableAdd₂ (E i)] [∀ i, MeasurableNeg (E i)]
  [∀ i, MeasurableConstSMul ℝ (E i)]

instance : MeasurableAdd₂ (∀ i, E i) :=
  ⟨measurable_pi_lambda _ fun i => ((measurable_pi_apply i).comp measurable_fst).add
    ((measurable_pi_apply i).comp measurable_snd)⟩

instance : MeasurableConstSMul ℝ (∀ i, E i) :=
  ⟨fun c => measurable_pi_lambda _ fun i => (measurable_pi_apply i).const_smul c⟩

instance : MeasurableNeg (∀ i, E i) :=
  ⟨measurable_pi_lambda _ fun i => (measurable_pi_apply i).neg⟩

theorem shear_snd {V : Type} [AddCommGroup V] [MeasurableSpace V] [MeasurableAdd₂ V] (μ : Measure V)
    [SFinite μ] [μ.IsAddLeftInvariant] (k : V → V) (hk : Measurable k) :
    MeasurePreserving (fun zr : V × V => (zr.1, zr.2 + k zr.1)) (μ.prod μ) (μ.prod μ) := by
  refine (MeasurePreserving.id μ).skew_product (g := fun z r => r + k z) ?_ ?_
  · exact measurable_snd.add (hk.comp measurable_fst)
  · refine Filter.Eventually.of_forall fun z => ?_
    exact map_add_right_eq_self μ (k z)

theorem shear_fst {V : Type} [AddCommGroup V] [MeasurableSpace V] [MeasurableAdd₂ V] (μ : Measure V)
    [SFinite μ] [μ.IsAddLeftInvariant] (k : V → V) (hk : Measurable k) :
    MeasurePreserving (fun zr : V × V => (zr.1 + k zr.2, zr.2)) (μ.prod μ) (μ.prod μ) :=
  (Measure.measurePreserving_swap.comp (shear_snd μ k hk)).comp Measure.measurePreserving_swap

theorem lfStep_measurePreserving (μ : Measure (∀ i, E i)) [SFinite μ] [μ.IsAddLeftInvariant]
    (h : ℝ) (G : (∀ i, E i) → ∀ i, E i) (hG : Measurable G) :
    MeasurePreserving (lfStep h G) (μ.prod μ) (μ.prod μ) := by
  have a := shear_snd μ (fun z => (0.5 * h : ℝ) • G z)
    (hG.fun_const_smul _)
  have b := shear_fst μ (fun r => h • r)
    (measurable_const_smul h)
  exact a.comp (b.comp a)

/-- C34: the leapfrog map preserves volume: any translation-invariant measure, in
particular Lebesgue measure. -/
theorem C34_leapfrog_volume (μ : Measure (∀ i, E i)) [SFinite μ] [μ.IsAddLeftInvariant]
    (h : ℝ) (G : (∀ i, E i) → ∀ i, E i) (hG : Measurable G) (keys : List ι)
    (hn : keys.Nodup) (hk : ∀ i, i ∈ keys) (n : ℕ) :
    MeasurePreserving (leapfrog h G keys n) (μ.prod μ) (μ.prod μ) := by
  have : leapfrog h G keys n = (lfStep h G)^[n] := by
    funext zr; exact leapfrog_eq h G keys hn hk n zr
  rw [this]
  exact (lfStep_measurePreserving μ h G hG).iterate n

end

/-! ### HMC -/

section
variable {ι : Type} [Fintype ι] [DecidableEq ι] {κ : ι → Type} [∀ i, Fintype (κ i)]

theorem momentum_eq : ∃ c : ℝ, 0 < c ∧
    ∀ r : Pos κ, momentum r = ENNReal.ofReal (c * Real.exp (-kinetic r)) := by
  classical
  set a : ℝ := (Real.sqrt (2 * Real.pi * 1))⁻¹ with ha
  have hapos : 0 < a := by positivity
  refine ⟨∏ i : ι, ∏ _j : κ i, a, Finset.prod_pos fun i _ => Finset.prod_pos fun j _ => hapos, fun r => ?_⟩
  unfold momentum ProbabilityTheory.gaussianPDF
  have h1 : ∀ i, ∏ j, ENNReal.ofReal (ProbabilityTheory.gaussianPDFReal 0 1 (r i j)) =
      ENNReal.ofReal (∏ j, ProbabilityTheory.gaussianPDFReal 0 1 (r i j)) := fun i =>
    (ENNReal.ofReal_prod_of_nonneg fun j _ => ProbabilityTheory.gaussianPDFReal_nonneg _ _ _).symm
  simp only [h1]
  rw [← ENNReal.ofReal_prod_of_nonneg fun i _ =>
    Finset.prod_nonneg fun j _ => ProbabilityTheory.gaussianPDFReal_nonneg _ _ _]
  congr 1
  have h2 : ∀ x : ℝ, ProbabilityTheory.gaussianPDFReal 0 1 x = a * Real.exp (-(0.5 * x ^ 2)) := by
    intro x
    rw [ProbabilityTheory.gaussianPDFReal_def]
    simp only [NNReal.coe_one, sub_zero, ← ha]
    congr 2
    norm_num; ring
  simp only [h2, Finset.prod_mul_distrib]
  congr 1
  simp only [← Real.exp_sum]
  congr 1
  unfold kinetic
  rw [← Finset.sum_neg_distrib]
  refine Finset.sum_congr rfl fun i _ => ?_
  rw [Finset.mul_sum, Finset.sum_neg_distrib]

theorem momentum_neg (r : Pos κ) : momentum (-r) = momentum r := by
  obtain ⟨c, _, h⟩ := momentum_eq (κ := κ)
  rw [h, h]
  congr 3
  unfold kinetic
  simp

theorem measurable_momentum : Measurable (momentum (κ := κ)) := by
  unfold momentum
  refine Finset.measurable_prod _ fun i _ => Finset.measurable_prod _ fun j _ => ?_
  exact (ProbabilityTheory.measurable_gaussianPDF 0 1).comp
    ((measurable_pi_apply j).comp (measurable_pi_apply i))

theorem lintegral_momentum : ∫⁻ r : Pos κ, momentum r = 1 := by
  have e : ∀ r : Pos κ, momentum r = ENNReal.ofReal (∏ i, ∏ j, ProbabilityTheory.gaussianPDFReal 0 1 (r i j)) := by
    intro r
    unfold momentum ProbabilityTheory.gaussianPDF
    rw [ENNReal.ofReal_prod_of_nonneg fun i _ =>
      Finset.prod_nonneg fun j _ => ProbabilityTheory.gaussianPDFReal_nonneg _ _ _]
    refine Finset.prod_congr rfl fun i _ => ?_
    exact (ENNReal.ofReal_prod_of_nonneg fun j _ => ProbabilityTheory.gaussianPDFReal_nonneg _ _ _).symm
  simp only [e]
  have hint1 : ∀ i, Integrable (fun r : κ i → ℝ => ∏ j, ProbabilityTheory.gaussianPDFReal 0 1 (r j)) := fun i =>
    Integrable.fintype_prod (f := fun _ x => ProbabilityTheory.gaussianPDFReal 0 1 x)
      (fun _ => ProbabilityTheory.integrable_gaussianPDFReal 0 1)
  have hint : Integrable (fun r : Pos κ => ∏ i, ∏ j, ProbabilityTheory.gaussianPDFReal 0 1 (r i j)) :=
    Integrable.fintype_prod_dep (f := fun i (r : κ i → ℝ) => ∏ j, ProbabilityTheory.gaussianPDFReal 0 1 (r j)) hint1
  rw [← ofReal_integral_eq_lintegral_ofReal hint (Filter.Eventually.of_forall fun r =>
    Finset.prod_nonneg fun i _ => Finset.prod_nonneg fun j _ => ProbabilityTheory.gaussianPDFReal_nonneg _ _ _)]
  rw [integral_fintype_prod_volume_eq_prod (f := fun i (r : κ i → ℝ) => ∏ j, ProbabilityTheory.gaussianPDFReal 0 1 (r j))]
  have : ∀ i, ∫ r : κ i → ℝ, ∏ j, ProbabilityTheory.gaussianPDFReal 0 1 (r j) = 1 := by
    intro i
    rw [integral_fintype_prod_volume_eq_prod (f := fun (_ : κ i) x => ProbabilityTheory.gaussianPDFReal 0 1 x)]
    simp [ProbabilityTheory.integral_gaussianPDFReal_eq_one]
  simp [this]

/-- The acceptance ratio is the log of the ratio of extended target densities. -/
theorem hmc_ratio (p : Pos κ → ℝ≥0∞) (hfin : ∀ z, p z ≠ ∞) (old new : Pos κ × Pos κ)
    (h0 : p old.1 ≠ 0) :
    hmcRatio p old new = log (p new.1 * momentum new.2 / (p old.1 * momentum old.2)) := by
  obtain ⟨c, hc, hmom⟩ := momentum_eq (κ := κ)
  have hexp : ∀ x : ℝ, (x : EReal) = log (ENNReal.ofReal (Real.exp x)) := by
    intro x
    rw [← EReal.exp_coe, EReal.log_exp]
  unfold hmcRatio
  rw [hexp, sub_eq_add_neg, ← log_inv, ← log_mul_add, ← log_mul_add]
  congr 1
  have hm0 : momentum old.2 ≠ 0 := by
    rw [hmom]; simp only [ne_eq, ENNReal.ofReal_eq_zero, not_le]; positivity
  have hmt : momentum old.2 ≠ ∞ := by rw [hmom]; exact ENNReal.ofReal_ne_top
  have hr : ENNReal.ofReal (Real.exp (kinetic old.2 - kinetic new.2)) = momentum new.2 * (momentum old.2)⁻¹ := by
    rw [hmom, hmom, ← ENNReal.ofReal_inv_of_pos (by positivity), ← ENNReal.ofReal_mul (by positivity)]
    congr 1
    rw [sub_eq_add_neg, Real.exp_add, Real.exp_neg, Real.exp_neg]
    field_simp
  rw [hr, div_eq_mul_inv, ENNReal.mul_inv (Or.inl h0) (Or.inl (hfin _))]
  ring

theorem momentum_ne_top (r : Pos κ) : momentum r ≠ ∞ := by
  obtain ⟨c, hc, hmom⟩ := momentum_eq (κ := κ)
  rw [hmom]; exact ENNReal.ofReal_ne_top

theorem momentum_ne_zero (r : Pos κ) : momentum r ≠ 0 := by
  obtain ⟨c, hc, hmom⟩ := momentum_eq (κ := κ)
  rw [hmom]; simp only [ne_eq, ENNReal.ofReal_eq_zero, not_le]; positivity

theorem hmcExpect_eq (p : Pos κ → ℝ≥0∞) (G : Pos κ → Pos κ) (h : ℝ) (n : ℕ)
    (keys : List ι) (f : Pos κ → ℝ≥0∞) (z : Pos κ) :
    hmcExpect p G h n keys f z = ∫⁻ r, momentum r *
      (acceptProb (hmcRatio p (z, r) (leapfrog h G keys n (z, r))) * f (leapfrog h G keys n (z, r)).1 +
      (1 - acceptProb (hmcRatio p (z, r) (leapfrog h G keys n (z, r)))) * f z) := by
  classical
  unfold hmcExpect
  congr 1
  funext r
  congr 1
  rw [← lintegral_accept]
  congr 1
  funext u
  unfold hmcStep
  dsimp only
  split <;> rfl

/-- C35: the HMC update is reversible with respect to the posterior, for every step
size, number of steps and measurable force field. -/
theorem C35_hmc_reversible (p : Pos κ → ℝ≥0∞) (hp : Measurable p) (hfin : ∀ z, p z ≠ ∞)
    (G : Pos κ → Pos κ) (hG : Measurable G) (h : ℝ) (n : ℕ) (keys : List ι) (hn : keys.Nodup)
    (hk : ∀ i, i ∈ keys) (f k : Pos κ → ℝ≥0∞) (hf : Measurable f) (hkm : Measurable k) :
    ∫⁻ z, p z * k z * hmcExpect p G h n keys f z = ∫⁻ z, p z * f z * hmcExpect p G h n keys k z := by
  set L : Pos κ × Pos κ → Pos κ × Pos κ := leapfrog h G keys n with hL
  set T : Pos κ × Pos κ → Pos κ × Pos κ := fun x => ((L x).1, -(L x).2) with hTdef
  set μ : Measure (Pos κ × Pos κ) := volume.prod volume with hμ
  have hLm : MeasurePreserving L μ μ := C34_leapfrog_volume volume h G hG keys hn hk n
  have h1 : (volume : Measure ℝ).IsNegInvariant := inferInstance
  have h2 : ∀ i, (volume : Measure (κ i → ℝ)).IsNegInvariant := fun i => inferInstance
  have h3 : (volume : Measure (Pos κ)).IsNegInvariant := Measure.pi.isNegInvariant _
  have hflip : MeasurePreserving (fun x : Pos κ × Pos κ => (x.1, -x.2)) μ μ :=
    (MeasurePreserving.id _).prod (Measure.measurePreserving_neg volume)
  have hT : MeasurePreserving T μ μ := hflip.comp hLm
  have hinv : ∀ x, T (T x) = x := by
    rintro ⟨z, r⟩
    have := C33_leapfrog_reversible h G keys hn hk n z r
    simp only [hTdef]
    rw [show L ((L (z, r)).1, -(L (z, r)).2) = (z, -r) from this]
    simp
  set π : Pos κ × Pos κ → ℝ≥0∞ := fun x => p x.1 * momentum x.2 with hπdef
  have hπ : Measurable π := (hp.comp measurable_fst).mul (measurable_momentum.comp measurable_snd)
  have hπfin : ∀ x, π x ≠ ∞ := fun x => ENNReal.mul_ne_top (hfin _) (momentum_ne_top _)
  set a : Pos κ × Pos κ → ℝ≥0∞ := fun x => acceptProb (hmcRatio p x (L x)) with hadef
  have ha : ∀ x, π x * a x = min (π x) (π (T x)) := by
    intro x
    have hTx : π (T x) = p (L x).1 * momentum (L x).2 := by
      simp only [hπdef, hTdef, momentum_neg]
    by_cases h0 : p x.1 = 0
    · simp [hπdef, h0]
    · simp only [hadef]
      rw [hmc_ratio p hfin x (L x) h0, acceptProb_log, hTx]
      exact mul_min_one_div (mul_ne_zero h0 (momentum_ne_zero _)) (hπfin x)
  have hmeasT : Measurable T := hT.measurable
  -- measurability of the accepted and rejected parts
  have hmin : Measurable (fun x => min (π x) (π (T x))) := hπ.min (hπ.comp hmeasT)
  have hexpr : ∀ (f k : Pos κ → ℝ≥0∞), Measurable f → Measurable k →
      ∫⁻ z, p z * k z * hmcExpect p G h n keys f z =
      ∫⁻ x, π x * (k x.1) * (a x * f (T x).1 + (1 - a x) * f x.1) ∂μ := by
    intro f k hf hk
    have e : ∀ x, π x * (k x.1) * (a x * f (T x).1 + (1 - a x) * f x.1) =
        min (π x) (π (T x)) * (k x.1 * f (T x).1) + (π x - min (π x) (π (T x))) * (k x.1 * f x.1) := by
      intro x
      rw [← ha, show π x - π x * a x = π x * (1 - a x) by
        rw [ENNReal.mul_sub (fun _ _ => hπfin x), mul_one]]
      ring
    have hmeas : Measurable (fun x => π x * (k x.1) * (a x * f (T x).1 + (1 - a x) * f x.1)) := by
      simp only [e]
      exact (hmin.mul ((hk.comp measurable_fst).mul (hf.comp (measurable_fst.comp hmeasT)))).add
        ((hπ.sub hmin).mul ((hk.comp measurable_fst).mul (hf.comp measurable_fst)))
    rw [hμ, lintegral_prod _ hmeas.aemeasurable]
    congr 1
    funext z
    rw [hmcExpect_eq]
    -- pull `p z * k z` inside
    have hin : ∀ r, π (z, r) * k z * (a (z, r) * f (T (z, r)).1 + (1 - a (z, r)) * f z) =
        p z * k z * (momentum r * (acceptProb (hmcRatio p (z, r) (L (z, r))) * f (L (z, r)).1 +
          (1 - acceptProb (hmcRatio p (z, r) (L (z, r)))) * f z)) := by
      intro r
      simp only [hπdef, hadef, hTdef]
      ring
    by_cases h0 : p z = 0
    · simp [hπdef, h0]
    · -- the inner integrand is measurable since `p z` is a unit
      have hmi : Measurable (fun r => momentum r * (acceptProb (hmcRatio p (z, r) (L (z, r))) * f (L (z, r)).1 +
          (1 - acceptProb (hmcRatio p (z, r) (L (z, r)))) * f z)) := by
        have hsec : Measurable (fun r => ((z, r) : Pos κ × Pos κ)) := measurable_const.prodMk measurable_id
        have e2 : (fun r => momentum r * (acceptProb (hmcRatio p (z, r) (L (z, r))) * f (L (z, r)).1 +
          (1 - acceptProb (hmcRatio p (z, r) (L (z, r)))) * f z)) =
          fun r => (p z)⁻¹ * (min (π (z, r)) (π (T (z, r))) * f (T (z, r)).1 +
            (π (z, r) - min (π (z, r)) (π (T (z, r)))) * f z) := by
          funext r
          have e3 := e (z, r)
          rw [← ha, show π (z, r) - π (z, r) * a (z, r) = π (z, r) * (1 - a (z, r)) by
            rw [ENNReal.mul_sub (fun _ _ => hπfin _), mul_one]]
          have hc : (p z)⁻¹ * p z = 1 := ENNReal.inv_mul_cancel h0 (hfin z)
          simp only [hπdef, hadef, hTdef]
          calc _ = ((p z)⁻¹ * p z) * (momentum r * (acceptProb (hmcRatio p (z, r) (L (z, r))) * f (L (z, r)).1 +
                (1 - acceptProb (hmcRatio p (z, r) (L (z, r)))) * f z)) := by rw [hc, one_mul]
            _ = _ := by ring
        rw [e2]
        exact ((((hmin.comp hsec).mul (hf.comp (measurable_fst.comp (hmeasT.comp hsec)))).add
          (((hπ.comp hsec).sub (hmin.comp hsec)).mul measurable_const))).const_mul _
      rw [← lintegral_const_mul _ hmi]
      congr 1
      funext r
      exact (hin r).symm
  rw [hexpr f k hf hkm, hexpr k f hkm hf]
  exact involutive_reversible μ T hT hinv π hπ hπfin a ha (fun x => f x.1) (fun x => k x.1)
    (hf.comp measurable_fst) (hkm.comp measurable_fst)

/-- C35: the HMC update preserves the posterior. -/
theorem C35_hmc_invariant (p : Pos κ → ℝ≥0∞) (hp : Measurable p) (hfin : ∀ z, p z ≠ ∞)
    (G : Pos κ → Pos κ) (hG : Measurable G) (h : ℝ) (n : ℕ) (keys : List ι) (hn : keys.Nodup)
    (hk : ∀ i, i ∈ keys) (f : Pos κ → ℝ≥0∞) (hf : Measurable f) :
    ∫⁻ z, p z * hmcExpect p G h n keys f z = ∫⁻ z, p z * f z := by
  have hr := C35_hmc_reversible p hp hfin G hG h n keys hn hk f (fun _ => 1) hf measurable_const
  simp only [mul_one] at hr
  rw [hr]
  have : ∀ z, hmcExpect p G h n keys (fun _ => 1) z = 1 := by
    intro z
    rw [hmcExpect_eq]
    have e : ∀ r, momentum r * (acceptProb (hmcRatio p (z, r) (leapfrog h G keys n (z, r))) * 1 +
        (1 - acceptProb (hmcRatio p (z, r) (leapfrog h G keys n (z, r)))) * 1) = momentum r := by
      intro r
      rw [mul_one, mul_one, add_tsub_cancel_of_le (acceptProb_le_one _), mul_one]
    simp only [e, lintegral_momentum]
  simp only [this, mul_one]

end

/-! Concrete case: two latent variables with two and three coordinates, a Gaussian
posterior, the default step size and number of steps. -/
section
abbrev exShape : Bool → Type := fun b => if b then Fin 2 else Fin 3

instance : ∀ b, Fintype (exShape b)
  | true => inferInstanceAs (Fintype (Fin 2))
  | false => inferInstanceAs (Fintype (Fin 3))

noncomputable def exTarget (z : Pos exShape) : ℝ≥0∞ := ENNReal.ofReal (Real.exp (-kinetic z))

theorem measurable_exTarget : Measurable exTarget := by
  unfold exTarget kinetic
  refine ENNReal.measurable_ofReal.comp (Real.measurable_exp.comp (Measurable.neg ?_))
  refine Finset.measurable_sum _ fun i _ => Measurable.const_mul ?_ _
  refine Finset.measurable_sum _ fun j _ => Measurable.pow_const ?_ _
  exact (measurable_pi_apply j).comp (measurable_pi_apply i)

example (f : Pos exShape → ℝ≥0∞) (hf : Measurable f) :
    ∫⁻ z, exTarget z * hmcExpect exTarget (fun z => -z) 0.25 2 [true, false] f z = ∫⁻ z, exTarget z * f z :=
  C35_hmc_invariant exTarget measurable_exTarget (fun _ => ENNReal.ofReal_ne_top) _ measurable_neg 0.25 2
    [true, false] (by simp) (by intro b; cases b <;> simp) f hf

example : MeasurePreserving (leapfrog 0.25 (fun z : Pos exShape => -z) [true, false] 2)
    (volume.prod volume) (volume.prod volume) :=
  C34_leapfrog_volume (E := fun b => exShape b → ℝ) (volume : Measure (Pos exShape)) 0.25
    (fun z => -z) measurable_neg [true, false] (by simp)
    (by intro b; cases b <;> simp) 2

/-- The integrator does move. -/
example : (leapfrog 1 (fun z : (∀ _ : Unit, ℝ) => -z) [()] 1 (fun _ => 1, fun _ => 0)).1 () = 0.5 := by
  rw [leapfrog_eq 1 _ [()] (by simp) (by simp)]
  simp [lfStep]
  norm_num
end

end Edward
