/-
C95: the law of the samples of a `DirichletProcess` (dirichlet_process.py:123-224).

The randomness of a call is an independent sequence of steps; step `k` holds the base
draws of `self.base.sample(batch_shape)`, the proportions of `self._probs_dist.sample()`
(Beta(1, concentration)) and the uniform numbers behind `Bernoulli(probs_k).sample(n)`.
-/
import Mathlib.Probability.ProductMeasure
import Mathlib.Probability.Independence.InfinitePi
import Mathlib.Probability.Distributions.Beta
import Mathlib.Analysis.SpecificLimits.Basic
import Mathlib.Topology.Algebra.InfiniteSum.ENNReal
import Mathlib.MeasureTheory.Constructions.Pi
import Mathlib.MeasureTheory.Measure.Prod
import Mathlib.Tactic.FieldSimp
import Mathlib.Tactic.Linarith
import Mathlib.Tactic.Ring
import Verif.Props.Distributions

set_option linter.unusedSectionVars false

namespace Edward

open MeasureTheory ProbabilityTheory
open scoped ENNReal

/-- A uniform number of `[0, 1)`. -/
noncomputable def dpUnif : Measure ℝ := volume.restrict (Set.Ico 0 1)

instance : IsProbabilityMeasure dpUnif := ⟨by simp [dpUnif]⟩

theorem dpUnif_Iio {p : ℝ} (_h0 : 0 ≤ p) (h1 : p ≤ 1) : dpUnif (Set.Iio p) = ENNReal.ofReal p := by
  rw [dpUnif, Measure.restrict_apply measurableSet_Iio]
  have : Set.Iio p ∩ Set.Ico 0 1 = Set.Ico 0 p := by
    ext x; simp only [Set.mem_inter_iff, Set.mem_Iio, Set.mem_Ico]; constructor
    · rintro ⟨a, b, c⟩; exact ⟨b, a⟩
    · rintro ⟨a, b⟩; exact ⟨b, a, b.trans_le h1⟩
  rw [this, Real.volume_Ico, sub_zero]

theorem dpUnif_Ici {p : ℝ} (h0 : 0 ≤ p) (_h1 : p ≤ 1) : dpUnif (Set.Ici p) = ENNReal.ofReal (1 - p) := by
  rw [dpUnif, Measure.restrict_apply measurableSet_Ici]
  have : Set.Ici p ∩ Set.Ico 0 1 = Set.Ico p 1 := by
    ext x; simp only [Set.mem_inter_iff, Set.mem_Ici, Set.mem_Ico]; constructor
    · rintro ⟨a, b, c⟩; exact ⟨a, c⟩
    · rintro ⟨a, b⟩; exact ⟨a, h0.trans a, b⟩
  rw [this, Real.volume_Ico]

/-! ### Moments of Beta(1, a) -/

theorem beta_one {a : ℝ} (ha : 0 < a) : beta 1 a = 1 / a := by
  have := (Real.Gamma_pos_of_pos ha).ne'
  rw [beta, Real.Gamma_one, add_comm, Real.Gamma_add_one ha.ne']
  field_simp

theorem lintegral_beta_congr {a c : ℝ} (f : ℝ → ℝ) (p q : ℝ) (hc : 0 ≤ c) (hp : 0 < p) (hq : 0 < q)
    (hf : Measurable f)
    (h : ∀ x, 0 < x → x < 1 → f x * betaPDFReal 1 a x = c * betaPDFReal p q x)
    (hf0 : ∀ x, 0 < x → x < 1 → 0 ≤ f x) :
    ∫⁻ x, ENNReal.ofReal (f x) ∂(betaMeasure 1 a) = ENNReal.ofReal c := by
  rw [betaMeasure, lintegral_withDensity_eq_lintegral_mul]
  rotate_left
  · exact (measurable_betaPDFReal 1 a).ennreal_ofReal
  · exact hf.ennreal_ofReal
  have : ∀ x, (betaPDF 1 a * fun x => ENNReal.ofReal (f x)) x = ENNReal.ofReal c * betaPDF p q x := by
    intro x
    simp only [Pi.mul_apply]
    by_cases hx : 0 < x ∧ x < 1
    · rw [betaPDF, betaPDF, mul_comm, ← ENNReal.ofReal_mul (hf0 x hx.1 hx.2), h x hx.1 hx.2,
        ENNReal.ofReal_mul hc]
    · simp [betaPDF, betaPDFReal, hx]
  simp only [this]
  have hm : Measurable (betaPDF p q) := (measurable_betaPDFReal p q).ennreal_ofReal
  rw [lintegral_const_mul _ hm, lintegral_betaPDF_eq_one hp hq, mul_one]

/-- `E (1 - β)^n = a / (a + n)`. -/
theorem beta_tails {a : ℝ} (ha : 0 < a) (n : ℕ) :
    ∫⁻ x, ENNReal.ofReal ((1 - x) ^ n) ∂(betaMeasure 1 a) = ENNReal.ofReal (a / (a + n)) := by
  have han : (0 : ℝ) < a + n := by positivity
  refine lintegral_beta_congr _ 1 (a + n) (by positivity) one_pos han (by fun_prop) ?_ ?_
  · intro x h0 h1
    rw [betaPDFReal, betaPDFReal, if_pos ⟨h0, h1⟩, if_pos ⟨h0, h1⟩, beta_one ha, beta_one han]
    have : (1 - x) ^ (a + n - 1) = (1 - x) ^ n * (1 - x) ^ (a - 1) := by
      rw [← Real.rpow_natCast, ← Real.rpow_add (by linarith)]
      congr 1; ring
    rw [this]
    field_simp
  · intro x h0 h1
    have : 0 ≤ 1 - x := by linarith
    positivity

/-- `E β^n = n! / ((a + 1) ⋯ (a + n))`. -/
theorem beta_heads {a : ℝ} (ha : 0 < a) (n : ℕ) :
    ∫⁻ x, ENNReal.ofReal (x ^ n) ∂(betaMeasure 1 a) =
      ENNReal.ofReal (∏ i ∈ Finset.range n, ((i + 1 : ℕ) : ℝ) / (a + (i + 1 : ℕ))) := by
  have hB : ∀ n : ℕ, beta (1 + n) a = (1 / a) * ∏ i ∈ Finset.range n, ((i + 1 : ℕ) : ℝ) / (a + (i + 1 : ℕ)) := by
    intro n
    induction n with
    | zero => simp [beta_one ha]
    | succ n ih =>
      rw [Finset.prod_range_succ, ← mul_assoc, ← ih, beta, beta]
      have e1 : (1 : ℝ) + ((n + 1 : ℕ) : ℝ) = (1 + n) + 1 := by push_cast; ring
      have e2 : (1 : ℝ) + ((n + 1 : ℕ) : ℝ) + a = (1 + n + a) + 1 := by push_cast; ring
      have h1 : (0 : ℝ) < 1 + n := by positivity
      have h2 : (0 : ℝ) < 1 + n + a := by positivity
      rw [e2, e1, Real.Gamma_add_one h1.ne', Real.Gamma_add_one h2.ne']
      have := (Real.Gamma_pos_of_pos h2).ne'
      have h3 : a + ((n + 1 : ℕ) : ℝ) ≠ 0 := by positivity
      push_cast at h3 ⊢
      field_simp
      ring
  refine lintegral_beta_congr _ (1 + n) a ?_ (by positivity) ha (by fun_prop) ?_ ?_
  · exact Finset.prod_nonneg fun i _ => by positivity
  · intro x h0 h1
    rw [betaPDFReal, betaPDFReal, if_pos ⟨h0, h1⟩, if_pos ⟨h0, h1⟩, beta_one ha, hB]
    have hP : (0 : ℝ) < ∏ i ∈ Finset.range n, ((i + 1 : ℕ) : ℝ) / (a + (i + 1 : ℕ)) :=
      Finset.prod_pos fun i _ => by positivity
    have e : x ^ ((1 : ℝ) + n - 1) = x ^ n := by
      rw [show (1 : ℝ) + n - 1 = n by ring, Real.rpow_natCast]
    rw [e, show (1 : ℝ) - 1 = 0 by ring, Real.rpow_zero]
    field_simp
  · intro x h0 _; positivity

/-! ### One step -/

section
variable {S B A : Type} [Fintype S] [Fintype B] [MeasurableSpace A]

/-- Base draws, proportions and uniform numbers of one step. -/
abbrev DPStep (S B A : Type) := (B → A) × (B → ℝ) × (S × B → ℝ)

/-- The law of one step: `base.sample(batch_shape)`, `Beta(1, concentration).sample()`, and
the uniform numbers of `Bernoulli(..).sample(n)`, all independent. -/
noncomputable def dpStepLaw (H : Measure A) (conc : B → ℝ) : Measure (DPStep S B A) :=
  (Measure.pi fun _ => H).prod
    ((Measure.pi fun b => betaMeasure 1 (conc b)).prod (Measure.pi fun _ => dpUnif))

/-- The law of the whole sequence of steps. -/
noncomputable def dpLaw (H : Measure A) (conc : B → ℝ) : Measure (ℕ → DPStep S B A) :=
  Measure.infinitePi fun _ => dpStepLaw H conc

/-- The draws a call sees. -/
def dpDrawsOf (ω : ℕ → DPStep S B A) : DPDraws S B A where
  base k := (ω k).1
  beta k := (ω k).2.1
  unif k s b := (ω k).2.2 (s, b)

/-- At this step every sample of `F` sees heads. -/
def allHeads (F : Finset S) (b : B) (x : DPStep S B A) : Prop := ∀ s ∈ F, x.2.2 (s, b) < x.2.1 b

/-- At this step every sample of `F` sees tails. -/
def allTails (F : Finset S) (b : B) (x : DPStep S B A) : Prop := ∀ s ∈ F, ¬ x.2.2 (s, b) < x.2.1 b

variable (H : Measure A) [IsProbabilityMeasure H] (conc : B → ℝ)

theorem dpStepLaw_prob (hc : ∀ b, 0 < conc b) : IsProbabilityMeasure (dpStepLaw (S := S) H conc) := by
  have := fun b => isProbabilityMeasureBeta one_pos (hc b)
  unfold dpStepLaw; infer_instance

theorem measurableSet_heads (s : S) (b : B) : MeasurableSet {x : DPStep S B A | x.2.2 (s, b) < x.2.1 b} :=
  measurableSet_lt (by fun_prop) (by fun_prop)

theorem measurableSet_allHeads (F : Finset S) (b : B) : MeasurableSet {x : DPStep S B A | allHeads F b x} := by
  have : {x : DPStep S B A | allHeads F b x} = ⋂ s ∈ F, {x | x.2.2 (s, b) < x.2.1 b} := by
    ext x; simp [allHeads]
  rw [this]
  exact F.measurableSet_biInter fun s _ => measurableSet_heads s b

theorem measurableSet_allTails (F : Finset S) (b : B) : MeasurableSet {x : DPStep S B A | allTails F b x} := by
  have : {x : DPStep S B A | allTails F b x} = ⋂ s ∈ F, {x | x.2.2 (s, b) < x.2.1 b}ᶜ := by
    ext x; simp [allTails]
  rw [this]
  exact F.measurableSet_biInter fun s _ => (measurableSet_heads s b).compl

/-- The uniform numbers of the samples `F` of process `b` all lie in `T`. -/
theorem pi_unif (F : Finset S) (b : B) (T : Set ℝ) :
    (Measure.pi fun _ : S × B => dpUnif) {u | ∀ s ∈ F, u (s, b) ∈ T} = dpUnif T ^ F.card := by
  classical
  have : {u : S × B → ℝ | ∀ s ∈ F, u (s, b) ∈ T} =
      Set.pi Set.univ fun sb => if sb.1 ∈ F ∧ sb.2 = b then T else Set.univ := by
    ext u
    simp only [Set.mem_ofPred_eq, Set.mem_pi, Set.mem_univ, true_implies]
    constructor
    · rintro h ⟨s, b'⟩
      split_ifs with hs
      · obtain ⟨h1, h2⟩ := hs
        simp only at h1 h2
        subst h2; exact h s h1
      · trivial
    · intro h s hs
      have := h (s, b)
      rwa [if_pos ⟨hs, rfl⟩] at this
  rw [this, Measure.pi_pi]
  have e : ∀ sb : S × B, dpUnif (if sb.1 ∈ F ∧ sb.2 = b then T else Set.univ) =
      if sb ∈ F ×ˢ {b} then dpUnif T else 1 := by
    intro sb
    have hm : sb ∈ F ×ˢ {b} ↔ sb.1 ∈ F ∧ sb.2 = b := by rw [Finset.mem_product, Finset.mem_singleton]
    by_cases h : sb.1 ∈ F ∧ sb.2 = b
    · rw [if_pos h, if_pos (hm.mpr h)]
    · rw [if_neg h, if_neg (mt hm.mp h), measure_univ]
  rw [Finset.prod_congr rfl fun sb _ => e sb, Finset.prod_ite_mem]
  simp

theorem beta_mem {a : ℝ} : ∀ᵐ x ∂(betaMeasure 1 a), 0 ≤ x ∧ x ≤ 1 := by
  have hm : Measurable (betaPDF 1 a) := (measurable_betaPDFReal 1 a).ennreal_ofReal
  rw [betaMeasure, ae_withDensity_iff hm]
  refine Filter.Eventually.of_forall fun x hx => ?_
  by_contra h
  apply hx
  have : ¬ (0 < x ∧ x < 1) := fun h' => h ⟨h'.1.le, h'.2.le⟩
  simp [betaPDF, betaPDFReal, this]

/-- A step's chance of heads or tails, with the base draw in `T`. -/
theorem step_prob (hc : ∀ b, 0 < conc b) (F : Finset S) (b : B) (T : Set A) (hT : MeasurableSet T)
    (R : ℝ → Set ℝ)
    (hR' : MeasurableSet {x : (B → ℝ) × (S × B → ℝ) | ∀ s ∈ F, x.2 (s, b) ∈ R (x.1 b)})
    (g : ℝ → ℝ) (hg : ∀ p, 0 ≤ p → p ≤ 1 → dpUnif (R p) = ENNReal.ofReal (g p) ∧ 0 ≤ g p) (hgm : Measurable g) :
    dpStepLaw H conc {x : DPStep S B A | x.1 b ∈ T ∧ ∀ s ∈ F, x.2.2 (s, b) ∈ R (x.2.1 b)} =
      H T * ∫⁻ p, ENNReal.ofReal (g p ^ F.card) ∂(betaMeasure 1 (conc b)) := by
  have := fun b => isProbabilityMeasureBeta one_pos (hc b)
  have e : {x : DPStep S B A | x.1 b ∈ T ∧ ∀ s ∈ F, x.2.2 (s, b) ∈ R (x.2.1 b)} =
      {y : B → A | y b ∈ T} ×ˢ {x : (B → ℝ) × (S × B → ℝ) | ∀ s ∈ F, x.2 (s, b) ∈ R (x.1 b)} := by
    ext x; simp
  rw [e, dpStepLaw, Measure.prod_prod]
  congr 1
  · exact (measurePreserving_eval (fun _ : B => H) b).measure_preimage hT.nullMeasurableSet
  · rw [Measure.prod_apply hR']
    have h1 : ∀ p : B → ℝ, (Measure.pi fun _ : S × B => dpUnif)
        (Prod.mk p ⁻¹' {x : (B → ℝ) × (S × B → ℝ) | ∀ s ∈ F, x.2 (s, b) ∈ R (x.1 b)}) =
        dpUnif (R (p b)) ^ F.card := fun p => pi_unif F b (R (p b))
    simp only [h1]
    have hmp := measurePreserving_eval (fun b => betaMeasure 1 (conc b)) b
    have h2 : ∀ᵐ p ∂(Measure.pi fun b => betaMeasure 1 (conc b)),
        dpUnif (R (p b)) ^ F.card = ENNReal.ofReal (g (p b) ^ F.card) := by
      have := hmp.quasiMeasurePreserving.ae (beta_mem (a := conc b))
      filter_upwards [this] with p hp
      rw [(hg _ hp.1 hp.2).1, ENNReal.ofReal_pow (hg _ hp.1 hp.2).2]
    rw [lintegral_congr_ae h2]
    exact hmp.lintegral_comp (f := fun p => ENNReal.ofReal (g p ^ F.card)) (by fun_prop)

theorem step_tails (hc : ∀ b, 0 < conc b) (F : Finset S) (b : B) :
    dpStepLaw H conc {x : DPStep S B A | allTails F b x} = ENNReal.ofReal (conc b / (conc b + F.card)) := by
  have h := step_prob (S := S) H conc hc F b Set.univ .univ (fun p => Set.Ici p) ?_ (fun p => 1 - p)
    (fun p h0 h1 => ⟨dpUnif_Ici h0 h1, by linarith⟩) (by fun_prop)
  · simp only [Set.mem_univ, true_and, measure_univ, one_mul, Set.mem_Ici] at h
    rw [beta_tails (hc b)] at h
    simpa only [allTails, not_lt] using h
  · have : {x : (B → ℝ) × (S × B → ℝ) | ∀ s ∈ F, x.2 (s, b) ∈ Set.Ici (x.1 b)} =
        ⋂ s ∈ F, {x | x.1 b ≤ x.2 (s, b)} := by ext x; simp
    rw [this]
    exact F.measurableSet_biInter fun s _ => measurableSet_le (by fun_prop) (by fun_prop)

theorem step_heads (hc : ∀ b, 0 < conc b) (F : Finset S) (b : B) (T : Set A) (hT : MeasurableSet T) :
    dpStepLaw H conc {x : DPStep S B A | x.1 b ∈ T ∧ allHeads F b x} =
      H T * ENNReal.ofReal (∏ i ∈ Finset.range F.card, ((i + 1 : ℕ) : ℝ) / (conc b + (i + 1 : ℕ))) := by
  have h := step_prob (S := S) H conc hc F b T hT (fun p => Set.Iio p) ?_ (fun p => p)
    (fun p h0 h1 => ⟨dpUnif_Iio h0 h1, h0⟩) (by fun_prop)
  · rw [beta_heads (hc b)] at h
    exact h
  · have : {x : (B → ℝ) × (S × B → ℝ) | ∀ s ∈ F, x.2 (s, b) ∈ Set.Iio (x.1 b)} =
        ⋂ s ∈ F, {x | x.2 (s, b) < x.1 b} := by ext x; simp
    rw [this]
    exact F.measurableSet_biInter fun s _ => measurableSet_lt (by fun_prop) (by fun_prop)

/-! ### The sequence of steps -/

/-- All of `F` see tails before step `k`, and step `k` satisfies `E`. -/
theorem seq_prob (hc : ∀ b, 0 < conc b) (F : Finset S) (b : B) (k : ℕ) (E : Set (DPStep S B A))
    (hE : MeasurableSet E) :
    dpLaw H conc {ω : ℕ → DPStep S B A | (∀ j < k, allTails F b (ω j)) ∧ ω k ∈ E} =
      ENNReal.ofReal (conc b / (conc b + F.card)) ^ k * dpStepLaw H conc E := by
  have := dpStepLaw_prob (S := S) H conc hc
  have e : {ω : ℕ → DPStep S B A | (∀ j < k, allTails F b (ω j)) ∧ ω k ∈ E} =
      Set.pi (Finset.range (k + 1)) fun j => if j < k then {x | allTails F b x} else E := by
    ext ω
    simp only [Set.mem_ofPred_eq, Set.mem_pi, Finset.coe_range, Set.mem_Iio]
    constructor
    · rintro ⟨h1, h2⟩ j hj
      split_ifs with hjk
      · exact h1 j hjk
      · obtain rfl : j = k := by omega
        exact h2
    · intro h
      refine ⟨fun j hj => ?_, ?_⟩
      · have := h j (by omega)
        rwa [if_pos hj] at this
      · have := h k (by omega)
        rwa [if_neg (lt_irrefl k)] at this
  rw [e, dpLaw, Measure.infinitePi_pi]
  · rw [Finset.prod_range_succ, if_neg (lt_irrefl k)]
    congr 1
    rw [Finset.prod_congr rfl (g := fun _ => ENNReal.ofReal (conc b / (conc b + F.card)))]
    · simp
    · intro j hj
      rw [if_pos (Finset.mem_range.mp hj), step_tails H conc hc]
  · intro j _
    split_ifs
    · exact measurableSet_allTails F b
    · exact hE

theorem measurableSet_seq (F : Finset S) (b : B) (k : ℕ) (E : Set (DPStep S B A)) (hE : MeasurableSet E) :
    MeasurableSet {ω : ℕ → DPStep S B A | (∀ j < k, allTails F b (ω j)) ∧ ω k ∈ E} := by
  have : {ω : ℕ → DPStep S B A | (∀ j < k, allTails F b (ω j)) ∧ ω k ∈ E} =
      (⋂ j ∈ Finset.range k, (fun ω : ℕ → DPStep S B A => ω j) ⁻¹' {x | allTails F b x}) ∩
        (fun ω : ℕ → DPStep S B A => ω k) ⁻¹' E := by
    ext ω; simp
  rw [this]
  exact ((Finset.range k).measurableSet_biInter fun j _ =>
    measurable_pi_apply j (measurableSet_allTails F b)).inter (measurable_pi_apply k hE)

/-- The samples `F` (not none) first see heads together, with the base draw of that step in `T`. -/
theorem first_prob (hc : ∀ b, 0 < conc b) (F : Finset S) (hF : F.Nonempty) (b : B) (T : Set A)
    (hT : MeasurableSet T) :
    dpLaw H conc {ω : ℕ → DPStep S B A | ∃ k, (∀ j < k, allTails F b (ω j)) ∧ allHeads F b (ω k) ∧
        (ω k).1 b ∈ T} =
      H T * ENNReal.ofReal (∏ i ∈ Finset.range (F.card - 1), ((i + 1 : ℕ) : ℝ) / (conc b + (i + 1 : ℕ))) := by
  have hE : MeasurableSet {x : DPStep S B A | x.1 b ∈ T ∧ allHeads F b x} :=
    (show MeasurableSet {x : DPStep S B A | x.1 b ∈ T} from
      (show Measurable fun x : DPStep S B A => x.1 b by fun_prop) hT).inter (measurableSet_allHeads F b)
  have e : {ω : ℕ → DPStep S B A | ∃ k, (∀ j < k, allTails F b (ω j)) ∧ allHeads F b (ω k) ∧ (ω k).1 b ∈ T} =
      ⋃ k, {ω | (∀ j < k, allTails F b (ω j)) ∧ ω k ∈ {x : DPStep S B A | x.1 b ∈ T ∧ allHeads F b x}} := by
    ext ω; simp only [Set.mem_ofPred_eq, Set.mem_iUnion]
    exact exists_congr fun k => ⟨fun h => ⟨h.1, h.2.2, h.2.1⟩, fun h => ⟨h.1, h.2.2, h.2.1⟩⟩
  obtain ⟨s, hs⟩ := hF
  rw [e, measure_iUnion]
  · simp only [seq_prob H conc hc F b _ _ hE]
    rw [ENNReal.tsum_mul_right, ENNReal.tsum_geometric, step_heads H conc hc F b T hT]
    obtain ⟨n, hn⟩ : ∃ n, F.card = n + 1 := ⟨F.card - 1, by have := Finset.card_pos.mpr ⟨s, hs⟩; omega⟩
    rw [hn, Finset.prod_range_succ, Nat.add_sub_cancel]
    have hb := hc b
    have hP : (0 : ℝ) ≤ ∏ i ∈ Finset.range n, ((i + 1 : ℕ) : ℝ) / (conc b + (i + 1 : ℕ)) :=
      Finset.prod_nonneg fun i _ => by positivity
    have hq : (1 : ℝ≥0∞) - ENNReal.ofReal (conc b / (conc b + ((n + 1 : ℕ) : ℝ))) =
        ENNReal.ofReal (((n + 1 : ℕ) : ℝ) / (conc b + ((n + 1 : ℕ) : ℝ))) := by
      rw [← ENNReal.ofReal_one, ← ENNReal.ofReal_sub _ (by positivity)]
      congr 1
      field_simp
      ring
    have hpos : (0 : ℝ) < ((n + 1 : ℕ) : ℝ) / (conc b + ((n + 1 : ℕ) : ℝ)) := by positivity
    rw [hq, ENNReal.ofReal_mul hP, mul_comm, mul_assoc, mul_assoc, ENNReal.mul_inv_cancel, mul_one]
    · exact (ENNReal.ofReal_pos.mpr hpos).ne'
    · exact ENNReal.ofReal_ne_top
  · intro j k hjk
    refine Set.disjoint_left.mpr fun ω h1 h2 => ?_
    rcases lt_or_gt_of_ne hjk with h | h
    · exact h2.1 j h s hs (h1.2.2 s hs)
    · exact h1.1 k h s hs (h2.2.2 s hs)
  · exact fun k => measurableSet_seq F b k _ hE

theorem heads_dpDrawsOf (ω : ℕ → DPStep S B A) (k : ℕ) (s : S) (b : B) :
    Heads [] (dpDrawsOf ω) k s b ↔ (ω k).2.2 (s, b) < (ω k).2.1 b := by
  simp [Heads, stickProb, dpDrawsOf]

theorem ae_heads (hc : ∀ b, 0 < conc b) :
    ∀ᵐ ω ∂(dpLaw (S := S) H conc), ∀ s b, ∃ k, Heads [] (dpDrawsOf ω) k s b := by
  classical
  have hprob := dpStepLaw_prob (S := S) H conc hc
  have : IsProbabilityMeasure (dpLaw (S := S) H conc) := by unfold dpLaw; infer_instance
  rw [ae_all_iff]; intro s
  rw [ae_all_iff]; intro b
  have h := first_prob (S := S) H conc hc {s} ⟨s, by simp⟩ b Set.univ .univ
  have h1 : dpLaw H conc {ω : ℕ → DPStep S B A | ∃ k, (∀ j < k, allTails {s} b (ω j)) ∧ allHeads {s} b (ω k) ∧
        (ω k).1 b ∈ Set.univ} = 1 := by rw [h]; simp
  have h2 : ∀ᵐ ω ∂(dpLaw (S := S) H conc), ω ∈ {ω : ℕ → DPStep S B A | ∃ k, (∀ j < k, allTails {s} b (ω j)) ∧
      allHeads {s} b (ω k) ∧ (ω k).1 b ∈ Set.univ} := by
    refine (mem_ae_iff_prob_eq_one ?_).mpr h1
    · have : {ω : ℕ → DPStep S B A | ∃ k, (∀ j < k, allTails {s} b (ω j)) ∧
          allHeads {s} b (ω k) ∧ (ω k).1 b ∈ Set.univ} =
          ⋃ k, {ω | (∀ j < k, allTails {s} b (ω j)) ∧ ω k ∈ {x | allHeads {s} b x}} := by
        ext ω; simp
      rw [this]
      exact .iUnion fun k => measurableSet_seq _ _ _ _ (measurableSet_allHeads _ _)
  filter_upwards [h2] with ω hω
  obtain ⟨k, -, hk, -⟩ := hω
  exact ⟨k, (heads_dpDrawsOf ω k s b).mpr (hk s (by simp))⟩

/-- What a finished first call returns: the base draw of the first step with heads. -/
theorem dpSample_draw (zero : A) (ω : ℕ → DPStep S B A) (fuel : ℕ) (r)
    (h : dpSample zero (dpDrawsOf ω) fuel [] [] = some r) (s : S) (b : B) :
    ∃ k, FirstHeads [] (dpDrawsOf ω) k s b ∧ r.2.2 s b = (ω k).1 b := by
  obtain ⟨l, p, d⟩ := r
  obtain ⟨-, -, -, h1, -⟩ := C71_sample zero _ fuel [] [] rfl l p d h
  obtain ⟨k, hk, hkl, hd⟩ := h1 s b
  have := (C71_new_atoms zero _ fuel [] [] rfl l p d h k (by simp) hkl).1
  rw [List.getElem?_eq_getElem hkl, Option.some.injEq] at this
  exact ⟨k, hk, by simp only [hd, this]; rfl⟩

theorem firstHeads_unique {probs : List (B → ℝ)} {w : DPDraws S B A} {j k : ℕ} {s : S} {b : B}
    (hj : FirstHeads probs w j s b) (hk : FirstHeads probs w k s b) : j = k := by
  rcases lt_trichotomy j k with h | h | h
  · exact absurd hj.1 (hk.2 j h)
  · exact h
  · exact absurd hk.1 (hj.2 k h)

/-- C95: with positive concentrations sampling finishes with probability one. -/
theorem C95_terminates (hc : ∀ b, 0 < conc b) (zero : A) :
    ∀ᵐ ω ∂(dpLaw (S := S) H conc), ∃ fuel r, dpSample zero (dpDrawsOf ω) fuel [] [] = some r := by
  filter_upwards [ae_heads (S := S) H conc hc] with ω hω
  exact (C71_terminates zero _ [] [] rfl).mpr hω

/-- C95: each sample has the law of the base distribution. -/
theorem C95_marginal (hc : ∀ b, 0 < conc b) (zero : A) (s : S) (b : B) (T : Set A) (hT : MeasurableSet T) :
    dpLaw H conc {ω : ℕ → DPStep S B A | ∃ fuel r, dpSample zero (dpDrawsOf ω) fuel [] [] = some r ∧
      r.2.2 s b ∈ T} = H T := by
  have h := first_prob (S := S) H conc hc {s} ⟨s, by simp⟩ b T hT
  rw [Finset.card_singleton, Nat.sub_self, Finset.range_zero, Finset.prod_empty, ENNReal.ofReal_one, mul_one] at h
  rw [← h]
  apply measure_congr
  filter_upwards [C95_terminates (S := S) H conc hc zero] with ω ⟨fuel, r, hr⟩
  apply propext
  obtain ⟨k, hk, hd⟩ := dpSample_draw zero ω fuel r hr s b
  constructor
  · rintro ⟨fuel', r', hr', hT'⟩
    obtain ⟨k', hk', hd'⟩ := dpSample_draw zero ω fuel' r' hr' s b
    refine ⟨k', fun j hj => ?_, ?_, hd' ▸ hT'⟩
    · simpa [allTails, heads_dpDrawsOf] using hk'.2 j hj
    · simpa [allHeads, heads_dpDrawsOf] using hk'.1
  · rintro ⟨k', h1, h2, h3⟩
    have : FirstHeads [] (dpDrawsOf ω) k' s b :=
      ⟨by simpa [allHeads, heads_dpDrawsOf] using h2, fun j hj => by
        simpa [allTails, heads_dpDrawsOf] using h1 j hj⟩
    refine ⟨fuel, r, hr, ?_⟩
    rw [hd, firstHeads_unique hk this]
    exact h3

/-- Distinct steps have distinct base draws when the base has no atoms. -/
theorem ae_base_ne [MeasurableEq A] [NullSingletonClass H] (hc : ∀ b, 0 < conc b) (b : B) :
    ∀ᵐ ω ∂(dpLaw (S := S) H conc), ∀ j k, j ≠ k → (ω j).1 b ≠ (ω k).1 b := by
  have hprob := dpStepLaw_prob (S := S) H conc hc
  have hbeta := fun b => isProbabilityMeasureBeta one_pos (hc b)
  rw [ae_all_iff]; intro j
  rw [ae_all_iff]; intro k
  by_cases hjk : j = k
  · exact Filter.Eventually.of_forall fun ω h => absurd hjk h
  have hmp : MeasurePreserving (fun x : DPStep S B A => x.1 b) (dpStepLaw H conc) H :=
    (measurePreserving_eval (fun _ : B => H) b).comp measurePreserving_fst
  have hD : MeasurableSet {p : DPStep S B A × DPStep S B A | p.1.1 b = p.2.1 b} :=
    measurableSet_eq_fun (by fun_prop) (by fun_prop)
  have h0 : (dpStepLaw H conc).prod (dpStepLaw H conc)
      {p : DPStep S B A × DPStep S B A | p.1.1 b = p.2.1 b} = 0 := by
    rw [Measure.prod_apply hD, lintegral_eq_zero_iff (measurable_measure_prodMk_left hD)]
    refine Filter.Eventually.of_forall fun x => ?_
    have e : Prod.mk x ⁻¹' {p : DPStep S B A × DPStep S B A | p.1.1 b = p.2.1 b} =
        (fun y : DPStep S B A => y.1 b) ⁻¹' {x.1 b} := by
      ext y; simp [eq_comm]
    show dpStepLaw H conc _ = 0
    rw [e, hmp.measure_preimage (MeasurableSet.singleton _).nullMeasurableSet, measure_singleton]
  have hm : Measurable fun ω : ℕ → DPStep S B A => (ω j, ω k) := by fun_prop
  rw [← Measure.infinitePi_map_eval_prod (P := fun _ : ℕ => dpStepLaw (S := S) H conc) hjk,
    Measure.map_apply hm hD] at h0
  rw [ae_iff]
  refine measure_mono_null (fun ω hω => ?_) h0
  simp only [Set.mem_ofPred_eq, not_forall, not_not] at hω
  exact hω.2

/-- C95: when the base has no atoms, the samples `F` of a process all coincide with the
probability of the Chinese restaurant process, `∏ i / (concentration + i)` over
`0 < i < |F|`; two samples coincide with probability `1 / (1 + concentration)`. -/
theorem C95_ties [MeasurableEq A] [NullSingletonClass H] (hc : ∀ b, 0 < conc b) (zero : A)
    (F : Finset S) (hF : F.Nonempty) (b : B) :
    dpLaw H conc {ω : ℕ → DPStep S B A | ∃ fuel r, dpSample zero (dpDrawsOf ω) fuel [] [] = some r ∧
      ∀ s ∈ F, ∀ t ∈ F, r.2.2 s b = r.2.2 t b} =
      ENNReal.ofReal (∏ i ∈ Finset.range (F.card - 1), ((i + 1 : ℕ) : ℝ) / (conc b + (i + 1 : ℕ))) := by
  have h := first_prob (S := S) H conc hc F hF b Set.univ .univ
  rw [measure_univ, one_mul] at h
  rw [← h]
  apply measure_congr
  filter_upwards [C95_terminates (S := S) H conc hc zero, ae_base_ne (S := S) H conc hc b] with ω ⟨fuel, r, hr⟩ hne
  apply propext
  constructor
  · rintro ⟨fuel', r', hr', hT'⟩
    choose k hk hd using fun s => dpSample_draw zero ω fuel' r' hr' s b
    obtain ⟨s, hs⟩ := hF
    have hks : ∀ t ∈ F, k t = k s := by
      intro t ht
      by_contra hkt
      apply hne _ _ hkt
      rw [← hd, ← hd]
      exact hT' t ht s hs
    refine ⟨k s, fun j hj t ht => ?_, fun t ht => ?_, trivial⟩
    · have := (hk t).2 j (by rw [hks t ht]; exact hj)
      rwa [heads_dpDrawsOf] at this
    · have := (hk t).1
      rwa [hks t ht, heads_dpDrawsOf] at this
  · rintro ⟨k', h1, h2, -⟩
    refine ⟨fuel, r, hr, ?_⟩
    have key : ∀ s ∈ F, r.2.2 s b = (ω k').1 b := by
      intro s hs
      obtain ⟨k, hk, hd⟩ := dpSample_draw zero ω fuel r hr s b
      have : FirstHeads [] (dpDrawsOf ω) k' s b :=
        ⟨(heads_dpDrawsOf ω k' s b).mpr (h2 s hs), fun j hj => by
          rw [heads_dpDrawsOf]; exact h1 j hj s hs⟩
      rw [hd, firstHeads_unique hk this]
    intro s hs t ht
    rw [key s hs, key t ht]

/-- C95: two samples of a process coincide with probability `1 / (1 + concentration)`. -/
theorem C95_tie [MeasurableEq A] [NullSingletonClass H] (hc : ∀ b, 0 < conc b) (zero : A)
    (s t : S) (hst : s ≠ t) (b : B) :
    dpLaw H conc {ω : ℕ → DPStep S B A | ∃ fuel r, dpSample zero (dpDrawsOf ω) fuel [] [] = some r ∧
      r.2.2 s b = r.2.2 t b} = ENNReal.ofReal (1 / (1 + conc b)) := by
  classical
  have h := C95_ties (S := S) H conc hc zero {s, t} ⟨s, by simp⟩ b
  rw [Finset.card_pair hst] at h
  have e : ∏ i ∈ Finset.range (2 - 1), ((i + 1 : ℕ) : ℝ) / (conc b + (i + 1 : ℕ)) = 1 / (1 + conc b) := by
    simp [add_comm]
  rw [e] at h
  rw [← h]
  congr 1
  ext ω
  refine exists_congr fun fuel => exists_congr fun r => and_congr_right fun _ => ?_
  constructor
  · intro heq x hx y hy
    rcases Finset.mem_insert.mp hx with rfl | hx <;> rcases Finset.mem_insert.mp hy with rfl | hy <;>
      simp_all
  · intro hall
    exact hall s (by simp) t (by simp)

end

/-- Two samples from two processes with concentrations 1 and 3 over the uniform base: the
hypotheses hold, and they coincide with probability 1/2 in the first and 1/4 in the second. -/
example :
    dpLaw dpUnif ![1, 3] {ω : ℕ → DPStep (Fin 2) (Fin 2) ℝ | ∃ fuel r,
      dpSample 0 (dpDrawsOf ω) fuel [] [] = some r ∧ r.2.2 0 0 = r.2.2 1 0} = ENNReal.ofReal (1 / 2) ∧
    dpLaw dpUnif ![1, 3] {ω : ℕ → DPStep (Fin 2) (Fin 2) ℝ | ∃ fuel r,
      dpSample 0 (dpDrawsOf ω) fuel [] [] = some r ∧ r.2.2 0 1 = r.2.2 1 1} = ENNReal.ofReal (1 / 4) := by
  have : NullSingletonClass dpUnif := by unfold dpUnif; infer_instance
  have hc : ∀ b, (0 : ℝ) < (![1, 3] : Fin 2 → ℝ) b := by intro b; fin_cases b <;> simp
  refine ⟨?_, ?_⟩
  · rw [C95_tie dpUnif ![1, 3] hc 0 0 1 (by decide) 0]; norm_num
  · rw [C95_tie dpUnif ![1, 3] hc 0 0 1 (by decide) 1]; norm_num

end Edward
