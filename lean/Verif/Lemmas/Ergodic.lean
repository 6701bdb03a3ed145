/-
Markov chains driven by independent draws whose transition contains a fixed share of its
invariant distribution: laws converge geometrically, averages converge almost surely.
-/
import Mathlib.Probability.Independence.Integration
import Mathlib.Probability.ProductMeasure
import Mathlib.Probability.Kernel.Composition.IntegralCompProd
import Mathlib.MeasureTheory.Integral.Prod
import Mathlib.MeasureTheory.Constructions.Polish.Basic
import Mathlib.Analysis.PSeries
import Mathlib.Analysis.SpecificLimits.Basic

set_option linter.unusedSectionVars false

namespace Edward

open MeasureTheory ProbabilityTheory Filter Topology

variable {S W Ω : Type} [MeasurableSpace S] [MeasurableSpace W] [MeasurableSpace Ω]

/-- The chain with transition `K`, started at `z0`, driven by the draws `w`. -/
def walk (K : S → W → S) (z0 : S) (w : ℕ → W) : ℕ → S
  | 0 => z0
  | n + 1 => K (walk K z0 w n) (w n)

/-- The transition `κ` preserves `π`, does not leave `G`, and from every state of `G` moves
according to `π` with probability at least `ε`. -/
structure Mixing (κ : ProbabilityTheory.Kernel S S) (π : Measure S) (G : Set S) (ε : ℝ) : Prop where
  meas_good : MeasurableSet G
  stays : ∀ s ∈ G, ∀ᵐ s' ∂κ s, s' ∈ G
  invariant : ∀ A, MeasurableSet A → ∫⁻ s, κ s A ∂π = π A
  minor : ∀ s ∈ G, ∀ A, MeasurableSet A → ENNReal.ofReal ε * π A ≤ κ s A
  pos : 0 < ε
  le_one : ε ≤ 1

/-- Expected value of `f` after one transition. -/
noncomputable def push (κ : ProbabilityTheory.Kernel S S) (f : S → ℝ) (s : S) : ℝ := ∫ s', f s' ∂κ s

theorem integrable_of_bounds {X : Type} [MeasurableSpace X] (μ : Measure X) [IsFiniteMeasure μ] {f : X → ℝ}
    (hf : Measurable f) {a b : ℝ} (h : ∀ x, a ≤ f x ∧ f x ≤ b) : Integrable f μ := by
  refine Integrable.of_bound hf.aestronglyMeasurable (max |a| |b|) (ae_of_all _ fun x => ?_)
  rw [Real.norm_eq_abs]
  exact abs_le_max_abs_abs (h x).1 (h x).2

section
variable {κ : ProbabilityTheory.Kernel S S} [IsMarkovKernel κ] {π : Measure S} [IsProbabilityMeasure π]
  {G : Set S} {ε : ℝ}

theorem measurable_push {f : S → ℝ} (hf : Measurable f) : Measurable (push κ f) :=
  (StronglyMeasurable.integral_kernel_prod_right (κ := κ) (f := fun _ s' => f s')
    (hf.comp measurable_snd).stronglyMeasurable).measurable

theorem push_bounds {f : S → ℝ} (hf : Measurable f) {a b : ℝ} (hab : ∀ x, a ≤ f x ∧ f x ≤ b)
    (s : S) : a ≤ push κ f s ∧ push κ f s ≤ b := by
  have hi : Integrable f (κ s) := integrable_of_bounds _ hf hab
  have h1 := integral_mono (integrable_const a) hi (fun w => (hab w).1)
  have h2 := integral_mono hi (integrable_const b) (fun w => (hab w).2)
  simp only [integral_const, probReal_univ, smul_eq_mul, one_mul] at h1 h2
  exact ⟨h1, h2⟩

theorem push_lower (h : Mixing κ π G ε) {f : S → ℝ} (hf : Measurable f) {a b : ℝ} (hab : ∀ x, a ≤ f x ∧ f x ≤ b)
    {c : ℝ} (hc : ∀ s ∈ G, c ≤ f s) {s : S} (hs : s ∈ G) :
    (1 - ε) * c + ε * ∫ x, f x ∂π ≤ push κ f s := by
  have hle : ENNReal.ofReal ε • π ≤ κ s := Measure.le_iff.mpr fun A hA => h.minor s hs A hA
  have hi : Integrable (fun x => f x - c) (κ s) := (integrable_of_bounds _ hf hab).sub (integrable_const c)
  have hg : ∀ᵐ x ∂κ s, 0 ≤ f x - c := by
    filter_upwards [h.stays s hs] with x hx
    exact sub_nonneg.mpr (hc x hx)
  have hm := integral_mono_measure hle hg hi
  rw [integral_smul_measure, ENNReal.toReal_ofReal h.pos.le, integral_sub (integrable_of_bounds _ hf hab) (integrable_const c),
    integral_sub (integrable_of_bounds _ hf hab) (integrable_const c)] at hm
  simp only [integral_const, probReal_univ, smul_eq_mul, one_mul] at hm
  unfold push
  linarith

theorem push_neg (f : S → ℝ) : push κ (fun x => -f x) = fun s => -push κ f s := by
  funext s; unfold push; rw [integral_neg]

theorem push_upper (h : Mixing κ π G ε) {f : S → ℝ} (hf : Measurable f) {a b : ℝ} (hab : ∀ x, a ≤ f x ∧ f x ≤ b)
    {c : ℝ} (hc : ∀ s ∈ G, f s ≤ c) {s : S} (hs : s ∈ G) :
    push κ f s ≤ (1 - ε) * c + ε * ∫ x, f x ∂π := by
  have := push_lower h (f := fun x => -f x) hf.neg (a := -b) (b := -a)
    (fun x => ⟨neg_le_neg (hab x).2, neg_le_neg (hab x).1⟩) (c := -c) (fun s hs => neg_le_neg (hc s hs)) hs
  rw [push_neg, integral_neg] at this
  linarith

theorem integral_push (h : Mixing κ π G ε) {f : S → ℝ} (hf : Measurable f) {a b : ℝ} (hab : ∀ x, a ≤ f x ∧ f x ≤ b) :
    ∫ s, push κ f s ∂π = ∫ s, f s ∂π := by
  have e : π.bind κ = π := by
    refine Measure.ext fun A hA => ?_
    rw [Measure.bind_apply hA κ.aemeasurable]
    exact h.invariant A hA
  have e2 : (κ ∘ₖ ProbabilityTheory.Kernel.const Unit π) () = π := by
    rw [ProbabilityTheory.Kernel.comp_apply, ProbabilityTheory.Kernel.const_apply, e]
  have h2 := ProbabilityTheory.Kernel.integral_comp (κ := ProbabilityTheory.Kernel.const Unit π) (η := κ) (a := ()) (f := f)
    (by rw [e2]; exact integrable_of_bounds π hf hab)
  rw [e2, ProbabilityTheory.Kernel.const_apply] at h2
  exact h2.symm

/-- `n` transitions: bounded, and within `(1 - ε) ^ n` of the expected value under `π`. -/
theorem push_iterate (h : Mixing κ π G ε) {a b : ℝ} (n : ℕ) {f : S → ℝ} (hf : Measurable f) (hab : ∀ x, a ≤ f x ∧ f x ≤ b) :
    Measurable ((push κ)^[n] f) ∧ (∀ x, a ≤ (push κ)^[n] f x ∧ (push κ)^[n] f x ≤ b) ∧
    ∫ s, (push κ)^[n] f s ∂π = ∫ s, f s ∂π ∧
    ∀ s ∈ G, |(push κ)^[n] f s - ∫ x, f x ∂π| ≤ (1 - ε) ^ n * (b - a) := by
  induction n with
  | zero =>
    refine ⟨hf, hab, rfl, fun s _ => ?_⟩
    have hi := integrable_of_bounds π hf hab
    have h1 := integral_mono (integrable_const a) hi (fun w => (hab w).1)
    have h2 := integral_mono hi (integrable_const b) (fun w => (hab w).2)
    simp only [integral_const, probReal_univ, smul_eq_mul, one_mul] at h1 h2
    simp only [Function.iterate_zero, id, pow_zero, one_mul]
    rw [abs_le]
    constructor <;> linarith [(hab s).1, (hab s).2]
  | succ n ih =>
    obtain ⟨i1, i2, i3, i4⟩ := ih
    simp only [Function.iterate_succ_apply']
    refine ⟨measurable_push i1, push_bounds i1 i2, (integral_push h i1 i2).trans i3, fun s hs => ?_⟩
    have hl := push_lower h i1 i2 (c := (∫ x, f x ∂π) - (1 - ε) ^ n * (b - a))
      (fun s hs => by have := (abs_le.mp (i4 s hs)).1; linarith) hs
    have hu := push_upper h i1 i2 (c := (∫ x, f x ∂π) + (1 - ε) ^ n * (b - a))
      (fun s hs => by have := (abs_le.mp (i4 s hs)).2; linarith) hs
    rw [i3] at hl hu
    have e : (1 - ε) ^ (n + 1) * (b - a) = (1 - ε) * ((1 - ε) ^ n * (b - a)) := by ring
    rw [e, abs_le]
    constructor <;> nlinarith

end

/-- The law of the next state when the draw has law `ν`. -/
noncomputable def stepKernel (K : S → W → S) (ν : Measure W) : ProbabilityTheory.Kernel S S :=
  (ProbabilityTheory.Kernel.id ×ₖ ProbabilityTheory.Kernel.const S ν).map (fun a : S × W => K a.1 a.2)

theorem stepKernel_apply {K : S → W → S} (hK : Measurable (fun a : S × W => K a.1 a.2)) (ν : Measure W) [IsProbabilityMeasure ν] (s : S) :
    stepKernel K ν s = ν.map (K s) := by
  have hs : Measurable (K s) := hK.comp (measurable_const.prodMk measurable_id)
  unfold stepKernel
  rw [Kernel.map_apply _ hK, Kernel.prod_apply, Kernel.id_apply, Kernel.const_apply, Measure.dirac_prod,
    Measure.map_map hK (by fun_prop)]
  rfl

section
variable {K : S → W → S} {ν : Measure W} [IsProbabilityMeasure ν] {π : Measure S} [IsProbabilityMeasure π]
  {G : Set S} {ε : ℝ}

theorem stepKernel_markov (hK : Measurable (fun a : S × W => K a.1 a.2)) : IsMarkovKernel (stepKernel K ν) :=
  ProbabilityTheory.Kernel.IsMarkovKernel.map _ hK

theorem push_step (hK : Measurable (fun a : S × W => K a.1 a.2)) {f : S → ℝ} (hf : Measurable f) (s : S) :
    push (stepKernel K ν) f s = ∫ w, f (K s w) ∂ν := by
  have hs : Measurable (K s) := hK.comp (measurable_const.prodMk measurable_id)
  unfold push
  rw [stepKernel_apply hK, integral_map hs.aemeasurable hf.aestronglyMeasurable]

/-! ### The chain as a random process -/

variable {Pr : Measure Ω} [IsProbabilityMeasure Pr] {w : ℕ → Ω → W}

/-- What is known before draw `n`. -/
@[reducible] def past (w : ℕ → Ω → W) (n : ℕ) : MeasurableSpace Ω :=
  ⨆ i ∈ {i | i < n}, MeasurableSpace.comap (w i) inferInstance

theorem past_le (hw : ∀ i, Measurable (w i)) (n : ℕ) : past w n ≤ (inferInstance : MeasurableSpace Ω) :=
  iSup₂_le fun i _ => (hw i).comap_le

theorem past_mono {m n : ℕ} (h : m ≤ n) : past w m ≤ past w n :=
  iSup₂_le fun i hi => le_iSup₂_of_le i (lt_of_lt_of_le hi h) le_rfl

theorem walk_past (hK : Measurable (fun a : S × W => K a.1 a.2)) (z0 : S) (n : ℕ) :
    Measurable[past w n] (fun ω => walk K z0 (fun i => w i ω) n) := by
  induction n with
  | zero => exact measurable_const
  | succ n ih =>
    have h1 : Measurable[past w (n + 1)] (fun ω => walk K z0 (fun i => w i ω) n) :=
      Measurable.mono ih (past_mono (by omega)) le_rfl
    have h2 : Measurable[past w (n + 1)] (w n) := by
      refine Measurable.mono (comap_measurable (w n)) ?_ le_rfl
      exact le_iSup₂_of_le (f := fun i (_ : i ∈ {i | i < n + 1}) => MeasurableSpace.comap (w i) inferInstance) n
        (Nat.lt_succ_self n) le_rfl
    exact hK.comp (h1.prodMk h2)

/-- Anything known before draw `n` is independent of draw `n`. -/
theorem indep_past (hw : ∀ i, Measurable (w i)) (hind : iIndepFun w Pr) {X : Type} [MeasurableSpace X] {n : ℕ} {A : Ω → X}
    (hA : Measurable[past w n] A) : IndepFun A (w n) Pr := by
  have h := indep_iSup_of_disjoint (μ := Pr) (m := fun i => MeasurableSpace.comap (w i) inferInstance)
    (fun i => (hw i).comap_le) hind (S := {i | i < n}) (T := {n}) (by simp)
  have h' : Indep (past w n) (MeasurableSpace.comap (w n) inferInstance) Pr := by
    simpa [past] using h
  exact indep_of_indep_of_le_left h' hA.comap_le

/-- One transition: the next value of `h` is, given the past, expected to be `push h`. -/
theorem expect_next (hK : Measurable (fun a : S × W => K a.1 a.2)) (hw : ∀ i, Measurable (w i)) (hlaw : ∀ i, Pr.map (w i) = ν) (hind : iIndepFun w Pr)
    (z0 : S) (n : ℕ) {A : Ω → ℝ} (hA : Measurable[past w n] A) {M : ℝ} (hM : ∀ ω, -M ≤ A ω ∧ A ω ≤ M)
    {h : S → ℝ} (hh : Measurable h) {a b : ℝ} (hab : ∀ x, a ≤ h x ∧ h x ≤ b) :
    ∫ ω, A ω * h (walk K z0 (fun i => w i ω) (n + 1)) ∂Pr = ∫ ω, A ω * push (stepKernel K ν) h (walk K z0 (fun i => w i ω) n) ∂Pr := by
  have hZ := walk_past (w := w) hK z0 n
  set X : Ω → ℝ × S := fun ω => (A ω, walk K z0 (fun i => w i ω) n) with hX
  have hXp : Measurable[past w n] X := hA.prodMk hZ
  have hXm : Measurable X := hXp.mono (past_le hw n) le_rfl
  have hi := indep_past hw hind hXp
  have hlawp := (indepFun_iff_map_prod_eq_prod_map_map hXm.aemeasurable (hw n).aemeasurable).mp hi
  rw [hlaw n] at hlawp
  have : IsProbabilityMeasure (Pr.map X) := Measure.isProbabilityMeasure_map hXm.aemeasurable
  set F : (ℝ × S) × W → ℝ := fun q => q.1.1 * h (K q.1.2 q.2) with hF
  have hFm : Measurable F := (measurable_fst.comp measurable_fst).mul (hh.comp (hK.comp
    ((measurable_snd.comp measurable_fst).prodMk measurable_snd)))
  have e1 : ∫ ω, A ω * h (walk K z0 (fun i => w i ω) (n + 1)) ∂Pr = ∫ q, F q ∂(Pr.map (fun ω => (X ω, w n ω))) := by
    rw [integral_map (hXm.prodMk (hw n)).aemeasurable hFm.aestronglyMeasurable]
    rfl
  have hFi : Integrable F ((Pr.map X).prod ν) := by
    rw [← hlawp, integrable_map_measure hFm.aestronglyMeasurable (hXm.prodMk (hw n)).aemeasurable]
    have hA' : Measurable A := hA.mono (past_le hw n) le_rfl
    have hi1 : Integrable (fun ω => h (walk K z0 (fun i => w i ω) (n + 1))) Pr :=
      integrable_of_bounds Pr (hh.comp ((walk_past hK z0 (n + 1)).mono (past_le hw (n + 1)) le_rfl)) (fun x => hab _)
    exact hi1.bdd_mul hA'.aestronglyMeasurable (ae_of_all _ fun ω => abs_le.mpr (hM ω))
  rw [e1, hlawp, integral_prod _ hFi, integral_map hXm.aemeasurable]
  · congr 1
    funext ω
    show ∫ y, A ω * h (K _ y) ∂ν = _
    rw [integral_const_mul, push_step hK hh]
  · exact (hFm.stronglyMeasurable.integral_prod_right).aestronglyMeasurable

/-- Several transitions. -/
theorem expect_later (hK : Measurable (fun a : S × W => K a.1 a.2)) (hw : ∀ i, Measurable (w i)) (hlaw : ∀ i, Pr.map (w i) = ν) (hind : iIndepFun w Pr)
    (z0 : S) (n : ℕ) {A : Ω → ℝ} (hA : Measurable[past w n] A) {M : ℝ} (hM : ∀ ω, -M ≤ A ω ∧ A ω ≤ M) {a b : ℝ}
    (k : ℕ) : ∀ {h : S → ℝ}, Measurable h → (∀ x, a ≤ h x ∧ h x ≤ b) →
    ∫ ω, A ω * h (walk K z0 (fun i => w i ω) (n + k)) ∂Pr =
      ∫ ω, A ω * (push (stepKernel K ν))^[k] h (walk K z0 (fun i => w i ω) n) ∂Pr := by
  have := stepKernel_markov (ν := ν) hK
  induction k with
  | zero => intro h _ _; rfl
  | succ k ih =>
    intro h hh hab
    rw [← add_assoc, expect_next hK hw hlaw hind z0 (n + k) (hA.mono (past_mono (by omega)) le_rfl) hM hh hab,
      ih (measurable_push hh) (push_bounds hh hab)]
    rfl

theorem walk_measurable (hK : Measurable (fun a : S × W => K a.1 a.2)) (hw : ∀ i, Measurable (w i)) (z0 : S) (n : ℕ) :
    Measurable (fun ω => walk K z0 (fun i => w i ω) n) :=
  (walk_past hK z0 n).mono (past_le hw n) le_rfl

/-- The law of the `n`-th sample approaches `π` geometrically. -/
theorem law_converges (hK : Measurable (fun a : S × W => K a.1 a.2)) (hm : Mixing (stepKernel K ν) π G ε) (hw : ∀ i, Measurable (w i)) (hlaw : ∀ i, Pr.map (w i) = ν) (hind : iIndepFun w Pr)
    {z0 : S} (hz : z0 ∈ G) {f : S → ℝ} (hf : Measurable f) {a b : ℝ} (hab : ∀ x, a ≤ f x ∧ f x ≤ b) (n : ℕ) :
    |∫ ω, f (walk K z0 (fun i => w i ω) n) ∂Pr - ∫ x, f x ∂π| ≤ (1 - ε) ^ n * (b - a) := by
  have := stepKernel_markov (ν := ν) hK
  have h := expect_later hK hw hlaw hind z0 0 (A := fun _ => 1) measurable_const (M := 1) (by norm_num) n hf hab
  simp only [one_mul, zero_add, walk, integral_const, probReal_univ, smul_eq_mul] at h
  rw [h]
  exact (push_iterate hm n hf hab).2.2.2 z0 hz

/-- The chain stays among the good states. -/
theorem walk_good (hK : Measurable (fun a : S × W => K a.1 a.2)) (hm : Mixing (stepKernel K ν) π G ε) (hw : ∀ i, Measurable (w i)) (hlaw : ∀ i, Pr.map (w i) = ν) (hind : iIndepFun w Pr)
    {z0 : S} (hz : z0 ∈ G) (n : ℕ) : ∀ᵐ ω ∂Pr, walk K z0 (fun i => w i ω) n ∈ G := by
  induction n with
  | zero => exact ae_of_all _ fun _ => hz
  | succ n ih =>
    set h : S → ℝ := Gᶜ.indicator (fun _ => 1) with hh
    have hhm : Measurable h := measurable_const.indicator hm.meas_good.compl
    have hb : ∀ x, (0 : ℝ) ≤ h x ∧ h x ≤ 1 := fun x => by
      rw [hh]; by_cases hx : x ∈ Gᶜ
      · rw [Set.indicator_of_mem hx]; norm_num
      · rw [Set.indicator_of_notMem hx]; norm_num
    have e := expect_next hK hw hlaw hind z0 n (A := fun _ => 1) measurable_const (M := 1) (by norm_num) hhm hb
    have hz' : ∫ ω, 1 * push (stepKernel K ν) h (walk K z0 (fun i => w i ω) n) ∂Pr = 0 := by
      refine integral_eq_zero_of_ae ?_
      filter_upwards [ih] with ω hω
      show 1 * push (stepKernel K ν) h _ = 0
      unfold push
      rw [one_mul]
      refine integral_eq_zero_of_ae ?_
      filter_upwards [hm.stays _ hω] with v hv
      show h _ = 0
      rw [hh, Set.indicator_of_notMem (by simpa using hv)]
    rw [hz'] at e
    simp only [one_mul] at e
    have hi : Integrable (fun ω => h (walk K z0 (fun i => w i ω) (n + 1))) Pr :=
      integrable_of_bounds Pr (hhm.comp (walk_measurable hK hw z0 (n + 1))) (fun x => hb _)
    have := (integral_eq_zero_iff_of_nonneg (fun ω => (hb _).1) hi).mp e
    filter_upwards [this] with ω hω
    by_contra hc
    have : h (walk K z0 (fun i => w i ω) (n + 1)) = 1 := by rw [hh, Set.indicator_of_mem (by simpa using hc)]
    rw [this] at hω
    simp at hω

/-- Deviations of two samples `k` steps apart are almost uncorrelated. -/
theorem covariance_bound (hK : Measurable (fun a : S × W => K a.1 a.2)) (hm : Mixing (stepKernel K ν) π G ε) (hw : ∀ i, Measurable (w i)) (hlaw : ∀ i, Pr.map (w i) = ν) (hind : iIndepFun w Pr)
    {z0 : S} (hz : z0 ∈ G) {f : S → ℝ} (hf : Measurable f) {D : ℝ} (hD : ∀ x, -D ≤ f x ∧ f x ≤ D) (h0 : ∫ x, f x ∂π = 0)
    (n k : ℕ) :
    |∫ ω, f (walk K z0 (fun i => w i ω) n) * f (walk K z0 (fun i => w i ω) (n + k)) ∂Pr| ≤ D * ((1 - ε) ^ k * (2 * D)) := by
  rw [expect_later hK hw hlaw hind z0 n (A := fun ω => f (walk K z0 (fun i => w i ω) n))
    (hf.comp (walk_past hK z0 n)) (fun ω => hD _) k hf hD]
  have := stepKernel_markov (ν := ν) hK
  obtain ⟨i1, i2, i3, i4⟩ := push_iterate hm k hf hD
  have hg := walk_good hK hm hw hlaw hind hz n
  have := norm_integral_le_of_norm_le_const (μ := Pr) (C := D * ((1 - ε) ^ k * (2 * D)))
    (f := fun ω => f (walk K z0 (fun i => w i ω) n) * (push (stepKernel K ν))^[k] f (walk K z0 (fun i => w i ω) n)) (by
      filter_upwards [hg] with ω hω
      rw [norm_mul, Real.norm_eq_abs, Real.norm_eq_abs]
      have h2 := i4 _ hω
      rw [h0, sub_zero] at h2
      have h2' : |(push (stepKernel K ν))^[k] f (walk K z0 (fun i => w i ω) n)| ≤ (1 - ε) ^ k * (2 * D) := by
        calc _ ≤ _ := h2
          _ = _ := by ring
      exact mul_le_mul (abs_le.mpr (hD _)) h2' (abs_nonneg _) ((abs_nonneg _).trans (abs_le.mpr (hD z0))))
  simpa using this

end

/-! ### Averages of bounded variables with bounded correlations -/

section
variable {Pr : Measure Ω} [IsProbabilityMeasure Pr]

theorem second_moment {Y : ℕ → Ω → ℝ} (hY : ∀ n, Measurable (Y n)) {D C : ℝ} (hD : ∀ n ω, |Y n ω| ≤ D)
    (hc : ∀ n, ∑ i ∈ Finset.range n, ∫ ω, Y i ω * Y n ω ∂Pr ≤ C) (n : ℕ) :
    ∫ ω, (∑ i ∈ Finset.range n, Y i ω) ^ 2 ∂Pr ≤ n * (2 * C + D ^ 2) := by
  have hb : ∀ n ω, -D ≤ Y n ω ∧ Y n ω ≤ D := fun n ω => abs_le.mp (hD n ω)
  have hprod : ∀ i j, Integrable (fun ω => Y i ω * Y j ω) Pr := fun i j =>
    (integrable_of_bounds Pr (hY j) (hb j)).bdd_mul (hY i).aestronglyMeasurable (ae_of_all _ fun ω => hD i ω)
  induction n with
  | zero => simp
  | succ n ih =>
    have hS : Integrable (fun ω => (∑ i ∈ Finset.range n, Y i ω) ^ 2) Pr := by
      have : (fun ω => (∑ i ∈ Finset.range n, Y i ω) ^ 2) = fun ω => ∑ i ∈ Finset.range n, ∑ j ∈ Finset.range n, Y i ω * Y j ω := by
        funext ω; rw [sq, Finset.sum_mul_sum]
      rw [this]
      exact integrable_finsetSum _ fun i _ => integrable_finsetSum _ fun j _ => hprod i j
    have hX : Integrable (fun ω => ∑ i ∈ Finset.range n, Y i ω * Y n ω) Pr := integrable_finsetSum _ fun i _ => hprod i n
    have e : (fun ω => (∑ i ∈ Finset.range (n + 1), Y i ω) ^ 2) = fun ω =>
        (∑ i ∈ Finset.range n, Y i ω) ^ 2 + (2 * (∑ i ∈ Finset.range n, Y i ω * Y n ω) + Y n ω * Y n ω) := by
      funext ω
      rw [Finset.sum_range_succ, ← Finset.sum_mul]
      ring
    have h2 : Integrable (fun ω => 2 * (∑ i ∈ Finset.range n, Y i ω * Y n ω)) Pr := hX.const_mul 2
    have h3 : Integrable (fun ω => 2 * (∑ i ∈ Finset.range n, Y i ω * Y n ω) + Y n ω * Y n ω) Pr := h2.add (hprod n n)
    rw [e, integral_add hS h3, integral_add h2 (hprod n n), integral_const_mul, integral_finsetSum _ fun i _ => hprod i n]
    have hYn : ∫ ω, Y n ω * Y n ω ∂Pr ≤ D ^ 2 := by
      have := integral_mono (hprod n n) (integrable_const (D ^ 2)) (fun ω => by
        have := sq_le_sq' (hb n ω).1 (hb n ω).2
        simpa [sq] using this)
      simpa using this
    have := hc n
    push_cast
    linarith

/-- Averages along the squares converge, and bounded terms fill the gaps. -/
theorem average_zero {Y : ℕ → Ω → ℝ} (hY : ∀ n, Measurable (Y n)) {D C : ℝ} (hD : ∀ n ω, |Y n ω| ≤ D)
    (hc : ∀ n : ℕ, ∫ ω, (∑ i ∈ Finset.range n, Y i ω) ^ 2 ∂Pr ≤ n * C) :
    ∀ᵐ ω ∂Pr, Tendsto (fun n : ℕ => (∑ i ∈ Finset.range n, Y i ω) / n) atTop (𝓝 0) := by
  have hb : ∀ n ω, -D ≤ Y n ω ∧ Y n ω ≤ D := fun n ω => abs_le.mp (hD n ω)
  set T : ℕ → Ω → ℝ := fun n ω => ∑ i ∈ Finset.range n, Y i ω with hT
  have hTm : ∀ n, Measurable (T n) := fun n => Finset.measurable_sum _ fun i _ => hY i
  have hTb : ∀ n ω, |T n ω| ≤ n * D := fun n ω => by
    refine (Finset.abs_sum_le_sum_abs _ _).trans ((Finset.sum_le_card_nsmul _ _ D fun i _ => hD i ω).trans ?_)
    simp
  have hC : 0 ≤ C := by
    have := hc 1
    have h0 : 0 ≤ ∫ ω, (∑ i ∈ Finset.range 1, Y i ω) ^ 2 ∂Pr := integral_nonneg fun ω => sq_nonneg _
    push_cast at this; linarith
  -- squares
  have hsq : ∀ᵐ ω ∂Pr, Tendsto (fun k : ℕ => T (k ^ 2) ω / (k ^ 2 : ℕ)) atTop (𝓝 0) := by
    have hfin : ∫⁻ ω, ∑' k : ℕ, ENNReal.ofReal ((T (k ^ 2) ω / (k ^ 2 : ℕ)) ^ 2) ∂Pr ≠ ⊤ := by
      rw [lintegral_tsum fun k => (((hTm _).div_const _).pow_const 2).ennreal_ofReal.aemeasurable]
      have hle : ∀ k : ℕ, ∫⁻ ω, ENNReal.ofReal ((T (k ^ 2) ω / (k ^ 2 : ℕ)) ^ 2) ∂Pr ≤ ENNReal.ofReal (C * (1 / (k : ℝ) ^ 2)) := by
        intro k
        have hi : Integrable (fun ω => (T (k ^ 2) ω / (k ^ 2 : ℕ)) ^ 2) Pr := by
          refine integrable_of_bounds Pr (((hTm _).div_const _).pow_const 2) (a := 0) (b := (((k ^ 2 : ℕ) : ℝ) * D / (k ^ 2 : ℕ)) ^ 2)
            fun ω => ⟨sq_nonneg _, ?_⟩
          rw [div_pow, div_pow]
          have := abs_le.mp (hTb (k ^ 2) ω)
          exact div_le_div_of_nonneg_right (sq_le_sq' this.1 this.2) (sq_nonneg _)
        rw [← ofReal_integral_eq_lintegral_ofReal hi (ae_of_all _ fun ω => sq_nonneg _)]
        refine ENNReal.ofReal_le_ofReal ?_
        have e : (fun ω => (T (k ^ 2) ω / (k ^ 2 : ℕ)) ^ 2) = fun ω => (1 / ((k ^ 2 : ℕ) : ℝ) ^ 2) * (T (k ^ 2) ω) ^ 2 := by
          funext ω; rw [div_pow]; ring
        rw [e, integral_const_mul]
        by_cases hk : k = 0
        · simp [hk]
        have hk' : (0 : ℝ) < k := by exact_mod_cast Nat.pos_of_ne_zero hk
        calc _ ≤ (1 / ((k ^ 2 : ℕ) : ℝ) ^ 2) * (((k ^ 2 : ℕ) : ℝ) * C) :=
              mul_le_mul_of_nonneg_left (hc (k ^ 2)) (by positivity)
          _ = _ := by push_cast; field_simp
      refine ne_top_of_le_ne_top ?_ (ENNReal.tsum_le_tsum hle)
      have hs : Summable (fun k : ℕ => C * (1 / (k : ℝ) ^ 2)) := (Real.summable_one_div_nat_pow.mpr (by norm_num)).mul_left C
      exact hs.tsum_ofReal_ne_top
    have hae := ae_lt_top' (AEMeasurable.tsum fun k =>
      ((((hTm _).div_const _).pow_const 2).ennreal_ofReal.aemeasurable)) hfin
    filter_upwards [hae] with ω hω
    have h1 := ENNReal.tendsto_atTop_zero_of_tsum_ne_top hω.ne
    have h2 : Tendsto (fun k : ℕ => (T (k ^ 2) ω / (k ^ 2 : ℕ)) ^ 2) atTop (𝓝 0) := by
      have := (ENNReal.tendsto_toReal (a := 0) (by simp)).comp h1
      simpa [Function.comp_def, ENNReal.toReal_ofReal (sq_nonneg _)] using this
    have h3 := (Real.continuous_sqrt.tendsto 0).comp h2
    rw [Real.sqrt_zero] at h3
    refine (tendsto_zero_iff_abs_tendsto_zero _).mpr ?_
    simpa [Function.comp_def, Real.sqrt_sq_eq_abs] using h3
  filter_upwards [hsq] with ω hω
  have hD0 : 0 ≤ D := (abs_nonneg _).trans (hD 0 ω)
  -- gaps
  have hgap : ∀ m n, m ≤ n → |T n ω - T m ω| ≤ (n - m : ℕ) * D := by
    intro m n hmn
    have e : T n ω - T m ω = ∑ i ∈ Finset.Ico m n, Y i ω := by
      rw [Finset.sum_Ico_eq_sub _ hmn]
    rw [e]
    refine (Finset.abs_sum_le_sum_abs _ _).trans ((Finset.sum_le_card_nsmul _ _ D fun i _ => hD i ω).trans ?_)
    simp
  have hbound : ∀ n : ℕ, 0 < n → |T n ω / n| ≤ |T ((Nat.sqrt n) ^ 2) ω / ((Nat.sqrt n) ^ 2 : ℕ)| + 2 * D / (Nat.sqrt n : ℕ) := by
    intro n hn
    set k := Nat.sqrt n with hk
    have hk0 : 0 < k := Nat.sqrt_pos.mpr hn
    have hk1 : k ^ 2 ≤ n := Nat.sqrt_le' n
    have hk2 : n - k ^ 2 ≤ 2 * k := by
      have := Nat.lt_succ_sqrt' n
      rw [← hk] at this
      have e : (k + 1) ^ 2 = k ^ 2 + 2 * k + 1 := by ring
      simp only [Nat.succ_eq_add_one] at this
      omega
    have hkr : (0 : ℝ) < k := by exact_mod_cast hk0
    have hnr : (0 : ℝ) < n := by exact_mod_cast hn
    have hk1r : ((k ^ 2 : ℕ) : ℝ) ≤ n := by exact_mod_cast hk1
    have hsqr : (0 : ℝ) < ((k ^ 2 : ℕ) : ℝ) := by positivity
    have h1 : |T n ω| ≤ |T (k ^ 2) ω| + 2 * k * D := by
      have := hgap (k ^ 2) n hk1
      have h2 : ((n - k ^ 2 : ℕ) : ℝ) * D ≤ 2 * k * D := by
        refine mul_le_mul_of_nonneg_right ?_ hD0
        exact_mod_cast hk2
      have h3 := abs_add_le (T (k ^ 2) ω) (T n ω - T (k ^ 2) ω)
      rw [add_sub_cancel] at h3
      linarith
    rw [abs_div, abs_div, abs_of_pos hnr, abs_of_pos hsqr]
    calc |T n ω| / n ≤ (|T (k ^ 2) ω| + 2 * k * D) / n := div_le_div_of_nonneg_right h1 hnr.le
      _ ≤ (|T (k ^ 2) ω| + 2 * k * D) / ((k ^ 2 : ℕ) : ℝ) := div_le_div_of_nonneg_left (by positivity) hsqr hk1r
      _ = _ := by rw [add_div]; congr 1; push_cast; field_simp
  have hsqrt : Tendsto Nat.sqrt atTop atTop := by
    refine tendsto_atTop.mpr fun b => ?_
    filter_upwards [eventually_ge_atTop (b ^ 2)] with n hn
    exact Nat.le_sqrt'.mpr hn
  have hlim : Tendsto (fun n : ℕ => |T ((Nat.sqrt n) ^ 2) ω / ((Nat.sqrt n) ^ 2 : ℕ)| + 2 * D / (Nat.sqrt n : ℕ)) atTop (𝓝 0) := by
    have h1 : Tendsto (fun k : ℕ => |T (k ^ 2) ω / (k ^ 2 : ℕ)| + 2 * D / (k : ℝ)) atTop (𝓝 0) := by
      have := ((tendsto_zero_iff_abs_tendsto_zero _).mp hω).add (tendsto_const_div_atTop_nhds_zero_nat (2 * D))
      simpa using this
    exact h1.comp hsqrt
  refine squeeze_zero_norm' ?_ hlim
  filter_upwards [eventually_gt_atTop 0] with n hn
  rw [Real.norm_eq_abs]
  exact hbound n hn

end

/-- Averages over the samples converge to the expected value under `π`, almost surely. -/
theorem average_converges {K : S → W → S} {ν : Measure W} [IsProbabilityMeasure ν] {π : Measure S} [IsProbabilityMeasure π]
    {G : Set S} {ε : ℝ} {Pr : Measure Ω} [IsProbabilityMeasure Pr] {w : ℕ → Ω → W}
    (hK : Measurable (fun a : S × W => K a.1 a.2)) (hm : Mixing (stepKernel K ν) π G ε) (hw : ∀ i, Measurable (w i)) (hlaw : ∀ i, Pr.map (w i) = ν) (hind : iIndepFun w Pr)
    {z0 : S} (hz : z0 ∈ G) {f : S → ℝ} (hf : Measurable f) {a b : ℝ} (hab : ∀ x, a ≤ f x ∧ f x ≤ b) :
    (∀ n : ℕ, ∫ ω, (∑ i ∈ Finset.range n, (f (walk K z0 (fun i => w i ω) (i + 1)) - ∫ x, f x ∂π)) ^ 2 ∂Pr ≤
      n * (4 / ε + 1) * (b - a) ^ 2) ∧
    ∀ᵐ ω ∂Pr, Tendsto (fun n : ℕ => (∑ i ∈ Finset.range n, f (walk K z0 (fun i => w i ω) (i + 1))) / n) atTop
      (𝓝 (∫ x, f x ∂π)) := by
  have hi := integrable_of_bounds π hf hab
  have h1 := integral_mono (integrable_const a) hi (fun w => (hab w).1)
  have h2 := integral_mono hi (integrable_const b) (fun w => (hab w).2)
  simp only [integral_const, probReal_univ, smul_eq_mul, one_mul] at h1 h2
  set c := ∫ x, f x ∂π with hc
  set D := b - a with hDdef
  have hD0 : 0 ≤ D := by linarith
  set g : S → ℝ := fun x => f x - c with hg
  have hgm : Measurable g := hf.sub_const c
  have hgD : ∀ x, -D ≤ g x ∧ g x ≤ D := fun x => by
    simp only [hg]; constructor <;> linarith [(hab x).1, (hab x).2]
  have hg0 : ∫ x, g x ∂π = 0 := by
    simp only [hg]; rw [integral_sub hi (integrable_const c)]; simp [hc]
  set Y : ℕ → Ω → ℝ := fun i ω => g (walk K z0 (fun i => w i ω) (i + 1)) with hY
  have hYm : ∀ n, Measurable (Y n) := fun n => hgm.comp (walk_measurable hK hw z0 (n + 1))
  have hYD : ∀ n ω, |Y n ω| ≤ D := fun n ω => abs_le.mpr (hgD _)
  have hcov : ∀ n, ∑ i ∈ Finset.range n, ∫ ω, Y i ω * Y n ω ∂Pr ≤ 2 * D ^ 2 / ε := by
    intro n
    have hterm : ∀ i ∈ Finset.range n, ∫ ω, Y i ω * Y n ω ∂Pr ≤ 2 * D ^ 2 * (1 - ε) ^ (n - 1 - i) := by
      intro i hi
      have hin := Finset.mem_range.mp hi
      have := covariance_bound hK hm hw hlaw hind hz hgm hgD hg0 (i + 1) (n - i)
      rw [show i + 1 + (n - i) = n + 1 by omega] at this
      refine (le_abs_self _).trans (this.trans ?_)
      have hp : (1 - ε) ^ (n - i) ≤ (1 - ε) ^ (n - 1 - i) :=
        pow_le_pow_of_le_one (by linarith [hm.le_one]) (by linarith [hm.pos]) (by omega)
      have : D * ((1 - ε) ^ (n - i) * (2 * D)) = 2 * D ^ 2 * (1 - ε) ^ (n - i) := by ring
      rw [this]
      exact mul_le_mul_of_nonneg_left hp (by positivity)
    refine (Finset.sum_le_sum hterm).trans ?_
    rw [← Finset.mul_sum, Finset.sum_range_reflect (fun j => (1 - ε) ^ j) n]
    have hgeo : ∑ j ∈ Finset.range n, (1 - ε) ^ j ≤ 1 / ε := by
      have := Summable.sum_le_tsum (Finset.range n) (fun j _ => pow_nonneg (by linarith [hm.le_one] : (0 : ℝ) ≤ 1 - ε) j)
        (summable_geometric_of_lt_one (by linarith [hm.le_one]) (by linarith [hm.pos]))
      rw [tsum_geometric_of_lt_one (by linarith [hm.le_one]) (by linarith [hm.pos])] at this
      simpa using this
    calc _ ≤ 2 * D ^ 2 * (1 / ε) := mul_le_mul_of_nonneg_left hgeo (by positivity)
      _ = _ := by ring
  have hmom := second_moment (Pr := Pr) hYm hYD hcov
  refine ⟨fun n => (hmom n).trans (le_of_eq (by ring)), ?_⟩
  filter_upwards [average_zero hYm hYD hmom] with ω hω
  have h := hω.add_const c
  rw [zero_add] at h
  refine h.congr' ?_
  filter_upwards [eventually_gt_atTop 0] with n hn
  have hn' : (n : ℝ) ≠ 0 := by exact_mod_cast hn.ne'
  simp only [hY, hg, Finset.sum_sub_distrib, Finset.sum_const, Finset.card_range, nsmul_eq_mul]
  field_simp
  ring

end Edward
