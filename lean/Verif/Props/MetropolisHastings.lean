/-
Property C32: the Metropolis-Hastings update preserves the posterior.
-/
import Mathlib.MeasureTheory.Function.SpecialFunctions.Basic
import Verif.Lemmas.MHKernel

set_option linter.unusedSectionVars false

namespace Edward

open MeasureTheory ENNReal

/-! ### Specification -/

/-- Joint density of latent variables and data: the product of all factors. -/
noncomputable def MHModel.joint {S : Type} (m : MHModel S) (s : S) : ℝ≥0∞ :=
  (m.priors.map (fun p => p s)).prod * (m.liks.map (fun p => p s)).prod

/-! ### The accumulated ratio -/

section
variable {S : Type}

theorem foldl_sub_log {α : Type} (l : List α) (f : α → ℝ≥0∞) (x : ℝ≥0∞) :
    l.foldl (fun r a => r - log (f a)) (log x) = log (x * (l.map (fun a => (f a)⁻¹)).prod) := by
  induction l generalizing x with
  | nil => simp
  | cons a l ih =>
    rw [List.foldl_cons, sub_eq_add_neg, ← log_inv, ← log_mul_add, ih, List.map_cons, List.prod_cons,
      mul_assoc]

theorem foldl_add_log {α : Type} (l : List α) (f : α → ℝ≥0∞) (x : ℝ≥0∞) :
    l.foldl (fun r a => r + log (f a)) (log x) = log (x * (l.map f).prod) := by
  induction l generalizing x with
  | nil => simp
  | cons a l ih =>
    rw [List.foldl_cons, ← log_mul_add, ih, List.map_cons, List.prod_cons, mul_assoc]

theorem foldl_add_sub_log {α : Type} (l : List α) (f g : α → ℝ≥0∞) (x : ℝ≥0∞) :
    l.foldl (fun r a => r + log (f a) - log (g a)) (log x) =
      log (x * (l.map (fun a => f a * (g a)⁻¹)).prod) := by
  induction l generalizing x with
  | nil => simp
  | cons a l ih =>
    rw [List.foldl_cons, sub_eq_add_neg, ← log_inv, ← log_mul_add, ← log_mul_add, ih, List.map_cons,
      List.prod_cons, mul_assoc, mul_assoc]
    simp only [mul_assoc]

theorem prod_inv_list {α : Type} (l : List α) (f : α → ℝ≥0∞) (h : ∀ a ∈ l, f a ≠ 0 ∧ f a ≠ ∞) :
    (l.map (fun a => (f a)⁻¹)).prod = ((l.map f).prod)⁻¹ ∧
      (l.map f).prod ≠ 0 ∧ (l.map f).prod ≠ ∞ := by
  induction l with
  | nil => simp
  | cons a l ih =>
    obtain ⟨h1, h2, h3⟩ := ih (fun b hb => h b (by simp [hb]))
    obtain ⟨ha, ha'⟩ := h a (by simp)
    simp only [List.map_cons, List.prod_cons]
    refine ⟨?_, mul_ne_zero ha h2, ENNReal.mul_ne_top ha' h3⟩
    rw [h1, ENNReal.mul_inv (Or.inl ha) (Or.inl ha')]

theorem list_prod_factors {α : Type} (l : List α) (f : α → ℝ≥0∞) (h : (l.map f).prod ≠ 0) :
    ∀ a ∈ l, f a ≠ 0 := by
  intro a ha h0
  apply h
  exact List.prod_eq_zero (List.mem_map.mpr ⟨a, ha, h0⟩)

/-- The densities are finite. -/
structure MHModel.Finite (m : MHModel S) : Prop where
  proposals : ∀ g ∈ m.proposals, ∀ s s', g s s' ≠ ∞
  priors : ∀ p ∈ m.priors, ∀ s, p s ≠ ∞
  liks : ∀ p ∈ m.liks, ∀ s, p s ≠ ∞

/-- The accumulated ratio is the log of `p(x,z')g(z|z') / (p(x,z)g(z'|z))`, whenever
the current state and the proposal have positive density. -/
theorem mh_ratio (m : MHModel S) (hf : m.Finite) (old new : S) (h0 : m.joint old ≠ 0)
    (hg : m.propose old new ≠ 0) :
    m.ratio old new = log (m.joint new * m.propose new old / (m.joint old * m.propose old new)) := by
  have hp1 := prod_inv_list m.proposals (fun g => g old new)
    (fun g hgm => ⟨list_prod_factors _ _ hg g hgm, hf.proposals g hgm _ _⟩)
  have hpri : (m.priors.map (fun p => p old)).prod ≠ 0 := left_ne_zero_of_mul h0
  have hlik : (m.liks.map (fun p => p old)).prod ≠ 0 := right_ne_zero_of_mul h0
  have hp2 := prod_inv_list m.priors (fun p => p old)
    (fun g hgm => ⟨list_prod_factors _ _ hpri g hgm, hf.priors g hgm _⟩)
  have hp3 := prod_inv_list m.liks (fun p => p old)
    (fun g hgm => ⟨list_prod_factors _ _ hlik g hgm, hf.liks g hgm _⟩)
  unfold MHModel.ratio
  dsimp only
  rw [show (0 : EReal) = log 1 from log_one.symm, foldl_sub_log, foldl_add_log, foldl_add_sub_log,
    foldl_add_sub_log, List.prod_map_mul, List.prod_map_mul, hp1.1, hp2.1, hp3.1]
  congr 1
  unfold MHModel.joint MHModel.propose
  rw [div_eq_mul_inv, ENNReal.mul_inv (Or.inl (mul_ne_zero hp2.2.1 hp3.2.1))
    (Or.inl (ENNReal.mul_ne_top hp2.2.2 hp3.2.2)), ENNReal.mul_inv (Or.inl hp2.2.1) (Or.inl hp2.2.2)]
  ring

/-- C32: the state moves to the proposed one with probability
`min(1, p(x,z')g(z|z') / (p(x,z)g(z'|z)))`. -/
theorem C32_accept_prob (m : MHModel S) (hf : m.Finite) (old new : S) (hne : new ≠ old)
    (h0 : m.joint old ≠ 0) (hg : m.propose old new ≠ 0) :
    volume {u : ℝ | u ∈ Set.Ico (0 : ℝ) 1 ∧ m.step old new u = new} =
      min 1 (m.joint new * m.propose new old / (m.joint old * m.propose old new)) := by
  classical
  rw [← acceptProb_log, ← mh_ratio m hf old new h0 hg]
  unfold acceptProb
  congr 1
  ext u
  simp only [Set.mem_ofPred_eq]
  refine and_congr_right fun _ => ?_
  unfold MHModel.step
  by_cases h : accepts u (m.ratio old new)
  · simp [h]
  · simp [h, hne.symm]

/-- C32: the next state is the proposed or the current one, never a mixture. -/
theorem C32_step (m : MHModel S) (old new : S) (u : ℝ) :
    m.step old new u = new ∨ m.step old new u = old := by
  unfold MHModel.step; split <;> simp

/-- C32: proposals of posterior density zero are always rejected. -/
theorem C32_reject_zero (m : MHModel S) (hf : m.Finite) (old new : S) (u : ℝ)
    (h0 : m.joint old ≠ 0) (hg : m.propose old new ≠ 0) (hz : m.joint new = 0) :
    m.step old new u = old := by
  classical
  unfold MHModel.step
  rw [if_neg]
  rw [mh_ratio m hf old new h0 hg, accepts_log_iff, hz]
  simp

end

/-! ### Invariance -/

section
variable {Y W : Type} [MeasurableSpace Y] [MeasurableSpace W]

structure MHModel.Meas (m : MHModel (Y × W)) : Prop where
  proposals : ∀ g ∈ m.proposals, Measurable (fun q : (Y × W) × (Y × W) => g q.1 q.2)
  priors : ∀ p ∈ m.priors, Measurable p
  liks : ∀ p ∈ m.liks, Measurable p

theorem measurable_list_prod {α β : Type} [MeasurableSpace α] (l : List β) (f : β → α → ℝ≥0∞)
    (h : ∀ b ∈ l, Measurable (f b)) : Measurable (fun a => (l.map (fun b => f b a)).prod) := by
  induction l with
  | nil => simp only [List.map_nil, List.prod_nil]; exact measurable_const
  | cons b l ih =>
    simp only [List.map_cons, List.prod_cons]
    exact (h b (by simp)).mul (ih (fun c hc => h c (by simp [hc])))

theorem MHModel.measurable_propose {m : MHModel (Y × W)} (hm : m.Meas) :
    Measurable (fun q : (Y × W) × (Y × W) => m.propose q.1 q.2) :=
  measurable_list_prod m.proposals (fun g (q : (Y × W) × (Y × W)) => g q.1 q.2) hm.proposals

theorem MHModel.measurable_joint {m : MHModel (Y × W)} (hm : m.Meas) : Measurable m.joint :=
  (measurable_list_prod m.priors (fun p s => p s) hm.priors).mul
    (measurable_list_prod m.liks (fun p s => p s) hm.liks)

theorem MHModel.expect_eq_acceptReject (m : MHModel (Y × W)) (μ : Measure Y) :
    m.expect μ = acceptReject μ m.propose m.ratio := rfl

theorem MHModel.finite_joint {m : MHModel (Y × W)} (hf : m.Finite) (s : Y × W) : m.joint s ≠ ∞ := by
  have : ∀ l : List (Y × W → ℝ≥0∞), (∀ p ∈ l, ∀ s, p s ≠ ∞) → (l.map (fun p => p s)).prod ≠ ∞ := by
    intro l
    induction l with
    | nil => simp
    | cons a l ih =>
      intro h
      rw [List.map_cons, List.prod_cons]
      exact ENNReal.mul_ne_top (h a (by simp) s) (ih (fun p hp => h p (by simp [hp])))
  exact ENNReal.mul_ne_top (this _ hf.priors) (this _ hf.liks)

theorem MHModel.finite_propose {m : MHModel (Y × W)} (hf : m.Finite) (s s' : Y × W) :
    m.propose s s' ≠ ∞ := by
  have : ∀ l : List (Y × W → Y × W → ℝ≥0∞), (∀ p ∈ l, ∀ s s', p s s' ≠ ∞) →
      (l.map (fun p => p s s')).prod ≠ ∞ := by
    intro l
    induction l with
    | nil => simp
    | cons a l ih =>
      intro h
      rw [List.map_cons, List.prod_cons]
      exact ENNReal.mul_ne_top (h a (by simp) s s') (ih (fun p hp => h p (by simp [hp])))
  exact this _ hf.proposals

theorem MHModel.isMH {m : MHModel (Y × W)} (hf : m.Finite) (hm : m.Meas) :
    IsMH m.joint m.propose m.ratio where
  joint_meas := m.measurable_joint hm
  joint_fin := m.finite_joint hf
  prop_meas := m.measurable_propose hm
  prop_fin := m.finite_propose hf
  ratio_eq := fun old new h0 hg => mh_ratio m hf old new h0 hg

/-- C32: the update is reversible with respect to the posterior (any measurable state
spaces, any finite densities, any proposals): the expected value of `h(now) f(next)`
equals that of `f(now) h(next)`. -/
theorem C32_reversible (m : MHModel (Y × W)) (hf : m.Finite) (hm : m.Meas) (μ : Measure Y) [SFinite μ]
    (ν : Measure W) (f h : Y × W → ℝ≥0∞) (hfm : Measurable f) (hhm : Measurable h) :
    ∫⁻ w, ∫⁻ y, m.joint (y, w) * h (y, w) * m.expect μ f (y, w) ∂μ ∂ν =
    ∫⁻ w, ∫⁻ y, m.joint (y, w) * f (y, w) * m.expect μ h (y, w) ∂μ ∂ν :=
  (m.isMH hf hm).reversible μ ν f h hfm hhm

/-- C32: the posterior is preserved. -/
theorem C32_invariant (m : MHModel (Y × W)) (hf : m.Finite) (hm : m.Meas) (μ : Measure Y) [SFinite μ]
    (ν : Measure W) (hnorm : ∀ s : Y × W, ∫⁻ y', m.propose s (y', s.2) ∂μ = 1)
    (f : Y × W → ℝ≥0∞) (hfm : Measurable f) :
    ∫⁻ w, ∫⁻ y, m.joint (y, w) * m.expect μ f (y, w) ∂μ ∂ν = ∫⁻ w, ∫⁻ y, m.joint (y, w) * f (y, w) ∂μ ∂ν :=
  (m.isMH hf hm).invariant μ ν hnorm f hfm

end

/-! Concrete case: two states, an asymmetric proposal. -/
noncomputable def exMH : MHModel (Bool × Unit) where
  proposals := [fun s s' => if s.1 then (if s'.1 then 1/4 else 3/4) else 1/2]
  priors := [fun s => if s.1 then 1/3 else 2/3]
  liks := [fun s => if s.1 then 1/2 else 1/5]

theorem exMH_finite : exMH.Finite := by
  refine ⟨?_, ?_, ?_⟩
  all_goals
    intro p hp
    simp only [exMH, List.mem_singleton] at hp
    subst hp
  · intro s s'; dsimp only; split_ifs <;> exact ENNReal.div_ne_top (by simp) (by simp)
  · intro s; dsimp only; split_ifs <;> exact ENNReal.div_ne_top (by simp) (by simp)
  · intro s; dsimp only; split_ifs <;> exact ENNReal.div_ne_top (by simp) (by simp)

example (f : Bool × Unit → ℝ≥0∞) :
    ∫⁻ w, ∫⁻ y, exMH.joint (y, w) * exMH.expect Measure.count f (y, w) ∂Measure.count ∂Measure.count =
    ∫⁻ w, ∫⁻ y, exMH.joint (y, w) * f (y, w) ∂Measure.count ∂Measure.count := by
  refine C32_invariant exMH exMH_finite ?_ _ _ ?_ f (measurable_of_countable _)
  · exact ⟨fun g _ => measurable_of_countable _, fun p _ => measurable_of_countable _,
      fun p _ => measurable_of_countable _⟩
  · rintro ⟨y, w⟩
    rw [lintegral_count, tsum_fintype]
    cases y
    · simp only [MHModel.propose, exMH, List.map_cons, List.map_nil, List.prod_cons, List.prod_nil,
        Fintype.sum_bool]
      simp [ENNReal.inv_two_add_inv_two]
    · simp only [MHModel.propose, exMH, List.map_cons, List.map_nil, List.prod_cons, List.prod_nil,
        Fintype.sum_bool]
      simp only [if_true, Bool.false_eq_true, if_false, mul_one]
      rw [← ENNReal.add_div]
      norm_num
      exact ENNReal.div_self (by norm_num) (by norm_num)

end Edward
