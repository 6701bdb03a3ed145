/-
Property C117: `SGLD` on models with a normal posterior.
-/
import Verif.Lemmas.DecreasingSteps
import Verif.Model.Convergence
import Verif.Model.LangevinChain
import Verif.Props.Langevin
import Verif.Props.MonteCarlo
import Mathlib.Probability.Independence.InfinitePi

namespace Edward

open MeasureTheory ProbabilityTheory Filter Topology Matrix

/-! ### Specification -/

section
variable {ι : Type} [Fintype ι] [DecidableEq ι]

/-- A quadratic log joint with its maximum at `m`. -/
noncomputable def quadLog (c : ℝ) (m : ι → ℝ) (H : Matrix ι ι ℝ) (x : ι → ℝ) : ℝ :=
  c - (1 / 2) * ((x - m) ⬝ᵥ (H *ᵥ (x - m)))

omit [Fintype ι] in
/-- `G` is the gradient of `lp`. -/
def IsGradient (lp : (ι → ℝ) → ℝ) (G : (ι → ℝ) → ι → ℝ) : Prop :=
  ∀ x i, HasDerivAt (fun y => lp (Function.update x i y)) (G x i) (x i)

theorem quadLog_gradient (c : ℝ) (m : ι → ℝ) {H : Matrix ι ι ℝ} (hH : Hᵀ = H) :
    IsGradient (quadLog c m H) (fun x => -(H *ᵥ (x - m))) := by
  intro x i
  have e : (fun y => quadLog c m H (Function.update x i y)) = fun y =>
      c - (1 / 2) * ((x - m) ⬝ᵥ (H *ᵥ (x - m)) + 2 * (y - x i) * (H *ᵥ (x - m)) i + (y - x i) ^ 2 * H i i) := by
    funext y
    have e1 : Function.update x i y - m = (x - m) + (y - x i) • Pi.single i 1 := by
      funext j
      by_cases hj : j = i
      · subst hj; simp
      · simp [hj]
    have e2 : (x - m) ⬝ᵥ (H *ᵥ Pi.single i 1) = (H *ᵥ (x - m)) i := by
      rw [dotProduct_mulVec, ← mulVec_transpose, hH, dotProduct_single, mul_one]
    unfold quadLog
    rw [e1, mulVec_add, mulVec_smul, add_dotProduct, dotProduct_add, dotProduct_add, smul_dotProduct, smul_dotProduct, dotProduct_smul, dotProduct_smul, e2,
      single_dotProduct, single_dotProduct]
    simp only [mulVec_single_one, smul_eq_mul, one_mul, col_apply]
    ring
  rw [e]
  have h1 : HasDerivAt (fun y : ℝ => y - x i) 1 (x i) := (hasDerivAt_id (x i)).sub_const _
  have h2 := (((((h1.const_mul 2).mul_const ((H *ᵥ (x - m)) i)).const_add ((x - m) ⬝ᵥ (H *ᵥ (x - m)))).add
    ((h1.pow 2).mul_const (H i i))).const_mul (1 / 2)).const_sub c
  refine h2.congr_deriv ?_
  simp

theorem IsGradient.eq {c : ℝ} {m : ι → ℝ} {H : Matrix ι ι ℝ} (hH : Hᵀ = H) {G : (ι → ℝ) → ι → ℝ} (hG : IsGradient (quadLog c m H) G)
    (x : ι → ℝ) : G x = -(H *ᵥ (x - m)) :=
  funext fun i => (hG x i).unique (quadLog_gradient c m hH x i)

end

/-! ### C117 -/

theorem sgld_steps {step : ℝ} (hs : 0 < step) : StepSizes (sgldRate step) := by
  obtain ⟨h1, -, h3, -⟩ := C41_robbins_monro step hs
  have hcast : Tendsto (fun n : ℕ => ((n + 1 : ℕ) : ℝ)) atTop atTop := tendsto_natCast_atTop_atTop.comp (tendsto_add_atTop_nat 1)
  refine ⟨h1, ?_, h3, ?_⟩
  · unfold sgldRate
    exact Tendsto.div_atTop tendsto_const_nhds ((tendsto_rpow_atTop (by norm_num)).comp hcast)
  · have h4 : Tendsto (fun n : ℕ => 1 / step * ((n + 1 : ℕ) : ℝ) ^ (-(0.45 : ℝ))) atTop (𝓝 (1 / step * 0)) :=
      ((tendsto_rpow_neg_atTop (by norm_num)).comp hcast).const_mul _
    rw [mul_zero] at h4
    refine squeeze_zero (fun n => ?_) (fun n => ?_) h4
    · have := h1 n; positivity
    · have hp : (0 : ℝ) < ((n + 1 : ℕ) : ℝ) := by positivity
      have e : ((n + 1 : ℕ) : ℝ) ^ (-(0.45 : ℝ)) = ((n + 1 : ℕ) : ℝ) ^ (0.55 : ℝ) / ((n + 1 : ℕ) : ℝ) := by
        rw [show (-(0.45 : ℝ)) = 0.55 - 1 by norm_num, Real.rpow_sub hp, Real.rpow_one]
      rw [e]
      unfold sgldRate
      have hq : 0 < ((n + 1 : ℕ) : ℝ) ^ (0.55 : ℝ) := Real.rpow_pos_of_pos hp _
      rw [show 1 / (((n : ℝ) + 2) * (step / ((n + 1 : ℕ) : ℝ) ^ (0.55 : ℝ))) = 1 / step * (((n + 1 : ℕ) : ℝ) ^ (0.55 : ℝ) / ((n : ℝ) + 2)) by
        field_simp]
      refine mul_le_mul_of_nonneg_left ?_ (by positivity)
      refine div_le_div_of_nonneg_left hq.le hp ?_
      push_cast; linarith

section
variable {ι : Type} [Fintype ι] [DecidableEq ι] {Ω : Type} [MeasurableSpace Ω]

theorem sgld_chain_eq {c : ℝ} {m : ι → ℝ} {H : Matrix ι ι ℝ} (hH : Hᵀ = H) {G : (ι → ℝ) → ι → ℝ} (hG : IsGradient (quadLog c m H) G)
    (step : ℝ) (x0 : ι → ℝ) (ξ : ℕ → ι → ℝ) (n : ℕ) :
    (chain (sgldKernel step G) x0 () ξ n).1 = m + linChain (symStep (sgldRate step) H) (symNoise (sgldRate step)) (x0 - m) ξ n := by
  induction n with
  | zero => simp [chain, linChain]
  | succ n ih =>
    have e : ∑ j, ξ n j • symNoise (sgldRate step) n j = Real.sqrt (sgldRate step n) • ξ n := by
      funext i
      simp [symNoise, Finset.sum_apply, Pi.single_apply, mul_comm]
    rw [linChain, e]
    funext i
    simp only [chain, sgldKernel, sgldSample]
    rw [ih, IsGradient.eq hH hG]
    simp only [symStep, LinearMap.sub_apply, LinearMap.id_apply, LinearMap.smul_apply, mulVecLin_apply, add_sub_cancel_left, Pi.add_apply, Pi.sub_apply,
      Pi.neg_apply, Pi.smul_apply, smul_eq_mul]
    norm_num
    ring

variable {Pr : Measure Ω} [IsProbabilityMeasure Pr] {d : ℕ → Ω → (ι → ℝ)}

/-- C117: on a model whose posterior is normal, the samples of `SGLD` converge to the
posterior in distribution, together with all their moments, for every positive step size and
every starting point: the expectation of every continuous function of polynomial growth
converges to its posterior expectation. -/
theorem C117_law {H : Matrix ι ι ℝ} (hH : H.PosDef) (c : ℝ) (m : ι → ℝ) {G : (ι → ℝ) → ι → ℝ} (hG : IsGradient (quadLog c m H) G)
    {step : ℝ} (hs : 0 < step) (x0 : ι → ℝ) (hd : NormalDraws Pr d) {f : (ι → ℝ) → ℝ} (hf : Continuous f) {A : ℝ} {p : ℕ}
    (hA : ∀ x, |f x| ≤ A * (1 + ‖x‖) ^ p) :
    (∀ n, Integrable (fun ω => f (chain (sgldKernel step G) x0 () (fun i => d i ω) n).1) Pr) ∧
    Tendsto (fun n => ∫ ω, f (chain (sgldKernel step G) x0 () (fun i => d i ω) n).1 ∂Pr) atTop
      (𝓝 (∫ x, f x ∂fromLogDensity (quadLog c m H))) := by
  obtain ⟨U, l, hl, hU, hU', he⟩ := posDef_eigen hH
  have hsym : Hᵀ = H := by have := hH.1; rwa [IsHermitian, conjTranspose_eq_transpose_of_trivial] at this
  have h := symChain_tendsto (sgld_steps hs) hl hU hU' he hd c m (x0 - m) hf hA
  simp only [sgld_chain_eq hsym hG]
  exact h

/-- C117: and averages over its samples converge in mean square to the posterior
expectations, for functions that vary at most like a quadratic polynomial. -/
theorem C117_average {H : Matrix ι ι ℝ} (hH : H.PosDef) (c : ℝ) (m : ι → ℝ) {G : (ι → ℝ) → ι → ℝ} (hG : IsGradient (quadLog c m H) G)
    {step : ℝ} (hs : 0 < step) (x0 : ι → ℝ) (hd : NormalDraws Pr d) {f : (ι → ℝ) → ℝ} (hf : QuadVar f) :
    Tendsto (fun N : ℕ => ∫ ω, ((∑ i ∈ Finset.range N, f (chain (sgldKernel step G) x0 () (fun i => d i ω) (i + 1)).1) / N -
      ∫ x, f x ∂fromLogDensity (quadLog c m H)) ^ 2 ∂Pr) atTop (𝓝 0) := by
  obtain ⟨U, l, hl, hU, hU', he⟩ := posDef_eigen hH
  have hsym : Hᵀ = H := by have := hH.1; rwa [IsHermitian, conjTranspose_eq_transpose_of_trivial] at this
  have h := symChain_average (sgld_steps hs) hl hU hU' he hd c m (x0 - m) hf
  simp only [sgld_chain_eq hsym hG]
  exact h

/-- C117, end to end: run `T` updates of `SGLD` with `Empirical` approximations of `T` rows.
All updates run and count as accepted, and as `T` grows the averages over the rows
(`qz.mean()` for `f = id`) converge in mean square to the posterior expectation. -/
theorem C117_run [Nonempty ι] {H : Matrix ι ι ℝ} (hH : H.PosDef) (c : ℝ) (m : ι → ℝ) {G : (ι → ℝ) → ι → ℝ} (hG : IsGradient (quadLog c m H) G)
    {step : ℝ} (hs : 0 < step) (x0 : ι → ℝ) (hd : NormalDraws Pr d) (late : ℕ → Bool) (p0 : ℕ → ι → List ℝ)
    (hlen : ∀ T z, (p0 T z).length = T) (hrow : ∀ T, 0 < T → ∀ z, (p0 T z)[0]? = some (x0 z))
    {f : ℝ → ℝ} {L : ℝ} (hf : ∀ a b, |f a - f b| ≤ L * |a - b| * (1 + |a| + |b|)) (z : ι) :
    ∃ st : ℕ → Ω → MCState ι ℝ Unit,
      (∀ T, 0 < T → ∀ ω, ∃ infos, mcRun (sgldKernel step G) ((List.range T).map (fun i => (d i ω, late i))) (mcInit (p0 T) ()) = some (st T ω, infos) ∧
        (st T ω).nAccept = T) ∧
      Tendsto (fun T => ∫ ω, (storedMean f (st T ω) z - ∫ x, f (x z) ∂fromLogDensity (quadLog c m H)) ^ 2 ∂Pr) atTop (𝓝 0) := by
  have hacc : ∀ ws T, nAcc (sgldKernel step G) x0 () ws T = T := by
    intro ws T
    unfold nAcc
    refine (List.countP_eq_length.mpr fun _ _ => rfl).trans List.length_range
  have hrun : ∀ T ω, ∃ s infos, 0 < T → mcRun (sgldKernel step G) ((List.range T).map (fun i => (d i ω, late i))) (mcInit (p0 T) ()) = some (s, infos) ∧
      s.nAccept = T ∧ ∀ z, s.params z = (List.range T).map (fun i => (chain (sgldKernel step G) x0 () (fun i => d i ω) (i + 1)).1 z) := by
    intro T ω
    by_cases hT : 0 < T
    swap
    · exact ⟨mcInit (p0 T) (), [], fun h => absurd h hT⟩
    obtain ⟨s, infos, e, hl, hr, -, -, hA, -⟩ := C30_bookkeeping (sgldKernel step G) (p0 T) () x0 (hrow T hT)
      (fun i => d i ω) late T ((le_nIter_iff _ _).mpr fun z => (hlen T z).ge)
    refine ⟨s, infos, fun _ => ⟨e, hA.trans (hacc _ _), fun z => List.ext_getElem? fun i => ?_⟩⟩
    by_cases hi : i < T
    · rw [hr z i hi]
      simp [hi]
    · rw [List.getElem?_eq_none (by rw [hl z, hlen T z]; omega), List.getElem?_eq_none (by simp; omega)]
  choose st infos hst using hrun
  refine ⟨st, fun T hT ω => ⟨infos T ω, (hst T ω hT).1, (hst T ω hT).2.1⟩, ?_⟩
  have hq : QuadVar (fun x : ι → ℝ => f (x z)) := by
    refine ⟨|L|, fun x y => (hf _ _).trans ?_⟩
    have h1 : |x z - y z| ≤ ‖x - y‖ := norm_le_pi_norm (x - y) z
    have h2 : |x z| ≤ ‖x‖ := norm_le_pi_norm x z
    have h3 : |y z| ≤ ‖y‖ := norm_le_pi_norm y z
    gcongr
    exact le_abs_self L
  refine (C117_average hH c m hG hs x0 hd hq).congr' ?_
  filter_upwards [eventually_gt_atTop 0] with T hT
  congr 1
  funext ω
  unfold storedMean
  rw [(hst T ω hT).2.2 z, List.length_map, List.length_range, List.map_map]
  congr 3

/-- The posterior of C117 has mean `m`. -/
theorem quadLog_mean {H : Matrix ι ι ℝ} (hH : H.PosDef) (c : ℝ) (m : ι → ℝ) (z : ι) :
    ∫ x, x z ∂fromLogDensity (quadLog c m H) = m z := by
  obtain ⟨U, l, hl, hU, hU', he⟩ := posDef_eigen hH
  have h1 := affine_functional m U (fun i => Real.sqrt (1 / l i)) (Pi.single z 1)
  have hY : Measurable (fun y : ι → ℝ => m + U *ᵥ (fun i => Real.sqrt (1 / l i) * y i)) :=
    (continuous_const.add (Continuous.matrix_mulVec continuous_const (by fun_prop))).measurable
  have h2 : (fromLogDensity (quadLog c m H)).map (fun x => x z) =
      gaussianReal (m z) (Real.toNNReal (∑ i, ((Uᵀ *ᵥ Pi.single z 1) i * Real.sqrt (1 / l i)) ^ 2)) := by
    have h3 := quadratic_law_std hl hU he c m
    unfold quadLog
    rw [h3, Measure.map_map (measurable_pi_apply z) hY]
    simp only [single_dotProduct, one_mul] at h1
    exact h1
  have h4 : ∫ x, x z ∂fromLogDensity (quadLog c m H) = ∫ y, y ∂(fromLogDensity (quadLog c m H)).map (fun x => x z) := by
    rw [integral_map (measurable_pi_apply z).aemeasurable (by fun_prop)]
  rw [h4, h2, integral_id_gaussianReal]

/-- C117: `qz.mean()` after `T` updates of `SGLD` converges in mean square to the posterior
mean. -/
theorem C117_mean [Nonempty ι] {H : Matrix ι ι ℝ} (hH : H.PosDef) (c : ℝ) (m : ι → ℝ) {G : (ι → ℝ) → ι → ℝ} (hG : IsGradient (quadLog c m H) G)
    {step : ℝ} (hs : 0 < step) (x0 : ι → ℝ) (hd : NormalDraws Pr d) (late : ℕ → Bool) (p0 : ℕ → ι → List ℝ)
    (hlen : ∀ T z, (p0 T z).length = T) (hrow : ∀ T, 0 < T → ∀ z, (p0 T z)[0]? = some (x0 z)) (z : ι) :
    ∃ st : ℕ → Ω → MCState ι ℝ Unit,
      (∀ T, 0 < T → ∀ ω, ∃ infos, mcRun (sgldKernel step G) ((List.range T).map (fun i => (d i ω, late i))) (mcInit (p0 T) ()) = some (st T ω, infos) ∧
        (st T ω).nAccept = T) ∧
      Tendsto (fun T => ∫ ω, (storedMean id (st T ω) z - m z) ^ 2 ∂Pr) atTop (𝓝 0) := by
  have h := C117_run hH c m hG hs x0 hd late p0 hlen hrow (f := id) (L := 1) (fun a b => by
    simp only [id, one_mul]
    nlinarith [abs_nonneg (a - b), abs_nonneg a, abs_nonneg b, mul_nonneg (abs_nonneg (a - b)) (abs_nonneg a), mul_nonneg (abs_nonneg (a - b)) (abs_nonneg b)]) z
  simp only [id] at h
  rw [quadLog_mean hH c m z] at h
  exact h

end

/-! The hypotheses are met: two latent variables with posterior precision `diag(1, 4)`, and
coordinate draws. -/

noncomputable def precEx : Matrix (Fin 2) (Fin 2) ℝ := diagonal ![1, 4]

theorem precEx_posDef : precEx.PosDef := by
  refine PosDef.diagonal ?_
  intro i
  fin_cases i <;> norm_num

example : IsGradient (quadLog 0 ![2, 3] precEx) (fun x => -(precEx *ᵥ (x - ![2, 3]))) :=
  quadLog_gradient 0 _ (diagonal_transpose _)

theorem normalDraws_ex {ι : Type} [Fintype ι] :
    NormalDraws (Measure.infinitePi (fun _ : ℕ => Measure.pi (fun _ : ι => gaussianReal 0 1))) (fun i (ω : ℕ → ι → ℝ) => ω i) where
  meas := fun i => measurable_pi_apply i
  law := fun i => Measure.infinitePi_map_eval _ i
  indep := iIndepFun_infinitePi (X := fun _ x => x) (fun _ => measurable_id)

/-- The second moment varies like a quadratic polynomial. -/
example (a b : ℝ) : |a ^ 2 - b ^ 2| ≤ 1 * |a - b| * (1 + |a| + |b|) := by
  rw [sq_sub_sq, abs_mul, mul_comm, one_mul]
  refine mul_le_mul_of_nonneg_left ?_ (abs_nonneg _)
  linarith [abs_add_le a b]

end Edward
