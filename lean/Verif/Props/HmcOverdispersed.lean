/-
C143 for HMC: the posterior is not preserved.
-/
import Verif.Props.HmcConditional

namespace Edward
open MeasureTheory ENNReal

/-- If the flow `M` is smaller at the other end of every path that leaves `A`, more leaves `A` than enters it. -/
theorem outflow {X : Type} [MeasurableSpace X] (μ : Measure X) (T : X → X) (hT : MeasurePreserving T μ μ) (hinv : ∀ x, T (T x) = x)
    (M : X → ℝ≥0∞) (hM : Measurable M) (hfin : ∫⁻ x, M x ∂μ ≠ ∞) (A : Set X) (hA : MeasurableSet A)
    (hlt : ∀ x ∈ A, T x ∉ A → M (T x) < M x) (hpos : μ (A \ T ⁻¹' A) ≠ 0) :
    ∫⁻ x in A, M (T x) ∂μ < ∫⁻ x in A, M x ∂μ := by
  have hTA : MeasurableSet (T ⁻¹' A) := hT.measurable hA
  have e : ∫⁻ x in A ∩ T ⁻¹' A, M (T x) ∂μ = ∫⁻ x in A ∩ T ⁻¹' A, M x ∂μ := by
    rw [← lintegral_indicator (hA.inter hTA), ← lintegral_indicator (hA.inter hTA),
      ← hT.lintegral_comp (hM.indicator (hA.inter hTA))]
    congr 1
    funext x
    by_cases hx : x ∈ A ∩ T ⁻¹' A
    · have hx' : T x ∈ A ∩ T ⁻¹' A := ⟨hx.2, by rw [Set.mem_preimage, hinv]; exact hx.1⟩
      rw [Set.indicator_of_mem hx, Set.indicator_of_mem hx']
    · have hx' : T x ∉ A ∩ T ⁻¹' A := fun h => hx ⟨by have := h.2; rwa [Set.mem_preimage, hinv] at this, h.1⟩
      rw [Set.indicator_of_notMem hx, Set.indicator_of_notMem hx']
  rw [← lintegral_inter_add_sdiff _ A hTA, ← lintegral_inter_add_sdiff M A hTA, e]
  have hf1 : ∫⁻ x in A ∩ T ⁻¹' A, M x ∂μ ≠ ∞ := ne_top_of_le_ne_top hfin (setLIntegral_le_lintegral _ _)
  have hf2 : ∫⁻ x in A \ T ⁻¹' A, M (T x) ∂μ ≠ ∞ := by
    refine ne_top_of_le_ne_top hfin ?_
    rw [← hT.lintegral_comp hM]
    exact setLIntegral_le_lintegral _ _
  refine ENNReal.add_lt_add_left hf1 ?_
  exact setLIntegral_strict_mono (hA.diff hTA) hpos hM hf2 (Filter.Eventually.of_forall fun x hx => hlt x hx.1 hx.2)

section
variable {ι : Type} [Fintype ι] [DecidableEq ι] {κ : ι → Type} [∀ i, Fintype (κ i)] {B : Type} [Fintype B]

/-- The flow from `x` summed over the draws of `beta`. -/
noncomputable def noisyFlow (t : Pos κ → ℝ≥0∞) (c q : B → ℝ≥0∞) (T : Pos κ × Pos κ → Pos κ × Pos κ) (x : Pos κ × Pos κ) : ℝ≥0∞ :=
  ∑ b, ∑ b', q b * q b' * min (t x.1 * momentum x.2) (c b' / c b * (t (T x).1 * momentum (T x).2))

/-- The balance of one update. -/
theorem redrawn_balance (t : Pos κ → ℝ≥0∞) (hm : Measurable t) (ht : ∀ z, t z ≠ ∞) (c q : B → ℝ≥0∞)
    (hc0 : ∀ b, c b ≠ 0) (hc1 : ∀ b, c b ≠ ∞) (hq : ∑ b, q b = 1) (G : Pos κ → Pos κ) (hG : Measurable G) (h : ℝ) (n : ℕ) (keys : List ι)
    (hn : keys.Nodup) (hk : ∀ i, i ∈ keys) (A : Set (Pos κ)) (hA : MeasurableSet A) :
    (∫⁻ z, t z * redrawnExpect (fun z b => c b * t z) (fun _ => G) q h n keys (A.indicator 1) z) +
        ∫⁻ x in Prod.fst ⁻¹' A, noisyFlow t c q (fun x => ((leapfrog h G keys n x).1, -(leapfrog h G keys n x).2)) x ∂(volume.prod volume) =
      (∫⁻ z, t z * A.indicator 1 z) +
        ∫⁻ x in Prod.fst ⁻¹' A, noisyFlow t c q (fun x => ((leapfrog h G keys n x).1, -(leapfrog h G keys n x).2))
          ((leapfrog h G keys n x).1, -(leapfrog h G keys n x).2) ∂(volume.prod volume) := by
  set L : Pos κ × Pos κ → Pos κ × Pos κ := leapfrog h G keys n with hL
  set T : Pos κ × Pos κ → Pos κ × Pos κ := fun x => ((L x).1, -(L x).2) with hTdef
  set μ : Measure (Pos κ × Pos κ) := volume.prod volume with hμ
  have hLm : MeasurePreserving L μ μ := C34_leapfrog_volume volume h G hG keys hn hk n
  have h1 : (volume : Measure ℝ).IsNegInvariant := inferInstance
  have h2 : ∀ i, (volume : Measure (κ i → ℝ)).IsNegInvariant := fun i => inferInstance
  have h3 : (volume : Measure (Pos κ)).IsNegInvariant := Measure.pi.isNegInvariant _
  have hflip : MeasurePreserving (fun x : Pos κ × Pos κ => (x.1, -x.2)) μ μ :=
    (MeasurePreserving.id _).prod (Measure.measurePreserving_neg volume)
  have hT : MeasurePreserving T μ μ := hflip.comp hLm
  have hinv : ∀ x, T (T x) = x := by
    rintro ⟨z, r⟩
    have := C33_leapfrog_reversible h G keys hn hk n z r
    simp only [hTdef]
    rw [show L ((L (z, r)).1, -(L (z, r)).2) = (z, -r) from this]
    simp
  set π : Pos κ × Pos κ → ℝ≥0∞ := fun x => t x.1 * momentum x.2 with hπdef
  have hπ : Measurable π := (hm.comp measurable_fst).mul (measurable_momentum.comp measurable_snd)
  have hπfin : ∀ x, π x ≠ ∞ := fun x => ENNReal.mul_ne_top (ht _) (momentum_ne_top _)
  set m : B → B → Pos κ × Pos κ → ℝ≥0∞ := fun b b' x => min (π x) (c b' / c b * π (T x)) with hmdef
  have hmm : ∀ b b', Measurable (m b b') := fun b b' => hπ.min ((hπ.comp hT.measurable).const_mul _)
  have hmle : ∀ b b' x, m b b' x ≤ π x := fun b b' x => min_le_left _ _
  set f : Pos κ → ℝ≥0∞ := A.indicator 1 with hfdef
  have hf : Measurable f := measurable_one.indicator hA
  have hflow : ∀ b b' x, π x * acceptProb (redrawnRatio (fun z b => c b * t z) b b' x (L x)) = m b b' x := by
    intro b b' x
    have hTx : π (T x) = t (L x).1 * momentum (L x).2 := by simp only [hπdef, hTdef, momentum_neg]
    by_cases h0 : t x.1 = 0
    · simp [hmdef, hπdef, h0]
    · rw [redrawn_ratio t ht c hc0 hc1 b b' x (L x) h0, acceptProb_log, ← hTx]
      exact mul_min_one_div (mul_ne_zero h0 (momentum_ne_zero _)) (hπfin x)
  -- the expectation as an integral over positions and momenta
  set I : B → B → Pos κ × Pos κ → ℝ≥0∞ := fun b b' x => m b b' x * f (T x).1 + (π x - m b b' x) * f x.1 with hI
  have hIm : ∀ b b', Measurable (I b b') := fun b b' =>
    ((hmm b b').mul (hf.comp (measurable_fst.comp hT.measurable))).add ((hπ.sub (hmm b b')).mul (hf.comp measurable_fst))
  have hz : ∀ z, t z * redrawnExpect (fun z b => c b * t z) (fun _ => G) q h n keys f z =
      ∑ b, ∑ b', q b * q b' * ∫⁻ r, I b b' (z, r) := by
    intro z
    rw [redrawnExpect_eq t c q hq, Finset.mul_sum]
    refine Finset.sum_congr rfl fun b _ => ?_
    rw [Finset.mul_sum]
    refine Finset.sum_congr rfl fun b' _ => ?_
    rw [mul_left_comm]
    congr 1
    rw [← lintegral_const_mul' _ _ (ht z)]
    congr 1
    funext r
    simp only [hI]
    rw [← hflow b b' (z, r), show π (z, r) - π (z, r) * acceptProb (redrawnRatio (fun z b => c b * t z) b b' (z, r) (L (z, r))) =
      π (z, r) * (1 - acceptProb (redrawnRatio (fun z b => c b * t z) b b' (z, r) (L (z, r)))) by
        rw [ENNReal.mul_sub (fun _ _ => hπfin _), mul_one]]
    simp only [hπdef, hTdef, hL]
    ring
  have hint : ∀ b b', Measurable fun z => ∫⁻ r, I b b' (z, r) := fun b b' => (hIm b b').lintegral_prod_right'
  have hE : ∫⁻ z, t z * redrawnExpect (fun z b => c b * t z) (fun _ => G) q h n keys f z =
      ∑ b, ∑ b', q b * q b' * ∫⁻ x, I b b' x ∂μ := by
    simp_rw [hz]
    rw [lintegral_finsetSum _ fun b _ => Finset.measurable_sum _ fun b' _ => (hint b b').const_mul _]
    refine Finset.sum_congr rfl fun b _ => ?_
    rw [lintegral_finsetSum _ fun b' _ => (hint b b').const_mul _]
    refine Finset.sum_congr rfl fun b' _ => ?_
    rw [lintegral_const_mul _ (hint b b'), hμ, lintegral_prod _ (hIm b b').aemeasurable]
  -- integrals over `A`
  have hA' : MeasurableSet (Prod.fst ⁻¹' A : Set (Pos κ × Pos κ)) := measurable_fst hA
  have hset : ∀ g : Pos κ × Pos κ → ℝ≥0∞, ∫⁻ x in Prod.fst ⁻¹' A, g x ∂μ = ∫⁻ x, g x * f x.1 ∂μ := by
    intro g
    rw [← lintegral_indicator hA']
    congr 1
    funext x
    by_cases hx : x.1 ∈ A
    · rw [Set.indicator_of_mem (show x ∈ Prod.fst ⁻¹' A from hx), hfdef, Set.indicator_of_mem hx, Pi.one_apply, mul_one]
    · rw [Set.indicator_of_notMem (show x ∉ Prod.fst ⁻¹' A from hx), hfdef, Set.indicator_of_notMem hx, mul_zero]
  have hN : ∀ x, noisyFlow t c q T x = ∑ b, ∑ b', q b * q b' * m b b' x := fun x => rfl
  have hNint : ∀ S : Pos κ × Pos κ → Pos κ × Pos κ, Measurable S →
      ∫⁻ x in Prod.fst ⁻¹' A, noisyFlow t c q T (S x) ∂μ = ∑ b, ∑ b', q b * q b' * ∫⁻ x, m b b' (S x) * f x.1 ∂μ := by
    intro S hS
    have hmS : ∀ b b', Measurable fun x => m b b' (S x) := fun b b' => (hmm b b').comp hS
    simp_rw [hN]
    rw [lintegral_finsetSum _ fun b _ => Finset.measurable_sum _ fun b' _ => (hmS b b').const_mul _]
    refine Finset.sum_congr rfl fun b _ => ?_
    rw [lintegral_finsetSum _ fun b' _ => (hmS b b').const_mul _]
    refine Finset.sum_congr rfl fun b' _ => ?_
    rw [lintegral_const_mul _ (hmS b b'), hset]
  have hπfm : Measurable fun x : Pos κ × Pos κ => π x * f x.1 := hπ.mul (hf.comp measurable_fst)
  have hπf : ∫⁻ x, π x * f x.1 ∂μ = ∫⁻ z, t z * f z := by
    rw [hμ, lintegral_prod _ hπfm.aemeasurable]
    congr 1
    funext z
    simp only [hπdef]
    have : ∀ r, t z * momentum r * f z = t z * f z * momentum (κ := κ) r := fun r => by ring
    simp_rw [this]
    rw [lintegral_const_mul _ measurable_momentum, lintegral_momentum, mul_one]
  have hpt : ∀ b b', (∫⁻ x, I b b' x ∂μ) + ∫⁻ x, m b b' x * f x.1 ∂μ = (∫⁻ z, t z * f z) + ∫⁻ x, m b b' (T x) * f x.1 ∂μ := by
    intro b b'
    rw [← lintegral_add_left (hIm b b')]
    have e1 : ∀ x, I b b' x + m b b' x * f x.1 = π x * f x.1 + m b b' x * f (T x).1 := by
      intro x
      simp only [hI]
      rw [add_assoc, ← add_mul, tsub_add_cancel_of_le (hmle b b' x), add_comm]
    simp_rw [e1]
    rw [lintegral_add_left hπfm, hπf]
    congr 1
    have hmf : Measurable fun x => m b b' x * f (T x).1 := (hmm b b').mul (hf.comp (measurable_fst.comp hT.measurable))
    rw [← hT.lintegral_comp hmf]
    simp only [hinv]
  have hsum1 : ∀ a : ℝ≥0∞, ∑ b, ∑ b', q b * q b' * a = a := by
    intro a
    simp_rw [← Finset.sum_mul, ← Finset.mul_sum, hq, mul_one, hq, one_mul]
  have hid := hNint id measurable_id
  simp only [id] at hid
  rw [hE, hid, hNint T hT.measurable, ← hsum1 (∫⁻ z, t z * f z), ← Finset.sum_add_distrib, ← Finset.sum_add_distrib]
  refine Finset.sum_congr rfl fun b _ => ?_
  rw [← Finset.sum_add_distrib, ← Finset.sum_add_distrib]
  refine Finset.sum_congr rfl fun b' _ => ?_
  rw [← mul_add, ← mul_add, hpt]

/-- Standard normal posterior, up to a constant. -/
noncomputable def normalTarget (z : Pos κ) : ℝ := Real.exp (-kinetic z)

/-- One step of `leapfrog` changes the energy by a multiple of the change of the distance from the centre. -/
theorem leapfrog_energy (h : ℝ) (keys : List ι) (hn : keys.Nodup) (hk : ∀ i, i ∈ keys) (x : Pos κ × Pos κ) :
    kinetic (leapfrog h (fun z => -z) keys 1 x).1 + kinetic (leapfrog h (fun z => -z) keys 1 x).2 =
      kinetic x.1 + kinetic x.2 + h ^ 2 / 4 * (kinetic (leapfrog h (fun z => -z) keys 1 x).1 - kinetic x.1) := by
  rw [leapfrog_eq h _ keys hn hk]
  simp only [Function.iterate_one, lfStep, kinetic]
  simp only [← Finset.mul_sum, ← mul_add, ← mul_sub, ← Finset.sum_add_distrib, ← Finset.sum_sub_distrib, mul_left_comm (h ^ 2 / 4)]
  congr 1
  rw [Finset.mul_sum, ← Finset.sum_add_distrib]
  refine Finset.sum_congr rfl fun i _ => ?_
  rw [Finset.mul_sum, ← Finset.sum_add_distrib]
  refine Finset.sum_congr rfl fun j _ => ?_
  simp only [Pi.add_apply, Pi.smul_apply, Pi.neg_apply, smul_eq_mul]
  ring

omit [DecidableEq ι] in
theorem continuous_kinetic : Continuous (kinetic (κ := κ)) := by
  unfold kinetic
  fun_prop

/-- C143, HMC: for a standard normal posterior with an independent `beta` one update makes every ball around the mean less likely, so
that the posterior is not preserved. -/
theorem C143_hmc_invariant_fails (i₀ : ι) (j₀ : κ i₀) (c q : B → ℝ) (hc : ∀ b, 0 < c b) (hq : ∀ b, 0 < q b) (hq1 : ∑ b, q b = 1)
    (hne : ∃ b b', c b ≠ c b') (h : ℝ) (hh : 0 < h) (keys : List ι) (hn : keys.Nodup) (hk : ∀ i, i ∈ keys) (δ : ℝ) (hδ : 0 < δ) :
    ∫⁻ z, ENNReal.ofReal (normalTarget z) * redrawnExpect (fun z b => ENNReal.ofReal (c b) * ENNReal.ofReal (normalTarget z))
        (fun _ z => -z) (fun b => ENNReal.ofReal (q b)) h 1 keys ({z : Pos κ | kinetic z < δ}.indicator 1) z <
      ∫⁻ z, ENNReal.ofReal (normalTarget z) * {z : Pos κ | kinetic z < δ}.indicator 1 z := by
  set A : Set (Pos κ) := {z | kinetic z < δ} with hAdef
  have hA : MeasurableSet A := (isOpen_lt continuous_kinetic continuous_const).measurableSet
  set t : Pos κ → ℝ≥0∞ := fun z => ENNReal.ofReal (normalTarget z) with htdef
  have hcont : Continuous (normalTarget (κ := κ)) := Real.continuous_exp.comp continuous_kinetic.neg
  have htm : Measurable t := ENNReal.measurable_ofReal.comp hcont.measurable
  have htf : ∀ z, t z ≠ ∞ := fun z => ENNReal.ofReal_ne_top
  obtain ⟨C, hC, hmom⟩ := momentum_eq (κ := κ)
  have htC : ∀ z, t z = ENNReal.ofReal C⁻¹ * momentum z := by
    intro z
    rw [hmom, ← ENNReal.ofReal_mul (by positivity), htdef]
    simp only [normalTarget]
    rw [inv_mul_cancel_left₀ hC.ne']
  have htI : ∫⁻ z, t z ≠ ∞ := by
    simp_rw [htC]
    rw [lintegral_const_mul _ measurable_momentum, lintegral_momentum, mul_one]
    exact ENNReal.ofReal_ne_top
  have hqE : ∑ b, ENNReal.ofReal (q b) = 1 := by
    rw [← ENNReal.ofReal_sum_of_nonneg fun b _ => (hq b).le, hq1, ENNReal.ofReal_one]
  have hbal := redrawn_balance t htm htf (fun b => ENNReal.ofReal (c b)) (fun b => ENNReal.ofReal (q b)) (fun b => by simp [hc b])
    (fun _ => ENNReal.ofReal_ne_top) hqE (fun z => -z) measurable_neg h 1 keys hn hk A hA
  set L : Pos κ × Pos κ → Pos κ × Pos κ := leapfrog h (fun z => -z) keys 1 with hL
  set T : Pos κ × Pos κ → Pos κ × Pos κ := fun x => ((L x).1, -(L x).2) with hTdef
  set μ : Measure (Pos κ × Pos κ) := volume.prod volume with hμ
  set N := noisyFlow t (fun b => ENNReal.ofReal (c b)) (fun b => ENNReal.ofReal (q b)) T with hN
  have hLm : MeasurePreserving L μ μ := C34_leapfrog_volume volume h (fun z : Pos κ => -z) measurable_neg keys hn hk 1
  have h1 : (volume : Measure ℝ).IsNegInvariant := inferInstance
  have h2 : ∀ i, (volume : Measure (κ i → ℝ)).IsNegInvariant := fun i => inferInstance
  have h3 : (volume : Measure (Pos κ)).IsNegInvariant := Measure.pi.isNegInvariant _
  have hflip : MeasurePreserving (fun x : Pos κ × Pos κ => (x.1, -x.2)) μ μ :=
    (MeasurePreserving.id _).prod (Measure.measurePreserving_neg volume)
  have hT : MeasurePreserving T μ μ := hflip.comp hLm
  have hinv : ∀ x, T (T x) = x := by
    rintro ⟨z, r⟩
    have := C33_leapfrog_reversible h (fun z : Pos κ => -z) keys hn hk 1 z r
    simp only [hTdef]
    rw [show L ((L (z, r)).1, -(L (z, r)).2) = (z, -r) from this]
    simp
  set P : Pos κ × Pos κ → ℝ := fun x => C * Real.exp (-(kinetic x.1 + kinetic x.2)) with hP
  have hPpos : ∀ x, 0 < P x := fun x => mul_pos hC (Real.exp_pos _)
  have hπ : ∀ x, t x.1 * momentum x.2 = ENNReal.ofReal (P x) := by
    intro x
    rw [hmom, htdef]
    simp only [normalTarget]
    rw [← ENNReal.ofReal_mul (Real.exp_pos _).le]
    congr 1
    simp only [hP]
    rw [neg_add, Real.exp_add]
    ring
  have hNr : ∀ x, N x = ENNReal.ofReal (∑ b, ∑ b', q b * q b' * min (P x) (c b' / c b * P (T x))) := by
    intro x
    have hnn : ∀ b b', 0 ≤ q b * q b' * min (P x) (c b' / c b * P (T x)) := fun b b' =>
      mul_nonneg (mul_pos (hq b) (hq b')).le (le_min (hPpos x).le (mul_pos (div_pos (hc b') (hc b)) (hPpos _)).le)
    rw [ENNReal.ofReal_sum_of_nonneg fun b _ => Finset.sum_nonneg fun b' _ => hnn b b']
    simp only [hN, noisyFlow]
    refine Finset.sum_congr rfl fun b _ => ?_
    rw [ENNReal.ofReal_sum_of_nonneg fun b' _ => hnn b b']
    refine Finset.sum_congr rfl fun b' _ => ?_
    rw [hπ, hπ, ← ENNReal.ofReal_div_of_pos (hc b), ← ENNReal.ofReal_mul (div_pos (hc b') (hc b)).le, ← ENNReal.ofReal_min,
      ← ENNReal.ofReal_mul (hq b).le, ← ENNReal.ofReal_mul (mul_pos (hq b) (hq b')).le]
  have hNm : Measurable N := by
    have hπm : Measurable fun x : Pos κ × Pos κ => t x.1 * momentum x.2 :=
      (htm.comp measurable_fst).mul (measurable_momentum.comp measurable_snd)
    simp only [hN]
    unfold noisyFlow
    exact Finset.measurable_sum _ fun b _ => Finset.measurable_sum _ fun b' _ =>
      (hπm.min ((hπm.comp hT.measurable).const_mul _)).const_mul _
  have hNle : ∀ x, N x ≤ t x.1 * momentum x.2 := by
    intro x
    simp only [hN, noisyFlow]
    calc _ ≤ ∑ b, ∑ b', ENNReal.ofReal (q b) * ENNReal.ofReal (q b') * (t x.1 * momentum x.2) :=
          Finset.sum_le_sum fun b _ => Finset.sum_le_sum fun b' _ => mul_le_mul_right (min_le_left _ _) _
      _ = _ := by simp_rw [← Finset.sum_mul, ← Finset.mul_sum, hqE, mul_one, hqE, one_mul]
  have hNfin : ∫⁻ x, N x ∂μ ≠ ∞ := by
    refine ne_top_of_le_ne_top htI ?_
    calc _ ≤ ∫⁻ x, t x.1 * momentum x.2 ∂μ := lintegral_mono hNle
      _ = ∫⁻ z, t z := by
        have hπm : Measurable fun x : Pos κ × Pos κ => t x.1 * momentum x.2 :=
          (htm.comp measurable_fst).mul (measurable_momentum.comp measurable_snd)
        rw [hμ, lintegral_prod _ hπm.aemeasurable]
        congr 1
        funext z
        show ∫⁻ r : Pos κ, t z * momentum r = t z
        rw [lintegral_const_mul _ measurable_momentum, lintegral_momentum, mul_one]
  have hkneg : ∀ r : Pos κ, kinetic (-r) = kinetic r := by intro r; simp [kinetic]
  have hout : ∀ x ∈ (Prod.fst ⁻¹' A : Set (Pos κ × Pos κ)), T x ∉ (Prod.fst ⁻¹' A : Set (Pos κ × Pos κ)) → N (T x) < N x := by
    intro x hx hTx
    have hx' : kinetic x.1 < δ := hx
    have hTx' : δ ≤ kinetic (L x).1 := not_lt.mp hTx
    have hen := leapfrog_energy h keys hn hk x
    rw [← hL] at hen
    have hgt : kinetic x.1 + kinetic x.2 < kinetic (T x).1 + kinetic (T x).2 := by
      simp only [hTdef, hkneg]
      rw [hen]
      have : 0 < h ^ 2 / 4 * (kinetic (L x).1 - kinetic x.1) := mul_pos (by positivity) (by linarith)
      linarith
    have hlt : P (T x) < P x := mul_lt_mul_of_pos_left (Real.exp_lt_exp.mpr (neg_lt_neg hgt)) hC
    rw [hNr, hNr, hinv]
    have key := noisy_flow q c hq hc hne (hPpos (T x)) hlt
    refine (ENNReal.ofReal_lt_ofReal_iff (lt_of_le_of_lt ?_ key)).mpr key
    exact Finset.sum_nonneg fun b _ => Finset.sum_nonneg fun b' _ => mul_nonneg (mul_pos (hq b) (hq b')).le
      (le_min (hPpos _).le (mul_pos (div_pos (hc b') (hc b)) (hPpos _)).le)
  have hpos : μ (Prod.fst ⁻¹' A \ T ⁻¹' (Prod.fst ⁻¹' A)) ≠ 0 := by
    have hLc : Continuous fun x : Pos κ × Pos κ => (L x).1 := by
      have : (fun x : Pos κ × Pos κ => (L x).1) = fun x => x.1 + h • (x.2 + (0.5 * h : ℝ) • (-x.1)) := by
        funext x
        rw [hL, leapfrog_eq h _ keys hn hk]
        rfl
      rw [this]
      fun_prop
    have hopen : IsOpen {x : Pos κ × Pos κ | kinetic x.1 < δ ∧ δ < kinetic (L x).1} :=
      (isOpen_lt (continuous_kinetic.comp continuous_fst) continuous_const).inter
        (isOpen_lt continuous_const (continuous_kinetic.comp hLc))
    have hnon : {x : Pos κ × Pos κ | kinetic x.1 < δ ∧ δ < kinetic (L x).1}.Nonempty := by
      refine ⟨(0, fun _ _ => (2 * δ + 1) / h), ?_, ?_⟩
      · simpa [kinetic] using hδ
      · have e : (L (0, fun _ _ => (2 * δ + 1) / h)).1 = fun _ _ => 2 * δ + 1 := by
          rw [hL, leapfrog_eq h _ keys hn hk]
          funext i j
          simp only [Function.iterate_one, lfStep, neg_zero, smul_zero, add_zero, zero_add, Pi.smul_apply, smul_eq_mul]
          field_simp
        show δ < kinetic (L (0, fun _ _ => (2 * δ + 1) / h)).1
        rw [e]
        have h0 : (0.5 : ℝ) * ∑ _j : κ i₀, (2 * δ + 1) ^ 2 ≤ kinetic (κ := κ) fun _ _ => 2 * δ + 1 := by
          unfold kinetic
          exact Finset.single_le_sum (f := fun i => (0.5 : ℝ) * ∑ _j : κ i, (2 * δ + 1) ^ 2)
            (fun i _ => mul_nonneg (by norm_num) (Finset.sum_nonneg fun _ _ => sq_nonneg _)) (Finset.mem_univ i₀)
        have h1' : (2 * δ + 1) ^ 2 ≤ ∑ _j : κ i₀, (2 * δ + 1) ^ 2 :=
          Finset.single_le_sum (f := fun _ : κ i₀ => (2 * δ + 1) ^ 2) (fun _ _ => sq_nonneg _) (Finset.mem_univ j₀)
        nlinarith
    have hp := hopen.measure_pos μ hnon
    refine (lt_of_lt_of_le hp (measure_mono ?_)).ne'
    intro x hx
    exact ⟨hx.1, fun hx' => lt_asymm hx.2 hx'⟩
  have hflow := outflow μ T hT hinv N hNm hNfin (Prod.fst ⁻¹' A) (measurable_fst hA) hout hpos
  have hAfin : ∫⁻ z, t z * A.indicator 1 z ≠ ∞ := by
    refine ne_top_of_le_ne_top htI (lintegral_mono fun z => ?_)
    by_cases hz : z ∈ A <;> simp [hz]
  by_contra hcon
  rw [not_lt] at hcon
  have hlt2 := ENNReal.add_lt_add_left hAfin hflow
  exact absurd hbal (ne_of_gt (lt_of_lt_of_le hlt2 (add_le_add_left hcon _)))

end

example : ∃ c q : Bool → ℝ, (∀ b, 0 < c b) ∧ (∀ b, 0 < q b) ∧ ∑ b, q b = 1 ∧ ∃ b b', c b ≠ c b' :=
  ⟨fun b => if b then 2 else 1, fun _ => 1 / 2, fun b => by cases b <;> norm_num, fun _ => by norm_num, by norm_num,
    true, false, by norm_num⟩

end Edward
