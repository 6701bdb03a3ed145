/-
Property C116: enough Gibbs samples approximate the posterior marginals, not the joint.
-/
import Verif.Lemmas.Ergodic
import Verif.Lemmas.Draws
import Verif.Model.GibbsChain
import Verif.Model.Convergence
import Verif.Props.Gibbs
import Verif.Props.MonteCarlo

set_option linter.unusedSectionVars false

namespace Edward

open MeasureTheory ProbabilityTheory ENNReal Filter Topology

section
variable {ι E T P : Type} [DecidableEq ι] {X : ι → Type} [∀ i, MeasurableSpace (X i)]
  [MeasurableSpace E] [MeasurableSpace T] [MeasurableSpace P]

/-! ### The program on a stream of random numbers -/

/-- The sampling ops of the conditionals draw from the densities `q`. -/
structure GibbsSamples (μ : ∀ i, Measure (X i)) (q : ∀ i, (∀ i, X i) → X i → ℝ≥0∞) (ν : Measure E)
    (samp : (i : ι) → (∀ i, X i) → E → X i) : Prop where
  meas : ∀ i, Measurable (fun a : (∀ i, X i) × E => samp i a.1 a.2)
  law : ∀ i z, ν.map (samp i z) = (μ i).withDensity (q i z)

/-- The stream after the first number. -/
theorem measurable_tail : Measurable (fun (w : ℕ → E) (n : ℕ) => w (n + 1)) :=
  measurable_pi_lambda _ fun n => measurable_pi_apply (n + 1)

theorem measurable_scan {samp : (i : ι) → (∀ i, X i) → E → X i} (hs : ∀ i, Measurable (fun a : (∀ i, X i) × E => samp i a.1 a.2))
    {k : ((∀ i, X i) × P) × (ℕ → E) → T} (hk : Measurable k) (l : List ι) :
    Measurable (fun a : ((∀ i, X i) × P) × (ℕ → E) =>
      gibbsScan (drawFrom samp) (l.map .single) a.1.1 (fun z w => k ((z, a.1.2), w)) a.2) := by
  induction l with
  | nil => exact hk
  | cons i l ih =>
    have hx : Measurable (fun a : ((∀ i, X i) × P) × (ℕ → E) => samp i a.1.1 (a.2 0)) :=
      (hs i).comp ((measurable_fst.comp measurable_fst).prodMk ((measurable_pi_apply 0).comp measurable_snd))
    have hu : Measurable (fun a : ((∀ i, X i) × P) × (ℕ → E) => Function.update a.1.1 i (samp i a.1.1 (a.2 0))) :=
      (measurable_update_pi i).comp ((measurable_fst.comp measurable_fst).prodMk hx)
    exact ih.comp ((hu.prodMk (measurable_snd.comp measurable_fst)).prodMk (measurable_tail.comp measurable_snd))

theorem measurable_block {samp : (i : ι) → (∀ i, X i) → E → X i} (hs : ∀ i, Measurable (fun a : (∀ i, X i) × E => samp i a.1 a.2))
    {k : (((∀ i, X i) × (∀ i, X i)) × P) × (ℕ → E) → T} (hk : Measurable k) (l : List ι) :
    Measurable (fun a : (((∀ i, X i) × (∀ i, X i)) × P) × (ℕ → E) =>
      gibbsBlock (drawFrom samp) a.1.1.1 l a.1.1.2 (fun r w => k (((a.1.1.1, r), a.1.2), w)) a.2) := by
  induction l with
  | nil => exact hk
  | cons i l ih =>
    have hz : Measurable (fun a : (((∀ i, X i) × (∀ i, X i)) × P) × (ℕ → E) => a.1.1.1) :=
      measurable_fst.comp (measurable_fst.comp measurable_fst)
    have hr : Measurable (fun a : (((∀ i, X i) × (∀ i, X i)) × P) × (ℕ → E) => a.1.1.2) :=
      measurable_snd.comp (measurable_fst.comp measurable_fst)
    have hx : Measurable (fun a : (((∀ i, X i) × (∀ i, X i)) × P) × (ℕ → E) => samp i a.1.1.1 (a.2 0)) :=
      (hs i).comp (hz.prodMk ((measurable_pi_apply 0).comp measurable_snd))
    have hu : Measurable (fun a : (((∀ i, X i) × (∀ i, X i)) × P) × (ℕ → E) => Function.update a.1.1.2 i (samp i a.1.1.1 (a.2 0))) :=
      (measurable_update_pi i).comp (hr.prodMk hx)
    exact ih.comp (((hz.prodMk hu).prodMk (measurable_snd.comp measurable_fst)).prodMk (measurable_tail.comp measurable_snd))

omit [∀ i, MeasurableSpace (X i)] [MeasurableSpace E] in
/-- A function of the outcome of a scan. -/
theorem map_scan {R R' : Type} (samp : (i : ι) → (∀ i, X i) → E → X i) (F : R → R') (l : List (ScanEntry ι)) :
    ∀ (z : ∀ i, X i) (k : (∀ i, X i) → (ℕ → E) → R) (w : ℕ → E),
      F (gibbsScan (drawFrom samp) l z k w) = gibbsScan (drawFrom samp) l z (fun z w => F (k z w)) w := by
  have hb : ∀ (is : List ι) (z0 z : ∀ i, X i) (k : (∀ i, X i) → (ℕ → E) → R) (w : ℕ → E),
      F (gibbsBlock (drawFrom samp) z0 is z k w) = gibbsBlock (drawFrom samp) z0 is z (fun z w => F (k z w)) w := by
    intro is
    induction is with
    | nil => intro _ _ _ _; rfl
    | cons i is ih => intro z0 z k w; exact ih _ _ _ _
  induction l with
  | nil => intro _ _ _; rfl
  | cons e l ih =>
    intro z k w
    cases e with
    | single i => exact ih _ _ _
    | block is =>
      simp only [gibbsScan]
      rw [hb]
      exact congrArg (fun k => gibbsBlock (drawFrom samp) z is z k w) (funext fun z => funext fun w => ih _ _ _)

omit [∀ i, MeasurableSpace (X i)] [MeasurableSpace E] in
theorem map_block {R R' : Type} (samp : (i : ι) → (∀ i, X i) → E → X i) (F : R → R') (is : List ι) :
    ∀ (z0 z : ∀ i, X i) (k : (∀ i, X i) → (ℕ → E) → R) (w : ℕ → E),
      F (gibbsBlock (drawFrom samp) z0 is z k w) = gibbsBlock (drawFrom samp) z0 is z (fun z w => F (k z w)) w := by
  induction is with
  | nil => intro _ _ _ _; rfl
  | cons i is ih => intro z0 z k w; exact ih _ _ _ _

variable {μ : ∀ i, Measure (X i)} {q : ∀ i, (∀ i, X i) → X i → ℝ≥0∞} {ν : Measure E} [IsProbabilityMeasure ν]
  {samp : (i : ι) → (∀ i, X i) → E → X i}

/-- The stream's law. -/
noncomputable abbrev streamLaw (ν : Measure E) [IsProbabilityMeasure ν] : Measure (ℕ → E) := Measure.infinitePi (fun _ : ℕ => ν)

omit [DecidableEq ι] [IsProbabilityMeasure ν] in
theorem lintegral_samp (hs : GibbsSamples μ q ν samp) (hq : ∀ i, Measurable (fun a : (∀ i, X i) × X i => q i a.1 a.2)) (i : ι) (z : ∀ i, X i)
    {g : X i → ℝ≥0∞} (hg : Measurable g) : ∫⁻ e, g (samp i z e) ∂ν = drawExpect μ q i z g := by
  have hm : Measurable (samp i z) := (hs.meas i).comp (measurable_const.prodMk measurable_id)
  have hqz : Measurable (q i z) := (hq i).comp (measurable_const.prodMk measurable_id)
  rw [← lintegral_map hg hm, hs.law i z, lintegral_withDensity_eq_lintegral_mul _ hqz hg]
  rfl

/-- Averaging the scan over the random numbers gives the scan in expectation. -/
theorem lintegral_scan [∀ i, SFinite (μ i)] (hs : GibbsSamples μ q ν samp) (hq : ∀ i, Measurable (fun a : (∀ i, X i) × X i => q i a.1 a.2))
    {k : (∀ i, X i) × (ℕ → E) → ℝ≥0∞} (hk : Measurable k) (l : List ι) (z : ∀ i, X i) :
    ∫⁻ w, gibbsScan (drawFrom samp) (l.map .single) z (fun z w => k (z, w)) w ∂streamLaw ν =
      gibbsScan (drawExpect μ q) (l.map .single) z (fun z => ∫⁻ w, k (z, w) ∂streamLaw ν) := by
  induction l generalizing z with
  | nil => rfl
  | cons i l ih =>
    have hsc : Measurable (fun a : (∀ i, X i) × (ℕ → E) => gibbsScan (drawFrom samp) (l.map .single) a.1 (fun z w => k (z, w)) a.2) := by
      have := measurable_scan (P := Unit) hs.meas (k := fun a => k (a.1.1, a.2))
        (hk.comp ((measurable_fst.comp measurable_fst).prodMk measurable_snd)) l
      exact this.comp ((measurable_fst.prodMk (measurable_const (a := ()))).prodMk measurable_snd)
    have hu : Measurable (fun e : E => Function.update z i (samp i z e)) :=
      (measurable_update_pi i).comp (measurable_const.prodMk ((hs.meas i).comp (measurable_const.prodMk measurable_id)))
    have h1 := lintegral_head_tail ν (g := fun a : E × (ℕ → E) =>
      gibbsScan (drawFrom samp) (l.map .single) (Function.update z i (samp i z a.1)) (fun z w => k (z, w)) a.2)
      (hsc.comp ((hu.comp measurable_fst).prodMk measurable_snd))
    simp only [List.map_cons, gibbsScan]
    refine h1.trans ?_
    simp only [ih]
    have hg : Measurable (fun x : X i => gibbsScan (drawExpect μ q) (l.map .single) (Function.update z i x) (fun z => ∫⁻ w, k (z, w) ∂streamLaw ν)) :=
      (measurable_gibbsScan hq l _ hk.lintegral_prod_right').comp ((measurable_update_pi i).comp (measurable_const.prodMk measurable_id))
    exact lintegral_samp hs hq i z hg

theorem measurable_blockExpect [∀ i, SFinite (μ i)] (hq : ∀ i, Measurable (fun a : (∀ i, X i) × X i => q i a.1 a.2))
    {k : (∀ i, X i) × (∀ i, X i) → ℝ≥0∞} (hk : Measurable k) (l : List ι) :
    Measurable (fun a : (∀ i, X i) × (∀ i, X i) => gibbsBlock (drawExpect μ q) a.1 l a.2 (fun r => k (a.1, r))) := by
  induction l with
  | nil => exact hk
  | cons i l ih =>
    simp only [gibbsBlock, drawExpect]
    have h1 : Measurable (fun b : ((∀ i, X i) × (∀ i, X i)) × X i => q i b.1.1 b.2) :=
      (hq i).comp ((measurable_fst.comp measurable_fst).prodMk measurable_snd)
    have h2 : Measurable (fun b : ((∀ i, X i) × (∀ i, X i)) × X i => (b.1.1, Function.update b.1.2 i b.2)) :=
      (measurable_fst.comp measurable_fst).prodMk
        ((measurable_update_pi i).comp ((measurable_snd.comp measurable_fst).prodMk measurable_snd))
    exact Measurable.lintegral_prod_right' (f := fun b : ((∀ i, X i) × (∀ i, X i)) × X i => q i b.1.1 b.2 *
      gibbsBlock (drawExpect μ q) b.1.1 l (Function.update b.1.2 i b.2) (fun r => k (b.1.1, r))) (h1.mul (ih.comp h2))

theorem lintegral_block [∀ i, SFinite (μ i)] (hs : GibbsSamples μ q ν samp) (hq : ∀ i, Measurable (fun a : (∀ i, X i) × X i => q i a.1 a.2))
    {k : (∀ i, X i) → ℝ≥0∞} (hk : Measurable k) (l : List ι) (z row : ∀ i, X i) :
    ∫⁻ w, gibbsBlock (drawFrom samp) z l row (fun r _ => k r) w ∂streamLaw ν = gibbsBlock (drawExpect μ q) z l row k := by
  induction l generalizing row with
  | nil => simp [gibbsBlock]
  | cons i l ih =>
    have hb : Measurable (fun a : (∀ i, X i) × (ℕ → E) => gibbsBlock (drawFrom samp) z l a.1 (fun r _ => k r) a.2) := by
      have := measurable_block (P := Unit) hs.meas (k := fun a => k a.1.1.2)
        (hk.comp (measurable_snd.comp (measurable_fst.comp measurable_fst))) l
      exact this.comp (((measurable_const.prodMk measurable_fst).prodMk (measurable_const (a := ()))).prodMk measurable_snd)
    have hu : Measurable (fun e : E => Function.update row i (samp i z e)) :=
      (measurable_update_pi i).comp (measurable_const.prodMk ((hs.meas i).comp (measurable_const.prodMk measurable_id)))
    have h1 := lintegral_head_tail ν (g := fun a : E × (ℕ → E) =>
      gibbsBlock (drawFrom samp) z l (Function.update row i (samp i z a.1)) (fun r _ => k r) a.2)
      (hb.comp ((hu.comp measurable_fst).prodMk measurable_snd))
    simp only [gibbsBlock]
    refine h1.trans ?_
    simp only [ih]
    have hg : Measurable (fun x : X i => gibbsBlock (drawExpect μ q) z l (Function.update row i x) k) := by
      have := measurable_blockExpect (μ := μ) hq (k := fun a => k a.2) (hk.comp measurable_snd) l
      exact this.comp (measurable_const.prodMk ((measurable_update_pi i).comp (measurable_const.prodMk measurable_id)))
    exact lintegral_samp hs hq i z hg

/-! ### Specification -/

/-- The posterior: the joint density normalised. -/
noncomputable def gibbsPosterior [Fintype ι] (μ : ∀ i, Measure (X i)) (p : (∀ i, X i) → ℝ≥0∞) : Measure (∀ i, X i) :=
  (∫⁻ z, p z ∂Measure.pi μ)⁻¹ • (Measure.pi μ).withDensity p

/-- Law of a state and a row stored from it, when the state follows the posterior. -/
noncomputable def storedLaw [Fintype ι] (μ : ∀ i, Measure (X i)) (p : (∀ i, X i) → ℝ≥0∞) (ν : Measure E) [IsProbabilityMeasure ν]
    (samp : (i : ι) → (∀ i, X i) → E → X i) (keys : List ι) : Measure ((∀ i, X i) × (∀ i, X i)) :=
  ((gibbsPosterior μ p).prod (streamLaw ν)).map (fun a => (a.1, gibbsBlock (drawFrom samp) a.1 keys a.1 (fun r _ => r) a.2))

variable {O Ω : Type} [MeasurableSpace O] [MeasurableSpace Ω]

/-- What is assumed: `q` are the complete conditionals of a proper, bounded joint density
and are bounded below; the scan visits every variable; every latent variable is stored;
fresh draws in every update. -/
structure GibbsSetup [Fintype ι] (μ : ∀ i, Measure (X i)) (p : (∀ i, X i) → ℝ≥0∞) (q : ∀ i, (∀ i, X i) → X i → ℝ≥0∞) (ν : Measure E)
    [IsProbabilityMeasure ν] (samp : (i : ι) → (∀ i, X i) → E → X i) (ω : Measure O) (order : O → List ι) (keys : List ι)
    (Pr : Measure Ω) (d : ℕ → Ω → O × (ℕ → E)) : Prop where
  meas : Measurable p
  cond : ∀ i, IsConditional μ p q i
  samples : GibbsSamples μ q ν samp
  evidence_pos : ∫⁻ z, p z ∂Measure.pi μ ≠ 0
  evidence_fin : ∫⁻ z, p z ∂Measure.pi μ ≠ ∞
  bounded : ∃ B : ℝ≥0∞, B ≠ ∞ ∧ ∀ z, p z ≤ B
  below : ∃ δ : ℝ≥0∞, δ ≠ 0 ∧ ∀ i z x, δ ≤ q i z x
  covers : ∀ o i, i ∈ order o
  stored : ∀ i, i ∈ keys
  nodup : keys.Nodup
  draws_meas : ∀ i, Measurable (d i)
  draws_law : ∀ i, Pr.map (d i) = ω.prod (streamLaw ν)
  draws_indep : iIndepFun d Pr

/-- The update, as a step of the chain. -/
def gibbsStep (samp : (i : ι) → (∀ i, X i) → E → X i) (order : O → List ι) (keys : List ι) :
    (∀ i, X i) × (∀ i, X i) → O × (ℕ → E) → (∀ i, X i) × (∀ i, X i) :=
  gibbsMove samp (fun o => (order o).map .single) keys

/-! ### Mixing -/

theorem lintegral_posterior [Fintype ι] {p : (∀ i, X i) → ℝ≥0∞} (hp : Measurable p) {g : (∀ i, X i) → ℝ≥0∞} (hg : Measurable g) :
    ∫⁻ z, g z ∂gibbsPosterior μ p = (∫⁻ z, p z ∂Measure.pi μ)⁻¹ * ∫⁻ z, p z * g z ∂Measure.pi μ := by
  unfold gibbsPosterior
  rw [lintegral_smul_measure, lintegral_withDensity_eq_lintegral_mul _ hp hg]
  rfl

theorem measurable_gibbsStep [Countable O] [MeasurableSingletonClass O] (hs : ∀ i, Measurable (fun a : (∀ i, X i) × E => samp i a.1 a.2))
    (order : O → List ι) (keys : List ι) :
    Measurable (fun a : ((∀ i, X i) × (∀ i, X i)) × (O × (ℕ → E)) => gibbsStep samp order keys a.1 a.2) := by
  have h : ∀ o, Measurable (fun a : ((∀ i, X i) × (∀ i, X i)) × (ℕ → E) => gibbsStep samp order keys a.1 (o, a.2)) := by
    intro o
    have hb := measurable_block (P := Unit) hs (T := (∀ i, X i) × (∀ i, X i)) (k := fun a => a.1.1) (measurable_fst.comp measurable_fst) keys
    have hb' : Measurable (fun a : ((∀ i, X i) × (∀ i, X i)) × (ℕ → E) =>
        gibbsBlock (drawFrom samp) a.1.1 keys a.1.2 (fun r _ => (a.1.1, r)) a.2) :=
      hb.comp ((measurable_fst.prodMk (measurable_const (a := ()))).prodMk measurable_snd)
    exact measurable_scan (P := ∀ i, X i) hs hb' (order o)
  have h2 : Measurable (fun a : O × (((∀ i, X i) × (∀ i, X i)) × (ℕ → E)) => gibbsStep samp order keys a.2.1 (a.1, a.2.2)) :=
    measurable_from_prod_countable_right h
  exact h2.comp ((measurable_fst.comp measurable_snd).prodMk (measurable_fst.prodMk (measurable_snd.comp measurable_snd)))

omit [∀ i, MeasurableSpace (X i)] [MeasurableSpace E] in
/-- With all entries drawn, the previous content of the row does not matter. -/
theorem gibbsBlock_overwrites {R : Type} (draw : (i : ι) → (∀ i, X i) → (X i → R) → R) (z0 : ∀ i, X i) (l : List ι) (k : (∀ i, X i) → R) :
    ∀ row row' : ∀ i, X i, (∀ i, i ∉ l → row i = row' i) → gibbsBlock draw z0 l row k = gibbsBlock draw z0 l row' k := by
  induction l with
  | nil =>
    intro row row' h
    rw [show row = row' from funext fun i => h i (by simp)]
  | cons i l ih =>
    intro row row' h
    simp only [gibbsBlock]
    congr 1
    funext x
    refine ih _ _ fun j hj => ?_
    by_cases hji : j = i
    · subst hji; simp
    · rw [Function.update_of_ne hji, Function.update_of_ne hji]
      exact h j (by simp [hji, hj])

/-- Expectation of a function of the state and the row stored from it. -/
noncomputable def storeExpect (μ : ∀ i, Measure (X i)) (q : ∀ i, (∀ i, X i) → X i → ℝ≥0∞) (keys : List ι)
    (F : (∀ i, X i) × (∀ i, X i) → ℝ≥0∞) (z : ∀ i, X i) : ℝ≥0∞ :=
  gibbsBlock (drawExpect μ q) z keys z (fun r => F (z, r))

theorem measurable_storeExpect [∀ i, SFinite (μ i)] (hq : ∀ i, Measurable (fun a : (∀ i, X i) × X i => q i a.1 a.2)) (keys : List ι)
    {F : (∀ i, X i) × (∀ i, X i) → ℝ≥0∞} (hF : Measurable F) : Measurable (storeExpect μ q keys F) :=
  (measurable_blockExpect hq hF keys).comp (measurable_id.prodMk measurable_id)

theorem lintegral_gibbsStep [∀ i, SFinite (μ i)] [Fintype O] [MeasurableSingletonClass O] (hs : GibbsSamples μ q ν samp)
    (hq : ∀ i, Measurable (fun a : (∀ i, X i) × X i => q i a.1 a.2)) (ω : Measure O) [IsProbabilityMeasure ω] (order : O → List ι) (keys : List ι)
    (hk : ∀ i, i ∈ keys) {F : (∀ i, X i) × (∀ i, X i) → ℝ≥0∞} (hF : Measurable F) (s : (∀ i, X i) × (∀ i, X i)) :
    ∫⁻ a, F (gibbsStep samp order keys s a) ∂(ω.prod (streamLaw ν)) =
      ∑ o, gibbsScan (drawExpect μ q) ((order o).map .single) s.1 (storeExpect μ q keys F) * ω {o} := by
  have hm := measurable_gibbsStep hs.meas order keys
  have hG : Measurable (fun a => F (gibbsStep samp order keys s a)) := hF.comp (hm.comp (measurable_const.prodMk measurable_id))
  rw [lintegral_prod _ hG.aemeasurable, lintegral_fintype]
  refine Finset.sum_congr rfl fun o _ => ?_
  congr 1
  have e : ∀ w, F (gibbsStep samp order keys s (o, w)) = gibbsScan (drawFrom samp) ((order o).map .single) s.1
      (fun z' w => gibbsBlock (drawFrom samp) z' keys s.2 (fun r _ => F (z', r)) w) w := by
    intro w
    unfold gibbsStep gibbsMove gibbsUpdate
    refine (map_scan samp F _ _ _ _).trans ?_
    exact congrArg (fun k => gibbsScan (drawFrom samp) ((order o).map .single) s.1 k w) (funext fun z => funext fun w => map_block _ _ _ _ _ _ _)
  simp only [e]
  have hb : Measurable (fun a : (∀ i, X i) × (ℕ → E) => gibbsBlock (drawFrom samp) a.1 keys s.2 (fun r _ => F (a.1, r)) a.2) := by
    have := measurable_block (P := Unit) hs.meas (k := fun a => F a.1.1) (hF.comp (measurable_fst.comp measurable_fst)) keys
    exact this.comp (((measurable_fst.prodMk measurable_const).prodMk (measurable_const (a := ()))).prodMk measurable_snd)
  refine (lintegral_scan hs hq hb (order o) s.1).trans ?_
  congr 1
  funext z
  refine (lintegral_block hs hq (k := fun r => F (z, r)) (hF.comp (measurable_const.prodMk measurable_id)) keys z s.2).trans ?_
  exact gibbsBlock_overwrites _ _ _ _ _ _ fun i hi => absurd (hk i) hi

theorem lintegral_stored [Fintype ι] [∀ i, SigmaFinite (μ i)] {p : (∀ i, X i) → ℝ≥0∞} [SFinite (gibbsPosterior μ p)] (hs : GibbsSamples μ q ν samp)
    (hq : ∀ i, Measurable (fun a : (∀ i, X i) × X i => q i a.1 a.2)) (keys : List ι) {F : (∀ i, X i) × (∀ i, X i) → ℝ≥0∞} (hF : Measurable F) :
    ∫⁻ s, F s ∂storedLaw μ p ν samp keys = ∫⁻ z, storeExpect μ q keys F z ∂gibbsPosterior μ p := by
  have hb : Measurable (fun a : (∀ i, X i) × (ℕ → E) => (a.1, gibbsBlock (drawFrom samp) a.1 keys a.1 (fun r _ => r) a.2)) := by
    have := measurable_block (P := Unit) hs.meas (T := ∀ i, X i) (k := fun a => a.1.1.2) (measurable_snd.comp (measurable_fst.comp measurable_fst)) keys
    exact measurable_fst.prodMk (this.comp (((measurable_fst.prodMk measurable_fst).prodMk (measurable_const (a := ()))).prodMk measurable_snd))
  have hG : Measurable (fun a : (∀ i, X i) × (ℕ → E) => F (a.1, gibbsBlock (drawFrom samp) a.1 keys a.1 (fun r _ => r) a.2)) := hF.comp hb
  unfold storedLaw
  rw [lintegral_map hF hb, lintegral_prod _ hG.aemeasurable]
  refine lintegral_congr fun z => ?_
  have e : ∀ w, F (z, gibbsBlock (drawFrom samp) z keys z (fun r _ => r) w) = gibbsBlock (drawFrom samp) z keys z (fun r _ => F (z, r)) w :=
    fun w => map_block samp (fun r => F (z, r)) keys z z (fun r _ => r) w
  simp only [e]
  exact lintegral_block hs hq (k := fun r => F (z, r)) (hF.comp (measurable_const.prodMk measurable_id)) keys z z

/-- A scan that visits all variables moves anywhere. -/
theorem scan_below [∀ i, SigmaFinite (μ i)] {p : (∀ i, X i) → ℝ≥0∞} (hc : ∀ i, IsConditional μ p q i) {δ : ℝ≥0∞} (hδ1 : δ ≤ 1)
    (hδ : ∀ i z x, δ ≤ q i z x) {F : (∀ i, X i) → ℝ≥0∞} (hF : Measurable F) (l : List ι) (z : ∀ i, X i) :
    δ ^ l.length * lmarginal μ l.toFinset F z ≤ gibbsScan (drawExpect μ q) (l.map .single) z F := by
  induction l generalizing z with
  | nil => simp [gibbsScan]
  | cons i l ih =>
    simp only [List.map_cons, gibbsScan, drawExpect, List.toFinset_cons, List.length_cons]
    have hqm : Measurable (q i z) := (hc i).meas.comp (measurable_const.prodMk measurable_id)
    by_cases hi : i ∈ l.toFinset
    · rw [Finset.insert_eq_of_mem hi]
      calc δ ^ (l.length + 1) * lmarginal μ l.toFinset F z ≤ δ ^ l.length * lmarginal μ l.toFinset F z := by
            rw [pow_succ]
            exact mul_le_mul_left (mul_le_of_le_one_right' hδ1) _
        _ = ∫⁻ x, q i z x * (δ ^ l.length * lmarginal μ l.toFinset F z) ∂μ i := by
            rw [lintegral_mul_const _ hqm, (hc i).norm, one_mul]
        _ ≤ _ := by
            refine lintegral_mono fun x => ?_
            refine mul_le_mul_right ?_ _
            rw [← lmarginal_update_of_mem μ hi F z x]
            exact ih _
    · rw [lmarginal_insert F hF hi, pow_succ', mul_assoc, ← lintegral_const_mul' _ _ (by
        exact ENNReal.pow_ne_top (ne_top_of_le_ne_top one_ne_top hδ1)), ← lintegral_const_mul' _ _ (ne_top_of_le_ne_top one_ne_top hδ1)]
      refine lintegral_mono fun x => ?_
      exact mul_le_mul' (hδ i z x) (ih _)

theorem posterior_prob [Fintype ι] {p : (∀ i, X i) → ℝ≥0∞} (h0 : ∫⁻ z, p z ∂Measure.pi μ ≠ 0) (h1 : ∫⁻ z, p z ∂Measure.pi μ ≠ ∞) :
    IsProbabilityMeasure (gibbsPosterior μ p) := by
  refine ⟨?_⟩
  unfold gibbsPosterior
  rw [Measure.smul_apply, withDensity_apply _ MeasurableSet.univ, Measure.restrict_univ, smul_eq_mul]
  exact ENNReal.inv_mul_cancel h0 h1

theorem measurable_store (hs : ∀ i, Measurable (fun a : (∀ i, X i) × E => samp i a.1 a.2)) (keys : List ι) :
    Measurable (fun a : (∀ i, X i) × (ℕ → E) => (a.1, gibbsBlock (drawFrom samp) a.1 keys a.1 (fun r _ => r) a.2)) := by
  have := measurable_block (P := Unit) hs (T := ∀ i, X i) (k := fun a => a.1.1.2) (measurable_snd.comp (measurable_fst.comp measurable_fst)) keys
  exact measurable_fst.prodMk (this.comp (((measurable_fst.prodMk measurable_fst).prodMk (measurable_const (a := ()))).prodMk measurable_snd))

theorem stored_prob [Fintype ι] {p : (∀ i, X i) → ℝ≥0∞} [IsProbabilityMeasure (gibbsPosterior μ p)]
    (hs : ∀ i, Measurable (fun a : (∀ i, X i) × E => samp i a.1 a.2)) (keys : List ι) :
    IsProbabilityMeasure (storedLaw μ p ν samp keys) :=
  Measure.isProbabilityMeasure_map (measurable_store hs keys).aemeasurable

/-- The state has the posterior as its law. -/
theorem stored_fst [Fintype ι] {p : (∀ i, X i) → ℝ≥0∞} [IsProbabilityMeasure (gibbsPosterior μ p)]
    (hs : ∀ i, Measurable (fun a : (∀ i, X i) × E => samp i a.1 a.2)) (keys : List ι) :
    (storedLaw μ p ν samp keys).map Prod.fst = gibbsPosterior μ p := by
  unfold storedLaw
  rw [Measure.map_map measurable_fst (measurable_store hs keys)]
  exact Measure.fst_prod

/-- Every entry of the row has its marginal under the posterior as its law. -/
theorem stored_entry [Fintype ι] [∀ i, SigmaFinite (μ i)] {p : (∀ i, X i) → ℝ≥0∞} [IsProbabilityMeasure (gibbsPosterior μ p)] (hp : Measurable p)
    (hc : ∀ i, IsConditional μ p q i) (hs : GibbsSamples μ q ν samp) {keys : List ι} (hn : keys.Nodup) {i : ι} (hi : i ∈ keys) :
    (storedLaw μ p ν samp keys).map (fun s => s.2 i) = (gibbsPosterior μ p).map (fun z => z i) := by
  have hm : Measurable (fun s : (∀ i, X i) × (∀ i, X i) => s.2 i) := (measurable_pi_apply i).comp measurable_snd
  refine Measure.ext fun A hA => ?_
  have hI : Measurable (A.indicator (1 : X i → ℝ≥0∞)) := measurable_one.indicator hA
  rw [← lintegral_indicator_one hA, ← lintegral_indicator_one hA, lintegral_map hI hm, lintegral_map hI (measurable_pi_apply i),
    lintegral_stored (F := fun s => A.indicator 1 (s.2 i)) hs (fun i => (hc i).meas) keys (hI.comp hm),
    lintegral_posterior hp (measurable_storeExpect (F := fun s => A.indicator 1 (s.2 i)) (fun i => (hc i).meas) keys (hI.comp hm)),
    lintegral_posterior (g := fun z => A.indicator 1 (z i)) hp (hI.comp (measurable_pi_apply i))]
  congr 1
  have e : ∀ z, storeExpect μ q keys (fun s => A.indicator 1 (s.2 i)) z =
      drawExpect μ q i z (fun x => A.indicator 1 ((Function.update z i x) i)) := by
    intro z
    unfold storeExpect
    rw [gibbsBlock_row hc z keys hn i hi z (A.indicator 1)]
    simp
  simp only [e]
  exact draw_invariant hp i (hc i) (fun z => A.indicator 1 (z i)) (hI.comp (measurable_pi_apply i))

section
variable [Fintype ι] [∀ i, SigmaFinite (μ i)] [Fintype O] [MeasurableSingletonClass O] {p : (∀ i, X i) → ℝ≥0∞} {ω : Measure O}
  [IsProbabilityMeasure ω] {order : O → List ι} {keys : List ι} {Pr : Measure Ω} {d : ℕ → Ω → O × (ℕ → E)}

theorem stepKernel_gibbs (hc : ∀ i, IsConditional μ p q i) (hs : GibbsSamples μ q ν samp) (hk : ∀ i, i ∈ keys) (s : (∀ i, X i) × (∀ i, X i)) {A : Set ((∀ i, X i) × (∀ i, X i))} (hA : MeasurableSet A) :
    stepKernel (gibbsStep samp order keys) (ω.prod (streamLaw ν)) s A =
      ∑ o, gibbsScan (drawExpect μ q) ((order o).map .single) s.1 (storeExpect μ q keys (A.indicator 1)) * ω {o} := by
  have hm := measurable_gibbsStep hs.meas order keys
  have hms : Measurable (gibbsStep samp order keys s) := hm.comp (measurable_const.prodMk measurable_id)
  have hI : Measurable (A.indicator (1 : (∀ i, X i) × (∀ i, X i) → ℝ≥0∞)) := measurable_one.indicator hA
  rw [stepKernel_apply hm, ← lintegral_indicator_one hA, lintegral_map hI hms,
    lintegral_gibbsStep hs (fun i => (hc i).meas) ω order keys hk hI s]

theorem stored_apply [IsProbabilityMeasure (gibbsPosterior μ p)] (hp : Measurable p) (hc : ∀ i, IsConditional μ p q i) (hs : GibbsSamples μ q ν samp)
    {A : Set ((∀ i, X i) × (∀ i, X i))} (hA : MeasurableSet A) :
    storedLaw μ p ν samp keys A = (∫⁻ z, p z ∂Measure.pi μ)⁻¹ * ∫⁻ z, p z * storeExpect μ q keys (A.indicator 1) z ∂Measure.pi μ := by
  have hI : Measurable (A.indicator (1 : (∀ i, X i) × (∀ i, X i) → ℝ≥0∞)) := measurable_one.indicator hA
  rw [← lintegral_indicator_one hA, lintegral_stored hs (fun i => (hc i).meas) keys hI,
    lintegral_posterior hp (measurable_storeExpect (fun i => (hc i).meas) keys hI)]

omit [Fintype ι] [∀ i, SigmaFinite (μ i)] [MeasurableSpace E] [MeasurableSpace Ω] in
theorem sum_orders : ∑ o, ω {o} = 1 := by
  have := lintegral_fintype (μ := ω) (fun _ => (1 : ℝ≥0∞))
  simp only [lintegral_const, measure_univ, one_mul] at this
  exact this.symm

/-- The update keeps the law of state and row. -/
theorem gibbs_invariant [IsProbabilityMeasure (gibbsPosterior μ p)] (hp : Measurable p) (hc : ∀ i, IsConditional μ p q i) (hs : GibbsSamples μ q ν samp)
    (hk : ∀ i, i ∈ keys) {A : Set ((∀ i, X i) × (∀ i, X i))} (hA : MeasurableSet A) :
    ∫⁻ s, stepKernel (gibbsStep samp order keys) (ω.prod (streamLaw ν)) s A ∂storedLaw μ p ν samp keys = storedLaw μ p ν samp keys A := by
  have hq := fun i => (hc i).meas
  have hI : Measurable (A.indicator (1 : (∀ i, X i) × (∀ i, X i) → ℝ≥0∞)) := measurable_one.indicator hA
  have hgm : Measurable (storeExpect μ q keys (A.indicator 1)) := measurable_storeExpect hq keys hI
  have hsm : ∀ o, Measurable (fun z => gibbsScan (drawExpect μ q) ((order o).map .single) z (storeExpect μ q keys (A.indicator 1))) :=
    fun o => measurable_gibbsScan hq (order o) _ hgm
  have hG : Measurable (fun z => ∑ o, gibbsScan (drawExpect μ q) ((order o).map .single) z (storeExpect μ q keys (A.indicator 1)) * ω {o}) :=
    Finset.measurable_fun_sum _ fun o _ => (hsm o).mul_const _
  calc ∫⁻ s, stepKernel (gibbsStep samp order keys) (ω.prod (streamLaw ν)) s A ∂storedLaw μ p ν samp keys
      = ∫⁻ z, ∑ o, gibbsScan (drawExpect μ q) ((order o).map .single) z (storeExpect μ q keys (A.indicator 1)) * ω {o}
          ∂(storedLaw μ p ν samp keys).map Prod.fst := by
        rw [lintegral_map hG measurable_fst]
        exact lintegral_congr fun s => stepKernel_gibbs hc hs hk s hA
    _ = storedLaw μ p ν samp keys A := by
        rw [stored_fst hs.meas keys, lintegral_posterior hp hG, stored_apply hp hc hs hA]
        congr 1
        have := C38_gibbs_random hp hc order (fun o => ω {o}) sum_orders _ hgm
        simpa only [mul_comm (ω _)] using this

/-- The update keeps the law of state and row, and from everywhere moves to it with a fixed
probability. -/
theorem gibbs_mixing (h : GibbsSetup μ p q ν samp ω order keys Pr d) :
    ∃ ε : ℝ, Mixing (stepKernel (gibbsStep samp order keys) (ω.prod (streamLaw ν))) (storedLaw μ p ν samp keys) Set.univ ε := by
  have hpp := posterior_prob (μ := μ) h.evidence_pos h.evidence_fin
  have hsp : IsProbabilityMeasure (storedLaw μ p ν samp keys) := stored_prob h.samples.meas keys
  have hq := fun i => (h.cond i).meas
  have hm := measurable_gibbsStep h.samples.meas order keys
  obtain ⟨B, hB, hpB⟩ := h.bounded
  obtain ⟨δ', hδ0', hδ'⟩ := h.below
  set δ := min δ' 1 with hδd
  have hδ1 : δ ≤ 1 := min_le_right _ _
  have hδ0 : δ ≠ 0 := by simp [hδd, hδ0']
  have hδ : ∀ i z x, δ ≤ q i z x := fun i z x => (min_le_left _ _).trans (hδ' i z x)
  set Z := ∫⁻ z, p z ∂Measure.pi μ with hZ
  set N := Finset.univ.sup (fun o => (order o).length) with hN
  set e : ℝ≥0∞ := δ ^ N * (B⁻¹ * Z) with he
  have hsum : ∑ o, ω {o} = 1 := sum_orders
  have hpost : ∀ A, MeasurableSet A → storedLaw μ p ν samp keys A = Z⁻¹ * ∫⁻ z, p z * storeExpect μ q keys (A.indicator 1) z ∂Measure.pi μ :=
    fun A hA => stored_apply h.meas h.cond h.samples hA
  have hminor : ∀ s A, MeasurableSet A → e * storedLaw μ p ν samp keys A ≤ stepKernel (gibbsStep samp order keys) (ω.prod (streamLaw ν)) s A := by
    intro s A hA
    have hI : Measurable (A.indicator (1 : (∀ i, X i) × (∀ i, X i) → ℝ≥0∞)) := measurable_one.indicator hA
    set g := storeExpect μ q keys (A.indicator 1) with hg
    have hgm : Measurable g := measurable_storeExpect hq keys hI
    rw [stepKernel_gibbs h.cond h.samples h.stored s hA, hpost A hA]
    have h1 : B⁻¹ * ∫⁻ z, p z * g z ∂Measure.pi μ ≤ ∫⁻ z, g z ∂Measure.pi μ := by
      rw [mul_comm, ← div_eq_mul_inv]
      refine ENNReal.div_le_of_le_mul ?_
      rw [← lintegral_mul_const _ hgm]
      exact lintegral_mono fun z => by rw [mul_comm]; exact mul_le_mul_right (hpB z) _
    have h2 : e * (Z⁻¹ * ∫⁻ z, p z * g z ∂Measure.pi μ) ≤ δ ^ N * ∫⁻ z, g z ∂Measure.pi μ := by
      calc e * (Z⁻¹ * ∫⁻ z, p z * g z ∂Measure.pi μ) = (Z * Z⁻¹) * (δ ^ N * (B⁻¹ * ∫⁻ z, p z * g z ∂Measure.pi μ)) := by rw [he]; ring
        _ = δ ^ N * (B⁻¹ * ∫⁻ z, p z * g z ∂Measure.pi μ) := by rw [ENNReal.mul_inv_cancel h.evidence_pos h.evidence_fin, one_mul]
        _ ≤ _ := mul_le_mul_right h1 _
    refine h2.trans ?_
    calc δ ^ N * ∫⁻ z, g z ∂Measure.pi μ = ∑ o, (δ ^ N * ∫⁻ z, g z ∂Measure.pi μ) * ω {o} := by rw [← Finset.mul_sum, hsum, mul_one]
      _ ≤ _ := by
        refine Finset.sum_le_sum fun o _ => mul_le_mul_left ?_ _
        have hl := scan_below h.cond hδ1 hδ hgm (order o) s.1
        rw [show (order o).toFinset = Finset.univ from Finset.eq_univ_iff_forall.mpr fun i => List.mem_toFinset.mpr (h.covers o i), lmarginal_univ] at hl
        refine le_trans (mul_le_mul_left ?_ _) hl
        exact pow_le_pow_right_of_le_one' hδ1 (Finset.le_sup (f := fun o => (order o).length) (Finset.mem_univ o))
  have hmk : IsMarkovKernel (stepKernel (gibbsStep samp order keys) (ω.prod (streamLaw ν))) := stepKernel_markov hm
  have he1 : e ≤ 1 := by
    obtain ⟨s⟩ : Nonempty ((∀ i, X i) × (∀ i, X i)) := nonempty_of_isProbabilityMeasure (storedLaw μ p ν samp keys)
    have := hminor s Set.univ MeasurableSet.univ
    rwa [measure_univ, measure_univ, mul_one] at this
  have he0 : e ≠ 0 := by
    rw [he]
    exact mul_ne_zero (pow_ne_zero _ hδ0) (mul_ne_zero (ENNReal.inv_ne_zero.mpr hB) h.evidence_pos)
  have het : e ≠ ∞ := ne_top_of_le_ne_top one_ne_top he1
  refine ⟨e.toReal, MeasurableSet.univ, fun _ _ => ae_of_all _ fun _ => Set.mem_univ _, fun A hA => ?_, fun s _ A hA => ?_,
    ENNReal.toReal_pos he0 het, ENNReal.toReal_le_of_le_ofReal zero_le_one (by simpa using he1)⟩
  · exact gibbs_invariant h.meas h.cond h.samples h.stored hA
  · rw [ENNReal.ofReal_toReal het]
    exact hminor s A hA

/-! ### Theorems -/

variable [IsProbabilityMeasure Pr]

/-- C116 (part): the law of the chain's state after `n` updates approaches the posterior
geometrically, uniformly in the values first fed. -/
theorem C116_chain_partial (h : GibbsSetup μ p q ν samp ω order keys Pr d) :
    ∃ ε : ℝ, 0 < ε ∧ ε ≤ 1 ∧ ∀ (s0 : (∀ i, X i) × (∀ i, X i)) (f : (∀ i, X i) → ℝ), Measurable f → ∀ a b : ℝ, (∀ z, a ≤ f z ∧ f z ≤ b) → ∀ n : ℕ,
      |∫ x, f (walk (gibbsStep samp order keys) s0 (fun i => d i x) n).1 ∂Pr - ∫ z, f z ∂gibbsPosterior μ p| ≤ (1 - ε) ^ n * (b - a) := by
  have hpp := posterior_prob (μ := μ) h.evidence_pos h.evidence_fin
  have hsp : IsProbabilityMeasure (storedLaw μ p ν samp keys) := stored_prob h.samples.meas keys
  obtain ⟨ε, hε⟩ := gibbs_mixing h
  refine ⟨ε, hε.pos, hε.le_one, fun s0 f hf a b hab n => ?_⟩
  have := law_converges (measurable_gibbsStep h.samples.meas order keys) hε h.draws_meas h.draws_law h.draws_indep (Set.mem_univ s0)
    (f := fun s => f s.1) (hf.comp measurable_fst) (fun s => hab s.1) n
  rwa [← stored_fst (ν := ν) h.samples.meas keys, integral_map measurable_fst.aemeasurable hf.aestronglyMeasurable]

/-- C116 (part): averages of a function of the stored rows converge almost surely, whatever
the values first fed, with a mean square error at most a constant over `n`: to its
expected value for a row stored from a posterior state. -/
theorem C116_rows_partial (h : GibbsSetup μ p q ν samp ω order keys Pr d) :
    ∃ C : ℝ, ∀ (s0 : (∀ i, X i) × (∀ i, X i)) (f : (∀ i, X i) → ℝ), Measurable f → ∀ a b : ℝ, (∀ z, a ≤ f z ∧ f z ≤ b) →
      (∀ n : ℕ, 0 < n → ∫ x, ((∑ j ∈ Finset.range n, f (walk (gibbsStep samp order keys) s0 (fun i => d i x) (j + 1)).2) / n -
        ∫ s, f s.2 ∂storedLaw μ p ν samp keys) ^ 2 ∂Pr ≤ C * (b - a) ^ 2 / n) ∧
      ∀ᵐ x ∂Pr, Tendsto (fun n : ℕ => (∑ j ∈ Finset.range n, f (walk (gibbsStep samp order keys) s0 (fun i => d i x) (j + 1)).2) / n) atTop
        (𝓝 (∫ s, f s.2 ∂storedLaw μ p ν samp keys)) := by
  have hpp := posterior_prob (μ := μ) h.evidence_pos h.evidence_fin
  have hsp : IsProbabilityMeasure (storedLaw μ p ν samp keys) := stored_prob h.samples.meas keys
  obtain ⟨ε, hε⟩ := gibbs_mixing h
  refine ⟨4 / ε + 1, fun s0 f hf a b hab => ?_⟩
  obtain ⟨h1, h2⟩ := average_converges (measurable_gibbsStep h.samples.meas order keys) hε h.draws_meas h.draws_law h.draws_indep (Set.mem_univ s0)
    (f := fun s => f s.2) (hf.comp measurable_snd) (fun s => hab s.2)
  refine ⟨fun n hn => ?_, h2⟩
  have hn' : (0 : ℝ) < n := by exact_mod_cast hn
  set c := ∫ s, f s.2 ∂storedLaw μ p ν samp keys with hc
  have e : ∀ x, ((∑ j ∈ Finset.range n, f (walk (gibbsStep samp order keys) s0 (fun i => d i x) (j + 1)).2) / n - c) ^ 2 =
      (1 / (n : ℝ) ^ 2) * (∑ j ∈ Finset.range n, (f (walk (gibbsStep samp order keys) s0 (fun i => d i x) (j + 1)).2 - c)) ^ 2 := by
    intro x
    rw [Finset.sum_sub_distrib, Finset.sum_const, Finset.card_range, nsmul_eq_mul]
    field_simp
  simp only [e]
  rw [integral_const_mul]
  calc _ ≤ (1 / (n : ℝ) ^ 2) * (n * (4 / ε + 1) * (b - a) ^ 2) := mul_le_mul_of_nonneg_left (h1 n) (by positivity)
    _ = _ := by field_simp

/-- C116 (part): averages over the stored samples of one latent variable converge almost
surely to its posterior expectations. -/
theorem C116_average_partial (h : GibbsSetup μ p q ν samp ω order keys Pr d) (s0 : (∀ i, X i) × (∀ i, X i)) (i : ι) {f : X i → ℝ} (hf : Measurable f)
    {a b : ℝ} (hab : ∀ x, a ≤ f x ∧ f x ≤ b) :
    ∀ᵐ x ∂Pr, Tendsto (fun n : ℕ => (∑ j ∈ Finset.range n, f ((walk (gibbsStep samp order keys) s0 (fun i => d i x) (j + 1)).2 i)) / n) atTop
      (𝓝 (∫ z, f (z i) ∂gibbsPosterior μ p)) := by
  have hpp := posterior_prob (μ := μ) h.evidence_pos h.evidence_fin
  obtain ⟨C, hC⟩ := C116_rows_partial h
  have hm : Measurable (fun s : (∀ i, X i) × (∀ i, X i) => s.2 i) := (measurable_pi_apply i).comp measurable_snd
  have e : ∫ s, f (s.2 i) ∂storedLaw μ p ν samp keys = ∫ z, f (z i) ∂gibbsPosterior μ p := by
    rw [← integral_map (φ := fun s : (∀ i, X i) × (∀ i, X i) => s.2 i) hm.aemeasurable hf.aestronglyMeasurable,
      stored_entry h.meas h.cond h.samples h.nodup (h.stored i),
      integral_map (φ := fun z : ∀ i, X i => z i) (measurable_pi_apply i).aemeasurable hf.aestronglyMeasurable]
  rw [← e]
  exact (hC s0 (fun z => f (z i)) (hf.comp (measurable_pi_apply i)) a b fun z => hab _).2

end

end

section
variable {Z V E O Ω : Type} [Fintype Z] [DecidableEq Z] [Nonempty Z] [MeasurableSpace V] [MeasurableSpace E] [MeasurableSpace O]
  [MeasurableSpace Ω]

/-- The bookkeeping's chain is the chain of updates. -/
theorem gibbs_chain_eq_walk (samp : Z → (Z → V) → E → V) (order : O → List Z) (keys : List Z) (x0 feed : Z → V) (ws : ℕ → O × (ℕ → E)) (n : ℕ) :
    chain (gibbsKernel samp (fun o => (order o).map .single) keys) x0 feed ws n =
      ((walk (gibbsStep (X := fun _ => V) samp order keys) (feed, x0) ws n).2, (walk (gibbsStep (X := fun _ => V) samp order keys) (feed, x0) ws n).1) := by
  induction n with
  | zero => rfl
  | succ n ih =>
    show ((gibbsKernel samp (fun o => (order o).map .single) keys n (chain _ x0 feed ws n).1 (chain _ x0 feed ws n).2 (ws n)).1,
      (gibbsKernel samp (fun o => (order o).map .single) keys n (chain _ x0 feed ws n).1 (chain _ x0 feed ws n).2 (ws n)).2.1) = _
    rw [ih]
    rfl

/-- `T` updates filling an `Empirical` with `T` rows succeed, whatever it held and whatever was
fed first; the rows are those of the chain of updates. -/
theorem gibbs_rows (samp : Z → (Z → V) → E → V) (order : O → List Z) (keys : List Z) (d : ℕ → Ω → O × (ℕ → E)) (x0 feed : Z → V) (late : ℕ → Bool)
    (p0 : ℕ → Z → List V) (hlen : ∀ T z, (p0 T z).length = T) (hrow : ∀ T, 0 < T → ∀ z, (p0 T z)[0]? = some (x0 z)) :
    ∃ st : ℕ → Ω → MCState Z V (Z → V), ∀ T, 0 < T → ∀ x,
      (∃ infos, mcRun (gibbsKernel samp (fun o => (order o).map .single) keys) ((List.range T).map (fun i => (d i x, late i)))
        (mcInit (p0 T) feed) = some (st T x, infos) ∧ (st T x).nAccept = T) ∧
      ∀ z, (st T x).params z = (List.range T).map
        (fun i => (walk (gibbsStep (X := fun _ => V) samp order keys) (feed, x0) (fun i => d i x) (i + 1)).2 z) := by
  have hacc : ∀ ws T, nAcc (gibbsKernel samp (fun o => (order o).map .single) keys) x0 feed ws T = T := by
    intro ws T
    unfold nAcc
    refine (List.countP_eq_length.mpr fun _ _ => rfl).trans List.length_range
  have hrun : ∀ T x, ∃ s infos, 0 < T → mcRun (gibbsKernel samp (fun o => (order o).map .single) keys) ((List.range T).map (fun i => (d i x, late i)))
      (mcInit (p0 T) feed) = some (s, infos) ∧ s.nAccept = T ∧ ∀ z, s.params z = (List.range T).map
        (fun i => (walk (gibbsStep (X := fun _ => V) samp order keys) (feed, x0) (fun i => d i x) (i + 1)).2 z) := by
    intro T x
    by_cases hT : 0 < T
    swap
    · exact ⟨mcInit (p0 T) feed, [], fun h => absurd h hT⟩
    obtain ⟨s, infos, e, hl, hr, -, -, hA, -⟩ := C30_bookkeeping (gibbsKernel samp (fun o => (order o).map .single) keys) (p0 T) feed x0 (hrow T hT)
      (fun i => d i x) late T ((le_nIter_iff _ _).mpr fun z => (hlen T z).ge)
    refine ⟨s, infos, fun _ => ⟨e, hA.trans (hacc _ _), fun z => List.ext_getElem? fun i => ?_⟩⟩
    by_cases hi : i < T
    · rw [hr z i hi, gibbs_chain_eq_walk]
      simp [hi]
    · rw [List.getElem?_eq_none (by rw [hl z, hlen T z]; omega), List.getElem?_eq_none (by simp; omega)]
  choose st infos hst using hrun
  exact ⟨st, fun T hT x => ⟨⟨infos T x, (hst T x hT).1, (hst T x hT).2.1⟩, (hst T x hT).2.2⟩⟩

/-- C116 (part), end to end: `T` updates filling an `Empirical` with `T` rows succeed,
whatever it held and whatever was fed first, and as `T` grows the average over the rows
converges almost surely to the posterior expectation, for bounded functions of a latent
variable. -/
theorem C116_run_partial {μ : Z → Measure V} [∀ i, SigmaFinite (μ i)] [Fintype O] [MeasurableSingletonClass O] {p : (Z → V) → ℝ≥0∞}
    {q : Z → (Z → V) → V → ℝ≥0∞} {ν : Measure E} [IsProbabilityMeasure ν] {samp : Z → (Z → V) → E → V} {ω : Measure O} [IsProbabilityMeasure ω]
    {order : O → List Z} {keys : List Z} {Pr : Measure Ω} [IsProbabilityMeasure Pr] {d : ℕ → Ω → O × (ℕ → E)}
    (h : GibbsSetup (X := fun _ => V) μ p q ν samp ω order keys Pr d) (x0 feed : Z → V) (late : ℕ → Bool)
    (p0 : ℕ → Z → List V) (hlen : ∀ T z, (p0 T z).length = T) (hrow : ∀ T, 0 < T → ∀ z, (p0 T z)[0]? = some (x0 z))
    {f : V → ℝ} (hf : Measurable f) {a b : ℝ} (hab : ∀ v, a ≤ f v ∧ f v ≤ b) (z : Z) :
    ∃ st : ℕ → Ω → MCState Z V (Z → V),
      (∀ T, 0 < T → ∀ x, ∃ infos, mcRun (gibbsKernel samp (fun o => (order o).map .single) keys) ((List.range T).map (fun i => (d i x, late i)))
        (mcInit (p0 T) feed) = some (st T x, infos) ∧ (st T x).nAccept = T) ∧
      ∀ᵐ x ∂Pr, Tendsto (fun T => storedMean f (st T x) z) atTop (𝓝 (∫ y, f (y z) ∂gibbsPosterior μ p)) := by
  obtain ⟨st, hst⟩ := gibbs_rows samp order keys d x0 feed late p0 hlen hrow
  refine ⟨st, fun T hT x => (hst T hT x).1, ?_⟩
  filter_upwards [C116_average_partial h (feed, x0) z hf hab] with x hx
  refine hx.congr' ?_
  filter_upwards [eventually_gt_atTop 0] with T hT
  unfold storedMean
  rw [(hst T hT x).2 z, List.length_map, List.length_range, List.map_map]
  congr 1

end

/-! ### Finite state spaces -/

/-- C116 (part): for finitely many values of every variable the assumptions on the densities
are that the joint is finite and the conditionals positive. -/
theorem C116_finite_partial {ι : Type} [Fintype ι] {X : ι → Type} [∀ i, Fintype (X i)] (p : (∀ i, X i) → ℝ≥0∞) (q : ∀ i, (∀ i, X i) → X i → ℝ≥0∞)
    (hp : ∀ z, p z ≠ ∞) (hq : ∀ i z x, q i z x ≠ 0) :
    (∃ B : ℝ≥0∞, B ≠ ∞ ∧ ∀ z, p z ≤ B) ∧ ∃ δ : ℝ≥0∞, δ ≠ 0 ∧ ∀ i z x, δ ≤ q i z x := by
  classical
  refine ⟨⟨∑ z, p z, (ENNReal.sum_lt_top.mpr fun z _ => (hp z).lt_top).ne, fun z => Finset.single_le_sum (fun _ _ => zero_le) (Finset.mem_univ z)⟩, ?_⟩
  cases isEmpty_or_nonempty (Σ i : ι, (∀ i, X i) × X i) with
  | inl h => exact ⟨1, one_ne_zero, fun i z x => (h.false ⟨i, z, x⟩).elim⟩
  | inr h =>
    obtain ⟨m, hm⟩ := Finite.exists_min (fun a : Σ i : ι, (∀ i, X i) × X i => q a.1 a.2.1 a.2.2)
    exact ⟨_, hq m.1 m.2.1 m.2.2, fun i z x => hm ⟨i, z, x⟩⟩

/-! ### Two correlated binary variables -/

/-- One of five numbers, equally likely. -/
noncomputable abbrev fifth : Measure (Fin 5) := Measure.count.withDensity (fun _ => 1 / 5)

theorem fifth_lintegral (g : Fin 5 → ℝ≥0∞) : ∫⁻ e, g e ∂fifth = ∑ e, 1 / 5 * g e := by
  rw [lintegral_withDensity_eq_lintegral_mul _ (measurable_of_countable _) (measurable_of_countable _), lintegral_count, tsum_fintype]
  rfl

instance : IsProbabilityMeasure fifth := ⟨by
  rw [← lintegral_one, fifth_lintegral]
  simp
  exact ENNReal.mul_inv_cancel (by simp) (by simp)⟩

/-- Sampling the conditionals of the example: the other variable's value, flipped with
probability 1/5. -/
def exSamp (i : Fin 2) (z : Fin 2 → Bool) (e : Fin 5) : Bool := if e = 0 then !z (1 - i) else z (1 - i)

theorem exSamp_samples : GibbsSamples (X := fun _ : Fin 2 => Bool) (fun _ => Measure.count) exCond fifth exSamp where
  meas := fun i => measurable_of_countable _
  law := fun i z => by
    refine Measure.ext fun A hA => ?_
    rw [← lintegral_indicator_one hA, ← lintegral_indicator_one hA, lintegral_map (measurable_of_countable _) (measurable_of_countable _),
      fifth_lintegral, lintegral_withDensity_eq_lintegral_mul _ (measurable_of_countable _) (measurable_of_countable _), lintegral_count,
      tsum_fintype, Fintype.sum_bool]
    simp only [Pi.mul_apply, exCond, exSamp, Fin.sum_univ_five]
    have h4 : ∀ a : ℝ≥0∞, 1 / 5 * a + 1 / 5 * a + 1 / 5 * a + 1 / 5 * a = 4 / 5 * a := by
      intro a
      rw [← mul_add, ← mul_add, ← mul_add, div_eq_mul_inv, div_eq_mul_inv]
      ring
    generalize A.indicator (1 : Bool → ℝ≥0∞) = g
    have e : ∀ a b : ℝ≥0∞, 1 / 5 * a + 1 / 5 * b + 1 / 5 * b + 1 / 5 * b + 1 / 5 * b = 1 / 5 * a + 4 / 5 * b := by
      intro a b
      rw [add_assoc, add_assoc, add_assoc, ← h4 b]
      ring
    cases z (1 - i) <;> simp only [if_true, reduceIte, Bool.not_true, Bool.not_false, Fin.isValue, one_ne_zero, Fin.reduceEq, reduceCtorEq] <;> rw [e]
    rw [add_comm]

/-- All draws of the example. -/
noncomputable abbrev exDraws : Measure (ℕ → Unit × (ℕ → Fin 5)) :=
  Measure.infinitePi (fun _ : ℕ => (Measure.dirac ()).prod (streamLaw fifth))

theorem exJoint_evidence : ∫⁻ z, exJoint z ∂Measure.pi (fun _ : Fin 2 => (Measure.count : Measure Bool)) = 1 := by
  rw [ex_int]
  simp only [Fintype.sum_bool, exJoint]
  simp
  apply ennreal_eq_of_toReal
  · simp [ENNReal.div_eq_top]
  · simp
  · rw [ENNReal.toReal_add, ENNReal.toReal_add, ENNReal.toReal_add]
    · simp [ENNReal.toReal_div, ENNReal.toReal_inv]
      norm_num
    all_goals simp [ENNReal.div_eq_top]

/-- The hypotheses of the theorems hold for the example. -/
theorem exGibbs_setup : GibbsSetup (X := fun _ : Fin 2 => Bool) (fun _ => Measure.count) exJoint exCond fifth exSamp (Measure.dirac ())
    (fun _ => [0, 1]) [0, 1] exDraws (fun i x => x i) where
  meas := measurable_of_countable _
  cond := exCond_isConditional
  samples := exSamp_samples
  evidence_pos := by rw [exJoint_evidence]; simp
  evidence_fin := by rw [exJoint_evidence]; simp
  bounded := (C116_finite_partial exJoint exCond (fun z => by unfold exJoint; split_ifs <;> exact ENNReal.div_ne_top (by simp) (by simp))
    (fun i z x => by unfold exCond; split_ifs <;> simp)).1
  below := (C116_finite_partial exJoint exCond (fun z => by unfold exJoint; split_ifs <;> exact ENNReal.div_ne_top (by simp) (by simp))
    (fun i z x => by unfold exCond; split_ifs <;> simp)).2
  covers := fun _ i => by fin_cases i <;> simp
  stored := fun i => by fin_cases i <;> simp
  nodup := by decide
  draws_meas := fun i => measurable_pi_apply i
  draws_law := fun i => Measure.infinitePi_map_eval _ i
  draws_indep := iIndepFun_infinitePi (X := fun _ x => x) (fun _ => measurable_id)

/-- In the example the samples of one variable have the right averages. -/
example (s0 : (Fin 2 → Bool) × (Fin 2 → Bool)) : ∀ᵐ x ∂exDraws, Tendsto (fun n : ℕ => (∑ j ∈ Finset.range n,
    (if (walk (gibbsStep (X := fun _ => Bool) exSamp (fun _ => [0, 1]) [0, 1]) s0 x (j + 1)).2 0 then (1 : ℝ) else 0)) / n) atTop
    (𝓝 (∫ z, (if z 0 then (1 : ℝ) else 0) ∂gibbsPosterior (X := fun _ : Fin 2 => Bool) (fun _ => Measure.count) exJoint)) :=
  C116_average_partial exGibbs_setup s0 0 (f := fun v : Bool => if v then (1 : ℝ) else 0) (measurable_of_countable _) (a := 0) (b := 1)
    (fun v => by cases v <;> simp)

/-- C116 fails for functions of several latent variables: in the example the fraction of the
stored rows in which both variables are false converges almost surely to 38/125; its posterior
probability is 2/5. -/
theorem C116_joint_fails :
    GibbsSetup (X := fun _ : Fin 2 => Bool) (fun _ => Measure.count) exJoint exCond fifth exSamp (Measure.dirac ())
      (fun _ => [0, 1]) [0, 1] exDraws (fun i x => x i) ∧
    (∀ s0 : (Fin 2 → Bool) × (Fin 2 → Bool), ∀ᵐ x ∂exDraws, Tendsto (fun n : ℕ => (∑ j ∈ Finset.range n,
      (bothFalse (walk (gibbsStep (X := fun _ => Bool) exSamp (fun _ => [0, 1]) [0, 1]) s0 x (j + 1)).2).toReal) / n) atTop (𝓝 (38 / 125))) ∧
    ∫ z, (bothFalse z).toReal ∂gibbsPosterior (X := fun _ : Fin 2 => Bool) (fun _ => Measure.count) exJoint = 2 / 5 := by
  have h := exGibbs_setup
  have hpp := posterior_prob (X := fun _ : Fin 2 => Bool) h.evidence_pos h.evidence_fin
  have hsp : IsProbabilityMeasure (storedLaw (X := fun _ : Fin 2 => Bool) (fun _ => Measure.count) exJoint fifth exSamp [0, 1]) :=
    stored_prob h.samples.meas [0, 1]
  have hb : ∀ z, bothFalse z ≠ ∞ := fun z => by unfold bothFalse; split_ifs <;> simp
  refine ⟨h, fun s0 => ?_, ?_⟩
  · obtain ⟨C, hC⟩ := C116_rows_partial h
    have := (hC s0 (fun z => (bothFalse z).toReal) (measurable_of_countable _) 0 1 (fun z => by unfold bothFalse; split_ifs <;> simp)).2
    have e : ∫ s, (bothFalse s.2).toReal ∂storedLaw (X := fun _ : Fin 2 => Bool) (fun _ => Measure.count) exJoint fifth exSamp [0, 1] = 38 / 125 := by
      rw [integral_toReal (measurable_of_countable _).aemeasurable (ae_of_all _ fun s => (hb _).lt_top),
        lintegral_stored (F := fun s => bothFalse s.2) h.samples (fun i => (h.cond i).meas) [0, 1] (measurable_of_countable _),
        lintegral_posterior h.meas (measurable_of_countable _), exJoint_evidence, inv_one, one_mul]
      have e2 : ∀ z, storeExpect (X := fun _ : Fin 2 => Bool) (fun _ => Measure.count) exCond [0, 1] (fun s => bothFalse s.2) z =
          exCond 0 z false * exCond 1 z false := fun z => ex_block z z
      simp only [e2]
      rw [ex_int]
      simp only [Fintype.sum_bool, exJoint, exCond]
      simp
      rw [ENNReal.toReal_add, ENNReal.toReal_add, ENNReal.toReal_add]
      · simp [ENNReal.toReal_mul, ENNReal.toReal_div, ENNReal.toReal_inv]
        norm_num
      all_goals simp [ENNReal.mul_eq_top, ENNReal.div_eq_top]
    rwa [e] at this
  · rw [integral_toReal (measurable_of_countable _).aemeasurable (ae_of_all _ fun s => (hb _).lt_top),
      lintegral_posterior h.meas (measurable_of_countable _), exJoint_evidence, inv_one, one_mul, ex_int]
    simp only [Fintype.sum_bool, exJoint, bothFalse]
    simp

/-! ### A variable missing from `scan_order` -/

/-- A variable that `scan_order` does not list keeps the value first fed. -/
theorem walk_omitted {ι E O : Type} [DecidableEq ι] {X : ι → Type} (samp : (i : ι) → (∀ i, X i) → E → X i) (order : O → List ι) (keys : List ι)
    (i : ι) (hi : ∀ o, i ∉ order o) (s0 : (∀ i, X i) × (∀ i, X i)) (ws : ℕ → O × (ℕ → E)) (n : ℕ) :
    (walk (gibbsStep samp order keys) s0 ws n).1 i = s0.1 i := by
  have hblock : ∀ (l : List ι) (z row : ∀ i, X i) (v : X i) (w : ℕ → E), z i = v →
      (gibbsBlock (drawFrom samp) z l row (fun row' _ => (z, row')) w).1 i = v := by
    intro l z row v w hz
    induction l generalizing row w with
    | nil => exact hz
    | cons j l ih => exact ih _ _
  have hscan : ∀ (l : List ι), i ∉ l → ∀ (z row : ∀ i, X i) (v : X i) (w : ℕ → E), z i = v →
      (gibbsScan (drawFrom samp) (l.map .single) z (fun z' => gibbsBlock (drawFrom samp) z' keys row (fun row' _ => (z', row'))) w).1 i = v := by
    intro l hl
    induction l with
    | nil => exact fun z row v w hz => hblock keys z row v w hz
    | cons j l ih =>
      intro z row v w hz
      refine ih (fun h => hl (List.mem_cons_of_mem _ h)) _ row v _ ?_
      rw [Function.update_of_ne (fun h => hl (by simp [h])), hz]
  induction n with
  | zero => rfl
  | succ n ih => exact hscan (order (ws n).1) (hi _) _ _ _ _ ih

/-- C116 fails when `scan_order` leaves a latent variable out: in the example with
`scan_order=[z0]` and `z1` first fed as true, every stored sample of `z0` is true with
probability 4/5, however many updates; its posterior probability is 1/2. -/
theorem C116_omitted_fails :
    (∀ (row : Fin 2 → Bool) (n : ℕ), exDraws {x | (walk (gibbsStep (X := fun _ => Bool) exSamp (fun _ : Unit => [0]) [0, 1])
      (fun _ => true, row) x (n + 1)).2 0 = true} = 4 / 5) ∧
    gibbsPosterior (X := fun _ : Fin 2 => Bool) (fun _ => Measure.count) exJoint {z | z 0 = true} = 1 / 2 := by
  refine ⟨fun row n => ?_, ?_⟩
  · have hstep : ∀ (s : (Fin 2 → Bool) × (Fin 2 → Bool)) (w : Unit × (ℕ → Fin 5)), s.1 1 = true →
        (gibbsStep (X := fun _ => Bool) exSamp (fun _ : Unit => [0]) [0, 1] s w).2 0 = if w.2 1 = 0 then false else true := by
      intro s w hs
      simp [gibbsStep, gibbsMove, gibbsUpdate, gibbsScan, gibbsBlock, drawFrom, exSamp, hs]
    have e : {x : ℕ → Unit × (ℕ → Fin 5) | (walk (gibbsStep (X := fun _ => Bool) exSamp (fun _ : Unit => [0]) [0, 1]) (fun _ => true, row) x (n + 1)).2 0 = true} =
        (fun x : ℕ → Unit × (ℕ → Fin 5) => x n) ⁻¹' {w | w.2 1 ≠ 0} := by
      ext x
      have := hstep (walk (gibbsStep (X := fun _ => Bool) exSamp (fun _ : Unit => [0]) [0, 1]) (fun _ => true, row) x n) (x n)
        (walk_omitted exSamp (fun _ => [0]) [0, 1] 1 (by simp) _ x n)
      simp only [Set.mem_ofPred_eq, Set.mem_preimage]
      rw [show walk (gibbsStep (X := fun _ => Bool) exSamp (fun _ : Unit => [0]) [0, 1]) (fun _ => true, row) x (n + 1) =
        gibbsStep (X := fun _ => Bool) exSamp (fun _ : Unit => [0]) [0, 1] (walk (gibbsStep (X := fun _ => Bool) exSamp (fun _ : Unit => [0]) [0, 1]) (fun _ => true, row) x n) (x n) from rfl, this]
      by_cases h : (x n).2 1 = 0 <;> simp [h]
    have hm1 : MeasurableSet {e : Fin 5 | e ≠ 0} := MeasurableSet.of_discrete
    have hm2 : MeasurableSet {w : ℕ → Fin 5 | w 1 ≠ 0} := (measurable_pi_apply (X := fun _ : ℕ => Fin 5) 1) hm1
    have hm : MeasurableSet {w : Unit × (ℕ → Fin 5) | w.2 1 ≠ 0} := measurable_snd hm2
    rw [e, ← Measure.map_apply (measurable_pi_apply n) hm, Measure.infinitePi_map_eval,
      show {w : Unit × (ℕ → Fin 5) | w.2 1 ≠ 0} = Set.univ ×ˢ {w : ℕ → Fin 5 | w 1 ≠ 0} by ext; simp, Measure.prod_prod, measure_univ, one_mul,
      show {w : ℕ → Fin 5 | w 1 ≠ 0} = (fun w : ℕ → Fin 5 => w 1) ⁻¹' {e | e ≠ 0} from rfl, streamLaw, ← Measure.map_apply (measurable_pi_apply 1) hm1,
      Measure.infinitePi_map_eval, ← lintegral_indicator_one hm1, fifth_lintegral]
    simp [Fin.sum_univ_five, Set.indicator_apply]
    apply ennreal_eq_of_toReal
    · simp
    · simp [ENNReal.div_eq_top]
    · simp [ENNReal.toReal_add, ENNReal.toReal_div]
      norm_num
  · have hA : MeasurableSet {z : Fin 2 → Bool | z 0 = true} := MeasurableSet.of_discrete
    rw [← lintegral_indicator_one hA, lintegral_posterior (measurable_of_countable _) (measurable_of_countable _), exJoint_evidence, inv_one, one_mul, ex_int]
    simp only [Fintype.sum_bool, exJoint, Set.indicator_apply]
    simp
    apply ennreal_eq_of_toReal
    · simp [ENNReal.div_eq_top]
    · simp
    · rw [ENNReal.toReal_add]
      · simp [ENNReal.toReal_div]
        norm_num
      all_goals simp [ENNReal.div_eq_top]

end Edward
