/-
C52: n_samples averages independent samples. C53: KLqp dispatch. C54: every trainable
parameter gets its gradient once. C55: KLpq importance weights. C56: scale multiplies
the terms of its own variable. C60: the ratio loss recovers the log density ratio.
C79: regularisation penalties are added to the loss.
-/
import Mathlib.Analysis.SpecialFunctions.Log.Basic
import Mathlib.Data.Fin.VecNotation
import Mathlib.Tactic.FinCases
import Mathlib.Tactic.Linarith
import Verif.Lemmas.Variational
import Verif.Props.Metrics

namespace Edward
set_option linter.unusedSectionVars false
variable {Z X I Ω : Type} [Fintype I]

/-! ### C52 -/

/-- C52 (reparameterised gradient): the loss is the average over the draws of
`log q - log p`, plus the regularisation. -/
theorem C52_reparam (v : ViProblem Z X I Ω) (n : ℕ) (draws : Fin n → Ω) (reg : ℝ) :
    reparamLoss v n draws reg =
      Spec.average (fun s => Spec.logApprox v (draws s) - Spec.logJoint v (draws s)) + reg := by
  rw [reparamLoss, pLogProb_eq, qLogProb_eq, listMean_ofFn, listMean_ofFn, average_sub]; ring

/-- C52 (score function gradient). -/
theorem C52_score (v : ViProblem Z X I Ω) (n : ℕ) (draws : Fin n → Ω) (reg : ℝ) :
    scoreLoss v n draws reg =
      Spec.average (fun s => Spec.logApprox v (draws s) - Spec.logJoint v (draws s)) + reg := by
  rw [scoreLoss, pLogProb_eq, qLogProb_eq, zipWith_ofFn, listMean_ofFn, average_sub, average_sub]; ring

/-- C52 (analytic KL, both gradients). -/
theorem C52_kl (v : ViProblem Z X I Ω) (n : ℕ) (hn : 0 < n) (draws : Fin n → Ω) (ks kl : Z → I → ℝ) (reg : ℝ) :
    reparamKlLoss v n draws ks kl reg =
      Spec.average (fun s => -Spec.logLik v (draws s) + (v.latents.map fun z => ∑ i, ks z i * kl z i).sum + reg) := by
  have : (fun s => -Spec.logLik v (draws s) + (v.latents.map fun z => ∑ i, ks z i * kl z i).sum + reg) =
      (fun s => (-((v.latents.map fun z => ∑ i, ks z i * kl z i).sum) - reg) * (-1) - Spec.logLik v (draws s)) := by
    funext s; ring
  rw [reparamKlLoss, pLogLik_eq, listMean_ofFn, this, average_sub, average_const hn, klPenalty]; ring

/-- C52 (analytic entropy, both gradients). -/
theorem C52_entropy (v : ViProblem Z X I Ω) (n : ℕ) (hn : 0 < n) (draws : Fin n → Ω) (h : Z → I → ℝ) (reg : ℝ) :
    reparamEntropyLoss v n draws h reg =
      Spec.average (fun s => -Spec.logJoint v (draws s) - (v.latents.map fun z => ∑ i, h z i).sum + reg) := by
  have : (fun s => -Spec.logJoint v (draws s) - (v.latents.map fun z => ∑ i, h z i).sum + reg) =
      (fun s => ((-(v.latents.map fun z => ∑ i, h z i).sum) + reg) - Spec.logJoint v (draws s)) := by
    funext s; ring
  rw [reparamEntropyLoss, pLogProb_eq, listMean_ofFn, this, average_sub, average_const hn, qEntropy]; ring

/-- C52, the Rao-Blackwellised loss: only the last draw counts, whatever `n_samples`. -/
theorem C52_rb_partial [DecidableEq Z] [DecidableEq X] (v : ViProblem Z X I Ω) (m : ℕ) (draws : Fin (m + 1) → Ω)
    (reg : ℝ) :
    rbLoss v (m + 1) draws reg =
      Spec.logApprox v (draws (Fin.last m)) - Spec.logJoint v (draws (Fin.last m)) + reg := by
  have hp : ∀ s : Fin (m + 1), (v.latents.map fun z => (rbTables v (m + 1) draws).1.getItem s (.inl z)).sum +
      (v.observed.map fun x => (rbTables v (m + 1) draws).1.getItem s (.inr x)).sum =
      Spec.logJoint v (draws (Fin.last m)) := by
    intro s
    obtain ⟨h1, h2, _⟩ := rbTables_getItem v m draws s
    rw [List.map_congr_left h1, List.map_congr_left h2]; rfl
  have hq : ∀ s : Fin (m + 1), (v.latents.map fun z => (rbTables v (m + 1) draws).2.getItem s z).sum =
      Spec.logApprox v (draws (Fin.last m)) := by
    intro s
    rw [List.map_congr_left (rbTables_getItem v m draws s).2.2]; rfl
  have hc : ∀ c : ℝ, listMean (List.ofFn fun _ : Fin (m + 1) => c) = c := fun c => by
    rw [listMean_ofFn, average_const (Nat.succ_pos m)]
  rw [rbLoss]
  rw [List.map_congr_left (fun s _ => hp s), List.map_congr_left (fun s _ => hq s)]
  rw [← List.ofFn_eq_map, ← List.ofFn_eq_map, hc, hc]
  ring

/-- One latent variable, one observation, densities given by the draw itself. -/
def viExample (c : ℝ) : ViProblem Unit Unit Unit ℝ where
  latents := [()]
  observed := [()]
  scaleZ := fun _ _ => c
  scaleX := fun _ _ => c
  logQ := fun _ ω _ => ω
  logP := fun _ ω _ => 3 * ω
  logLik := fun _ _ _ => 1

/-- C52 fails for the Rao-Blackwellised loss with two draws: the result is not the
average of the losses of the draws. -/
theorem C52_rb_fails :
    ∃ (v : ViProblem Unit Unit Unit ℝ) (draws : Fin 2 → ℝ),
      rbLoss v 2 draws 0 ≠ Spec.average (fun s => rbLoss v 1 (fun _ => draws s) 0) := by
  refine ⟨viExample 1, ![1, 0], ?_⟩
  rw [C52_rb_partial (viExample 1) 1 ![1, 0] 0]
  simp_rw [C52_rb_partial (viExample 1) 0 _ 0]
  simp only [Spec.average, Fin.sum_univ_two, Spec.logApprox, Spec.logJoint, viExample, Fin.last]
  norm_num

example : reparamLoss (viExample 1) 2 ![1, 0] 0 = -2 := by
  rw [C52_reparam]
  simp only [Spec.average, Fin.sum_univ_two, Spec.logApprox, Spec.logJoint, viExample]
  norm_num

/-! ### C53 -/

/-- C53: which loss is built, for every collection of latent variables and options. -/
theorem C53_dispatch (n : ℤ) (ks : Bool) (pairs : List LatentPair) :
    (klqpDispatch n ks pairs = .error .valueError ↔ n ≤ 0) ∧
    (klqpDispatch n ks pairs = .error .typeError ↔
      0 < n ∧ ks = true ∧ ∃ p ∈ pairs, ¬(p.zNormal = true ∧ p.qNormal = true)) ∧
    (klqpDispatch n ks pairs = .ok .reparamKl ↔
      0 < n ∧ (∀ p ∈ pairs, p.qReparam = true) ∧ ∀ p ∈ pairs, p.zNormal = true ∧ p.qNormal = true) ∧
    (klqpDispatch n ks pairs = .ok .reparam ↔
      0 < n ∧ ks = false ∧ (∀ p ∈ pairs, p.qReparam = true) ∧
        ∃ p ∈ pairs, ¬(p.zNormal = true ∧ p.qNormal = true)) ∧
    (klqpDispatch n ks pairs = .ok .scoreRb ↔
      0 < n ∧ (∃ p ∈ pairs, p.qReparam = false) ∧
        (ks = true → ∀ p ∈ pairs, p.zNormal = true ∧ p.qNormal = true)) := by
  have hA : pairs.all (fun p => p.zNormal && p.qNormal) = true ↔ ∀ p ∈ pairs, p.zNormal = true ∧ p.qNormal = true := by
    simp
  have hR : pairs.all (·.qReparam) = true ↔ ∀ p ∈ pairs, p.qReparam = true := by simp
  have hA' : (∃ p ∈ pairs, ¬(p.zNormal = true ∧ p.qNormal = true)) ↔
      ¬ ∀ p ∈ pairs, p.zNormal = true ∧ p.qNormal = true := by push Not; rfl
  have hR' : (∃ p ∈ pairs, p.qReparam = false) ↔ ¬ ∀ p ∈ pairs, p.qReparam = true := by
    push Not; simp
  rw [hA', hR', ← hA, ← hR]
  unfold klqpDispatch
  generalize pairs.all (fun p => p.zNormal && p.qNormal) = a
  generalize pairs.all (·.qReparam) = r
  by_cases hn : n ≤ 0
  · have : ¬ 0 < n := by omega
    simp [hn, this]
  · have : 0 < n := by omega
    cases a <;> cases r <;> cases ks <;> simp [hn, this]

example : klqpDispatch 1 true [⟨true, true, true⟩] = .ok .reparamKl := by decide
example : klqpDispatch 1 true [⟨true, true, false⟩] = .error .typeError := by decide
example : klqpDispatch 5 false [⟨true, true, true⟩, ⟨false, true, true⟩] = .ok .scoreRb := by decide

/-! ### C54 -/

/-- C54 (score-function KLqp, KLpq, WakeSleep): the variables paired with a gradient are
those of the list, each once; the gradient of the approximation goes to the variables
with descendants among the approximations, the gradient of the model to the others. -/
theorem C54_split {V : Type} [DecidableEq V] (isQ : V → Bool) (varList : List V) :
    ((splitVars isQ varList).1 ++ (splitVars isQ varList).2).Perm varList ∧
    (∀ v, v ∈ (splitVars isQ varList).1 ↔ v ∈ varList ∧ isQ v = true) ∧
    (∀ v, v ∈ (splitVars isQ varList).2 ↔ v ∈ varList ∧ isQ v = false) := by
  have h2 : (splitVars isQ varList).2 = varList.filter (fun v => !isQ v) := by
    apply List.filter_congr
    intro v hv
    cases h : isQ v <;> simp [h, hv]
  refine ⟨?_, fun v => by simp [splitVars], fun v => by rw [h2]; simp⟩
  rw [h2]
  exact List.filter_append_perm isQ varList

/-- C54 (Rao-Blackwellised KLqp): the same partition. -/
theorem C54_rb {V : Type} [DecidableEq V] (isQ : V → Bool) (varList : List V) :
    ((rbVars isQ varList).1 ++ (rbVars isQ varList).2).Perm varList ∧
    (∀ v, v ∈ (rbVars isQ varList).1 ↔ v ∈ varList ∧ isQ v = true) ∧
    (∀ v, v ∈ (rbVars isQ varList).2 ↔ v ∈ varList ∧ isQ v = false) := by
  have h : ∀ acc : List V, varList.foldl (fun acc v => if isQ v then acc ++ [v] else acc) acc =
      acc ++ varList.filter isQ := by
    induction varList with
    | nil => simp
    | cons a l ih =>
      intro acc
      rw [List.foldl_cons, ih]
      cases h : isQ a <;> simp [h]
  have : rbVars isQ varList = splitVars isQ varList := by
    rw [rbVars, splitVars, h []]; rfl
  rw [this]
  exact C54_split isQ varList

/-- C54 (GANInference, WGANInference, ImplicitKLqp), default lists: the discriminator and
generator updates partition the trainable variables. -/
theorem C54_gan_partial {V : Type} [DecidableEq V] (disc : V → Bool) (trainable : List V) :
    ((ganVars disc trainable none).1 ++ (ganVars disc trainable none).2).Perm trainable ∧
    (∀ v, v ∈ (ganVars disc trainable none).1 → v ∉ (ganVars disc trainable none).2) := by
  have := C54_split disc trainable
  refine ⟨this.1, fun v h h' => ?_⟩
  have h1 := (this.2.1 v).mp h
  have h2 := (this.2.2 v).mp h'
  rw [h1.2] at h2; exact absurd h2.2 (by simp)

/-- C54 (BiGANInference): no variable is in both updates when no name is in both scopes. -/
theorem C54_bigan_partial {V : Type} (disc gen : V → Bool) (h : ∀ v, ¬(disc v = true ∧ gen v = true))
    (trainable : List V) (varList : Option (List V)) :
    ∀ v, v ∈ (biganVars disc gen trainable varList).1 → v ∉ (biganVars disc gen trainable varList).2 := by
  intro v h1 h2
  simp only [biganVars, List.mem_filter] at h1 h2
  exact h v ⟨h1.2, h2.2⟩

/-- C54 fails when a list is given: a discriminator variable in it is updated twice with
opposite aims. -/
theorem C54_gan_fails :
    ∃ (disc : Fin 2 → Bool) (trainable varList : List (Fin 2)) (v : Fin 2), trainable.Nodup ∧ varList.Nodup ∧
      v ∈ (ganVars disc trainable (some varList)).1 ∧ v ∈ (ganVars disc trainable (some varList)).2 :=
  ⟨fun i => i = 0, [0, 1], [0, 1], 0, by decide⟩

/-- C54 fails for BiGANInference: a variable of the list given, outside the scopes "Gen"
and "Disc", is never updated. -/
theorem C54_bigan_fails :
    ∃ (disc gen : Fin 3 → Bool) (trainable varList : List (Fin 3)) (v : Fin 3), trainable.Nodup ∧ v ∈ varList ∧
      v ∈ trainable ∧ v ∉ (biganVars disc gen trainable (some varList)).1 ∧
      v ∉ (biganVars disc gen trainable (some varList)).2 :=
  ⟨fun i => i = 0, fun i => i = 1, [0, 1, 2], [2], 2, by decide⟩

example : splitVars (fun i : Fin 4 => i.val % 2 = 0) [0, 1, 2, 3] = ([0, 2], [1, 3]) := by decide

/-! ### C55 -/

/-- The weights are `exp w / Σ exp w`. -/
theorem klpqWeights_eq (logW : List ℝ) (hne : logW ≠ []) :
    klpqWeights logW = logW.map fun x => Real.exp x / (logW.map Real.exp).sum := by
  have hpos : ∀ m : ℝ, 0 < (logW.map fun x => Real.exp (x - m)).sum := by
    intro m
    apply List.sum_pos
    · intro y hy
      obtain ⟨x, _, rfl⟩ := List.mem_map.mp hy
      exact Real.exp_pos _
    · simpa using hne
  have hfac : ∀ m : ℝ, (logW.map fun x => Real.exp (x - m)).sum = (logW.map Real.exp).sum / Real.exp m := by
    intro m
    clear hpos hne
    induction logW with
    | nil => simp
    | cons a l ih => rw [List.map_cons, List.sum_cons, ih, List.map_cons, List.sum_cons, Real.exp_sub]; ring
  rw [klpqWeights]
  apply List.map_congr_left
  intro x _
  rw [logSumExp]
  generalize List.foldr max _ logW = m
  rw [Real.exp_sub, Real.exp_add, Real.exp_log (hpos m), hfac]
  have := Real.exp_pos m
  field_simp

/-- C55: the weights are positive and sum to one, so their mean is `1 / n_samples`, and
they do not change when a constant is added to every log weight. -/
theorem C55_weights (logW : List ℝ) (hne : logW ≠ []) :
    (∀ w ∈ klpqWeights logW, 0 < w) ∧ (klpqWeights logW).sum = 1 ∧
    listMean (klpqWeights logW) = 1 / logW.length ∧
    ∀ c : ℝ, klpqWeights (logW.map (· + c)) = klpqWeights logW := by
  have hpos : 0 < (logW.map Real.exp).sum := by
    apply List.sum_pos
    · intro y hy
      obtain ⟨x, _, rfl⟩ := List.mem_map.mp hy
      exact Real.exp_pos _
    · simpa using hne
  have hsum : (klpqWeights logW).sum = 1 := by
    rw [klpqWeights_eq logW hne]
    have : ∀ (l : List ℝ) (S : ℝ), (l.map fun x => Real.exp x / S).sum = (l.map Real.exp).sum / S := by
      intro l S
      induction l with
      | nil => simp
      | cons a l ih => simp only [List.map_cons, List.sum_cons, ih]; ring
    rw [this, div_self hpos.ne']
  refine ⟨?_, hsum, ?_, ?_⟩
  · intro w hw
    obtain ⟨x, _, rfl⟩ := List.mem_map.mp hw
    exact Real.exp_pos _
  · rw [listMean, hsum, klpqWeights, List.length_map]
  · intro c
    rw [klpqWeights_eq _ (by simpa using hne), klpqWeights_eq logW hne, List.map_map, List.map_map]
    have : (logW.map (Real.exp ∘ fun x => x + c)).sum = (logW.map Real.exp).sum * Real.exp c := by
      clear hpos hsum hne
      induction logW with
      | nil => simp
      | cons a l ih => simp only [List.map_cons, List.sum_cons, ih, Function.comp, Real.exp_add]; ring
    rw [this]
    apply List.map_congr_left
    intro x _
    have := Real.exp_pos c
    simp only [Function.comp, Real.exp_add]
    field_simp

/-- C55: the weights used in the loss are those of the importance ratios `p / q`: the
weight of a draw is its ratio over the sum of the ratios. -/
theorem C55_ratio (v : ViProblem Z X I Ω) (n : ℕ) (hn : 0 < n) (draws : Fin n → Ω)
    (p q : Ω → ℝ) (hp : ∀ ω, 0 < p ω) (hq : ∀ ω, 0 < q ω)
    (hP : ∀ ω, (v.latents.map fun z => ∑ i, v.logP z ω i).sum + (v.observed.map fun x => ∑ i, v.logLik x ω i).sum =
      Real.log (p ω))
    (hQ : ∀ ω, (v.latents.map fun z => ∑ i, v.logQ z ω i).sum = Real.log (q ω)) :
    klpqWeights (List.zipWith (· - ·) (klpqLogProbs v n draws).1 (klpqLogProbs v n draws).2) =
      List.ofFn fun s => (p (draws s) / q (draws s)) / ∑ t, p (draws t) / q (draws t) := by
  have hlw : List.zipWith (· - ·) (klpqLogProbs v n draws).1 (klpqLogProbs v n draws).2 =
      List.ofFn fun s => Real.log (p (draws s) / q (draws s)) := by
    rw [klpqLogProbs]
    dsimp only
    rw [pLogProb_eq, qLogProb_eq, zipWith_ofFn]
    congr 1; funext s
    rw [Real.log_div (hp _).ne' (hq _).ne', ← hP, ← hQ]
    simp [Spec.logJoint, Spec.logApprox]
  rw [hlw, klpqWeights_eq _ (by simp; omega)]
  have hexp : ∀ s, Real.exp (Real.log (p (draws s) / q (draws s))) = p (draws s) / q (draws s) :=
    fun s => Real.exp_log (div_pos (hp _) (hq _))
  rw [List.map_ofFn, List.map_ofFn, List.sum_ofFn]
  simp only [Function.comp_def, hexp]

example : ([0, 1] : List ℝ) ≠ [] := by simp

/-! ### C56 -/

/-- C56 (KLqp and MAP): every log probability is multiplied by the factor of its own
variable. -/
theorem C56_own_scale_partial (v : ViProblem Z X I Ω) (n : ℕ) (draws : Fin n → Ω) :
    qLogProb v n draws = (List.ofFn fun s => (v.latents.map fun z => ∑ i, v.scaleZ z i * v.logQ z (draws s) i).sum) ∧
    pLogProb v n draws = (List.ofFn fun s => (v.latents.map fun z => ∑ i, v.scaleZ z i * v.logP z (draws s) i).sum +
      (v.observed.map fun x => ∑ i, v.scaleX x i * v.logLik x (draws s) i).sum) ∧
    pLogLik v n draws = (List.ofFn fun s => (v.observed.map fun x => ∑ i, v.scaleX x i * v.logLik x (draws s) i).sum) ∧
    (∀ ω, mapLoss v ω 0 = -((v.latents.map fun z => ∑ i, v.scaleZ z i * v.logP z ω i).sum +
      (v.observed.map fun x => ∑ i, v.scaleX x i * v.logLik x ω i).sum)) := by
  refine ⟨qLogProb_eq v n draws, pLogProb_eq v n draws, pLogLik_eq v n draws, fun ω => ?_⟩
  have hf : ∀ {K : Type} (t : K → ℝ) (l : List K) (a : ℝ), l.foldl (fun p k => p + t k) a = a + (l.map t).sum := by
    intro K t l
    induction l with
    | nil => simp
    | cons b l ih => intro a; rw [List.foldl_cons, ih]; simp [add_assoc]
  rw [mapLoss]
  rw [hf, hf]
  simp [ViProblem.termP, ViProblem.termX]

/-- C56 (WakeSleep, wake phase): the same. -/
theorem C56_wake_partial (v : ViProblem Z X I Ω) (n : ℕ) (qDraws pDraws : Fin n → Ω) :
    wakeSleepQ v false n qDraws pDraws =
      List.ofFn fun s => (v.latents.map fun z => ∑ i, v.scaleZ z i * v.logQ z (qDraws s) i).sum :=
  qLogProb_eq v n qDraws

/-- C56 (WakeSleep, sleep phase): every term gets the factor of the last latent variable. -/
theorem C56_sleep_partial (v : ViProblem Z X I Ω) (n : ℕ) (qDraws pDraws : Fin n → Ω) (z₀ : Z)
    (hz : v.latents.getLast? = some z₀) :
    wakeSleepQ v true n qDraws pDraws =
      List.ofFn fun s => (v.latents.map fun z => ∑ i, v.scaleZ z₀ i * v.logQ z (pDraws s) i).sum := by
  simp only [wakeSleepQ, if_true, hz]
  exact accumulate_eq _ _ _ _

/-- C56 (WakeSleep): in both phases the model's loss is the average over the draws from the
approximation of the log joint density with every variable's own factor; without the sleep
phase the approximation's loss is the average of its log density at the same draws. -/
theorem C56_wake_losses_partial (v : ViProblem Z X I Ω) (n : ℕ) (qDraws pDraws : Fin n → Ω) (reg : ℝ) :
    (∀ sleep, (wakeSleepLosses v sleep n qDraws pDraws reg).1 =
      -Spec.average (fun s => Spec.logJoint v (qDraws s)) + reg) ∧
    (wakeSleepLosses v false n qDraws pDraws reg).2 = -Spec.average (fun s => Spec.logApprox v (qDraws s)) + reg := by
  refine ⟨fun sleep => ?_, ?_⟩
  · simp only [wakeSleepLosses]
    rw [pLogProb_eq, listMean_ofFn]
  · simp only [wakeSleepLosses]
    rw [C56_wake_partial, listMean_ofFn]
    rfl

/-- Two latent variables with different scales. -/
def sleepExample (order : List Bool) : ViProblem Bool Unit Unit Unit where
  latents := order
  observed := []
  scaleZ := fun z _ => if z then 10 else 1
  scaleX := fun _ _ => 1
  logQ := fun z _ _ => if z then 0 else -1
  logP := fun _ _ _ => 0
  logLik := fun _ _ _ => 0

/-- C56 fails in the sleep phase of WakeSleep: the loss of the approximation is not the
one of the scaled log probabilities, and it depends on the order of the dictionary. -/
theorem C56_sleep_fails :
    (wakeSleepLosses (sleepExample [false, true]) true 1 (fun _ => ()) (fun _ => ()) 0).2 ≠
      -Spec.average (fun _ : Fin 1 => Spec.logApprox (sleepExample [false, true]) ()) ∧
    (wakeSleepLosses (sleepExample [false, true]) true 1 (fun _ => ()) (fun _ => ()) 0).2 ≠
      (wakeSleepLosses (sleepExample [true, false]) true 1 (fun _ => ()) (fun _ => ()) 0).2 := by
  have h1 := C56_sleep_partial (sleepExample [false, true]) 1 (fun _ => ()) (fun _ => ()) true rfl
  have h2 := C56_sleep_partial (sleepExample [true, false]) 1 (fun _ => ()) (fun _ => ()) false rfl
  simp only [wakeSleepLosses]
  rw [h1, h2, listMean_ofFn, listMean_ofFn]
  constructor <;> norm_num [Spec.average, Spec.logApprox, sleepExample]

/-- C56 fails for KLpq: `scale` has no effect. -/
theorem C56_klpq_fails :
    (∀ (v : ViProblem Z X I Ω) (n : ℕ) (draws : Fin n → Ω) (reg : ℝ) (s : Z → I → ℝ) (s' : X → I → ℝ),
      klpqLoss { v with scaleZ := s, scaleX := s' } n draws reg = klpqLoss v n draws reg) ∧
    (klpqLogProbs (viExample 2) 1 (fun _ => 1)).2 ≠ List.ofFn fun _ : Fin 1 => Spec.logApprox (viExample 2) 1 := by
  refine ⟨fun _ _ _ _ _ _ => rfl, ?_⟩
  rw [klpqLogProbs]
  dsimp only
  rw [qLogProb_eq]
  simp [Spec.logApprox, viExample]

/-- C56 fails for the losses of KLqp with the analytic KL, the default when the priors and the approximations are
normal: the factors of the latent variables have no effect on the loss, while they have one on the log densities. -/
theorem C56_kl_fails :
    (∀ (v : ViProblem Z X I Ω) (n : ℕ) (draws : Fin n → Ω) (ks kl : Z → I → ℝ) (reg : ℝ) (s : Z → I → ℝ),
      reparamKlLoss { v with scaleZ := s } n draws ks kl reg = reparamKlLoss v n draws ks kl reg) ∧
    ∃ s s' : Bool → Unit → ℝ,
      Spec.logApprox { sleepExample [false, true] with scaleZ := s } () -
        Spec.logJoint { sleepExample [false, true] with scaleZ := s } () ≠
      Spec.logApprox { sleepExample [false, true] with scaleZ := s' } () -
        Spec.logJoint { sleepExample [false, true] with scaleZ := s' } () := by
  refine ⟨fun _ _ _ _ _ _ _ => rfl, fun _ _ => 0, fun _ _ => 1, ?_⟩
  simp [Spec.logApprox, Spec.logJoint, sleepExample]

/-- C56 fails for the losses of KLqp with the analytic entropy: the log joint density is scaled and the entropy is not.
With the same factor on all variables the loss is not the factor times the loss without it. -/
theorem C56_entropy_fails :
    (∀ (v : ViProblem Z X I Ω) (n : ℕ) (draws : Fin n → Ω) (h : Z → I → ℝ) (reg c : ℝ),
      reparamEntropyLoss { v with scaleZ := fun _ _ => c, scaleX := fun _ _ => c } n draws h reg =
        c * reparamEntropyLoss { v with scaleZ := fun _ _ => 1, scaleX := fun _ _ => 1 } n draws h reg +
          (1 - c) * (reg - qEntropy v h)) ∧
    reparamEntropyLoss (viExample 2) 1 (fun _ => 1) (fun _ _ => 1) 0 ≠
      2 * reparamEntropyLoss (viExample 1) 1 (fun _ => 1) (fun _ _ => 1) 0 := by
  have h0 : ∀ (v : ViProblem Z X I Ω) (t : ℝ) (ω : Ω),
      Spec.logJoint { v with scaleZ := fun _ _ => t, scaleX := fun _ _ => t } ω =
        t * ((v.latents.map fun z => ∑ i, v.logP z ω i).sum + (v.observed.map fun x => ∑ i, v.logLik x ω i).sum) := by
    intro v t ω
    simp only [Spec.logJoint, ← Finset.mul_sum, List.sum_map_mul_left, mul_add]
  refine ⟨fun v n draws h reg c => ?_, ?_⟩
  · simp only [reparamEntropyLoss, pLogProb_eq, listMean_ofFn, h0, qEntropy]
    simp only [Spec.average, ← Finset.mul_sum]
    ring
  · simp only [reparamEntropyLoss, pLogProb_eq, listMean_ofFn, qEntropy]
    norm_num [Spec.average, Spec.logJoint, viExample]

/-- The losses of KLqp do not depend on the iteration order of the dictionaries. -/
theorem C56_order (v : ViProblem Z X I Ω) (l : List Z) (o : List X) (hl : l.Perm v.latents) (ho : o.Perm v.observed)
    (n : ℕ) (draws : Fin n → Ω) (reg : ℝ) :
    reparamLoss { v with latents := l, observed := o } n draws reg = reparamLoss v n draws reg ∧
    scoreLoss { v with latents := l, observed := o } n draws reg = scoreLoss v n draws reg := by
  have h1 : ∀ ω, Spec.logJoint { v with latents := l, observed := o } ω = Spec.logJoint v ω := fun ω => by
    simp only [Spec.logJoint]
    rw [(hl.map _).sum_eq, (ho.map _).sum_eq]
  have h2 : ∀ ω, Spec.logApprox { v with latents := l, observed := o } ω = Spec.logApprox v ω := fun ω => by
    simp only [Spec.logApprox]
    rw [(hl.map _).sum_eq]
  constructor
  · rw [C52_reparam, C52_reparam]; simp only [h1, h2]
  · rw [C52_score, C52_score]; simp only [h1, h2]

/-! ### C60 -/

private theorem ce_eq (r : ℝ) :
    sigmoidCrossEntropy 1 r = -Real.log (logistic r) ∧ sigmoidCrossEntropy 0 r = -Real.log (1 - logistic r) := by
  have h := fun y : ℝ => C76_crossentropy_partial (A := Unit) (fun _ => y) (fun _ => r)
  simp only [binaryCrossentropy, reduceMean, Finset.univ_unique, Finset.sum_singleton, Fintype.card_unique,
    Nat.cast_one, div_one] at h
  exact ⟨by rw [h 1]; ring_nf, by rw [h 0]; ring_nf⟩

theorem logistic_pos (r : ℝ) : 0 < logistic r ∧ logistic r < 1 := by
  have := Real.exp_pos (-r)
  rw [logistic]
  exact ⟨by positivity, by rw [div_lt_one (by positivity)]; linarith⟩

theorem logistic_log_div {p q : ℝ} (hp : 0 < p) (hq : 0 < q) : logistic (Real.log (p / q)) = p / (p + q) := by
  rw [logistic, Real.exp_neg, Real.exp_log (div_pos hp hq)]
  have : p + q ≠ 0 := by positivity
  field_simp

theorem logistic_injective : Function.Injective logistic := by
  intro a b h
  have ha := Real.exp_pos (-a)
  have hb := Real.exp_pos (-b)
  rw [logistic, logistic, div_eq_div_iff (by positivity) (by positivity)] at h
  have : Real.exp (-a) = Real.exp (-b) := by linarith
  have := Real.exp_injective this
  linarith

/-- C60, pointwise: at a point with densities `p` and `q` the contribution of the value
`r` to the expected ratio loss is least exactly at `r = log (p / q)`. -/
theorem C60_pointwise (p q : ℝ) (hp : 0 < p) (hq : 0 < q) (r : ℝ) :
    p * sigmoidCrossEntropy 1 (Real.log (p / q)) + q * sigmoidCrossEntropy 0 (Real.log (p / q)) ≤
      p * sigmoidCrossEntropy 1 r + q * sigmoidCrossEntropy 0 r ∧
    (p * sigmoidCrossEntropy 1 (Real.log (p / q)) + q * sigmoidCrossEntropy 0 (Real.log (p / q)) =
      p * sigmoidCrossEntropy 1 r + q * sigmoidCrossEntropy 0 r ↔ r = Real.log (p / q)) := by
  rw [(ce_eq r).1, (ce_eq r).2, (ce_eq _).1, (ce_eq _).2]
  obtain ⟨h0, h1⟩ := logistic_pos r
  have ha := logistic_log_div hp hq
  have hpq : 0 < p + q := by positivity
  have hb : 1 - logistic (Real.log (p / q)) = q / (p + q) := by rw [ha]; field_simp; ring
  rw [hb, ha]
  set σ := logistic r with hσ
  have h1' : 0 < 1 - σ := by linarith
  have e1 : Real.log σ - Real.log (p / (p + q)) = Real.log (σ * (p + q) / p) := by
    rw [← Real.log_div h0.ne' (by positivity)]; congr 1; field_simp
  have e2 : Real.log (1 - σ) - Real.log (q / (p + q)) = Real.log ((1 - σ) * (p + q) / q) := by
    rw [← Real.log_div h1'.ne' (by positivity)]; congr 1; field_simp
  have b1 := Real.log_le_sub_one_of_pos (show 0 < σ * (p + q) / p by positivity)
  have b2 := Real.log_le_sub_one_of_pos (show 0 < (1 - σ) * (p + q) / q by positivity)
  have s : p * (σ * (p + q) / p - 1) + q * ((1 - σ) * (p + q) / q - 1) = 0 := by field_simp; ring
  have m1 := mul_le_mul_of_nonneg_left b1 hp.le
  have m2 := mul_le_mul_of_nonneg_left b2 hq.le
  rw [← e1] at m1
  rw [← e2] at m2
  refine ⟨by linarith, ⟨fun heq => ?_, fun heq => ?_⟩⟩
  · apply logistic_injective
    rw [ha, ← hσ]
    by_contra hne
    have hne' : σ * (p + q) / p ≠ 1 := by
      intro h
      apply hne
      field_simp at h ⊢
      linarith
    have b1' := Real.log_lt_sub_one_of_pos (show 0 < σ * (p + q) / p by positivity) hne'
    rw [← e1] at b1'
    have m1' := mul_lt_mul_of_pos_left b1' hp
    linarith
  · have : σ = p / (p + q) := by rw [hσ, heq, ha]
    rw [this]
    have : 1 - p / (p + q) = q / (p + q) := by field_simp; ring
    rw [this]

/-- C60: over all functions `r` of the data, the expected ratio loss
`E_p[loss] + E_q[loss]` is least exactly at the log density ratio. -/
theorem C60_ratio [Fintype Ω] (p q : Ω → ℝ) (hp : ∀ ω, 0 < p ω) (hq : ∀ ω, 0 < q ω) (hp1 : ∑ ω, p ω = 1)
    (hq1 : ∑ ω, q ω = 1) (r : Ω → ℝ) :
    let expected := fun r : Ω → ℝ => ∑ x, ∑ y, p x * q y * ratioLogLoss (r x) (r y)
    expected (fun ω => Real.log (p ω / q ω)) ≤ expected r ∧
    (expected (fun ω => Real.log (p ω / q ω)) = expected r ↔ ∀ ω, r ω = Real.log (p ω / q ω)) := by
  have hE : ∀ r : Ω → ℝ, ∑ x, ∑ y, p x * q y * ratioLogLoss (r x) (r y) =
      ∑ ω, (p ω * sigmoidCrossEntropy 1 (r ω) + q ω * sigmoidCrossEntropy 0 (r ω)) := by
    intro r
    have : ∀ x y, p x * q y * ratioLogLoss (r x) (r y) =
        q y * (p x * sigmoidCrossEntropy 1 (r x)) + p x * (q y * sigmoidCrossEntropy 0 (r y)) := by
      intro x y; rw [ratioLogLoss]; ring
    simp_rw [this, Finset.sum_add_distrib, ← Finset.sum_mul, ← Finset.mul_sum, hq1, ← Finset.sum_mul, hp1]
    simp
  simp only [hE]
  refine ⟨Finset.sum_le_sum fun ω _ => (C60_pointwise _ _ (hp ω) (hq ω) (r ω)).1, ?_⟩
  rw [Finset.sum_eq_sum_iff_of_le fun ω _ => (C60_pointwise _ _ (hp ω) (hq ω) (r ω)).1]
  exact ⟨fun h ω => (C60_pointwise _ _ (hp ω) (hq ω) (r ω)).2.mp (h ω (Finset.mem_univ _)),
    fun h ω _ => (C60_pointwise _ _ (hp ω) (hq ω) (r ω)).2.mpr (h ω)⟩

example : (∀ ω : Fin 2, (0 : ℝ) < ![1 / 4, 3 / 4] ω) ∧ ∑ ω : Fin 2, (![1 / 4, 3 / 4] ω : ℝ) = 1 := by
  constructor
  · intro ω; fin_cases ω <;> norm_num
  · norm_num [Fin.sum_univ_two]

/-- The hinge loss does not recover the ratio: its minimum at a point is at a sign. -/
theorem C60_hinge_fails :
    ∃ p q r : ℝ, 0 < p ∧ 0 < q ∧ p * max (1 - r) 0 + q * max (1 + r) 0 <
      p * max (1 - Real.log (p / q)) 0 + q * max (1 + Real.log (p / q)) 0 := by
  refine ⟨1, Real.exp 10, -1, one_pos, Real.exp_pos _, ?_⟩
  rw [Real.log_div one_ne_zero (Real.exp_pos _).ne', Real.log_one, Real.log_exp]
  norm_num

/-! ### C79 -/

/-- C79: the regularisation penalty is added to the losses of KLqp, MAP and WakeSleep and
to the functions differentiated by them. -/
theorem C79_added_partial [DecidableEq Z] [DecidableEq X] (v v' : ViProblem Z X I Ω) (n : ℕ) (draws d' : Fin n → Ω)
    (ω : Ω) (ks kl h : Z → I → ℝ) (varP : List (Z ⊕ X)) (varQ : List Z) (sleep : Bool) (reg : ℝ) :
    reparamLoss v n draws reg = reparamLoss v n draws 0 + reg ∧
    reparamKlLoss v n draws ks kl reg = reparamKlLoss v n draws ks kl 0 + reg ∧
    reparamEntropyLoss v n draws h reg = reparamEntropyLoss v n draws h 0 + reg ∧
    scoreLoss v n draws reg = scoreLoss v n draws 0 + reg ∧
    rbLoss v n draws reg = rbLoss v n draws 0 + reg ∧
    mapLoss v ω reg = mapLoss v ω 0 + reg ∧
    (wakeSleepLosses v sleep n draws d' reg).1 = (wakeSleepLosses v sleep n draws d' 0).1 + reg ∧
    (wakeSleepLosses v sleep n draws d' reg).2 = (wakeSleepLosses v sleep n draws d' 0).2 + reg ∧
    scoreSurrogate v' v n draws reg = scoreSurrogate v' v n draws 0 + reg ∧
    scoreKlSurrogate v' v n draws ks kl reg = scoreKlSurrogate v' v n draws ks kl 0 + reg ∧
    scoreEntropySurrogate v' v n draws h reg = scoreEntropySurrogate v' v n draws h 0 + reg ∧
    rbSurrogate v' v n draws varP varQ reg = rbSurrogate v' v n draws varP varQ 0 + reg ∧
    klpqSurrogate v' v n draws reg = klpqSurrogate v' v n draws 0 + reg := by
  refine ⟨?_, ?_, ?_, ?_, ?_, ?_, ?_, ?_, ?_, ?_, ?_, ?_, ?_⟩
  · simp only [reparamLoss]; ring
  · simp only [reparamKlLoss]; ring
  · simp only [reparamEntropyLoss]; ring
  · simp only [scoreLoss]; ring
  · simp only [rbLoss]; ring
  · simp only [mapLoss]; ring
  · simp only [wakeSleepLosses]; ring
  · simp only [wakeSleepLosses]; ring
  · simp only [scoreSurrogate]; ring
  · simp only [scoreKlSurrogate]; ring
  · simp only [scoreEntropySurrogate]; ring
  · simp only [rbSurrogate]; ring
  · simp only [klpqSurrogate]; ring

/-- C79 fails for the loss reported by KLpq: the penalty is subtracted. -/
theorem C79_klpq_fails (v : ViProblem Z X I Ω) (n : ℕ) (draws : Fin n → Ω) (reg : ℝ) :
    klpqLoss v n draws reg = klpqLoss v n draws 0 - reg ∧
      (0 < reg → klpqLoss v n draws reg ≠ klpqLoss v n draws 0 + reg) := by
  have : klpqLoss v n draws reg = klpqLoss v n draws 0 - reg := by simp only [klpqLoss]; ring
  exact ⟨this, fun h e => by rw [this] at e; linarith⟩

end Edward
