/-
C93: the Monte Carlo algorithms multiply the log probability of each variable by its factor in `scale`.
C94: the densities compared in one update are those of the same data.
-/
import Verif.Model.McmcTarget
import Mathlib.Tactic

namespace Edward
variable {Z X I D W : Type} [Fintype I]

/-- The log density which `scale` describes. -/
def Spec.scaledJoint (m : McmcProblem Z X I D W) (d : D) (w : W) : ℝ :=
  (m.latents.map fun z => ∑ i, m.scaleZ z i * m.logPrior z d w i).sum +
    (m.observed.map fun x => ∑ i, m.scaleX x i * m.logLik x d w i).sum

/-- The log density without `scale`. -/
def Spec.plainJoint (m : McmcProblem Z X I D W) (d : D) (w : W) : ℝ :=
  (m.latents.map fun z => ∑ i, m.logPrior z d w i).sum + (m.observed.map fun x => ∑ i, m.logLik x d w i).sum

/-- The log density of the proposal of `b` from `a`. -/
def Spec.logProposal (m : McmcProblem Z X I D W) (d : D) (a b : W) : ℝ :=
  (m.proposals.map fun z => ∑ i, m.logProp z d a b i).sum

/-- All factors are one, as without `scale`. -/
def Unscaled (m : McmcProblem Z X I D W) : Prop := (∀ z i, m.scaleZ z i = 1) ∧ ∀ x i, m.scaleX x i = 1

theorem addTerms_eq {K : Type} (keys : List K) (term : K → ℝ) (acc : ℝ) :
    addTerms keys term acc = acc + (keys.map term).sum := by
  induction keys generalizing acc with
  | nil => simp [addTerms]
  | cons k keys ih => simp only [addTerms, List.foldl_cons, List.map_cons, List.sum_cons] at ih ⊢; rw [ih]; ring

theorem foldl_sub_eq {K : Type} (keys : List K) (term : K → ℝ) (acc : ℝ) :
    keys.foldl (fun a k => a - term k) acc = acc - (keys.map term).sum := by
  induction keys generalizing acc with
  | nil => simp
  | cons k keys ih => simp only [List.foldl_cons, List.map_cons, List.sum_cons]; rw [ih]; ring

theorem foldl_addSub_eq {K : Type} (keys : List K) (s t : K → ℝ) (acc : ℝ) :
    keys.foldl (fun a k => a + s k - t k) acc = acc + (keys.map s).sum - (keys.map t).sum := by
  induction keys generalizing acc with
  | nil => simp
  | cons k keys ih => simp only [List.foldl_cons, List.map_cons, List.sum_cons]; rw [ih]; ring

theorem hmcLogJoint_eq (m : McmcProblem Z X I D W) (d : D) (w : W) : hmcLogJoint m d w = Spec.plainJoint m d w := by
  simp [hmcLogJoint, Spec.plainJoint, addTerms_eq]

theorem mhLogRatio_eq (m : McmcProblem Z X I D W) (d : D) (old new : W) :
    mhLogRatio m d old new = Spec.plainJoint m d new - Spec.plainJoint m d old +
      Spec.logProposal m d new old - Spec.logProposal m d old new := by
  simp only [mhLogRatio, addTerms_eq, foldl_sub_eq, foldl_addSub_eq, Spec.plainJoint, Spec.logProposal]
  ring

theorem Unscaled.eq {m : McmcProblem Z X I D W} (h : Unscaled m) (d : D) (w : W) :
    Spec.scaledJoint m d w = Spec.plainJoint m d w := by
  simp [Spec.scaledJoint, Spec.plainJoint, h.1, h.2]

/-- C93: SGLD and SGHMC follow the gradient of the scaled log density. -/
theorem C93_langevin (m : McmcProblem Z X I D W) (d : D) (w : W) : sgLogJoint m d w = Spec.scaledJoint m d w := by
  simp [sgLogJoint, Spec.scaledJoint, addTerms_eq]

/-- C93: HMC, Metropolis-Hastings and replica exchange compare scaled log densities if all factors are one. -/
theorem C93_partial {m : McmcProblem Z X I D W} (h : Unscaled m) (d : D) (old new : W) (invTemp : ℝ) :
    hmcLogJoint m d new = Spec.scaledJoint m d new ∧ replicaEnergy m d new = Spec.scaledJoint m d new ∧
    mhLogRatio m d old new = Spec.scaledJoint m d new - Spec.scaledJoint m d old +
      Spec.logProposal m d new old - Spec.logProposal m d old new ∧
    replicaLogRatio m invTemp d old new = invTemp * (Spec.scaledJoint m d new - Spec.scaledJoint m d old +
      Spec.logProposal m d new old - Spec.logProposal m d old new) := by
  simp only [h.eq]
  refine ⟨hmcLogJoint_eq m d new, hmcLogJoint_eq m d new, mhLogRatio_eq m d old new, ?_⟩
  rw [replicaLogRatio, mhLogRatio_eq]
  ring

/-- One latent variable and one observed one, with scalar log probabilities `w` and `d * w`, a symmetric proposal, and
the factor `s` for the observed variable. -/
def mcmcExample (s : ℝ) : McmcProblem Unit Unit Unit ℝ ℝ where
  latents := [()]
  proposals := [()]
  observed := [()]
  scaleZ := fun _ _ => 1
  scaleX := fun _ _ => s
  logPrior := fun _ _ w _ => w
  logLik := fun _ d w _ => d * w
  logProp := fun _ _ a b _ => -(a - b) ^ 2

example : Unscaled (mcmcExample 1) ∧ mhLogRatio (mcmcExample 1) 2 0 1 = 3 := by
  refine ⟨⟨fun _ _ => rfl, fun _ _ => rfl⟩, ?_⟩
  rw [mhLogRatio_eq]
  norm_num [Spec.plainJoint, Spec.logProposal, mcmcExample]

example : sgLogJoint (mcmcExample 10) 2 1 = 21 := by
  rw [C93_langevin]; norm_num [Spec.scaledJoint, mcmcExample]

/-- C93 fails: HMC, Metropolis-Hastings and replica exchange do not read `scale`; with a factor of ten for the
observations (a minibatch of a tenth of the data) a move whose scaled log density increases by 21 has ratio 3. -/
theorem C93_fails :
    (∀ (m : McmcProblem Z X I D W) (sz : Z → I → ℝ) (sx : X → I → ℝ) (d : D) (old new : W) (invTemp : ℝ),
      hmcLogJoint { m with scaleZ := sz, scaleX := sx } d new = hmcLogJoint m d new ∧
      replicaEnergy { m with scaleZ := sz, scaleX := sx } d new = replicaEnergy m d new ∧
      mhLogRatio { m with scaleZ := sz, scaleX := sx } d old new = mhLogRatio m d old new ∧
      replicaLogRatio { m with scaleZ := sz, scaleX := sx } invTemp d old new = replicaLogRatio m invTemp d old new) ∧
    Spec.scaledJoint (mcmcExample 10) 2 1 - Spec.scaledJoint (mcmcExample 10) 2 0 = 21 ∧
    Spec.logProposal (mcmcExample 10) 2 1 0 = Spec.logProposal (mcmcExample 10) 2 0 1 ∧
    mhLogRatio (mcmcExample 10) 2 0 1 = 3 ∧
    hmcLogJoint (mcmcExample 10) 2 1 - hmcLogJoint (mcmcExample 10) 2 0 = 3 := by
  refine ⟨fun m sz sx d old new t => ⟨rfl, rfl, rfl, rfl⟩, ?_⟩
  simp only [mhLogRatio_eq, hmcLogJoint_eq]
  norm_num [Spec.plainJoint, Spec.scaledJoint, Spec.logProposal, mcmcExample]

/-! ### C94 -/

/-- C94: Metropolis-Hastings and replica exchange compare the densities of the same data; in particular a proposal
equal to the current state always has ratio zero. -/
theorem C94_mh (m : McmcProblem Z X I D W) (d : D) (old new : W) (invTemp : ℝ) :
    mhLogRatio m d old new = Spec.plainJoint m d new - Spec.plainJoint m d old +
      Spec.logProposal m d new old - Spec.logProposal m d old new ∧
    mhLogRatio m d old old = 0 ∧ replicaLogRatio m invTemp d old old = 0 := by
  refine ⟨mhLogRatio_eq m d old new, ?_, ?_⟩
  · rw [mhLogRatio_eq]; ring
  · rw [replicaLogRatio, mhLogRatio_eq]; ring

/-- C94: HMC compares the densities of the same data if the data are not random. -/
theorem C94_hmc_partial (m : McmcProblem Z X I D W) (kin : ℝ × ℝ) {dNew dOld d : D} (hn : dNew = d) (ho : dOld = d)
    (old new : W) :
    hmcLogRatio m kin dNew dOld old new = kin.1 - kin.2 + (Spec.plainJoint m d new - Spec.plainJoint m d old) := by
  subst hn ho
  rw [hmcLogRatio, hmcLogJoint_eq, hmcLogJoint_eq]
  ring

example : hmcLogRatio (mcmcExample 1) (0, 0) 2 2 0 1 = 3 := by
  rw [C94_hmc_partial (mcmcExample 1) (0, 0) rfl rfl]; norm_num [Spec.plainJoint, mcmcExample]

/-- C94 fails for HMC with random data: the two densities are those of two draws of the data. The ratio then is off by
the difference of the log densities of the current state given the two draws, and a trajectory that returns to where
it started can have any ratio. -/
theorem C94_hmc_fails :
    (∀ (m : McmcProblem Z X I D W) (kin : ℝ × ℝ) (dNew dOld : D) (old new : W),
      hmcLogRatio m kin dNew dOld old new = kin.1 - kin.2 + (Spec.plainJoint m dNew new - Spec.plainJoint m dNew old) +
        (Spec.plainJoint m dNew old - Spec.plainJoint m dOld old)) ∧
    ∀ r : ℝ, ∃ dNew dOld, hmcLogRatio (mcmcExample 1) (0, 0) dNew dOld 1 1 = r := by
  refine ⟨fun m kin dNew dOld old new => ?_, fun r => ⟨r, 0, ?_⟩⟩
  · rw [hmcLogRatio, hmcLogJoint_eq, hmcLogJoint_eq]; ring
  · rw [hmcLogRatio, hmcLogJoint_eq, hmcLogJoint_eq]
    simp [Spec.plainJoint, mcmcExample]

end Edward
