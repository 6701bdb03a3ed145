/-
Model of the log densities which the Monte Carlo algorithms evaluate: `HMC._log_joint` (edward/inferences/hmc.py:
161-192), `SGLD._log_joint` and `SGHMC._log_joint` (sgld.py:89-121, sghmc.py:98-130), the ratio of
`MetropolisHastings` (metropolis_hastings.py:84-134) and of `ReplicaExchangeMC` (replica_exchange_mc.py:148-201,
244-275), with the factors `self.scale`, and with data which may be random variables.

Every log probability is a function of the values `d` of the data and `w` of the latent variables, with entries `I`
(`tf.reduce_sum` adds them up). Dictionaries are lists of keys in iteration order. Densities are positive. The
Jacobian terms of HMC are modelled in `Verif.Model.Transform`.
-/
import Mathlib.Data.Real.Basic
import Mathlib.Algebra.BigOperators.Group.Finset.Basic
import Mathlib.Data.Fintype.Basic

namespace Edward

/-- The inference object: the keys of `latent_vars` and `proposal_vars`, the keys of `data` that are random variables,
`scale.get(·, 1.0)`, and the entries of the log probabilities. `logProp z d a b`: of the proposal of `z` at the value
in `b`, given the state `a`. -/
structure McmcProblem (Z X I D W : Type) where
  latents : List Z
  proposals : List Z
  observed : List X
  scaleZ : Z → I → ℝ
  scaleX : X → I → ℝ
  logPrior : Z → D → W → I → ℝ
  logLik : X → D → W → I → ℝ
  logProp : Z → D → W → W → I → ℝ

variable {Z X I D W : Type} [Fintype I]

/-- `for k in keys: acc += term(k)` -/
def addTerms {K : Type} (keys : List K) (term : K → ℝ) (acc : ℝ) : ℝ := keys.foldl (fun a k => a + term k) acc

/-- `HMC._log_joint` (hmc.py:182-192). -/
def hmcLogJoint (m : McmcProblem Z X I D W) (d : D) (w : W) : ℝ :=
  addTerms m.observed (fun x => ∑ i, m.logLik x d w i) (addTerms m.latents (fun z => ∑ i, m.logPrior z d w i) 0)

/-- `SGLD._log_joint`, `SGHMC._log_joint` (sgld.py:109-121, sghmc.py:118-130). -/
def sgLogJoint (m : McmcProblem Z X I D W) (d : D) (w : W) : ℝ :=
  addTerms m.observed (fun x => ∑ i, m.scaleX x i * m.logLik x d w i)
    (addTerms m.latents (fun z => ∑ i, m.scaleZ z i * m.logPrior z d w i) 0)

/-- `ratio` of Metropolis-Hastings (metropolis_hastings.py:101-134): the data are the same in all terms
(`scope='conditional'`). -/
def mhLogRatio (m : McmcProblem Z X I D W) (d : D) (old new : W) : ℝ :=
  let r := m.proposals.foldl (fun a z => a - ∑ i, m.logProp z d old new i) 0
  let r := addTerms m.proposals (fun z => ∑ i, m.logProp z d new old i) r
  let r := m.latents.foldl (fun a z => a + (∑ i, m.logPrior z d new i) - ∑ i, m.logPrior z d old i) r
  m.observed.foldl (fun a x => a + (∑ i, m.logLik x d new i) - ∑ i, m.logLik x d old i) r

/-- `ratio` of a replica (replica_exchange_mc.py:166-201). -/
def replicaLogRatio (m : McmcProblem Z X I D W) (invTemp : ℝ) (d : D) (old new : W) : ℝ :=
  mhLogRatio m d old new * invTemp

/-- `replica_ratio[i]` (replica_exchange_mc.py:253-275). -/
def replicaEnergy (m : McmcProblem Z X I D W) (d : D) (w : W) : ℝ := hmcLogJoint m d w

/-- `ratio` of HMC, without transformations (hmc.py:99-105), `kin` being the kinetic energies before and after. Each
call of `_log_joint` copies random data in its own scope (hmc.py:169-180), so that it has its own draw: `dNew` for the
first term and `dOld` for the second. -/
noncomputable def hmcLogRatio (m : McmcProblem Z X I D W) (kin : ℝ × ℝ) (dNew dOld : D) (old new : W) : ℝ :=
  kin.1 - kin.2 + hmcLogJoint m dNew new - hmcLogJoint m dOld old

end Edward
