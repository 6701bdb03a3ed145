/-
Model of the variational objectives: edward/inferences/klqp.py:86-163, 642-1152,
klpq.py:100-184, wake_sleep.py:79-155, map.py:115-153, implicit_klqp.py:149-242, and of
the way they split parameters.

`copy` is assumed to produce, for each sample `s`, the graph evaluated at the `s`-th draw
`ω` of all random values (C14-C18); a log probability is a function of the draw and has
finitely many entries `I` (`tf.reduce_sum` adds them up). Dictionaries are lists of keys
in iteration order. Random data (`isinstance(qx, RandomVariable)`) is part of the draw.
-/
import Mathlib.Analysis.SpecialFunctions.Log.Basic
import Verif.Model.Metrics

namespace Edward

/-- The inference object: keys of `latent_vars`, keys of `data` that are random
variables, `scale.get(·, 1.0)`, and the entries of the log probabilities at a draw. -/
structure ViProblem (Z X I Ω : Type) where
  latents : List Z
  observed : List X
  scaleZ : Z → I → ℝ
  scaleX : X → I → ℝ
  logQ : Z → Ω → I → ℝ
  logP : Z → Ω → I → ℝ
  logLik : X → Ω → I → ℝ

section
variable {Z X I Ω : Type} [Fintype I]

namespace ViProblem

/-- `tf.reduce_sum(inference.scale.get(z, 1.0) * qz_copy.log_prob(...))` -/
def termQ (v : ViProblem Z X I Ω) (z : Z) (ω : Ω) : ℝ := ∑ i, v.scaleZ z i * v.logQ z ω i

/-- `tf.reduce_sum(inference.scale.get(z, 1.0) * z_copy.log_prob(dict_swap[z]))` -/
def termP (v : ViProblem Z X I Ω) (z : Z) (ω : Ω) : ℝ := ∑ i, v.scaleZ z i * v.logP z ω i

/-- `tf.reduce_sum(inference.scale.get(x, 1.0) * x_copy.log_prob(dict_swap[x]))` -/
def termX (v : ViProblem Z X I Ω) (x : X) (ω : Ω) : ℝ := ∑ i, v.scaleX x i * v.logLik x ω i

end ViProblem

/-- `arr[s] += t` -/
def addAt (arr : List ℝ) (s : ℕ) (t : ℝ) : List ℝ := arr.modify s (· + t)

/-- `tf.reduce_mean` of a list. -/
noncomputable def listMean (l : List ℝ) : ℝ := l.sum / l.length

/-- The accumulation `for s in range(n_samples): for k in keys: arr[s] += term k (draw s)`
starting from `[0.0] * n_samples`. -/
def accumulate {K : Type} (n : ℕ) (draws : Fin n → Ω) (keys : List K) (term : K → Ω → ℝ)
    (arr : List ℝ) : List ℝ :=
  (List.finRange n).foldl (fun arr (s : Fin n) => keys.foldl (fun arr k => addAt arr s (term k (draws s))) arr) arr

/-- `q_log_prob` after the sampling loop (klqp.py:655-675). -/
def qLogProb (v : ViProblem Z X I Ω) (n : ℕ) (draws : Fin n → Ω) : List ℝ :=
  accumulate n draws v.latents v.termQ (List.replicate n 0)

/-- `p_log_prob` after the sampling loop (klqp.py:654,677-686): latent variables, then
observed ones. -/
def pLogProb (v : ViProblem Z X I Ω) (n : ℕ) (draws : Fin n → Ω) : List ℝ :=
  (List.finRange n).foldl (fun arr (s : Fin n) =>
    let arr := v.latents.foldl (fun arr z => addAt arr s (v.termP z (draws s))) arr
    v.observed.foldl (fun arr x => addAt arr s (v.termX x (draws s))) arr) (List.replicate n 0)

/-- `p_log_lik` of the analytic-KL losses (klqp.py:723,743-747, 942-946). -/
def pLogLik (v : ViProblem Z X I Ω) (n : ℕ) (draws : Fin n → Ω) : List ℝ :=
  accumulate n draws v.observed v.termX (List.replicate n 0)

/-- `build_reparam_loss_and_gradients`, the loss (klqp.py:688-700). -/
noncomputable def reparamLoss (v : ViProblem Z X I Ω) (n : ℕ) (draws : Fin n → Ω) (reg : ℝ) : ℝ :=
  -(listMean (pLogProb v n draws) - listMean (qLogProb v n draws) - reg)

/-- `kl_penalty` (klqp.py:751-753, 951-953): `kl z i` are the entries of
`kl_divergence(qz, z)`, evaluated on the original graph. -/
def klPenalty (v : ViProblem Z X I Ω) (klScaling : Z → I → ℝ) (kl : Z → I → ℝ) : ℝ :=
  (v.latents.map fun z => ∑ i, klScaling z i * kl z i).sum

/-- `build_reparam_kl_loss_and_gradients`, the loss (klqp.py:749-765); also the loss of
`build_score_kl_loss_and_gradients` (klqp.py:965). -/
noncomputable def reparamKlLoss (v : ViProblem Z X I Ω) (n : ℕ) (draws : Fin n → Ω) (klScaling kl : Z → I → ℝ)
    (reg : ℝ) : ℝ :=
  -(listMean (pLogLik v n draws) - klPenalty v klScaling kl - reg)

/-- `q_entropy` (klqp.py:819-821): not scaled. -/
def qEntropy (v : ViProblem Z X I Ω) (entropy : Z → I → ℝ) : ℝ := (v.latents.map fun z => ∑ i, entropy z i).sum

/-- `build_reparam_entropy_loss_and_gradients`, the loss (klqp.py:817-833); also
klqp.py:1043. -/
noncomputable def reparamEntropyLoss (v : ViProblem Z X I Ω) (n : ℕ) (draws : Fin n → Ω) (entropy : Z → I → ℝ)
    (reg : ℝ) : ℝ :=
  -(listMean (pLogProb v n draws) + qEntropy v entropy - reg)

/-- `build_score_loss_and_gradients`, the loss (klqp.py:894-895). -/
noncomputable def scoreLoss (v : ViProblem Z X I Ω) (n : ℕ) (draws : Fin n → Ω) (reg : ℝ) : ℝ :=
  -(listMean (List.zipWith (· - ·) (pLogProb v n draws) (qLogProb v n draws)) - reg)

/-- The function differentiated for the parameters of the approximation (klqp.py:901).
`v'` is the object whose `q_log_prob` is differentiated; `v` provides the values under
`tf.stop_gradient`. The samples are under `stop_gradient` too (line 869), so the same
draws appear in both. -/
noncomputable def scoreSurrogate (v' v : ViProblem Z X I Ω) (n : ℕ) (draws : Fin n → Ω) (reg : ℝ) : ℝ :=
  let losses := List.zipWith (· - ·) (pLogProb v n draws) (qLogProb v n draws);
  -(listMean (List.zipWith (· * ·) (qLogProb v' n draws) losses) - reg)

/-- klqp.py:971-972 -/
noncomputable def scoreKlSurrogate (v' v : ViProblem Z X I Ω) (n : ℕ) (draws : Fin n → Ω)
    (klScaling kl : Z → I → ℝ) (reg : ℝ) : ℝ :=
  -(listMean (List.zipWith (· * ·) (qLogProb v' n draws) (pLogLik v n draws)) -
    klPenalty v' klScaling kl - reg)

/-- klqp.py:1049-1050 -/
noncomputable def scoreEntropySurrogate (v' v : ViProblem Z X I Ω) (n : ℕ) (draws : Fin n → Ω)
    (entropy : Z → I → ℝ) (reg : ℝ) : ℝ :=
  -(listMean (List.zipWith (· * ·) (qLogProb v' n draws) (pLogProb v n draws)) + qEntropy v' entropy - reg)

/-! ### Rao-Blackwellised score function (klqp.py:1058-1152) -/

/-- A Python list of references to dictionaries, and the store they point into.
`[{}] * n` holds `n` references to one dictionary. -/
structure DictList (K : Type) where
  refs : List ℕ
  store : ℕ → K → Option ℝ

/-- `[{}] * n` (klqp.py:1068-1069) -/
def DictList.mk' (K : Type) (n : ℕ) : DictList K := ⟨List.replicate n 0, fun _ _ => none⟩

/-- `l[s][k] = t` -/
def DictList.setItem {K : Type} [DecidableEq K] (l : DictList K) (s : ℕ) (k : K) (t : ℝ) : DictList K :=
  match l.refs[s]? with
  | none => l
  | some r => { l with store := fun r' k' => if r' = r ∧ k' = k then some t else l.store r' k' }

/-- `l[s][k]` for a key that is present; absent keys (KeyError) do not occur below. -/
def DictList.getItem {K : Type} (l : DictList K) (s : ℕ) (k : K) : ℝ :=
  match l.refs[s]? with
  | none => 0
  | some r => (l.store r k).getD 0

/-- `p_log_probs` and `q_log_probs` after the sampling loop (klqp.py:1071-1101). -/
def rbTables [DecidableEq Z] [DecidableEq X] (v : ViProblem Z X I Ω) (n : ℕ) (draws : Fin n → Ω) :
    DictList (Z ⊕ X) × DictList Z :=
  (List.finRange n).foldl (fun pq (s : Fin n) =>
    let q := v.latents.foldl (fun q z => q.setItem s z (v.termQ z (draws s))) pq.2
    let p := v.latents.foldl (fun p z => p.setItem s (.inl z) (v.termP z (draws s))) pq.1
    let p := v.observed.foldl (fun p x => p.setItem s (.inr x) (v.termX x (draws s))) p
    (p, q)) (DictList.mk' _ n, DictList.mk' _ n)

/-- The loss (klqp.py:1142-1146); the values of a dictionary are those of the keys set. -/
noncomputable def rbLoss [DecidableEq Z] [DecidableEq X] (v : ViProblem Z X I Ω) (n : ℕ) (draws : Fin n → Ω)
    (reg : ℝ) : ℝ :=
  let pq := rbTables v n draws;
  -(listMean ((List.finRange n).map fun (s : Fin n) =>
      (v.latents.map fun z => pq.1.getItem s (.inl z)).sum + (v.observed.map fun x => pq.1.getItem s (.inr x)).sum) -
    listMean ((List.finRange n).map fun (s : Fin n) => (v.latents.map fun z => pq.2.getItem s z).sum) - reg)

/-- The function differentiated for one variational parameter (klqp.py:1125-1137), with
the blankets `varP`, `varQ` of lines 1116-1123. `v'`, `v` as in `scoreSurrogate`. -/
noncomputable def rbSurrogate [DecidableEq Z] [DecidableEq X] (v' v : ViProblem Z X I Ω) (n : ℕ) (draws : Fin n → Ω)
    (varP : List (Z ⊕ X)) (varQ : List Z) (reg : ℝ) : ℝ :=
  let pq := rbTables v n draws
  let pq' := rbTables v' n draws
  let pi := (List.finRange n).map fun (s : Fin n) => (varP.map fun rv => pq.1.getItem s rv).sum
  let qi := (List.finRange n).map fun (s : Fin n) => (varQ.map fun z => pq.2.getItem s z).sum
  let qi' := (List.finRange n).map fun (s : Fin n) => (varQ.map fun z => pq'.2.getItem s z).sum;
  -listMean (List.zipWith (· * ·) qi' (List.zipWith (· - ·) pi qi)) + reg

/-! ### MAP (map.py:115-153) -/

/-- map.py:133-149 -/
def mapLoss (v : ViProblem Z X I Ω) (ω : Ω) (reg : ℝ) : ℝ :=
  let p := v.latents.foldl (fun p z => p + v.termP z ω) 0
  let p := v.observed.foldl (fun p x => p + v.termX x ω) p;
  -p + reg

/-! ### KLpq (klpq.py:100-184) -/

/-- `p_log_prob` and `q_log_prob` (klpq.py:126-159): `self.scale` is not used. -/
def klpqLogProbs (v : ViProblem Z X I Ω) (n : ℕ) (draws : Fin n → Ω) : List ℝ × List ℝ :=
  let one : ViProblem Z X I Ω := { v with scaleZ := fun _ _ => 1, scaleX := fun _ _ => 1 }
  (pLogProb one n draws, qLogProb one n draws)

/-- `tf.reduce_logsumexp` of finite numbers. -/
noncomputable def logSumExp (l : List ℝ) : ℝ :=
  let m := l.foldr max (l.headD 0)
  Real.log ((l.map fun x => Real.exp (x - m)).sum) + m

/-- klpq.py:170-172 -/
noncomputable def klpqWeights (logW : List ℝ) : List ℝ := logW.map fun x => Real.exp (x - logSumExp logW)

/-- klpq.py:170-173 -/
noncomputable def klpqLoss (v : ViProblem Z X I Ω) (n : ℕ) (draws : Fin n → Ω) (reg : ℝ) : ℝ :=
  let pq := klpqLogProbs v n draws
  let logW := List.zipWith (· - ·) pq.1 pq.2
  (List.zipWith (· * ·) (klpqWeights logW) logW).sum - reg

/-- The function differentiated for the parameters of the approximation (klpq.py:179). -/
noncomputable def klpqSurrogate (v' v : ViProblem Z X I Ω) (n : ℕ) (draws : Fin n → Ω) (reg : ℝ) : ℝ :=
  let pq := klpqLogProbs v n draws
  let logW := List.zipWith (· - ·) pq.1 pq.2;
  -((List.zipWith (· * ·) (klpqLogProbs v' n draws).2 (klpqWeights logW)).sum - reg)

/-! ### WakeSleep (wake_sleep.py:79-155) -/

/-- `q_log_prob` (wake_sleep.py:80-131). `sleep` is `phase_q == 'sleep'`. In the wake
phase the draws are those of `q`; in the sleep phase those of `p`, and the scale factor of
line 130 is that of `z`, the last key of the loop of line 123. -/
def wakeSleepQ (v : ViProblem Z X I Ω) (sleep : Bool) (n : ℕ) (qDraws pDraws : Fin n → Ω) : List ℝ :=
  if sleep then
    accumulate n pDraws v.latents
      (fun qz ω => ∑ i, (match v.latents.getLast? with
        | some z => v.scaleZ z i
        | none => 1) * v.logQ qz ω i) (List.replicate n 0)
  else qLogProb v n qDraws

/-- `loss_p`, `loss_q` (wake_sleep.py:133-146) -/
noncomputable def wakeSleepLosses (v : ViProblem Z X I Ω) (sleep : Bool) (n : ℕ) (qDraws pDraws : Fin n → Ω)
    (reg : ℝ) : ℝ × ℝ :=
  (-listMean (pLogProb v n qDraws) + reg, -listMean (wakeSleepQ v sleep n qDraws pDraws) + reg)
end

/-! ### Choice of the estimator (klqp.py:86-163) -/

/-- What the dispatch looks at for one latent variable. -/
structure LatentPair where
  qReparam : Bool
  zNormal : Bool
  qNormal : Bool

/-- The loss built. -/
inductive KlqpKind
  | reparamKl
  | reparam
  | scoreRb
  deriving DecidableEq

/-- `KLqp.initialize` and `KLqp.build_loss_and_gradients` (klqp.py:105-163).
`klScaling`: the dictionary passed is not empty. -/
def klqpDispatch (nSamples : ℤ) (klScaling : Bool) (pairs : List LatentPair) : Except PyErr KlqpKind :=
  if nSamples ≤ 0 then .error .valueError
  else
    let isReparam := pairs.all (·.qReparam)
    let isAnalytic := pairs.all (fun p => p.zNormal && p.qNormal)
    if !isAnalytic && klScaling then .error .typeError
    else if isReparam then
      if isAnalytic then .ok .reparamKl else .ok .reparam
    else .ok .scoreRb

/-! ### Splitting the parameters -/

/-- `q_vars`, `p_vars` and their concatenation (klqp.py:897-905, klpq.py:175-183,
wake_sleep.py:148-154). `isQ v`: the variable has descendants among the approximations. -/
def splitVars {V : Type} [DecidableEq V] (isQ : V → Bool) (varList : List V) : List V × List V :=
  let qVars := varList.filter isQ
  (qVars, varList.filter fun v => v ∉ qVars)

/-- The order of `grads_vars` in `build_score_rb_loss_and_gradients` (klqp.py:1108-1150). -/
def rbVars {V : Type} [DecidableEq V] (isQ : V → Bool) (varList : List V) : List V × List V :=
  let gradsVars := varList.foldl (fun acc v => if isQ v then acc ++ [v] else acc) []
  (gradsVars, varList.filter fun v => v ∉ gradsVars)

/-- `var_list_d` and `var_list` of `GANInference`, `WGANInference` and `ImplicitKLqp`
(gan_inference.py:143-146, wgan_inference.py:98-101, implicit_klqp.py:218-221). `disc v`:
the name of the variable is in the scope "Disc". -/
def ganVars {V : Type} [DecidableEq V] (disc : V → Bool) (trainable : List V) (varList : Option (List V)) :
    List V × List V :=
  let varListD := trainable.filter disc
  (varListD, match varList with
    | none => trainable.filter fun v => v ∉ varListD
    | some l => l)

/-- The same for `BiGANInference` (bigan_inference.py:83-86): the argument is not used. -/
def biganVars {V : Type} (disc gen : V → Bool) (trainable : List V) (_varList : Option (List V)) :
    List V × List V :=
  (trainable.filter disc, trainable.filter gen)

/-! ### ImplicitKLqp losses (implicit_klqp.py:230-242) -/

/-- implicit_klqp.py:230-236 -/
noncomputable def ratioLogLoss (psample qsample : ℝ) : ℝ :=
  sigmoidCrossEntropy 1 psample + sigmoidCrossEntropy 0 qsample

/-- implicit_klqp.py:239-242 -/
noncomputable def ratioHingeLoss (psample qsample : ℝ) : ℝ := max (1 - psample) 0 + max (1 + qsample) 0

end Edward
