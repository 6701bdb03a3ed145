/-
C140: in a copy every argument of the random variable is replaced as dict_swap says; and C139 for a ParamMixture that data are
bound to.
-/
import Verif.Props.MixtureInference
import Verif.Spec.CopyArgs

namespace Edward
variable {V W : Type}

theorem copyPositional_at (c : V → V) (e : V → W) (a : CtorArg V) :
    Spec.argAt e (copyDefault c a) = Spec.argAt (e ∘ c) a ↔
      match a with
      | .node _ => True
      | .other _ => True
      | .list vs => ∀ v ∈ vs, e (c v) = e v
      | .dict vs => ∀ p ∈ vs, e (c p.2) = e p.2 := by
  cases a with
  | node v => simp [copyDefault, Spec.argAt]
  | other n => simp [copyDefault, Spec.argAt]
  | list vs =>
    simp only [copyDefault, Spec.argAt, CtorArg.list.injEq, List.map_inj_left, Function.comp_apply]
    exact forall₂_congr fun v _ => eq_comm
  | dict vs =>
    simp only [copyDefault, Spec.argAt, CtorArg.dict.injEq, List.map_inj_left, Function.comp_apply, Prod.mk.injEq, true_and]
    exact forall₂_congr fun v _ => eq_comm

/-- C140: the arguments of the copy have the values of the replacements iff nodes in lists given by position and nodes in dicts
have the value of their replacement already. Arguments that are nodes, and lists given by keyword, are always replaced. -/
theorem C140_partial (c : V → V) (e : V → W) (args : List (CtorArg V)) (kwargs : List (String × CtorArg V)) :
    ((copyCall c args kwargs).1.map (Spec.argAt e) = args.map (Spec.argAt (e ∘ c)) ∧
      (copyCall c args kwargs).2.map (fun p => (p.1, Spec.argAt e p.2)) = kwargs.map fun p => (p.1, Spec.argAt (e ∘ c) p.2)) ↔
    (∀ vs, .list vs ∈ args → ∀ v ∈ vs, e (c v) = e v) ∧ (∀ vs, .dict vs ∈ args → ∀ p ∈ vs, e (c p.2) = e p.2) ∧
      ∀ k vs, (k, .dict vs) ∈ kwargs → ∀ p ∈ vs, e (c p.2) = e p.2 := by
  simp only [copyCall, copyPositional, List.map_map, List.map_inj_left, Function.comp_apply, Prod.mk.injEq, true_and]
  constructor
  · rintro ⟨h1, h2⟩
    exact ⟨fun vs hv => (copyPositional_at c e _).mp (h1 _ hv), fun vs hv => (copyPositional_at c e _).mp (h1 _ hv),
      fun k vs hv => (copyPositional_at c e (.dict vs)).mp (h2 _ hv)⟩
  · rintro ⟨h1, h2, h3⟩
    refine ⟨fun a ha => (copyPositional_at c e a).mpr ?_, ?_⟩
    · cases a with
      | node _ => trivial
      | other _ => trivial
      | list vs => exact h1 vs ha
      | dict vs => exact h2 vs ha
    · rintro ⟨k, a⟩ ha
      cases a with
      | node v => exact (copyPositional_at c e (.node v)).mpr trivial
      | other n => exact (copyPositional_at c e (.other n)).mpr trivial
      | list vs => simp [copyKeyword, Spec.argAt]
      | dict vs => exact (copyPositional_at c e (.dict vs)).mpr (h3 k vs ha)

example : ∃ (c : Fin 2 → Fin 2) (e : Fin 2 → ℕ), c 0 ≠ 0 ∧
    (copyCall c [.node 0] [("components", .list [0, 1])]).1.map (Spec.argAt e) = [.node 1] ∧
    (copyCall c [.node 0] [("components", .list [0, 1])]).2.map (fun p => (p.1, Spec.argAt e p.2)) = [("components", .list [1, 1])] :=
  ⟨fun _ => 1, fun v => v.val, by decide, by decide, by decide⟩

/-- C140: `Mixture(cat, [a, b])` and a dict argument keep the nodes that dict_swap replaces, whereas `Mixture(cat,
components=[a, b])` does not. -/
theorem C140_fails (c : V → V) (e : V → W) (v : V) (hv : e (c v) ≠ e v) (k : String) :
    (copyCall c [.list [v]] []).1.map (Spec.argAt e) ≠ [Spec.argAt (e ∘ c) (.list [v])] ∧
    (copyCall c [.dict [(k, v)]] []).1.map (Spec.argAt e) ≠ [Spec.argAt (e ∘ c) (.dict [(k, v)])] ∧
    (copyCall c [] [(k, .dict [(k, v)])]).2.map (fun p => (p.1, Spec.argAt e p.2)) ≠ [(k, Spec.argAt (e ∘ c) (.dict [(k, v)]))] ∧
    (copyCall c [] [(k, .list [v])]).2.map (fun p => (p.1, Spec.argAt e p.2)) = [(k, Spec.argAt (e ∘ c) (.list [v]))] := by
  refine ⟨?_, ?_, ?_, by simp [copyCall, copyKeyword, Spec.argAt]⟩
  · simpa [copyCall, copyPositional, copyDefault, Spec.argAt] using Ne.symm hv
  · simpa [copyCall, copyPositional, copyDefault, Spec.argAt] using Ne.symm hv
  · simpa [copyCall, copyKeyword, copyDefault, Spec.argAt] using Ne.symm hv

example : ∃ (c : Fin 2 → Fin 2) (e : Fin 2 → ℕ), e (c 0) ≠ e 0 := ⟨fun _ => 1, fun v => v.val, by decide⟩

section mixture
variable {K N : ℕ} {A Z : Type} (latents : List Z) (logPrior logQ : Z → (V → ℝ) → ℝ) (c : V → V) (wts : V)
  (params : List (String × V)) (rest : List (CtorArg V)) (logF : List (String × ℝ) → Fin K → A → ℝ) (x : Fin N → A)

/-- The likelihood term of KLqp. -/
theorem logLik_bound (ω : (V → ℝ) × (Fin N → Fin K)) :
    (boundMixtureVi latents logPrior logQ c (.node wts :: .dict params :: rest) logF x).termX () ω =
      Spec.boundLogLik logF (params.map fun p => (p.1, ω.1 p.2)) ω.2 x := by
  simp [boundMixtureVi, observedMixtureVi, ViProblem.termX, Fintype.sum_option, mixtureCondLogProb, mixtureSelect_eq, copyPositional,
    copyDefault, componentParams, Spec.boundLogLik]

/-- C139: KLqp of latent variables of the model, among them parameters of the components of the ParamMixture that data are bound to, or
its `cat`. At given draws the loss is that without the data, plus a term that does not depend on the values drawn from the
approximations: neither on those of the parameters nor on those of `cat`. -/
theorem C139_data_ignored_fails (n : ℕ) (d d' : Fin n → (V → ℝ) × (Fin N → Fin K)) (reg : ℝ)
    (hd : ∀ s, (∀ p ∈ params, (d s).1 p.2 = (d' s).1 p.2) ∧ (d s).2 = (d' s).2) :
    reparamLoss (boundMixtureVi latents logPrior logQ c (.node wts :: .dict params :: rest) logF x) n d reg -
        reparamLoss { boundMixtureVi latents logPrior logQ c (.node wts :: .dict params :: rest) logF x with observed := [] } n d reg =
      reparamLoss (boundMixtureVi latents logPrior logQ c (.node wts :: .dict params :: rest) logF x) n d' reg -
        reparamLoss { boundMixtureVi latents logPrior logQ c (.node wts :: .dict params :: rest) logF x with observed := [] } n d' reg := by
  have key : ∀ d : Fin n → (V → ℝ) × (Fin N → Fin K),
      reparamLoss (boundMixtureVi latents logPrior logQ c (.node wts :: .dict params :: rest) logF x) n d reg -
        reparamLoss { boundMixtureVi latents logPrior logQ c (.node wts :: .dict params :: rest) logF x with observed := [] } n d reg =
      -Spec.average fun s => Spec.boundLogLik logF (params.map fun p => (p.1, (d s).1 p.2)) (d s).2 x := by
    intro d
    rw [C52_reparam, C52_reparam]
    simp only [Spec.average, add_sub_add_right_eq_sub, ← sub_div, ← Finset.sum_sub_distrib, ← neg_div, ← Finset.sum_neg_distrib]
    congr 1
    refine Finset.sum_congr rfl fun s _ => ?_
    rw [← logLik_bound latents logPrior logQ c wts params rest logF x (d s)]
    simp [Spec.logApprox, Spec.logJoint, boundMixtureVi, observedMixtureVi, ViProblem.termX]
  rw [key, key]
  congr 2
  funext s
  rw [(hd s).2]
  congr 1
  exact List.map_congr_left fun p hp => by rw [(hd s).1 p hp]

/-- C139: the same for MAP. -/
theorem C139_map_ignored_fails (ω ω' : (V → ℝ) × (Fin N → Fin K)) (reg : ℝ)
    (hd : (∀ p ∈ params, ω.1 p.2 = ω'.1 p.2) ∧ ω.2 = ω'.2) :
    mapLoss (boundMixtureVi latents logPrior logQ c (.node wts :: .dict params :: rest) logF x) ω reg -
        mapLoss { boundMixtureVi latents logPrior logQ c (.node wts :: .dict params :: rest) logF x with observed := [] } ω reg =
      mapLoss (boundMixtureVi latents logPrior logQ c (.node wts :: .dict params :: rest) logF x) ω' reg -
        mapLoss { boundMixtureVi latents logPrior logQ c (.node wts :: .dict params :: rest) logF x with observed := [] } ω' reg := by
  have key : ∀ ω : (V → ℝ) × (Fin N → Fin K),
      mapLoss (boundMixtureVi latents logPrior logQ c (.node wts :: .dict params :: rest) logF x) ω reg -
        mapLoss { boundMixtureVi latents logPrior logQ c (.node wts :: .dict params :: rest) logF x with observed := [] } ω reg =
      -Spec.boundLogLik logF (params.map fun p => (p.1, ω.1 p.2)) ω.2 x := by
    intro ω
    rw [← logLik_bound latents logPrior logQ c wts params rest logF x ω]
    unfold mapLoss
    simp [boundMixtureVi, observedMixtureVi, ViProblem.termX, ViProblem.termP]
  rw [key, key, hd.2]
  congr 2
  exact List.map_congr_left fun p hp => by rw [hd.1 p hp]

end mixture

/-- The log likelihood of the model at the values drawn from the approximation does depend on them: node 0 is the prior of the location
of the single component, node 1 its approximation. -/
theorem C139_bound_fails : ∃ (c : Fin 2 → Fin 2) (logF : List (String × ℝ) → Fin 1 → ℝ → ℝ) (d d' : Fin 2 → ℝ) (x : Fin 1 → ℝ),
    c 0 = 1 ∧ d 0 = d' 0 ∧
    Spec.boundLogLik logF [("loc", d (c 0))] (fun _ => 0) x ≠ Spec.boundLogLik logF [("loc", d' (c 0))] (fun _ => 0) x ∧
    (boundMixtureVi (Z := Empty) [] (fun _ _ => 0) (fun _ _ => 0) c [.node 0, .dict [("loc", 0)], .other 0] logF x).termX () (d, fun _ => 0) =
      (boundMixtureVi (Z := Empty) [] (fun _ _ => 0) (fun _ _ => 0) c [.node 0, .dict [("loc", 0)], .other 0] logF x).termX () (d', fun _ => 0) := by
  refine ⟨fun _ => 1, fun ps _ a => -((a - ((ps.head?.map (·.2)).getD 0)) ^ 2) / 2, fun _ => 0, fun i => if i = 0 then 0 else 1, fun _ => 0,
    rfl, rfl, ?_, ?_⟩
  · norm_num [Spec.boundLogLik]
  · rw [logLik_bound, logLik_bound]
    simp

end Edward
