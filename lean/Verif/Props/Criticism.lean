/-
Properties C63 (dispatch of `ed.evaluate`) and C65 (`ed.ppc`).
-/
import Mathlib.Tactic.SplitIfs
import Verif.Model.Criticism

set_option linter.unusedSectionVars false

namespace Edward

/-! ### Specification -/

/-- The metric names of the documentation (evaluate.py:34-49), the names resolved by
support (line 171) and the two undocumented ones, with what they mean; `small`: no
observation exceeds one. -/
def documented (small : Bool) : List (String × MetricKind) :=
  [("binary_accuracy", .binaryAccuracy), ("categorical_accuracy", .categoricalAccuracy),
   ("sparse_categorical_accuracy", .sparseCategoricalAccuracy),
   ("log_loss", .binaryCrossentropy), ("binary_crossentropy", .binaryCrossentropy),
   ("categorical_crossentropy", .categoricalCrossentropy),
   ("sparse_categorical_crossentropy", .sparseCategoricalCrossentropy),
   ("hinge", .hinge), ("squared_hinge", .squaredHinge),
   ("mse", .mse), ("MSE", .mse), ("mean_squared_error", .mse),
   ("mae", .mae), ("MAE", .mae), ("mean_absolute_error", .mae),
   ("mape", .mape), ("MAPE", .mape), ("mean_absolute_percentage_error", .mape),
   ("msle", .msle), ("MSLE", .msle), ("mean_squared_logarithmic_error", .msle),
   ("poisson", .poisson), ("cosine", .cosine), ("cosine_proximity", .cosine),
   ("log_lik", .logLik), ("log_likelihood", .logLik),
   ("multinomial_accuracy", .multinomialAccuracy), ("kl_divergence", .klDivergence),
   ("accuracy", if small then .binaryAccuracy else .sparseCategoricalAccuracy),
   ("crossentropy", if small then .binaryCrossentropy else .sparseCategoricalCrossentropy)]

/-- C63: a name has a meaning exactly when it is in the list, and then that meaning. -/
theorem C63_names (small : Bool) (s : String) (k : MetricKind) :
    metricKind (resolveName small s) = some k ↔ (s, k) ∈ documented small := by
  constructor
  · intro h
    by_cases ha : s = "accuracy"
    · subst ha
      cases small <;> simp [resolveName, metricKind] at h <;> subst h <;> simp [documented]
    · by_cases hc : s = "crossentropy"
      · subst hc
        cases small <;> simp [resolveName, metricKind] at h <;> subst h <;> simp [documented]
      · have hr : resolveName small s = s := by simp [resolveName, ha, hc]
        rw [hr] at h
        have fin : ∀ (n : String) (k' : MetricKind), s = n → metricKind n = some k' → (n, k') ∈ documented small →
            (s, k) ∈ documented small := by
          rintro n k' rfl h1 h2
          rw [h1] at h
          obtain rfl := Option.some.inj h
          exact h2
        by_cases h0 : s = "binary_accuracy"
        · exact fin _ _ h0 rfl (by simp [documented])
        by_cases h1 : s = "categorical_accuracy"
        · exact fin _ _ h1 rfl (by simp [documented])
        by_cases h2 : s = "sparse_categorical_accuracy"
        · exact fin _ _ h2 rfl (by simp [documented])
        by_cases h3 : s = "log_loss"
        · exact fin _ _ h3 rfl (by simp [documented])
        by_cases h4 : s = "binary_crossentropy"
        · exact fin _ _ h4 rfl (by simp [documented])
        by_cases h5 : s = "categorical_crossentropy"
        · exact fin _ _ h5 rfl (by simp [documented])
        by_cases h6 : s = "sparse_categorical_crossentropy"
        · exact fin _ _ h6 rfl (by simp [documented])
        by_cases h7 : s = "multinomial_accuracy"
        · exact fin _ _ h7 rfl (by simp [documented])
        by_cases h8 : s = "kl_divergence"
        · exact fin _ _ h8 rfl (by simp [documented])
        by_cases h9 : s = "hinge"
        · exact fin _ _ h9 rfl (by simp [documented])
        by_cases h10 : s = "squared_hinge"
        · exact fin _ _ h10 rfl (by simp [documented])
        by_cases h11 : s = "mse"
        · exact fin _ _ h11 rfl (by simp [documented])
        by_cases h12 : s = "MSE"
        · exact fin _ _ h12 rfl (by simp [documented])
        by_cases h13 : s = "mean_squared_error"
        · exact fin _ _ h13 rfl (by simp [documented])
        by_cases h14 : s = "mae"
        · exact fin _ _ h14 rfl (by simp [documented])
        by_cases h15 : s = "MAE"
        · exact fin _ _ h15 rfl (by simp [documented])
        by_cases h16 : s = "mean_absolute_error"
        · exact fin _ _ h16 rfl (by simp [documented])
        by_cases h17 : s = "mape"
        · exact fin _ _ h17 rfl (by simp [documented])
        by_cases h18 : s = "MAPE"
        · exact fin _ _ h18 rfl (by simp [documented])
        by_cases h19 : s = "mean_absolute_percentage_error"
        · exact fin _ _ h19 rfl (by simp [documented])
        by_cases h20 : s = "msle"
        · exact fin _ _ h20 rfl (by simp [documented])
        by_cases h21 : s = "MSLE"
        · exact fin _ _ h21 rfl (by simp [documented])
        by_cases h22 : s = "mean_squared_logarithmic_error"
        · exact fin _ _ h22 rfl (by simp [documented])
        by_cases h23 : s = "poisson"
        · exact fin _ _ h23 rfl (by simp [documented])
        by_cases h24 : s = "cosine"
        · exact fin _ _ h24 rfl (by simp [documented])
        by_cases h25 : s = "cosine_proximity"
        · exact fin _ _ h25 rfl (by simp [documented])
        by_cases h26 : s = "log_lik"
        · exact fin _ _ h26 rfl (by simp [documented])
        by_cases h27 : s = "log_likelihood"
        · exact fin _ _ h27 rfl (by simp [documented])
        exfalso
        unfold metricKind at h
        rw [if_neg h0, if_neg h1, if_neg h2, if_neg (not_or.mpr ⟨h3, h4⟩), if_neg h5, if_neg h6, if_neg h7, if_neg h8, if_neg h9, if_neg h10, if_neg (not_or.mpr ⟨h11, (not_or.mpr ⟨h12, h13⟩)⟩), if_neg (not_or.mpr ⟨h14, (not_or.mpr ⟨h15, h16⟩)⟩), if_neg (not_or.mpr ⟨h17, (not_or.mpr ⟨h18, h19⟩)⟩), if_neg (not_or.mpr ⟨h20, (not_or.mpr ⟨h21, h22⟩)⟩), if_neg h23, if_neg (not_or.mpr ⟨h24, h25⟩), if_neg (not_or.mpr ⟨h26, h27⟩)] at h
        simp at h
  · intro h
    simp only [documented, List.mem_cons, Prod.mk.injEq, List.not_mem_nil, or_false] at h
    rcases h with ⟨rfl, rfl⟩ | ⟨rfl, rfl⟩ | ⟨rfl, rfl⟩ | ⟨rfl, rfl⟩ | ⟨rfl, rfl⟩ | ⟨rfl, rfl⟩ | ⟨rfl, rfl⟩ | ⟨rfl, rfl⟩ |
      ⟨rfl, rfl⟩ | ⟨rfl, rfl⟩ | ⟨rfl, rfl⟩ | ⟨rfl, rfl⟩ | ⟨rfl, rfl⟩ | ⟨rfl, rfl⟩ | ⟨rfl, rfl⟩ | ⟨rfl, rfl⟩ | ⟨rfl, rfl⟩ |
      ⟨rfl, rfl⟩ | ⟨rfl, rfl⟩ | ⟨rfl, rfl⟩ | ⟨rfl, rfl⟩ | ⟨rfl, rfl⟩ | ⟨rfl, rfl⟩ | ⟨rfl, rfl⟩ | ⟨rfl, rfl⟩ | ⟨rfl, rfl⟩ |
      ⟨rfl, rfl⟩ | ⟨rfl, rfl⟩ | ⟨rfl, rfl⟩ | ⟨rfl, rfl⟩ <;> cases small <;> simp [resolveName, metricKind]

section
variable {F P V : Type}

/-- What an item should evaluate to. -/
inductive Means (env : EvalEnv F P V) : MetricItem F P → V → Prop
  | name (s : String) (k : MetricKind) (v : V) : (s, k) ∈ documented env.small →
      (k = .klDivergence → env.discrete = true) → env.builtin k env.noParams = .ok v → Means env (.plain (.name s)) v
  | nameParams (s : String) (k : MetricKind) (p : P) (v : V) : (s, k) ∈ documented env.small →
      (k = .klDivergence → env.discrete = true) → env.builtin k p = .ok v → Means env (.pair (.name s) p) v
  | call (f : F) (v : V) : env.custom f env.noParams = .ok v → Means env (.plain (.call f)) v
  | callParams (f : F) (p : P) (v : V) : env.custom f p = .ok v → Means env (.pair (.call f) p) v

theorem evalItem_means (env : EvalEnv F P V) (i : MetricItem F P) (v : V) (h : Means env i v) :
    evalItem env i = .ok v := by
  cases h with
  | name s k v hk hd hv =>
    have := (C63_names env.small s k).2 hk
    simp only [evalItem, this]
    cases k <;> simp_all
  | nameParams s k p v hk hd hv =>
    have := (C63_names env.small s k).2 hk
    simp only [evalItem, this]
    cases k <;> simp_all
  | call f v h => simpa [evalItem] using h
  | callParams f p v h => simpa [evalItem] using h

theorem evalLoop_means (env : EvalEnv F P V) (l : List (MetricItem F P)) (vs acc : List V)
    (h : List.Forall₂ (Means env) l vs) : evalLoop env l acc = .ok (acc ++ vs) := by
  induction h generalizing acc with
  | nil => simp [evalLoop]
  | cons hx _ ih => simp [evalLoop, evalItem_means env _ _ hx, ih]

/-- The other arguments are valid. -/
structure ValidArgs (dataOk : Except PyErr Unit) (nInt : Bool) (keys : List DataKey) (outputKey : OutputKey) : Prop where
  data : dataOk = .ok ()
  n : nInt = true
  key : (outputKey = .absent ∧ ∃ a b, keys = a ++ .output :: b ∧ (∀ k ∈ a, k = .placeholder) ∧ (∀ k ∈ b, k = .placeholder)) ∨
    outputKey = .randomVariable

theorem evaluate_valid (env : EvalEnv F P V) (m : MetricsArg F P) (l : List (MetricItem F P)) (hm : metricsList m = .ok l)
    (dataOk : Except PyErr Unit) (nInt : Bool)
    (keys : List DataKey) (outputKey : OutputKey) (hv : ValidArgs dataOk nInt keys outputKey) :
    evaluate env m dataOk nInt keys outputKey = (evalLoop env l []).map evalReturn := by
  obtain ⟨rfl, rfl, h⟩ := hv
  have hk : checkOutputKey keys outputKey = .ok () := by
    rcases h with ⟨rfl, a, b, rfl, ha, hb⟩ | rfl
    · have e : ((a ++ DataKey.output :: b).filter
          (fun k => match k with | .output => true | .placeholder => false)).length = 1 := by
        rw [List.filter_append, List.filter_cons]
        have h1 : a.filter (fun k => match k with | .output => true | .placeholder => false) = [] := by
          rw [List.filter_eq_nil_iff]; intro k hk; rw [ha k hk]; simp
        have h2 : b.filter (fun k => match k with | .output => true | .placeholder => false) = [] := by
          rw [List.filter_eq_nil_iff]; intro k hk; rw [hb k hk]; simp
        rw [h1, h2]; simp
      unfold checkOutputKey
      exact if_pos e
    · rfl
  simp [evaluate, hm, hk]

/-- C63 (partial): with valid other arguments, a metric name or a callable gives one
value; a list of names, callables and pairs with options gives the values in order,
and one value if it has one element. A pair that is not inside a list is rejected:
`C63_fails`. -/
theorem C63_values_partial (env : EvalEnv F P V) (dataOk : Except PyErr Unit) (nInt : Bool)
    (keys : List DataKey) (outputKey : OutputKey) (hv : ValidArgs dataOk nInt keys outputKey) :
    (∀ s v, Means env (.plain (.name s)) v →
      evaluate env (.str s) dataOk nInt keys outputKey = .ok (.one v)) ∧
    (∀ f v, Means env (.plain (.call f)) v →
      evaluate env (.callable f) dataOk nInt keys outputKey = .ok (.one v)) ∧
    (∀ i v, Means env i v → evaluate env (.list [i]) dataOk nInt keys outputKey = .ok (.one v)) ∧
    (∀ l vs, List.Forall₂ (Means env) l vs → l.length ≠ 1 →
      evaluate env (.list l) dataOk nInt keys outputKey = .ok (.many vs)) := by
  refine ⟨fun s v h => ?_, fun f v h => ?_, fun i v h => ?_, fun l vs h hl => ?_⟩
  · rw [evaluate_valid env _ [.plain (.name s)] rfl _ _ _ _ hv]
    rw [evalLoop_means env _ [v] [] (.cons h .nil)]; rfl
  · rw [evaluate_valid env _ [.plain (.call f)] rfl _ _ _ _ hv]
    rw [evalLoop_means env _ [v] [] (.cons h .nil)]; rfl
  · rw [evaluate_valid env _ [i] rfl _ _ _ _ hv]
    rw [evalLoop_means env _ [v] [] (.cons h .nil)]; rfl
  · rw [evaluate_valid env _ l rfl _ _ _ _ hv]
    rw [evalLoop_means env _ vs [] h]
    have hlen : vs.length ≠ 1 := h.length_eq ▸ hl
    rcases vs with _ | ⟨a, _ | ⟨b, t⟩⟩
    · rfl
    · simp at hlen
    · rfl

/-- C63: an unknown name raises NotImplementedError, wherever it is in the list, if the
metrics before it evaluate. -/
theorem C63_unknown (env : EvalEnv F P V) (dataOk : Except PyErr Unit) (nInt : Bool)
    (keys : List DataKey) (outputKey : OutputKey) (hv : ValidArgs dataOk nInt keys outputKey)
    (s : String) (hs : ∀ k, (s, k) ∉ documented env.small) (p : P) (l l' : List (MetricItem F P)) (vs : List V)
    (h : List.Forall₂ (Means env) l vs) :
    evaluate env (.str s) dataOk nInt keys outputKey = .error .notImplementedError ∧
    evaluate env (.list (l ++ .plain (.name s) :: l')) dataOk nInt keys outputKey = .error .notImplementedError ∧
    evaluate env (.list (l ++ .pair (.name s) p :: l')) dataOk nInt keys outputKey = .error .notImplementedError := by
  have hk : metricKind (resolveName env.small s) = none := by
    cases hm : metricKind (resolveName env.small s) with
    | none => rfl
    | some k => exact absurd ((C63_names _ _ _).1 hm) (hs k)
  have e1 : evalItem env (.plain (.name s)) = .error .notImplementedError := by simp [evalItem, hk]
  have e2 : evalItem env (.pair (.name s) p) = .error .notImplementedError := by simp [evalItem, hk]
  have loop : ∀ (x : MetricItem F P), evalItem env x = .error .notImplementedError →
      ∀ acc, evalLoop env (l ++ x :: l') acc = .error .notImplementedError := by
    intro x hx
    clear hv
    induction h with
    | nil => intro acc; simp [evalLoop, hx]
    | cons ha _ ih => intro acc; simp [evalLoop, evalItem_means env _ _ ha, ih]
  refine ⟨?_, ?_, ?_⟩
  · rw [evaluate_valid env _ [.plain (.name s)] rfl _ _ _ _ hv]
    simp only [evalLoop, e1]; rfl
  · rw [evaluate_valid env _ (l ++ .plain (.name s) :: l') rfl _ _ _ _ hv]
    rw [loop _ e1]; rfl
  · rw [evaluate_valid env _ (l ++ .pair (.name s) p :: l') rfl _ _ _ _ hv]
    rw [loop _ e2]; rfl

end

/-- C63 fails: a pair of a metric name and its options is documented (with an example)
but raises TypeError. -/
theorem C63_fails : ∃ (env : EvalEnv Unit Unit ℕ) (v : ℕ),
    Means env (.pair (.name "mean_squared_logarithmic_error") ()) v ∧
    evaluate env (.tuple (.name "mean_squared_logarithmic_error") ()) (.ok ()) true [.output] .absent =
      .error .typeError :=
  ⟨⟨true, false, (), fun _ _ => .ok 7, fun _ _ => .ok 8⟩, 7,
    .nameParams _ .msle _ _ (by simp [documented]) (by simp) rfl, rfl⟩

example : evaluate (F := Unit) (P := Unit) (V := ℕ) ⟨true, false, (), fun _ _ => .ok 7, fun _ _ => .ok 8⟩
    (.list [.plain (.name "accuracy"), .pair (.call ()) ()]) (.ok ()) true [.placeholder, .output] .absent =
      .ok (.many [7, 8]) :=
  (C63_values_partial _ _ _ _ _ ⟨rfl, rfl, Or.inl ⟨rfl, [.placeholder], [], rfl, by simp, by simp⟩⟩).2.2.2 _ _
    (.cons (.name _ .binaryAccuracy _ (by simp [documented]) (by simp) rfl) (.cons (.callParams _ _ _ rfl) .nil)) (by simp)

/-! ### C65 -/

section
variable {W X Z R : Type}

/-- C65 (partial): `n` replicated and `n` realised discrepancies; the `s`-th replicated
one uses draw `2 s` for data and latent variables, the `s`-th realised one uses draw
`2 s + 1`. They use matching latent variables only if the latent variables do not vary
or are not used: `C65_fails`. -/
theorem C65_draws_partial (T : X → Z → R) (data : X) (latent : W → Z) (replicate : W → X) (n : ℕ) (hn : n ≠ 0)
    (draws : ℕ → W) :
    ppc T data latent replicate n draws = .ok
      ((List.range n).map (fun s => T (replicate (draws (2 * s))) (latent (draws (2 * s)))),
       (List.range n).map (fun s => T data (latent (draws (2 * s + 1))))) := by
  have key : ∀ m, (List.range m).foldl (fun (st : ℕ × List R × List R) _ =>
      let (k, treps, ts) := st
      let treps := treps ++ [T (replicate (draws k)) (latent (draws k))]
      let ts := ts ++ [T data (latent (draws (k + 1)))]
      (k + 2, treps, ts)) (0, [], []) = (2 * m,
        (List.range m).map (fun s => T (replicate (draws (2 * s))) (latent (draws (2 * s)))),
        (List.range m).map (fun s => T data (latent (draws (2 * s + 1))))) := by
    intro m
    induction m with
    | zero => rfl
    | succ m ih => rw [List.range_succ, List.foldl_append, ih]; simp; omega
  unfold ppc
  simp only [key, if_neg hn]

/-- C65, matching draws for discrepancies that ignore the latent variables. -/
theorem C65_matching_partial (T : X → R) (data : X) (latent : W → Z) (replicate : W → X) (n : ℕ) (hn : n ≠ 0)
    (draws : ℕ → W) :
    ∃ treps ts, ppc (fun x _ => T x) data latent replicate n draws = .ok (treps, ts) ∧
      treps.length = n ∧ ts.length = n ∧
      ∃ w : ℕ → W, (∀ s (h : s < treps.length), treps[s] = T (replicate (w s))) ∧
        ∀ s (h : s < ts.length), ts[s] = T data := by
  refine ⟨_, _, C65_draws_partial (fun x _ => T x) data latent replicate n hn draws, by simp, by simp,
    fun s => draws (2 * s), ?_, ?_⟩ <;> simp

/-- No samples: `np.stack` raises. -/
theorem C65_zero (T : X → Z → R) (data : X) (latent : W → Z) (replicate : W → X) (draws : ℕ → W) :
    ppc T data latent replicate 0 draws = .error .valueError := by simp [ppc]

end

/-- C65 fails: the replicated and the realised discrepancy are computed in separate
session runs, with different latent variables. No choice of draws explains the output. -/
theorem C65_fails : ¬ ∀ (T : ℕ → ℕ → ℕ) (data : ℕ) (latent replicate draws : ℕ → ℕ) (n : ℕ) (treps ts : List ℕ),
    ppc T data latent replicate n draws = .ok (treps, ts) →
      ∃ w : ℕ → ℕ, ∀ s < n, treps[s]? = some (T (replicate (w s)) (latent (w s))) ∧
        ts[s]? = some (T data (latent (w s))) := by
  intro h
  obtain ⟨w, hw⟩ := h (fun _ z => z) 0 id id id 1 [0] [1] (by decide)
  have := hw 0 (by norm_num)
  simp at this
  omega

end Edward
