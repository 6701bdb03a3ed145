/-
C23: the natural parameter table inverts the exponential families.
-/
import Verif.Props.ConjugateLogProbs
import Verif.Props.Multipliers
import Verif.Spec.NaturalParams

namespace Edward

open Expr Spec ProbabilityTheory

/-- The entries of the table, with the statistics as expressions. -/
def tableEntry (s : Support) (fss : List (List Expr)) : Family → Prop
  | .bernoulli => s = .binary ∧ fss = [[X]]
  | .beta => s = .unit ∧ fss = [[node .log [node .oneMinus [X]]], [node .log [X]]]
  | .categorical => s = .categorical ∧ fss = [[node .oneHot [X]]]
  | .chi2 => s = .nonnegative ∧ fss = [[node .log [X]]]
  | .dirichlet => s = .simplex ∧ fss = [[node .log [X]]]
  | .exponential => s = .nonnegative ∧ fss = [[X]]
  | .gamma => s = .nonnegative ∧ fss = [[node .log [X]], [X]]
  | .inverseGamma => s = .nonnegative ∧ fss = [[node (.cpow (-1)) [X]], [node .log [X]]]
  | .mvnDiag => s = .multivariateReal ∧ fss = [[node (.cpow 2) [X]], [X]]
  | .normal => s = .real ∧ fss = [[node (.cpow 2) [X]], [X]]
  | .poisson => s = .countable ∧ fss = [[X]]

theorem keys_injective (fss gss : List (List Expr)) (h : fss.map (·.flatMap tupleOf) = gss.map (·.flatMap tupleOf)) : fss = gss := by
  induction fss generalizing gss with
  | nil => cases gss with
    | nil => rfl
    | cons g gss => simp at h
  | cons f fss ih => cases gss with
    | nil => simp at h
    | cons g gss =>
      simp only [List.map_cons, List.cons.injEq] at h
      rw [C22_key_injective f g h.1, ih gss h.2]

/-- A look-up succeeds only at the listed entries. -/
theorem table_lookup (s : Support) (fss : List (List Expr)) (f : Family)
    (h : suffStatToDist s (fss.map (·.flatMap tupleOf)) = some f) : tableEntry s fss f := by
  generalize hk : fss.map (·.flatMap tupleOf) = ks at h
  unfold suffStatToDist at h
  split at h <;> first
    | (simp only [Option.some.injEq] at h; subst h; exact ⟨rfl, keys_injective _ _ (by rw [hk]; simp [tupleOf])⟩)
    | (split at h
       · rename_i hp
         simp only [Option.some.injEq] at h; subst h; subst hp
         exact ⟨rfl, keys_injective _ _ (by rw [hk]; simp [tupleOf])⟩
       · simp at h)
    | simp at h

theorem pairing_one {n : ℕ} (T : TfNode → List ℝ → ℝ) (fs : List Expr) (p : Fin n → ℝ) (x : Fin n → ℝ) :
    pairing T [fs] [p] x = ∑ i, p i * statistic T fs x i := by simp [pairing]

theorem pairing_two {n : ℕ} (T : TfNode → List ℝ → ℝ) (fs gs : List Expr) (p q : Fin n → ℝ) (x : Fin n → ℝ) :
    pairing T [fs, gs] [p, q] x = ∑ i, (p i * statistic T fs x i + q i * statistic T gs x i) := by
  simp [pairing, Finset.sum_add_distrib]

theorem exists_of_sum {n : ℕ} {P : (Fin n → ℝ) → Prop} {f g : (Fin n → ℝ) → Fin n → ℝ} {c : Fin n → ℝ}
    (h : ∀ x, P x → ∀ i, f x i = g x i + c i) : ∃ c : ℝ, ∀ x, P x → ∑ i, f x i = (∑ i, g x i) + c :=
  ⟨∑ i, c i, fun x hx => by rw [← Finset.sum_add_distrib]; exact Finset.sum_congr rfl fun i _ => h x hx i⟩

/-- C23, partial: whenever the table returns a family other than Chi2 and Poisson for the
statistics `fss`, and the parameters computed from the natural parameters `η` are valid,
the log density of that family with these parameters is `η · t(x)` up to a constant. For
these two it is false, see `C23_chi2_fails` and `C23_poisson_fails`. -/
theorem C23_partial {n : ℕ} (T : TfNode → List ℝ → ℝ) (s : Support) (fss : List (List Expr)) (f : Family)
    (h : suffStatToDist s (fss.map (·.flatMap tupleOf)) = some f) (hf : f ≠ .chi2) (hf' : f ≠ .poisson)
    (η : List (Fin n → ℝ)) (d : CondDist n) (hd : constructDist f η = .ok d) (hv : CondDist.Valid d) :
    ∃ c : ℝ, ∀ x, InSupport s x → CondDist.logDensity d x = pairing T fss η x + c := by
  have ht := table_lookup s fss f h
  unfold constructDist at hd
  split at hd <;> first
    | (exact absurd rfl hf)
    | (exact absurd rfl hf')
    | (simp at hd; done)
    | skip
  all_goals
    simp only [Except.ok.injEq] at hd
    subst hd
    obtain ⟨rfl, rfl⟩ := ht
    simp only [pairing_one, pairing_two, CondDist.logDensity]
  -- Bernoulli
  · rename_i p1
    refine exists_of_sum (c := fun i => -Real.log (1 + Real.exp (p1 i))) fun x hx i => ?_
    have e1 : statistic T [X] x i = x i := by simp [statistic, eval_node, headVal, entryEnv]
    have hp := Real.exp_pos (p1 i)
    have hn := Real.exp_pos (-p1 i)
    have key : 1 + Real.exp (p1 i) = Real.exp (p1 i) * (1 + Real.exp (-p1 i)) := by
      rw [mul_add, ← Real.exp_add]; simp; ring
    have hkey : Real.log (1 + Real.exp (p1 i)) = p1 i + Real.log (1 + Real.exp (-p1 i)) := by
      rw [key, Real.log_mul hp.ne' (by positivity), Real.log_exp]
    rw [e1]
    rcases hx i with h0 | h1
    · have : (1 : ℝ) - 1 / (1 + Real.exp (-p1 i)) = Real.exp (-p1 i) / (1 + Real.exp (-p1 i)) := by
        field_simp; ring
      simp only [h0, bernoulliMass, zero_ne_one, decide_false, Bool.false_eq_true, if_false, this]
      rw [Real.log_div hn.ne' (by positivity), Real.log_exp, hkey]
      ring
    · simp only [h1, bernoulliMass, decide_true, if_true]
      rw [one_div, Real.log_inv, hkey]
      ring
  -- Beta
  · rename_i p1 p2
    refine exists_of_sum (c := fun i => -lgamma (p2 i + 1) - lgamma (p1 i + 1) + lgamma (p2 i + 1 + (p1 i + 1))) fun x hx i => ?_
    obtain ⟨h0, h1⟩ := hx i
    rw [← C24_beta _ _ (hv i).1 (hv i).2 _ h0 h1]
    simp [statistic, eval_node, headVal, entryEnv, betaLogProb]
    ring
  -- Categorical
  · rename_i p1
    have hn : 0 < n := hv
    have hs : 0 < ∑ j, Real.exp (p1 j) := Finset.sum_pos (fun j _ => Real.exp_pos _) ⟨⟨0, hn⟩, Finset.mem_univ _⟩
    refine ⟨-Real.log (∑ j, Real.exp (p1 j)), ?_⟩
    rintro x ⟨k, hk⟩
    have hne : ∀ i : Fin n, i ≠ k → x i ≠ ((i : ℕ) : ℝ) := by
      intro i hik he
      rw [hk i] at he
      exact hik (Fin.ext (by exact_mod_cast he.symm))
    have h1 : (∑ i, if x i = ((i : ℕ) : ℝ) then Real.log (Real.exp (p1 i) / ∑ j, Real.exp (p1 j)) else 0) =
        Real.log (Real.exp (p1 k) / ∑ j, Real.exp (p1 j)) := by
      rw [Finset.sum_eq_single k (fun i _ hik => by rw [if_neg (hne i hik)]) (by simp), if_pos (hk k)]
    have h2 : (∑ i, p1 i * statistic T [node .oneHot [X]] x i) = p1 k := by
      rw [Finset.sum_eq_single k (fun i _ hik => by simp [statistic, eval_node, headVal, entryEnv, hne i hik]) (by simp)]
      simp [statistic, eval_node, headVal, entryEnv, hk k]
    rw [h1, h2, Real.log_div (Real.exp_pos _).ne' hs.ne', Real.log_exp]
    ring
  -- Dirichlet
  · rename_i p1
    refine ⟨(∑ k, -lgamma (p1 k + 1)) + lgamma (∑ k, (p1 k + 1)), ?_⟩
    rintro x ⟨hx, -⟩
    rw [← C24_dirichlet hv.1 _ hv.2 _ hx]
    simp [statistic, eval_node, headVal, entryEnv, dirichletLogProb, add_assoc]
  -- Exponential
  · rename_i p1
    refine exists_of_sum (c := fun i => Real.log (-p1 i)) fun x hx i => ?_
    rw [← C24_exponential _ (hv i) _ (hx i).le]
    simp [statistic, eval_node, headVal, entryEnv, exponentialLogProb]
    ring
  -- Gamma
  · rename_i p1 p2
    refine exists_of_sum (c := fun i => -lgamma (p1 i + 1) + (p1 i + 1) * Real.log (-p2 i)) fun x hx i => ?_
    rw [← C24_gamma _ _ (hv i).1 (hv i).2 _ (hx i)]
    simp [statistic, eval_node, headVal, entryEnv, gammaLogProb]
  -- InverseGamma
  · rename_i p1 p2
    refine exists_of_sum (c := fun i => -lgamma (-p2 i - 1) + (-p2 i - 1) * Real.log (-p1 i)) fun x hx i => ?_
    rw [← C24_inverseGamma _ _ (hv i).1 (hv i).2 _ (hx i)]
    simp [statistic, eval_node, headVal, entryEnv, inverseGammaLogProb, Real.rpow_neg_one]
    ring
  -- MultivariateNormalDiag
  · rename_i p1 p2
    have hp : ∀ i, p1 i < 0 := by
      intro i
      have := hv i
      simp only [normalFromNaturalParams, Real.sqrt_pos] at this
      have : 0 < (-p1 i)⁻¹ := by linarith
      linarith [inv_pos.mp this]
    simp only [← C24_mvnDiag_partial _ _ hv]
    refine exists_of_sum (c := fun i => p2 i ^ 2 / (4 * p1 i) - (Real.log √(0.5 * (-p1 i)⁻¹) + 0.5 * Real.log (2 * Real.pi))) fun x _ i => ?_
    have hpi := (hp i).ne
    have hsq : (√(0.5 * (-p1 i)⁻¹)) ^ 2 = 0.5 * (-p1 i)⁻¹ := Real.sq_sqrt (by have := neg_pos.mpr (hp i); positivity)
    simp only [mvnDiagLogProb, normalFromNaturalParams, hsq]
    simp only [statistic, eval_node, headVal, entryEnv, List.map_cons, List.map_nil, List.prod_cons, List.prod_nil, Rat.cast_ofNat,
      Real.rpow_two]
    field_simp
    ring
  -- Normal
  · rename_i p1 p2
    have hp : ∀ i, p1 i < 0 := by
      intro i
      have := hv i
      simp only [normalFromNaturalParams, Real.sqrt_pos] at this
      have : 0 < (-p1 i)⁻¹ := by linarith
      linarith [inv_pos.mp this]
    refine exists_of_sum (c := fun i => p2 i ^ 2 / (4 * p1 i) - (Real.log √(0.5 * (-p1 i)⁻¹) + 0.5 * Real.log (2 * Real.pi))) fun x _ i => ?_
    rw [← C24_normal _ _ (hv i)]
    have hpi := (hp i).ne
    have hsq : (√(0.5 * (-p1 i)⁻¹)) ^ 2 = 0.5 * (-p1 i)⁻¹ := Real.sq_sqrt (by have := neg_pos.mpr (hp i); positivity)
    simp only [normalLogProb, normalFromNaturalParams, hsq]
    simp only [statistic, eval_node, headVal, entryEnv, List.map_cons, List.map_nil, List.prod_cons, List.prod_nil, Rat.cast_ofNat,
      Real.rpow_two]
    field_simp
    ring

/-- C23 fails for Chi2: with statistic `log x` and any valid parameter the density has a
further factor `exp(-x/2)`. -/
theorem C23_chi2_fails (T : TfNode → List ℝ → ℝ) : suffStatToDist .nonnegative [tupleOf (node .log [X])] = some .chi2 ∧
    ∀ (p : Fin 1 → ℝ) (d : CondDist 1), constructDist .chi2 [p] = .ok d → CondDist.Valid d →
      ¬ ∃ c : ℝ, ∀ x, InSupport .nonnegative x → CondDist.logDensity d x = pairing T [[node .log [X]]] [p] x + c := by
  refine ⟨rfl, fun p d hd hv => ?_⟩
  rintro ⟨c, hc⟩
  simp only [constructDist, Except.ok.injEq] at hd
  subst hd
  have key : ∀ y : ℝ, 0 < y → -(y / 2) = c + (lgamma (p 0 + 1) - (p 0 + 1) * Real.log (1 / 2)) := by
    intro y hy
    have h := hc (fun _ => y) (fun _ => hy)
    have hdf := hv 0
    have hp : 0 < p 0 + 1 := by
      simp only at hdf
      linarith
    simp only [CondDist.logDensity, Finset.univ_unique, Finset.sum_singleton, Fin.default_eq_zero, chi2Density] at h
    rw [show 2 * (p 0 + 1) / 2 = p 0 + 1 by ring, ← C24_gamma _ _ hp (by norm_num) y hy] at h
    simp [pairing, statistic, eval_node, headVal, entryEnv, gammaLogProb] at h
    rw [one_div, Real.log_inv]
    linarith
  have h1 := key 1 one_pos
  have h2 := key 2 two_pos
  linarith

/-- C23 fails for Poisson: with statistic `x` alone the density would be geometric; that of
the Poisson distribution has the further factor `1 / x!`. -/
theorem C23_poisson_fails (T : TfNode → List ℝ → ℝ) : suffStatToDist .countable [tupleOf X] = some .poisson ∧
    ∀ (p : Fin 1 → ℝ) (d : CondDist 1), constructDist .poisson [p] = .ok d →
      ¬ ∃ c : ℝ, ∀ x, InSupport .countable x → CondDist.logDensity d x = pairing T [[X]] [p] x + c := by
  refine ⟨rfl, fun p d hd => ?_⟩
  rintro ⟨c, hc⟩
  simp only [constructDist, Except.ok.injEq] at hd
  subst hd
  have key : ∀ k : ℕ, -Real.log (k.factorial : ℝ) = c + Real.exp (p 0) := by
    intro k
    have h := hc (fun _ => k) (fun _ => ⟨k, rfl⟩)
    simp only [CondDist.logDensity, Finset.univ_unique, Finset.sum_singleton, Fin.default_eq_zero, Nat.floor_natCast] at h
    rw [← C24_poisson _ (Real.exp_pos _)] at h
    simp [pairing, statistic, eval_node, headVal, entryEnv, poissonLogProb, lgamma_nat] at h
    linarith
  have h0 := key 0
  have h2 := key 2
  have := Real.log_pos (show (1 : ℝ) < 2 by norm_num)
  simp at h0 h2
  linarith

/-- The hypotheses of `C23_partial` are met: `-x²/2 + 3x` on the reals is a normal
distribution. -/
example : suffStatToDist .real ([[node (.cpow 2) [X]], [X]].map (·.flatMap tupleOf)) = some .normal ∧
    ∃ d, constructDist (n := 2) .normal [fun _ => -1 / 2, fun _ => 3] = .ok d ∧ CondDist.Valid d := by
  refine ⟨by simp [tupleOf, suffStatToDist], _, rfl, ?_⟩
  intro i
  simp [normalFromNaturalParams]
  norm_num

end Edward
