/-
C96 (declared dtypes), C98 (registration by DirichletProcess), C99 (shape of its base) and
C100 (shape of ParamMixture values).
-/
import Mathlib.Algebra.BigOperators.Group.List.Lemmas
import Mathlib.Algebra.Order.BigOperators.Group.List
import Mathlib.Data.Fin.VecNotation
import Mathlib.Tactic.FinCases
import Verif.Model.DpObject
import Verif.Props.Graph
import Verif.Props.RandomVar

namespace Edward

/-! ### C96 -/

/-- No `DirichletProcess` inside. -/
def RVKind.NoDp : RVKind → Prop
  | .paramMixture c => c.NoDp
  | .dirichletProcess _ => False
  | _ => True

/-- C96, for variables not built from a Dirichlet process: the value has the declared
dtype, and conversion to a tensor succeeds exactly for that dtype (or none), giving it. -/
theorem C96_partial (k : RVKind) (h : k.NoDp) :
    k.value = .ok k.declared ∧ k.convert none = .ok k.declared ∧
    ∀ d, (k.convert (some d) = .ok d ↔ d = k.declared) ∧
      (d ≠ k.declared → k.convert (some d) = .error .valueError) := by
  have hv : k.value = .ok k.declared := by
    induction k with
    | tfDist d => rfl
    | empirical d => rfl
    | pointMass d => rfl
    | paramMixture c ih =>
      simp only [RVKind.value, ih h, RVKind.declared, if_true]
    | dirichletProcess b => exact h.elim
  refine ⟨hv, hv, fun d => ⟨?_, ?_⟩⟩
  · unfold RVKind.convert
    simp only
    split
    · rename_i hd; simp [hd]
    · rename_i hd
      have : d = k.declared := by simpa using hd
      rw [hv, this]; simp
  · intro hd
    simp [RVKind.convert, hd]

/-- C96, every variable: whenever it can be built, the value has the declared dtype except
that a Dirichlet process has the dtype of its base. -/
theorem C96_value (k : RVKind) (d : DType) (h : k.value = .ok d) :
    d = k.declared ∨ ∃ b : RVKind, k = .dirichletProcess b ∧ d = b.declared := by
  cases k with
  | tfDist d' => left; simpa [RVKind.value, RVKind.declared, eq_comm] using h
  | empirical d' => left; simpa [RVKind.value, RVKind.declared, eq_comm] using h
  | pointMass d' => left; simpa [RVKind.value, RVKind.declared, eq_comm] using h
  | paramMixture c =>
    left
    simp only [RVKind.value] at h
    cases hc : c.value with
    | error e => simp [hc] at h
    | ok d' =>
      simp only [hc] at h
      split at h
      · rename_i he
        simp only [Except.ok.injEq] at h
        rw [← h, he]; rfl
      · cases h
  | dirichletProcess b =>
    right
    refine ⟨b, rfl, ?_⟩
    simp only [RVKind.value] at h
    cases hb : b.value with
    | error e => simp [hb] at h
    | ok d' =>
      simp only [hb] at h
      split at h
      · simpa [eq_comm] using h
      · cases h

/-- C96 fails: a Dirichlet process over a base of any dtype but `int32` has values of that
dtype and declares `int32`. Converting it to its true dtype raises, converting it to `int32`
returns a tensor of the other dtype; a tensor of its true dtype is refused as data and as
approximation, one of dtype `int32` is accepted. -/
theorem C96_fails (b : RVKind) (hb : b.NoDp) (hd : b.declared ≠ .int32) (s : Shape)
    (hs : shapeCompat s s = true) :
    (RVKind.dirichletProcess b).value = .ok b.declared ∧
    (RVKind.dirichletProcess b).declared ≠ b.declared ∧
    (RVKind.dirichletProcess b).convert (some b.declared) = .error .valueError ∧
    (RVKind.dirichletProcess b).convert (some .int32) = .ok b.declared ∧
    checkPair (.rv ⟨s, (RVKind.dirichletProcess b).declared⟩) (.tensor ⟨s, b.declared⟩) = false ∧
    checkLatentPair (.rv ⟨s, (RVKind.dirichletProcess b).declared⟩) (.rv ⟨s, b.declared⟩) = false ∧
    checkPair (.rv ⟨s, (RVKind.dirichletProcess b).declared⟩) (.tensor ⟨s, .int32⟩) = true := by
  have hv := (C96_partial b hb).1
  have hne : DType.int32 ≠ b.declared := fun h => hd h.symm
  refine ⟨?_, hne, ?_, ?_, ?_, ?_, ?_⟩
  · simp [RVKind.value, hv]
  · simp [RVKind.convert, RVKind.declared, hd]
  · simp [RVKind.convert, RVKind.declared, RVKind.value, hv]
  · simp [checkPair, checkPair.checkNode, RVKind.declared, hs, hne]
  · simp [checkLatentPair, checkLatentPair.checkBoth, RVKind.declared, hs, hne]
  · simp [checkPair, checkPair.checkNode, RVKind.declared, hs]

/-- C96 fails: a Dirichlet process whose base is a Dirichlet process over such a base (a
hierarchical one) cannot be constructed. -/
theorem C96_nested_fails (b : RVKind) (hb : b.NoDp) (hd : b.declared ≠ .int32) :
    (RVKind.dirichletProcess (.dirichletProcess b)).value = .error .typeError := by
  have hv := (C96_partial b hb).1
  simp [RVKind.value, hv, RVKind.declared, hd]

-- `DirichletProcess(0.1, Normal(0.0, 1.0))` and `DirichletProcess(0.1, Poisson)` with int32.
example : (RVKind.tfDist .float32).NoDp ∧ (RVKind.tfDist .float32).declared ≠ .int32 ∧
    (RVKind.dirichletProcess (.tfDist .float32)).value = .ok .float32 ∧
    (RVKind.dirichletProcess (.tfDist .int32)).value = .ok .int32 := by
  refine ⟨trivial, by decide, rfl, rfl⟩

/-! ### C98 -/

/-- `dp.sample()` called `n` times; the internal variables created are numbered from
`fresh`. -/
def dpSampleMany (batch : Shape) : ℕ → ℕ → Registry → Registry
  | 0, _, r => r
  | n + 1, fresh, r => dpSampleMany batch n (fresh + 1) (dpSampleRegister batch fresh r)

theorem dpSampleRegister_eq (batch : Shape) (flips : Nat) (r : Registry) :
    dpSampleRegister batch flips r = { r with default := r.default ++ [flips] } := rfl

/-- C98, given a value: a new Dirichlet process registers itself where it was asked to and
nothing else. -/
theorem C98_partial (a : RVArgs) (rv flips : Nat) (r : Registry) (vs : Shape) (hv : a.value = some vs)
    (hc : Consistent vs a.expected) (hu : ∀ c ∈ a.collections, Usable c) (hd : a.collections.Nodup) :
    ∃ r', dpInit a rv flips r = (r', .ok vs) ∧
      ∀ c, Usable c → r'.contents c = if c ∈ a.collections then r.contents c ++ [rv] else r.contents c := by
  obtain ⟨r', sh, h1, h2, -, -, h5⟩ := C74_register_partial a rv r hu hd
    (fun vs' h => by rw [hv, Option.some.injEq] at h; exact h ▸ hc) (fun h => by rw [hv] at h; cases h)
  refine ⟨r', ?_, h2⟩
  unfold dpInit
  rw [hv]
  simp only
  rw [h1, h5 vs hv]

/-- C98 fails: without a value, one internal variable more is put into the default registry,
whatever collections were asked for. -/
theorem C98_fails (a : RVArgs) (rv flips : Nat) (r : Registry) (hv : a.value = none)
    (hs : a.canSample = true) (hu : ∀ c ∈ a.collections, Usable c) (hd : a.collections.Nodup) :
    ∃ r' sh, dpInit a rv flips r = (r', .ok sh) ∧
      r'.contents .name = r.contents .name ++ [flips] ++ (if .name ∈ a.collections then [rv] else []) := by
  obtain ⟨r', sh, h1, h2, -⟩ := C74_register_partial a rv (dpSampleRegister a.batchShape flips r) hu hd
    (fun vs' h => by rw [hv] at h; cases h) (fun _ => hs)
  refine ⟨r', sh, ?_, ?_⟩
  · unfold dpInit
    rw [hv]
    exact h1
  · rw [h2 .name (by simp [Usable]), dpSampleRegister_eq]
    split <;> simp [Registry.contents]

/-- C98 fails: every call of `sample` registers another internal variable. -/
theorem C98_sample_fails (batch : Shape) (n fresh : ℕ) (r : Registry) :
    (dpSampleMany batch n fresh r).default = r.default ++ (List.range n).map (fresh + ·) := by
  induction n generalizing fresh r with
  | zero => simp [dpSampleMany]
  | succ n ih =>
    rw [dpSampleMany, ih, dpSampleRegister_eq, List.range_succ_eq_map]
    simp only [List.map_cons, List.map_map, List.append_assoc, List.singleton_append, Nat.add_zero]
    congr 2
    apply List.map_congr_left
    intro i _
    simp only [Function.comp_apply]; omega

/-- `alpha = Gamma(..)`, `dp = DirichletProcess(alpha, ..)`: tensors 0 the value of `alpha`,
1 the stick proportions, 2 the value of the internal Bernoulli, 3 its flips, 4 the value of
`dp`; variables 0 `alpha`, 1 the internal Bernoulli, 2 `dp`. -/
def dpGraph : Graph (Fin 5) (Fin 5) (Fin 3) where
  op := id
  inputs := ![[], [0], [1], [1], [1, 3]]
  outputs := fun o => [o]
  consumers := ![[1], [2, 3, 4], [], [4], []]
  value := ![0, 2, 4]

theorem dpGraph_consistent : dpGraph.Consistent := by
  constructor
  · decide
  · intro t o; simp [dpGraph]

/-- C98 fails: the internal variable shows up in graph queries, here as a child of the
concentration. -/
theorem C98_query_fails (sched : Nat → Nat) :
    (1 : Fin 3) ∈ getChildren dpGraph sched (.rv 0) [0, 1, 2] ∧
    (2 : Fin 3) ∈ getChildren dpGraph sched (.rv 0) [0, 1, 2] := by
  have hd : DistinctValues dpGraph [0, 1, 2] := by unfold DistinctValues; decide
  constructor
  · refine (C04_getChildren_direct dpGraph dpGraph_consistent sched _ hd 0 (by decide) 1).mpr
      ⟨by decide, by decide, by decide, .cons (w := 1) (by unfold Graph.Edge; decide) ?_
        (.edge (by unfold Graph.Edge; decide))⟩
    rintro ⟨c, hc, h⟩; revert c; decide
  · refine (C04_getChildren_direct dpGraph dpGraph_consistent sched _ hd 0 (by decide) 2).mpr
      ⟨by decide, by decide, by decide, .cons (w := 1) (by unfold Graph.Edge; decide) ?_
        (.edge (by unfold Graph.Edge; decide))⟩
    rintro ⟨c, hc, h⟩; revert c; decide

example : ∃ r' sh, dpInit ⟨some [], some [], some [], none, true, [.name]⟩ 7 6
    ⟨[1], fun _ => [], fun _ => []⟩ = (r', .ok sh) ∧ r'.default = [1, 6, 7] := ⟨_, _, rfl, rfl⟩

/-! ### C99 -/

/-- C99: adding an atom works exactly when the base has no sample shape; then the atoms have
shape `[k + 1] + batch_shape + base.shape`. -/
theorem C99_partial (k : ℕ) (batchShape : List ℕ) (b : BaseShapes) :
    (b.sample = [] → dpConcat k batchShape b = .ok ((k + 1) :: (batchShape ++ b.shape))) ∧
    (b.sample ≠ [] → dpConcat k batchShape b = .error .valueError) := by
  constructor
  · intro h
    simp [dpConcat, BaseShapes.shape, BaseShapes.draw, h]
  · intro h
    unfold dpConcat
    rw [if_neg]
    intro he
    simp only [List.tail_cons, BaseShapes.shape, BaseShapes.draw, List.append_assoc,
      List.append_cancel_left_eq] at he
    have := congrArg List.length he
    simp only [List.length_append] at this
    apply h
    apply List.length_eq_zero_iff.mp
    omega

/-- C99 fails: `DirichletProcess(0.1, Normal(0.0, 1.0, sample_shape=3))`. -/
theorem C99_fails : dpConcat 0 [] ⟨[3], [], []⟩ = .error .valueError := by decide

example : dpConcat 0 [2] ⟨[], [5, 3], []⟩ = .ok [1, 2, 5, 3] := by decide

/-! ### C100 -/

/-- C100, for a scalar sample shape, or a vector of other than one sample: the value has
shape `sample_shape + batch_shape + event_shape`. -/
theorem C100_partial (s rest : List ℕ) (h : s = [] ∨ ∃ n, n ≠ 1 ∧ s = [n]) :
    mixtureValueShape s rest = .ok (s ++ rest) := by
  rcases h with rfl | ⟨n, hn, rfl⟩
  · simp [mixtureValueShape, sampleReshape]
  · simp [mixtureValueShape, sampleReshape, hn]

/-- C100: samples drawn from the finished variable have the right shape for every sample
shape. -/
theorem C100_sample (s rest : List ℕ) : mixtureSampleShape s rest = .ok (s ++ rest) := by
  simp [mixtureSampleShape, sampleReshape]

/-- C100 fails: with `sample_shape=1`, or any other nonempty shape of one element, the value
has the sample shape twice. -/
theorem C100_one_fails (s rest : List ℕ) (hs : s ≠ []) (h1 : s.prod = 1) :
    mixtureValueShape s rest = .ok (s ++ (s ++ rest)) ∧ s ++ (s ++ rest) ≠ s ++ rest := by
  constructor
  · simp [mixtureValueShape, sampleReshape, h1]
  · intro h
    rw [List.append_cancel_left_eq] at h
    have := congrArg List.length h
    rw [List.length_append] at this
    exact hs (List.length_eq_zero_iff.mp (by omega))

/-- C100 fails: a sample shape of two or more axes (more than one element in all but the
first, and nothing empty) raises `ValueError`. -/
theorem C100_rank_fails (n : ℕ) (s rest : List ℕ) (hs : s.prod ≠ 1) (hn : n ≠ 0) (h0 : s.prod ≠ 0)
    (hr : rest.prod ≠ 0) : mixtureValueShape (n :: s) rest = .error .valueError := by
  have hp : (n :: s).prod ≠ 1 := by
    rw [List.prod_cons]
    intro h
    exact hs (Nat.eq_one_of_mul_eq_one_left h)
  unfold mixtureValueShape
  rw [if_neg hp]
  unfold sampleReshape
  simp only
  rw [if_neg]
  simp only [List.cons_append, List.tail_cons, List.prod_cons, List.prod_append]
  intro h
  have h2 : n * (s.prod * rest.prod) ≠ 0 := by positivity
  have : n * (s.prod * (s.prod * rest.prod)) = s.prod * (n * (s.prod * rest.prod)) := by ring
  rw [this] at h
  exact hs ((mul_eq_right₀ h2).mp h)

example : mixtureValueShape [5] [2] = .ok [5, 2] ∧ mixtureValueShape [1] [2] = .ok [1, 1, 2] ∧
    mixtureValueShape [2, 3] [4] = .error .valueError := by decide

end Edward
