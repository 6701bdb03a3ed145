/-
C130: shapes of Empirical and PointMass.
-/
import Verif.Model.PointShapes

namespace Edward.PointShapes

namespace Spec

/-- The dynamic shape is one that the static shape allows. -/
def Agrees (p : Params) : Prop :=
  ∀ l, p.static = some l → l.length = p.dynamic.length ∧ ∀ (i d : ℕ), l[i]? = some (some d) → p.dynamic[i]? = some d

/-- An integer tensor that describes a shape: a vector. -/
def Describes (t : IntTensor) (s : List ℕ) : Prop := t.shape = [s.length] ∧ t.entries = s

end Spec

/-- **C130**, Empirical. With parameters of known rank, samples have the sample shape followed by the dimensions of the parameters after the first; the
static and the dynamic event shape agree with this. There are as many points as rows, and one for scalar parameters. Moments have the shape of an event unless
the parameter is a scalar. -/
theorem C130_empirical_partial (p : Params) (hp : Spec.Agrees p) {l : List Dim} (hl : p.static = some l) (s : List ℕ) :
    sample (empiricalSampleN p) s = .ok (s ++ empiricalEventTensor p) ∧
    Spec.Agrees ⟨empiricalEvent p, empiricalEventTensor p⟩ ∧
    empiricalN p = some (if l = [] then 1 else p.dynamic.headD 0) ∧
    (l ≠ [] → empiricalMoment p = .ok (some (empiricalEventTensor p))) := by
  obtain ⟨hlen, hdim⟩ := hp l hl
  have hag : Spec.Agrees ⟨empiricalEvent p, empiricalEventTensor p⟩ := by
    intro m hm
    have hm' : m = l.drop 1 := by
      have : some (l.drop 1) = some m := by rw [← hm]; show _ = shapeTail p.static; rw [hl]; rfl
      exact (Option.some.inj this).symm
    subst hm'
    refine ⟨by simp [empiricalEventTensor, hlen], fun i d h => ?_⟩
    rw [List.getElem?_drop] at h
    show (p.dynamic.drop 1)[i]? = some d
    rw [List.getElem?_drop]
    exact hdim _ _ h
  rcases l with _ | ⟨a, l⟩
  · have hd : p.dynamic = [] := List.length_eq_zero_iff.mp hlen.symm
    refine ⟨?_, hag, by simp [empiricalN, hl], fun h => absurd rfl h⟩
    simp [sample, empiricalSampleN, hl, rankOf, empiricalEvent, shapeTail, empiricalEventTensor, hd, tile, bind, Except.bind]
  · obtain ⟨b, m, hd⟩ : ∃ b m, p.dynamic = b :: m := List.exists_cons_of_length_pos (by rw [← hlen]; simp)
    refine ⟨?_, hag, by simp [empiricalN, hl, hd], fun _ => ?_⟩
    · simp [sample, empiricalSampleN, hl, rankOf, empiricalEventTensor, hd, bind, Except.bind]
    · simp [empiricalMoment, reduceFirst, hl, hd, empiricalEventTensor]

/-- **C130**, PointMass. With a parameter of known rank, samples have the sample shape followed by the shape of the parameter, and so have the moments. -/
theorem C130_point_mass_partial (p : Params) (hp : Spec.Agrees p) {l : List Dim} (hl : p.static = some l) (s : List ℕ) :
    sample (pointMassSampleN p) s = .ok (s ++ pointMassMoment p) := by
  obtain ⟨hlen, -⟩ := hp l hl
  have hz : List.zipWith (fun a b => a * b) p.dynamic (List.replicate l.length 1) = p.dynamic := by
    rw [hlen]
    generalize p.dynamic = d
    induction d with
    | nil => rfl
    | cons a d ih => simpa [List.replicate_succ] using ih
  simp [sample, pointMassSampleN, hl, rankOf, tile, hlen, pointMassMoment, bind, Except.bind]
  rw [← hlen, hz]

/-- **C130** fails for scalar parameters, one point, which the class allows for: the moments raise ValueError. -/
theorem C130_scalar_fails (p : Params) (hl : p.static = some []) : empiricalN p = some 1 ∧ empiricalMoment p = .error .valueError := by
  simp [empiricalN, empiricalMoment, reduceFirst, hl]

/-- **C130** fails for parameters of unknown rank, such as placeholders without shape: sampling, and so building the random variable, raises ValueError,
though the moments and, for Empirical, the number of points are defined. -/
theorem C130_unknown_rank_fails (d : List ℕ) (hd : d ≠ []) (s : List ℕ) :
    sample (empiricalSampleN ⟨none, d⟩) s = .error .valueError ∧ sample (pointMassSampleN ⟨none, d⟩) s = .error .valueError ∧
    empiricalMoment ⟨none, d⟩ = .ok (some (d.drop 1)) ∧ empiricalN ⟨none, d⟩ = d.head? := by
  obtain ⟨a, l, rfl⟩ := List.exists_cons_of_ne_nil hd
  refine ⟨rfl, rfl, rfl, rfl⟩

/-- **C130** fails for `param_shapes(sample_shape)`, the shapes of parameters for which samples have the given shape. Empirical returns the shape itself, for
which samples lack the first dimension: it is right for scalars only. PointMass returns a matrix, which is no shape. -/
theorem C130_param_shapes_fails (s : List ℕ) :
    (∀ t, Spec.Describes (empiricalParamShapes s) t →
      (sample (empiricalSampleN ⟨hostShape t, t⟩) [] = .ok s ↔ s = [])) ∧
    ¬ ∃ t, Spec.Describes (pointMassParamShapes s) t := by
  constructor
  · rintro t ⟨-, ht⟩
    have ht : s = t := ht
    subst ht
    have hag : Spec.Agrees ⟨hostShape s, s⟩ := by
      intro l hl
      have : s.map some = l := Option.some.inj hl
      subst this
      refine ⟨by simp, fun i d h => ?_⟩
      rw [List.getElem?_map] at h
      simpa using h
    rw [(C130_empirical_partial ⟨hostShape s, s⟩ hag rfl []).1]
    constructor
    · intro h
      have h1 : s.drop 1 = s := Except.ok.inj h
      have h2 := congrArg List.length h1
      rw [List.length_drop] at h2
      exact List.length_eq_zero_iff.mp (by omega)
    · rintro rfl
      rfl
  · rintro ⟨t, ht, -⟩
    simp [pointMassParamShapes] at ht

/-- Five samples of a matrix, with a static shape that leaves the number of samples open. -/
example : Spec.Agrees ⟨some [none, some 2, some 3], [5, 2, 3]⟩ ∧ sample (empiricalSampleN ⟨some [none, some 2, some 3], [5, 2, 3]⟩) [7] = .ok [7, 2, 3] := by
  have h : Spec.Agrees ⟨some [none, some 2, some 3], [5, 2, 3]⟩ := by
    intro l hl
    have : [none, some 2, some 3] = l := Option.some.inj hl
    subst this
    refine ⟨rfl, fun i d h => ?_⟩
    match i with
    | 0 => simp at h
    | 1 => simpa using h
    | 2 => simpa using h
    | i + 3 => simp at h
  exact ⟨h, (C130_empirical_partial _ h rfl [7]).1⟩

end Edward.PointShapes
