/-
C144: which arguments `ParamMixture` accepts, with and without `validate_args`, and what it makes of arguments that do not fit.
-/
import Verif.Model.MixtureArgs
import Verif.Spec.MixtureArgs
import Mathlib.Tactic.Linarith
import Mathlib.Algebra.BigOperators.Ring.Finset

namespace Edward

theorem dimCompatible_iff (a b : Option ℕ) : dimCompatible a b = true ↔ Spec.DimFits a b := by
  cases a <;> cases b <;> simp [dimCompatible, Spec.DimFits]

theorem dimsCompatible_iff : ∀ s t, dimsCompatible s t = true ↔ List.Forall₂ Spec.DimFits s t
  | [], [] => by simp [dimsCompatible]
  | [], b :: t => by simp [dimsCompatible]
  | a :: s, [] => by simp [dimsCompatible]
  | a :: s, b :: t => by simp [dimsCompatible, dimCompatible_iff, dimsCompatible_iff s t]

theorem mixtureCheck_append (w : List (Option ℕ)) (n k : Option ℕ) (b : List (Option ℕ)) :
    mixtureCheck (some (w ++ [n])) (some (k :: b)) = .ok () ↔ Spec.DimFits n k ∧ List.Forall₂ Spec.DimFits w b := by
  rw [← dimCompatible_iff, ← dimsCompatible_iff]
  unfold mixtureCheck
  split
  · next h => simp at h
  · next h _ => simp at h
  · next w' k' b' _ h1 h2 =>
    cases h1
    cases h2
    simp only [List.getLast?_append, List.getLast?_singleton, Option.some_or, Option.getD_some, List.dropLast_concat]
    cases dimCompatible n k <;> cases dimsCompatible w b <;> simp
  · next h => exact absurd rfl (h _ _ _ rfl)

/-- C144: with `validate_args=True` and components of known rank, exactly the arguments that fit together are accepted. -/
theorem C144_validated (a : MixtureArgs) (hv : a.validate = true) (w batch : List (Option ℕ)) (hw : a.weights = some w)
    (hb : a.batch = some batch) (K : ℕ) :
    mixtureBuild a = .ok K ↔ a.params = .dict ∧ a.dist = .randomVariable ∧ Spec.ShapesFit w batch ∧ w.getLast? = some (some K) := by
  obtain ⟨v, p, d, wt, bt⟩ := a
  simp only at hv hw hb ⊢
  subst hv hw hb
  rcases List.eq_nil_or_concat w with rfl | ⟨w, n, rfl⟩
  · constructor
    · intro h
      cases p <;> cases d <;> simp [mixtureBuild, mixtureInit] at h
    · rintro ⟨-, -, -, h⟩
      simp at h
  · rw [List.concat_eq_append]
    have hs : Spec.ShapesFit (w ++ [n]) batch ↔ ∃ k b, batch = k :: b ∧ Spec.DimFits n k ∧ List.Forall₂ Spec.DimFits w b := by
      constructor
      · rintro ⟨w', n', k, b, h1, h2, h3, h4⟩
        obtain ⟨rfl, h5⟩ := List.append_inj' h1 rfl
        obtain rfl : n = n' := by simpa using h5
        exact ⟨k, b, h2, h3, h4⟩
      · rintro ⟨k, b, h2, h3, h4⟩
        exact ⟨w, n, k, b, rfl, h2, h3, h4⟩
    rw [hs]
    cases batch with
    | nil =>
      constructor
      · intro h
        cases p <;> cases d <;> simp [mixtureBuild, mixtureInit, mixtureCheck] at h
      · rintro ⟨-, -, ⟨k, b, h, -⟩, -⟩
        simp at h
    | cons k b =>
      have hc := mixtureCheck_append w n k b
      have hlast : (w ++ [n]).getLast? = some n := by simp
      constructor
      · intro h
        cases p <;> cases d <;> simp [mixtureBuild, mixtureInit] at h
        refine ⟨rfl, rfl, ⟨k, b, rfl, ?_⟩, ?_⟩
        · rw [← hc]
          cases he : mixtureCheck (some (w ++ [n])) (some (k :: b)) with
          | error e => simp [he] at h
          | ok u => rfl
        · cases he : mixtureCheck (some (w ++ [n])) (some (k :: b)) with
          | error e => simp [he] at h
          | ok u =>
            cases n with
            | none => simp [he] at h
            | some m => simp [he] at h; simp [h]
      · rintro ⟨rfl, rfl, ⟨k', b', h1, h2⟩, h3⟩
        cases h1
        have he := hc.mpr h2
        rw [hlast] at h3
        cases h3
        simp [mixtureBuild, mixtureInit, he]

/-- Three weights for each of two mixtures, and three times two components. -/
example : mixtureBuild ⟨true, .dict, .randomVariable, some [some 2, some 3], some [some 3, some 2]⟩ = .ok 3 :=
  (C144_validated _ rfl [some 2, some 3] [some 3, some 2] rfl rfl 3).mpr
    ⟨rfl, rfl, ⟨[some 2], some 3, some 3, [some 2], rfl, rfl, by simp [Spec.DimFits], by simp [Spec.DimFits]⟩, rfl⟩

/-- C144: with `validate_args=True`, arguments of known shape that do not fit raise the documented TypeError if `component_params`
has values, there is an axis of weights and an axis of components. -/
theorem C144_error_partial (a : MixtureArgs) (hv : a.validate = true) (hp : a.params ≠ .other) (w : List (Option ℕ)) (n k : Option ℕ)
    (b : List (Option ℕ)) (hw : a.weights = some (w ++ [n])) (hb : a.batch = some (k :: b))
    (h : ¬ (a.params = .dict ∧ a.dist = .randomVariable ∧ Spec.ShapesFit (w ++ [n]) (k :: b))) : mixtureBuild a = .error .typeError := by
  obtain ⟨v, p, d, wt, bt⟩ := a
  simp only at hv hw hb hp h ⊢
  subst hv hw hb
  have hc := mixtureCheck_append w n k b
  have hcheck : mixtureCheck (some (w ++ [n])) (some (k :: b)) = .ok () ∨ mixtureCheck (some (w ++ [n])) (some (k :: b)) = .error .typeError := by
    unfold mixtureCheck
    split
    · next h => simp at h
    · next h _ => simp at h
    · split
      · exact Or.inr rfl
      · split
        · exact Or.inr rfl
        · exact Or.inl rfl
    · next h => exact absurd rfl (h _ _ _ rfl)
  cases p <;> cases d <;> simp_all [mixtureBuild, mixtureInit]
  rcases hcheck with h1 | h1
  · exact absurd ⟨w, n, k, b, rfl, rfl, h1⟩ h
  · simp [h1]

/-- C144 fails: a list of parameters raises AttributeError, before the test that would raise the documented TypeError. -/
theorem C144_dict_fails (a : MixtureArgs) (h : a.params = .other) : mixtureBuild a = .error .attributeError := by
  simp [mixtureBuild, mixtureInit, h]

/-- C144 fails: scalar components raise IndexError. -/
theorem C144_scalar_fails (w : List (Option ℕ)) (hw : w ≠ []) : mixtureBuild ⟨true, .dict, .randomVariable, some w, some []⟩ = .error .indexError := by
  cases w with
  | nil => exact absurd rfl hw
  | cons x w => simp [mixtureBuild, mixtureInit, mixtureCheck]

/-- C144 fails: weights of known rank whose number is not known pass the test that the number of components be known, and the value
raises ValueError; the documented NotImplementedError is only for unknown rank. -/
theorem C144_static_fails (w : List (Option ℕ)) (v : Bool) (batch : Option (List (Option ℕ))) :
    mixtureInit ⟨false, .dict, .randomVariable, some (w ++ [none]), batch⟩ = .ok none ∧
    mixtureBuild ⟨false, .dict, .randomVariable, some (w ++ [none]), batch⟩ = .error .valueError ∧
    (batch ≠ some [] → mixtureBuild ⟨v, .dict, .randomVariable, none, batch⟩ = .error .notImplementedError) := by
  refine ⟨by simp [mixtureInit], by simp [mixtureBuild, mixtureInit], fun h => ?_⟩
  cases v
  · simp [mixtureBuild, mixtureInit]
  · have : mixtureCheck none batch = .ok () := by
      rcases batch with _ | _ | ⟨k, b⟩
      · rfl
      · exact absurd rfl h
      · rfl
    simp [mixtureBuild, mixtureInit, this]

/-- Without `validate_args`, the default, no shapes are compared. -/
theorem C144_unvalidated (w : List (Option ℕ)) (K : ℕ) (batch : Option (List (Option ℕ))) :
    mixtureBuild ⟨false, .dict, .randomVariable, some (w ++ [some K]), batch⟩ = .ok K := by
  simp [mixtureBuild, mixtureInit]

/-! ### The value -/

theorem bidx_index : ∀ s j : List ℕ, Spec.IndexOf j s → bidx s j = j
  | [], _, h => by cases h; rfl
  | a :: s, _, h => by
    cases h with
    | cons h1 h2 =>
      rename_i i j
      rw [bidx, bidx_index s j h2]
      split
      · next h3 => subst h3; rw [Nat.lt_one_iff.mp h1]
      · rfl

theorem bidx_concat : ∀ s s' j j' : List ℕ, s.length = j.length → bidx (s ++ s') (j ++ j') = bidx s j ++ bidx s' j'
  | [], _, [], _, _ => rfl
  | a :: s, s', i :: j, j', h => by simp [bidx, bidx_concat s s' j j' (by simpa using h)]

theorem broadcastable_of : ∀ s t : List ℕ, List.Forall₂ (fun a b => b = a ∨ b = 1) s t → broadcastable s t = true ∧ bcast s t = s
  | [], _, h => by cases h; exact ⟨rfl, rfl⟩
  | a :: s, _, h => by
    cases h with
    | cons h1 h2 =>
      obtain ⟨h3, h4⟩ := broadcastable_of s _ h2
      rcases h1 with rfl | rfl
      · simp [broadcastable, bcast, h3, h4]
      · refine ⟨by simp [broadcastable, h3], ?_⟩
        rw [bcast, h4]
        split
        · next h => rw [h]
        · rfl

theorem sum_select (K : ℕ) (f : ℕ → ℝ) (c : ℕ) (hc : c < K) : ∑ j ∈ Finset.range K, f j * (if j = c then 1 else 0) = f c := by
  simp [hc]

/-- C144: if the shapes fit, the value of a mixture is, at each batch index, that of the component `cat` names there. -/
theorem C144_value (K : ℕ) (B E : List ℕ) (cat : NDArr ℕ) (comp : NDArr ℝ) (hcat : cat.shape = 1 :: B) (hcomp : comp.shape = 1 :: K :: (B ++ E))
    (hK : ∀ b, cat.get (0 :: b) < K) :
    ∃ t, sampleMixture K B.length E.length cat comp = .ok t ∧ t.shape = 1 :: (B ++ E) ∧
      ∀ b e, Spec.IndexOf b B → Spec.IndexOf e E → t.get (0 :: (b ++ e)) = comp.get (0 :: cat.get (0 :: b) :: (b ++ e)) := by
  have haxis : (comp.shape.length : ℤ) - 1 - ((E.length + B.length : ℕ) : ℤ) = 1 := by
    rw [hcomp]
    simp only [List.length_cons, List.length_append]
    push_cast
    ring
  have hone : oneHot cat K 1 = .ok { shape := 1 :: K :: B, get := fun ix => if ix.getD 1 0 = cat.get (ix.eraseIdx 1) then 1 else 0 } := by
    unfold oneHot
    simp [hcat]
  set sel : NDArr ℝ := { shape := 1 :: K :: B, get := fun ix => if ix.getD 1 0 = cat.get (ix.eraseIdx 1) then 1 else 0 } with hsel
  have hshape : (expandTo sel comp.shape.length).shape = 1 :: K :: (B ++ List.replicate E.length 1) := by
    simp [expandTo, hsel, hcomp]
  have hall : List.Forall₂ (fun a b => b = a ∨ b = 1) comp.shape.reverse (expandTo sel comp.shape.length).shape.reverse := by
    rw [List.forall₂_reverse_iff, hshape, hcomp]
    refine .cons (Or.inl rfl) (.cons (Or.inl rfl) (List.rel_append ?_ ?_))
    · exact List.forall₂_same.mpr fun _ _ => Or.inl rfl
    · clear * -
      induction E with
      | nil => exact .nil
      | cons a E ih => exact .cons (Or.inr rfl) ih
  obtain ⟨h1, h2⟩ := broadcastable_of _ _ hall
  unfold sampleMixture
  simp only [haxis, hone]
  unfold broadcastMul
  rw [if_pos h1]
  simp only [h2, List.reverse_reverse]
  have hres : resolveAxis comp.shape.length 1 = some 1 := by
    rw [hcomp]
    simp [resolveAxis]
    omega
  unfold reduceSumAxis
  simp only [hres]
  refine ⟨_, rfl, ?_, fun b e hb he => ?_⟩
  · rw [hcomp]; rfl
  · simp only [hcomp, List.getD_cons_succ, List.getD_cons_zero, List.insertIdx_succ_cons, List.insertIdx_zero]
    rw [← sum_select K (fun j => comp.get (0 :: j :: (b ++ e))) _ (hK b)]
    refine Finset.sum_congr rfl fun j hj => ?_
    have hj := Finset.mem_range.mp hj
    have hix : Spec.IndexOf (0 :: j :: (b ++ e)) (1 :: K :: (B ++ E)) := .cons Nat.one_pos (.cons hj (List.rel_append hb he))
    have e1 : (bidx (1 :: K :: (B ++ E)).reverse (0 :: j :: (b ++ e)).reverse).reverse = 0 :: j :: (b ++ e) := by
      rw [bidx_index _ _ (List.forall₂_reverse_iff.mpr hix), List.reverse_reverse]
    have hix2 : Spec.IndexOf (0 :: j :: b) (1 :: K :: B) := .cons Nat.one_pos (.cons hj hb)
    have hlen : e.length = E.length := he.length_eq
    have e2 : (bidx (1 :: K :: (B ++ List.replicate E.length 1)).reverse (0 :: j :: (b ++ e)).reverse).reverse =
        0 :: j :: (b ++ (bidx (List.replicate E.length 1) e.reverse).reverse) := by
      have a1 : (1 :: K :: (B ++ List.replicate E.length 1)).reverse = List.replicate E.length 1 ++ (1 :: K :: B).reverse := by simp
      have a2 : (0 :: j :: (b ++ e)).reverse = e.reverse ++ (0 :: j :: b).reverse := by simp
      rw [a1, a2, bidx_concat _ _ _ _ (by simp [hlen]), bidx_index _ _ (List.forall₂_reverse_iff.mpr hix2)]
      simp
    have hbl : b.length = B.length := hb.length_eq
    rw [hcomp] at hshape
    rw [e1, hshape, e2]
    congr 1
    have e3 : ∀ l, List.take (B.length + 1 + 1) (0 :: j :: (b ++ l)) = 0 :: j :: b := fun l => by simp [← hbl]
    simp [expandTo, hsel, e3]

/-- Two mixtures of three components, the events vectors of length two. -/
example : ∃ t, sampleMixture 3 1 1 ⟨[1, 2], fun ix => min (ix.getD 1 0) 2⟩ ⟨[1, 3, 2, 2], fun ix => ix.getD 1 0 * 10 + ix.getD 3 0⟩ = .ok t ∧
    t.get [0, 1, 1] = 11 := by
  obtain ⟨t, h1, -, h2⟩ := C144_value 3 [2] [2] ⟨[1, 2], fun ix => min (ix.getD 1 0) 2⟩ ⟨[1, 3, 2, 2], fun ix => ix.getD 1 0 * 10 + ix.getD 3 0⟩
    rfl rfl (fun b => by simp)
  refine ⟨t, h1, ?_⟩
  have := h2 [1] [1] (.cons (by norm_num) .nil) (.cons (by norm_num) .nil)
  simp at this
  rw [this]
  norm_num

/-- C144 fails without `validate_args`: for `K` vectors of `K` weights and `K` components without further axes, the value of mixture `b`
is that of component `b` whatever `cat` and the weights are. With `validate_args=True` TypeError is raised. -/
theorem C144_square_fails (K : ℕ) (cat : NDArr ℕ) (comp : NDArr ℝ) (hcat : cat.shape = [1, K]) (hcomp : comp.shape = [1, K])
    (hK : ∀ b, cat.get [0, b] < K) :
    mixtureBuild ⟨false, .dict, .randomVariable, some [some K, some K], some [some K]⟩ = .ok K ∧
    mixtureBuild ⟨true, .dict, .randomVariable, some [some K, some K], some [some K]⟩ = .error .typeError ∧
    ∃ t, sampleMixture K 1 0 cat comp = .ok t ∧ t.shape = [1, K] ∧ ∀ b < K, t.get [0, b] = comp.get [0, b] := by
  refine ⟨C144_unvalidated [some K] K _, by simp [mixtureBuild, mixtureInit, mixtureCheck, dimCompatible, dimsCompatible], ?_⟩
  have hone : oneHot cat K 0 = .ok { shape := [K, 1, K], get := fun ix => if ix.getD 0 0 = cat.get (ix.eraseIdx 0) then 1 else 0 } := by
    unfold oneHot
    simp [hcat]
  have hax : (([1, K] : List ℕ).length : ℤ) - 1 - ((0 + 1 : ℕ) : ℤ) = 0 := by simp
  unfold sampleMixture
  simp only [hcomp, hax, hone]
  have hb : broadcastMul comp (expandTo { shape := [K, 1, K], get := fun ix => if ix.getD 0 0 = cat.get (ix.eraseIdx 0) then 1 else 0 } ([1, K] : List ℕ).length) =
      .ok { shape := [K, 1, K],
            get := fun ix => comp.get (bidx [K, 1] ix.reverse).reverse *
              (if ((bidx [K, 1, K] ix.reverse).reverse.take 3).getD 0 0 = cat.get (((bidx [K, 1, K] ix.reverse).reverse.take 3).eraseIdx 0) then 1 else 0) } := by
    unfold broadcastMul expandTo
    simp [hcomp, broadcastable, bcast]
  rw [hb]
  unfold reduceSumAxis
  refine ⟨_, rfl, rfl, fun b hbK => ?_⟩
  rw [← sum_select K (fun _ => comp.get [0, b]) _ (hK b)]
  change Finset.sum (M := ℝ) (Finset.range K) _ = _
  refine Finset.sum_congr rfl fun j hj => ?_
  have hj := Finset.mem_range.mp hj
  have hix : Spec.IndexOf [b, 0, j] [K, 1, K] := .cons hbK (.cons Nat.one_pos (.cons hj .nil))
  have hix2 : Spec.IndexOf [b, 0] [K, 1] := .cons hbK (.cons Nat.one_pos .nil)
  have e1 : bidx [K, 1] [b, 0, j] = [b, 0] := by
    have := bidx_concat [K, 1] [] [b, 0] [j] rfl
    rw [bidx_index _ _ hix2] at this
    exact this
  simp [e1, bidx_index _ _ hix]

/-- C144: without `validate_args`, weights with two batch axes and `K` components without further axes: the value of each mixture is
that of the component its `cat` names, and mixtures with the same `cat` share one draw. -/
theorem C144_shared (K B₁ B₂ : ℕ) (cat : NDArr ℕ) (comp : NDArr ℝ) (hcat : cat.shape = [1, B₁, B₂]) (hcomp : comp.shape = [1, K])
    (hK : ∀ b c, cat.get [0, b, c] < K) :
    ∃ t, sampleMixture K 2 0 cat comp = .ok t ∧ t.shape = [1, B₁, B₂] ∧
      ∀ b < B₁, ∀ c < B₂, t.get [0, b, c] = comp.get [0, cat.get [0, b, c]] := by
  have hone : oneHot cat K (-1) = .ok { shape := [1, B₁, B₂, K], get := fun ix => if ix.getD 3 0 = cat.get (ix.eraseIdx 3) then 1 else 0 } := by
    unfold oneHot
    simp [hcat]
  have hax : (([1, K] : List ℕ).length : ℤ) - 1 - ((0 + 2 : ℕ) : ℤ) = -1 := by simp
  unfold sampleMixture
  simp only [hcomp, hax, hone]
  have hb : broadcastMul comp (expandTo { shape := [1, B₁, B₂, K], get := fun ix => if ix.getD 3 0 = cat.get (ix.eraseIdx 3) then 1 else 0 }
      ([1, K] : List ℕ).length) =
      .ok { shape := [1, B₁, B₂, K],
            get := fun ix => comp.get (bidx [K, 1] ix.reverse).reverse *
              (if ((bidx [K, B₂, B₁, 1] ix.reverse).reverse.take 4).getD 3 0 = cat.get (((bidx [K, B₂, B₁, 1] ix.reverse).reverse.take 4).eraseIdx 3)
                then 1 else 0) } := by
    unfold broadcastMul expandTo
    simp [hcomp, broadcastable, bcast]
  rw [hb]
  unfold reduceSumAxis
  refine ⟨_, rfl, rfl, fun b hb c hc => ?_⟩
  rw [← sum_select K (fun j => comp.get [0, j]) _ (hK b c)]
  change Finset.sum (M := ℝ) (Finset.range K) _ = _
  refine Finset.sum_congr rfl fun j hj => ?_
  have hj := Finset.mem_range.mp hj
  have hix : Spec.IndexOf [j, c, b, 0] [K, B₂, B₁, 1] := .cons hj (.cons hc (.cons hb (.cons Nat.one_pos .nil)))
  have e1 : bidx [K, 1] [j, c, b, 0] = [j, 0] := by
    have h1 : bidx [K, 1] [j, c, b, 0] = [if K = 1 then 0 else j, 0] := rfl
    rw [h1]
    split
    · next h => subst h; rw [Nat.lt_one_iff.mp hj]
    · rfl
  simp [e1, bidx_index _ _ hix]

/-- C144 fails without `validate_args`: one weight and `K` components give the sum of all components. -/
theorem C144_sum_fails (K : ℕ) (cat : NDArr ℕ) (comp : NDArr ℝ) (hcat : cat.shape = [1]) (hcomp : comp.shape = [1, K])
    (hK : cat.get [0] = 0) :
    mixtureBuild ⟨false, .dict, .randomVariable, some [some 1], some [some K]⟩ = .ok 1 ∧
    ∃ t, sampleMixture 1 0 0 cat comp = .ok t ∧ t.shape = [1] ∧ t.get [0] = ∑ k ∈ Finset.range K, comp.get [0, k] := by
  refine ⟨C144_unvalidated [] 1 _, ?_⟩
  have hone : oneHot cat 1 1 = .ok { shape := [1, 1], get := fun ix => if ix.getD 1 0 = cat.get (ix.eraseIdx 1) then 1 else 0 } := by
    unfold oneHot
    simp [hcat]
  have hax : (([1, K] : List ℕ).length : ℤ) - 1 - ((0 + 0 : ℕ) : ℤ) = 1 := by simp
  unfold sampleMixture
  simp only [hcomp, hax, hone]
  have hb : broadcastMul comp (expandTo { shape := [1, 1], get := fun ix => if ix.getD 1 0 = cat.get (ix.eraseIdx 1) then 1 else 0 } ([1, K] : List ℕ).length) =
      .ok { shape := [1, K],
            get := fun ix => comp.get (bidx [K, 1] ix.reverse).reverse *
              (if ((bidx [1, 1] ix.reverse).reverse.take 2).getD 1 0 = cat.get (((bidx [1, 1] ix.reverse).reverse.take 2).eraseIdx 1) then 1 else 0) } := by
    unfold broadcastMul expandTo
    simp [hcomp, broadcastable, bcast]
    tauto
  rw [hb]
  unfold reduceSumAxis
  refine ⟨_, rfl, rfl, ?_⟩
  change Finset.sum (M := ℝ) (Finset.range K) _ = _
  refine Finset.sum_congr rfl fun j hj => ?_
  have hj : j < K := Finset.mem_range.mp hj
  have hix : Spec.IndexOf [j, 0] [K, 1] := .cons hj (.cons Nat.one_pos .nil)
  have e1 : bidx [1, 1] [j, 0] = [0, 0] := rfl
  simp [e1, bidx_index _ _ hix, hK]

/-- C144: without `validate_args`, one component and `K` weights give that component. -/
theorem C144_single (K : ℕ) (cat : NDArr ℕ) (comp : NDArr ℝ) (hcat : cat.shape = [1]) (hcomp : comp.shape = [1, 1]) (hK : cat.get [0] < K) :
    ∃ t, sampleMixture K 0 0 cat comp = .ok t ∧ t.shape = [1] ∧ t.get [0] = comp.get [0, 0] := by
  have hone : oneHot cat K 1 = .ok { shape := [1, K], get := fun ix => if ix.getD 1 0 = cat.get (ix.eraseIdx 1) then 1 else 0 } := by
    unfold oneHot
    simp [hcat]
  have hax : (([1, 1] : List ℕ).length : ℤ) - 1 - ((0 + 0 : ℕ) : ℤ) = 1 := by simp
  unfold sampleMixture
  simp only [hcomp, hax, hone]
  have hb : broadcastMul comp (expandTo { shape := [1, K], get := fun ix => if ix.getD 1 0 = cat.get (ix.eraseIdx 1) then 1 else 0 } ([1, 1] : List ℕ).length) =
      .ok { shape := [1, K],
            get := fun ix => comp.get (bidx [1, 1] ix.reverse).reverse *
              (if ((bidx [K, 1] ix.reverse).reverse.take 2).getD 1 0 = cat.get (((bidx [K, 1] ix.reverse).reverse.take 2).eraseIdx 1) then 1 else 0) } := by
    unfold broadcastMul expandTo
    simp [hcomp, broadcastable, bcast]
  rw [hb]
  unfold reduceSumAxis
  refine ⟨_, rfl, rfl, ?_⟩
  rw [← sum_select K (fun _ => comp.get [0, 0]) _ hK]
  change Finset.sum (M := ℝ) (Finset.range K) _ = _
  refine Finset.sum_congr rfl fun j hj => ?_
  have hj : j < K := Finset.mem_range.mp hj
  have hix : Spec.IndexOf [j, 0] [K, 1] := .cons hj (.cons Nat.one_pos .nil)
  have e1 : bidx [1, 1] [j, 0] = [0, 0] := rfl
  simp [e1, bidx_index _ _ hix]

/-- C144: without `validate_args`, other numbers of weights and components raise ValueError. -/
theorem C144_mismatch (K K' : ℕ) (h : K ≠ K') (h1 : K ≠ 1) (h2 : K' ≠ 1) (cat : NDArr ℕ) (comp : NDArr ℝ) (hcat : cat.shape = [1])
    (hcomp : comp.shape = [1, K']) : sampleMixture K 0 0 cat comp = .error .valueError := by
  have hone : oneHot cat K 1 = .ok { shape := [1, K], get := fun ix => if ix.getD 1 0 = cat.get (ix.eraseIdx 1) then 1 else 0 } := by
    unfold oneHot
    simp [hcat]
  have hax : (([1, K'] : List ℕ).length : ℤ) - 1 - ((0 + 0 : ℕ) : ℤ) = 1 := by simp
  unfold sampleMixture
  simp only [hcomp, hax, hone]
  have hb : broadcastMul comp (expandTo { shape := [1, K], get := fun ix => if ix.getD 1 0 = cat.get (ix.eraseIdx 1) then 1 else 0 } ([1, K'] : List ℕ).length) =
      .error .valueError := by
    unfold broadcastMul expandTo
    simp [hcomp, broadcastable, h1, h2, Ne.symm h]
  rw [hb]

/-- Two by two mixtures that share three components. -/
example : ∃ t, sampleMixture 3 2 0 ⟨[1, 2, 2], fun ix => min (ix.getD 1 0 + ix.getD 2 0) 2⟩ ⟨[1, 3], fun ix => ix.getD 1 0 * 10⟩ = .ok t ∧
    t.get [0, 0, 1] = 10 ∧ t.get [0, 1, 0] = 10 ∧ t.get [0, 1, 1] = 20 := by
  obtain ⟨t, h1, -, h2⟩ := C144_shared 3 2 2 ⟨[1, 2, 2], fun ix => min (ix.getD 1 0 + ix.getD 2 0) 2⟩ ⟨[1, 3], fun ix => ix.getD 1 0 * 10⟩
    rfl rfl (fun b c => by simp)
  refine ⟨t, h1, ?_, ?_, ?_⟩
  · simpa using h2 0 (by norm_num) 1 (by norm_num)
  · simpa using h2 1 (by norm_num) 0 (by norm_num)
  · rw [h2 1 (by norm_num) 1 (by norm_num)]
    simp
    norm_num

/-- Components with the values 5 and 7: two mixtures whose `cat` is 1 and 0 have the values 5 and 7, and one weight gives 12. -/
example : (∃ t, sampleMixture 2 1 0 ⟨[1, 2], fun ix => 1 - ix.getD 1 0⟩ ⟨[1, 2], fun ix => if ix.getD 1 0 = 0 then 5 else 7⟩ = .ok t ∧
      t.get [0, 0] = 5 ∧ t.get [0, 1] = 7) ∧
    ∃ t, sampleMixture 1 0 0 ⟨[1], fun _ => 0⟩ ⟨[1, 2], fun ix => if ix.getD 1 0 = 0 then 5 else 7⟩ = .ok t ∧ t.get [0] = 12 := by
  obtain ⟨-, -, t, h1, -, h2⟩ := C144_square_fails 2 ⟨[1, 2], fun ix => 1 - ix.getD 1 0⟩ ⟨[1, 2], fun ix => if ix.getD 1 0 = 0 then 5 else 7⟩
    rfl rfl (fun b => by simp)
  obtain ⟨-, t', h3, -, h4⟩ := C144_sum_fails 2 ⟨[1], fun _ => 0⟩ ⟨[1, 2], fun ix => if ix.getD 1 0 = 0 then 5 else 7⟩ rfl rfl rfl
  refine ⟨⟨t, h1, ?_, ?_⟩, t', h3, ?_⟩
  · simpa using h2 0 (by norm_num)
  · simpa using h2 1 (by norm_num)
  · rw [h4]
    simp [Finset.sum_range_succ]
    norm_num

end Edward
