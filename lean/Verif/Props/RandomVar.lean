/-
Property C74: creation and registration of random variables.
-/
import Mathlib.Data.List.Nodup
import Verif.Model.RandomVar
import Verif.Spec.Shape

namespace Edward

/-- Contents of the collection an argument denotes. -/
def Registry.contents (r : Registry) : CollArg → List Nat
  | .name => r.default
  | .mapping i => r.mappings i
  | .plainList i => r.lists i
  | .otherObj => []

/-- Arguments the loop can handle. -/
def Usable : CollArg → Prop
  | .name | .mapping _ => True
  | _ => False

theorem registerAll_spec (rv : Nat) : ∀ (cs : List CollArg) (r : Registry), (∀ c ∈ cs, Usable c) →
    (registerAll rv cs r).2 = none ∧
    ∀ c, Usable c → ((registerAll rv cs r).1).contents c = r.contents c ++ List.replicate (cs.count c) rv := by
  intro cs
  induction cs with
  | nil => intro r _; exact ⟨rfl, fun c _ => by simp [registerAll]⟩
  | cons a cs ih =>
    intro r h
    have ha := h a (by simp)
    have hcs : ∀ c ∈ cs, Usable c := fun c hc => h c (by simp [hc])
    obtain ⟨r', hr', hcont⟩ : ∃ r', r.append rv a = some r' ∧
        ∀ c, Usable c → r'.contents c = r.contents c ++ List.replicate (if a = c then 1 else 0) rv := by
      cases a with
      | name =>
        refine ⟨_, rfl, fun c hc => ?_⟩
        cases c with
        | name => simp [Registry.contents]
        | mapping i => simp [Registry.contents]
        | plainList i => exact hc.elim
        | otherObj => exact hc.elim
      | mapping j =>
        refine ⟨_, rfl, fun c hc => ?_⟩
        cases c with
        | name => simp [Registry.contents]
        | mapping i =>
          simp only [Registry.contents, CollArg.mapping.injEq]
          by_cases hij : i = j
          · subst hij; simp
          · rw [if_neg hij, if_neg (fun e => hij e.symm)]; simp
        | plainList i => exact hc.elim
        | otherObj => exact hc.elim
      | plainList i => exact ha.elim
      | otherObj => exact ha.elim
    obtain ⟨h1, h2⟩ := ih r' hcs
    simp only [registerAll, hr']
    refine ⟨h1, fun c hc => ?_⟩
    rw [h2 c hc, hcont c hc, List.append_assoc, List.replicate_append_replicate, List.count_cons]
    congr 2
    by_cases hac : a = c
    · subst hac; simp; omega
    · simp [hac]

/-- C74 (part): when all requested collections are mappings, pairwise different, and
the value's shape is consistent, the random variable is appended exactly once to
each requested collection and to no other, and its shape is consistent with
sample + batch + event shape, and equal to it when no value is given. -/
theorem C74_register_partial (a : RVArgs) (rv : Nat) (r : Registry)
    (hu : ∀ c ∈ a.collections, Usable c) (hd : a.collections.Nodup)
    (hv : ∀ vs, a.value = some vs → Consistent vs a.expected)
    (hs : a.value = none → a.canSample = true) :
    ∃ r' sh, rvInit a rv r = (r', .ok sh) ∧
      (∀ c, Usable c → r'.contents c =
        if c ∈ a.collections then r.contents c ++ [rv] else r.contents c) ∧
      Consistent sh a.expected ∧ (a.value = none → sh = a.expected) ∧
      (∀ vs, a.value = some vs → sh = vs) := by
  obtain ⟨h1, h2⟩ := registerAll_spec rv a.collections r hu
  have hcont : ∀ c, Usable c → (registerAll rv a.collections r).1.contents c =
      if c ∈ a.collections then r.contents c ++ [rv] else r.contents c := by
    intro c hc
    rw [h2 c hc]
    split
    · rename_i hm; rw [List.count_eq_one_of_mem hd hm]; rfl
    · rename_i hm; rw [List.count_eq_zero_of_not_mem hm]; simp
  have hfin : registerAll rv a.collections r = ((registerAll rv a.collections r).1, none) :=
    Prod.ext rfl h1
  cases hval : a.value with
  | none =>
    refine ⟨(registerAll rv a.collections r).1, a.expected, ?_, hcont, ?_, fun _ => rfl, by simp⟩
    · unfold rvInit
      rw [hval]
      simp only [hs hval, if_true]
      rw [hfin]
    · obtain ⟨l, hl⟩ := exists_describes a.expected
      exact ⟨l, hl, hl⟩
  | some vs =>
    refine ⟨(registerAll rv a.collections r).1, vs, ?_, hcont, hv vs hval, by simp, by simp⟩
    unfold rvInit
    rw [hval]
    simp only [(shapeCompat_iff _ _).mpr (hv vs hval), Bool.not_true, Bool.false_eq_true, if_false]
    rw [hfin]

/-- C74: a value of inconsistent shape is rejected and nothing is registered; so is
a distribution that cannot be sampled when no value is given. -/
theorem C74_rejects (a : RVArgs) (rv : Nat) (r : Registry) :
    (∀ vs, a.value = some vs → ¬ Consistent vs a.expected → rvInit a rv r = (r, .error .valueShape)) ∧
    (a.value = none → a.canSample = false → rvInit a rv r = (r, .error .noSample)) := by
  constructor
  · intro vs hval hn
    have : shapeCompat vs a.expected = false := by
      cases h : shapeCompat vs a.expected with
      | false => rfl
      | true => exact absurd ((shapeCompat_iff _ _).mp h) hn
    unfold rvInit
    rw [hval]
    simp [this]
  · intro hval hc
    unfold rvInit
    rw [hval]
    simp [hc]

theorem forall₂_append_left {α β : Type} {R : α → β → Prop} {a b : List α} {l : List β}
    (h : List.Forall₂ R (a ++ b) l) :
    ∃ x y, l = x ++ y ∧ List.Forall₂ R a x ∧ List.Forall₂ R b y := by
  induction a generalizing l with
  | nil => exact ⟨[], l, rfl, List.Forall₂.nil, h⟩
  | cons c a ih =>
    cases h with
    | cons hc ht =>
      obtain ⟨x, y, rfl, h1, h2⟩ := ih ht
      exact ⟨_ :: x, y, rfl, List.Forall₂.cons hc h1, h2⟩

/-- The expected shape describes exactly the concatenations of sample, batch and
event shapes (known ranks). -/
theorem C74_expected (s b e : List Dim) (a : RVArgs) (hs : a.sampleShape = some s)
    (hb : a.batchShape = some b) (he : a.eventShape = some e) (l : List Nat) :
    Describes a.expected l ↔
      ∃ x y z, l = x ++ y ++ z ∧ Describes (some s) x ∧ Describes (some b) y ∧ Describes (some e) z := by
  unfold RVArgs.expected
  rw [hs, hb, he]
  simp only [shapeConcat, Describes]
  constructor
  · intro h
    obtain ⟨xy, z, rfl, h1, h3⟩ := forall₂_append_left h
    obtain ⟨x, y, rfl, h1, h2⟩ := forall₂_append_left h1
    exact ⟨x, y, z, rfl, h1, h2, h3⟩
  · rintro ⟨x, y, z, rfl, h1, h2, h3⟩
    exact List.rel_append (List.rel_append h1 h2) h3

/-- C74 fails: a plain list, as the documentation describes ("graph collections
(lists)", default `[ed.random_variables()]`), cannot be used as a collection. -/
theorem C74_list_collection_fails (a : RVArgs) (i : Nat) (cs : List CollArg) (rv : Nat) (r : Registry)
    (ha : a.collections = .plainList i :: cs) : ∃ r' e, rvInit a rv r = (r', .error e) := by
  unfold rvInit
  rw [ha]
  simp only [registerAll, Registry.append]
  cases a.value with
  | none => cases a.canSample <;> exact ⟨_, _, rfl⟩
  | some vs => dsimp only; split <;> exact ⟨_, _, rfl⟩

/-- C74 fails: a collection named twice gets the variable twice. -/
theorem C74_duplicate_fails : ∃ a r', a.collections = [CollArg.name, .name] ∧
    rvInit a 5 ⟨[], fun _ => [], fun _ => []⟩ = (r', .ok (some [])) ∧ r'.contents .name = [5, 5] :=
  ⟨⟨some [], some [], some [], none, true, [.name, .name]⟩, _, rfl, rfl, rfl⟩

example : ∃ r', rvInit ⟨some [some 3], some [none], some [], some (some [some 3, some 4]), true, [.name]⟩ 7
    ⟨[1, 2], fun _ => [], fun _ => []⟩ = (r', .ok (some [some 3, some 4])) ∧
    r'.default = [1, 2, 7] := ⟨_, rfl, rfl⟩

end Edward
