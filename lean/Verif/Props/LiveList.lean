/-
C132: the result of `random_variables`.
-/
import Mathlib.Algebra.BigOperators.Intervals
import Verif.Model.LiveList

namespace Edward.LiveList
variable {G R : Type} [DecidableEq G] [DecidableEq R]

namespace Spec

/-- The variables that a program built in a graph, in order. -/
def built (g : G) : List (Cmd G R) → List R
  | [] => []
  | .create h r :: p => if h = g then r :: built g p else built g p
  | _ :: p => built g p

/-- The program does not change lists it was given. -/
def Reads (p : List (Cmd G R)) : Prop := ∀ c ∈ p, (∃ g r, c = .create g r) ∨ ∃ g, c = .query g

/-- The loop comes to its end after `n` passes, with this list. -/
def Ends (body : ℕ → R → List R → List R) (l : List R) (n : ℕ) (m : List R) : Prop := passes body l n = some m ∧ passes body l (n + 1) = none

end Spec

theorem deref_exec (w : World G R) (c : Cmd G R) (hc : (∃ g r, c = .create g r) ∨ ∃ g, c = .query g) (g : G) :
    deref (exec w c) g = deref w g ++ Spec.built g [c] := by
  rcases hc with ⟨h, r, rfl⟩ | ⟨h, rfl⟩
  · by_cases e : g = h
    · subst e; simp [exec, register, deref, Spec.built]
    · simp [exec, register, deref, Spec.built, e, Ne.symm e]
  · by_cases e : g = h
    · subst e; simp [exec, randomVariables, lookup, deref, Spec.built]
    · simp [exec, randomVariables, lookup, deref, Spec.built, e]

/-- **C132.** Right after the call, and if no program changed an earlier result, the result holds the variables built in the graph, in order. -/
theorem C132_result_partial (p : List (Cmd G R)) (hp : Spec.Reads p) (g : G) :
    deref (randomVariables (p.foldl exec fun _ => none) g).1 (randomVariables (p.foldl exec fun _ => none) g).2 = Spec.built g p := by
  have key : ∀ (p : List (Cmd G R)) (w : World G R), Spec.Reads p → deref (p.foldl exec w) g = deref w g ++ Spec.built g p := by
    intro p
    induction p with
    | nil => intro w _; simp [Spec.built]
    | cons c p ih =>
      intro w hp
      rw [List.foldl_cons, ih _ fun c hc => hp c (List.mem_cons_of_mem _ hc), deref_exec _ _ (hp c List.mem_cons_self), List.append_assoc]
      congr 1
      rcases hp c List.mem_cons_self with ⟨h, r, rfl⟩ | ⟨h, rfl⟩
      · by_cases e : h = g <;> simp [Spec.built, e]
      · simp [Spec.built]
  have := key p (fun _ => none) hp
  simpa [randomVariables, lookup, deref] using this

/-- **C132** fails afterwards: a result changes whenever a variable is built in its graph. -/
theorem C132_later_fails (w : World G R) (g : G) (r : R) :
    let result := randomVariables w g
    deref (exec result.1 (.create g r)) result.2 = deref result.1 result.2 ++ [r] := by
  simp [randomVariables, exec, register, deref]

/-- **C132** fails for callers that change their result: variables they remove are missing from later results. -/
theorem C132_removed_fails (w : World G R) (g : G) (r : R) (h : (deref w g).Nodup) :
    let w' := exec (randomVariables w g).1 (.resultRemove g r)
    r ∉ deref (randomVariables w' g).1 (randomVariables w' g).2 := by
  simp only [randomVariables, exec, lookup, deref, if_true, Option.getD_some]
  exact List.Nodup.not_mem_erase h

omit [DecidableEq R] in
theorem passes_le {body : ℕ → R → List R → List R} {l : List R} {n : ℕ} {m : List R} (h : passes body l n = some m) : n ≤ m.length := by
  induction n generalizing m with
  | zero => exact Nat.zero_le _
  | succ n ih =>
    rw [passes] at h
    cases hm : passes body l n with
    | none => rw [hm] at h; cases h
    | some m' =>
      rw [hm] at h
      simp only at h
      split at h
      · cases h
        rw [List.length_append]
        omega
      · cases h

omit [DecidableEq R] in
/-- A pass only adds to the list. -/
theorem passes_prefix {body : ℕ → R → List R → List R} {l : List R} {n : ℕ} {m : List R} (h : passes body l n = some m) : l <+: m := by
  induction n generalizing m with
  | zero => cases h; exact List.prefix_rfl
  | succ n ih =>
    rw [passes] at h
    cases hm : passes body l n with
    | none => rw [hm] at h; cases h
    | some m' =>
      rw [hm] at h
      simp only at h
      split at h
      · cases h
        exact (ih hm).trans (List.prefix_append _ _)
      · cases h

omit [DecidableEq R] in
/-- **C132**, loops over the result. A loop that ends has one pass for every variable of the final list, those built in the loop included. -/
theorem C132_loop_visits (body : ℕ → R → List R → List R) (l : List R) {n : ℕ} {m : List R} (h : Spec.Ends body l n m) : n = m.length ∧ l <+: m := by
  refine ⟨le_antisymm (passes_le h.1) ?_, passes_prefix h.1⟩
  have h2 := h.2
  rw [passes, h.1] at h2
  simp only at h2
  split at h2
  · cases h2
  · omega

omit [DecidableEq R] in
/-- **C132**, loops over the result: a loop that builds `c n` variables in pass `n` ends if and only if the passes catch up with the list. -/
theorem C132_loop_ends (body : ℕ → R → List R → List R) (c : ℕ → ℕ) (hc : ∀ n x m, (body n x m).length = c n) (l : List R) :
    (∃ n m, Spec.Ends body l n m) ↔ ∃ n, l.length + ∑ i ∈ Finset.range n, c i ≤ n := by
  have hlen : ∀ n m, passes body l n = some m → m.length = l.length + ∑ i ∈ Finset.range n, c i := by
    intro n
    induction n with
    | zero => intro m h; cases h; simp
    | succ n ih =>
      intro m h
      rw [passes] at h
      cases hm : passes body l n with
      | none => rw [hm] at h; cases h
      | some m' =>
        rw [hm] at h
        simp only at h
        split at h
        · cases h
          rw [List.length_append, hc, ih m' hm, Finset.sum_range_succ]
          omega
        · cases h
  constructor
  · rintro ⟨n, m, h⟩
    refine ⟨n, ?_⟩
    rw [← hlen n m h.1]
    exact (C132_loop_visits body l h).1.ge
  · rintro ⟨n, hn⟩
    by_contra hne
    push Not at hne
    have hsome : ∀ k, ∃ m, passes body l k = some m := by
      intro k
      induction k with
      | zero => exact ⟨l, rfl⟩
      | succ k ih =>
        obtain ⟨m, hm⟩ := ih
        cases h : passes body l (k + 1) with
        | some m' => exact ⟨m', rfl⟩
        | none => exact absurd ⟨hm, h⟩ (hne k m)
    obtain ⟨m, hm⟩ := hsome (n + 1)
    have h1 := passes_le hm
    obtain ⟨m', hm'⟩ := hsome n
    have h2 := hlen n m' hm'
    rw [passes, hm'] at hm
    simp only at hm
    split at hm
    · omega
    · cases hm

omit [DecidableEq R] in
/-- **C132** fails for loops that build a variable in every pass, such as `for x in random_variables(): copy(x)`: with one variable to begin with they never
end. -/
theorem C132_loop_fails (body : ℕ → R → List R → List R) (hb : ∀ n x m, body n x m ≠ []) (l : List R) (hl : l ≠ []) (n : ℕ) :
    ∃ m, passes body l n = some m ∧ n < m.length := by
  induction n with
  | zero => exact ⟨l, rfl, List.length_pos_of_ne_nil hl⟩
  | succ n ih =>
    obtain ⟨m, hm, h⟩ := ih
    refine ⟨m ++ body n m[n] m, by rw [passes, hm]; simp [h], ?_⟩
    rw [List.length_append]
    have := List.length_pos_of_ne_nil (hb n m[n] m)
    omega

/-- A loop that copies the variables there were at the start, and only those, ends. -/
example : ∃ n m, Spec.Ends (fun n (x : ℕ) _ => if n < 2 then [x + 10] else []) [1, 2] n m :=
  (C132_loop_ends _ (fun n => if n < 2 then 1 else 0) (by intro n x m; split <;> rfl) _).mpr ⟨4, by decide⟩

example : ∃ m, passes (fun _ (x : ℕ) _ => [x + 1]) [1] 100 = some m ∧ 100 < m.length := C132_loop_fails _ (by simp) _ (by simp) _

example : Spec.Reads [.create 0 1, .query 1, .create 1 5, (.create 0 2 : Cmd ℕ ℕ)] ∧
    Spec.built 0 [.create 0 1, .query 1, .create 1 5, (.create 0 2 : Cmd ℕ ℕ)] = [1, 2] := by
  constructor
  · intro c hc
    simp only [List.mem_cons, List.not_mem_nil, or_false] at hc
    rcases hc with rfl | rfl | rfl | rfl
    · exact Or.inl ⟨_, _, rfl⟩
    · exact Or.inr ⟨_, rfl⟩
    · exact Or.inl ⟨_, _, rfl⟩
    · exact Or.inl ⟨_, _, rfl⟩
  · decide

end Edward.LiveList
