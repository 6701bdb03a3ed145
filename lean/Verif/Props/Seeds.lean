/-
C128: a seed makes programs reproducible, and different random operations draw different numbers.
-/
import Verif.Model.Seeds
import Mathlib.Tactic.Ring
import Mathlib.Tactic.Linarith

namespace Edward.Seeds

/-- **C128** (set_seed). `set_seed` seeds both libraries or changes nothing; it succeeds exactly on an empty graph (Keras aside) with a seed that
NumPy takes. -/
theorem C128_set_seed (s : St) (x : ℕ) :
    ((step s (.setSeed x)).2 = .ok ↔ (s.names = [] ∨ s.names = ["keras_learning_phase"]) ∧ x < 2 ^ 32) ∧
    ((step s (.setSeed x)).2 = .ok → (step s (.setSeed x)).1 = { s with numpy := some x, graphSeed := some x }) ∧
    ((step s (.setSeed x)).2 ≠ .ok → (step s (.setSeed x)).1 = s) := by
  by_cases h1 : s.names.length > 0 ∧ s.names ≠ ["keras_learning_phase"]
  · have he : step s (.setSeed x) = (s, .runtimeError) := by rw [step, if_pos h1]
    rw [he]
    refine ⟨⟨nofun, ?_⟩, nofun, fun _ => rfl⟩
    rintro ⟨h | h, -⟩
    · rw [h] at h1; simp at h1
    · exact absurd h h1.2
  · have h1' : s.names = [] ∨ s.names = ["keras_learning_phase"] := by
      by_contra hc
      rw [not_or] at hc
      exact h1 ⟨List.length_pos_iff.mpr hc.1, hc.2⟩
    by_cases h2 : 2 ^ 32 ≤ x
    · have he : step s (.setSeed x) = (s, .valueError) := by rw [step, if_neg h1, if_pos h2]
      rw [he]
      exact ⟨⟨nofun, fun h => absurd h.2 (not_lt.mpr h2)⟩, nofun, fun _ => rfl⟩
    · have he : step s (.setSeed x) = ({ s with numpy := some x, graphSeed := some x }, .ok) := by rw [step, if_neg h1, if_neg h2]
      rw [he]
      exact ⟨⟨fun _ => ⟨h1', not_le.mp h2⟩, fun _ => rfl⟩, fun _ => rfl, fun h => absurd rfl h⟩

example : (step (fresh none) (.setSeed 42)).2 = .ok := ((C128_set_seed _ _).1).mpr ⟨Or.inl rfl, by norm_num⟩

/-- **C128** (reproducible). After `set_seed` on a new graph, what the program does does not depend on the state of NumPy before. -/
theorem C128_reproducible (a b : Option ℕ) {x : ℕ} (hx : x < 2 ^ 32) (cs : List Cmd) :
    exec (fresh a) (.setSeed x :: cs) = exec (fresh b) (.setSeed x :: cs) := by
  have : ¬ 4294967296 ≤ x := not_le.mpr hx
  simp [exec, step, fresh, this]

/-! ### Different operations have different seeds -/

/-- The program gives no seed to an operation. -/
def Plain (cs : List Cmd) : Prop := ∀ c ∈ cs, ∀ o, c ≠ .random (some o)

structure Inv (s : St) : Prop where
  seeded : s.graphSeed ≠ none
  nodup : (s.random.map RandomOp.seed2).Nodup
  bound : ∀ r ∈ s.random, r.seed2 < s.names.length ∨ (r.seed2 = maxInt32 ∧ 0 < s.names.length)
  nonzero : ∀ r ∈ s.random, ¬ (r.seed = 0 ∧ r.seed2 = 0)

theorem getSeed_none {s : St} (h : s.graphSeed ≠ none) (hl : s.names.length < maxInt32) :
    ∃ a b, getSeed s none = some (a, b) ∧ (b = s.names.length ∨ (b = maxInt32 ∧ s.names.length = 0)) ∧ ¬ (a = 0 ∧ b = 0) := by
  cases hg : s.graphSeed with
  | none => exact absurd hg h
  | some g =>
    simp only [getSeed, hg, Nat.mod_eq_of_lt hl, Option.some.injEq, Prod.mk.injEq]
    by_cases h0 : g % maxInt32 = 0 ∧ s.names.length = 0
    · rw [if_pos h0]
      exact ⟨_, _, rfl, Or.inr ⟨rfl, h0.2⟩, by simp [maxInt32]⟩
    · rw [if_neg h0]
      exact ⟨_, _, rfl, Or.inl rfl, h0⟩

theorem inv_add {s : St} (h : Inv s) {a b : ℕ} {n : String} (hl : s.names.length < maxInt32)
    (hb : b = s.names.length ∨ (b = maxInt32 ∧ s.names.length = 0)) (h0 : ¬ (a = 0 ∧ b = 0)) :
    Inv { s with names := n :: s.names, random := ⟨a, b⟩ :: s.random } where
  seeded := h.seeded
  nodup := by
    rw [List.map_cons, List.nodup_cons]
    refine ⟨fun hm => ?_, h.nodup⟩
    obtain ⟨r, hr, hrb⟩ := List.mem_map.mp hm
    rcases h.bound r hr with h1 | ⟨h1, h2⟩ <;> rcases hb with h3 | ⟨h3, h4⟩ <;> simp only at hrb <;> omega
  bound r hr := by
    rcases List.mem_cons.mp hr with rfl | hr
    · rcases hb with h3 | ⟨h3, h4⟩
      · left; simp [h3]
      · right; simp [h3]
    · rcases h.bound r hr with h1 | ⟨h1, h2⟩
      · left; simp; omega
      · right; simp [h1]
  nonzero r hr := by
    rcases List.mem_cons.mp hr with rfl | hr
    · exact h0
    · exact h.nonzero r hr

theorem step_mono (s : St) (c : Cmd) : s.names.length ≤ (step s c).1.names.length := by
  cases c with
  | setSeed x => simp only [step]; split_ifs <;> simp
  | tfSeed x => simp [step]
  | op n => simp [step]
  | random o => simp [step]
  | copy i =>
    simp only [step]
    split <;> simp

theorem exec_mono (s : St) (cs : List Cmd) : s.names.length ≤ (exec s cs).1.names.length := by
  induction cs generalizing s with
  | nil => exact le_rfl
  | cons c cs ih =>
    have h1 := step_mono s c
    rw [exec]
    rcases hs : step s c with ⟨s', o⟩
    rw [hs] at h1
    cases o with
    | ok => exact h1.trans (ih s')
    | runtimeError => exact h1
    | valueError => exact h1
    | indexError => exact h1

theorem step_inv {s : St} (h : Inv s) {c : Cmd} (hc : ∀ o, c ≠ .random (some o)) (hl : (step s c).1.names.length ≤ maxInt32) : Inv (step s c).1 := by
  cases c with
  | setSeed x =>
    simp only [step]
    split_ifs
    · exact h
    · exact h
    · exact ⟨by simp, h.nodup, h.bound, h.nonzero⟩
  | tfSeed x => exact ⟨by simp [step], h.nodup, h.bound, h.nonzero⟩
  | op n =>
    refine ⟨h.seeded, h.nodup, fun r hr => ?_, h.nonzero⟩
    rcases h.bound r hr with h1 | ⟨h1, h2⟩
    · left; simp [step]; omega
    · right; simp [step, h1]
  | random o =>
    cases o with
    | some o => exact absurd rfl (hc o)
    | none =>
      have hl' : s.names.length < maxInt32 := by simp [step] at hl; omega
      obtain ⟨a, b, h1, h2, h3⟩ := getSeed_none h.seeded hl'
      simp only [step, h1, Option.getD_some]
      exact inv_add h hl' h2 h3
  | copy i =>
    simp only [step] at hl ⊢
    cases hr : s.random.reverse[i]? with
    | none => exact h
    | some r =>
      rw [hr] at hl
      have hl' : s.names.length < maxInt32 := by simp at hl; omega
      obtain ⟨a, b, h1, h2, h3⟩ := getSeed_none h.seeded hl'
      simp only [h1]
      refine inv_add h hl' h2 fun hc => ?_
      have hm : r ∈ s.random := List.mem_reverse.mp (List.mem_of_getElem? hr)
      have : 0 < s.names.length := by
        rcases h.bound r hm with h4 | ⟨-, h4⟩ <;> omega
      rcases h2 with h5 | ⟨h5, h6⟩ <;> omega

theorem exec_inv {s : St} (h : Inv s) {cs : List Cmd} (hc : Plain cs) (hl : (exec s cs).1.names.length ≤ maxInt32) : Inv (exec s cs).1 := by
  induction cs generalizing s with
  | nil => exact h
  | cons c cs ih =>
    have hc0 := hc c (by simp)
    have hcs : Plain cs := fun d hd => hc d (by simp [hd])
    rw [exec] at hl ⊢
    have hi := step_inv (c := c) h hc0
    have h1 := step_mono s c
    rcases hs : step s c with ⟨s', o⟩
    rw [hs] at hl hi
    cases o with
    | ok => exact ih (hi ((exec_mono s' cs).trans hl)) hcs hl
    | runtimeError => exact hi hl
    | valueError => exact hi hl
    | indexError => exact hi hl

/-- **C128** (distinct). In a program that begins with `set_seed` and gives no seed to an operation, no random operation has the seeds of another one,
copies included, and none is seeded at random; for graphs of up to 2^31 - 1 operations. -/
theorem C128_distinct (a : Option ℕ) {x : ℕ} (hx : x < 2 ^ 32) {cs : List Cmd} (hc : Plain cs)
    (hl : (exec (fresh a) (.setSeed x :: cs)).1.names.length ≤ maxInt32) :
    (exec (fresh a) (.setSeed x :: cs)).1.random.Nodup ∧
    ∀ r ∈ (exec (fresh a) (.setSeed x :: cs)).1.random, ¬ (r.seed = 0 ∧ r.seed2 = 0) := by
  have hx' : ¬ 4294967296 ≤ x := not_le.mpr hx
  have he : exec (fresh a) (.setSeed x :: cs) = exec ⟨some x, some x, [], []⟩ cs := by simp [exec, step, fresh, hx']
  rw [he] at hl ⊢
  have h := exec_inv (s := ⟨some x, some x, [], []⟩) ⟨by simp, by simp, by simp, by simp⟩ hc hl
  exact ⟨List.Pairwise.of_map _ (fun _ _ hne he => hne (congrArg _ he)) h.nodup, h.nonzero⟩

/-- Two operations and copies of both. -/
example : (exec (fresh none) [.setSeed 42, .op "loc", .random none, .random none, .copy 0, .copy 1]).1.random.Nodup := by
  refine (C128_distinct none (by norm_num) (fun c hc o => ?_) ?_).1
  · simp only [List.mem_cons, List.not_mem_nil, or_false] at hc
    rcases hc with rfl | rfl | rfl | rfl | rfl <;> simp
  · simp [exec, step, fresh, maxInt32]

/-- **C128** (draws). What the operations of such a program draw is fixed by the generator; nothing is left to chance. -/
theorem C128_draws (a : Option ℕ) {x : ℕ} (hx : x < 2 ^ 32) {cs : List Cmd} (hc : Plain cs)
    (hl : (exec (fresh a) (.setSeed x :: cs)).1.names.length ≤ maxInt32) {Ω : Type} (gen : ℕ × ℕ → ℕ → Ω) (entropy : ℕ → ℕ → Ω) (i : ℕ) :
    ∀ r ∈ (exec (fresh a) (.setSeed x :: cs)).1.random, drawsOf gen entropy i r = gen (r.seed, r.seed2) := fun r hr =>
  if_neg ((C128_distinct a hx hc hl).2 r hr)

/-- **C128** (seeds). Under the graph seed `g`, operation number `k` without a seed of its own has the seeds `g` and `k`, both modulo 2^31 - 1. Where both
are zero, the second is 2^31 - 1. -/
theorem C128_seeds {s : St} {g : ℕ} (hg : s.graphSeed = some g) :
    (step s (.random none)).1.random =
      ⟨g % 2147483647, if g % 2147483647 = 0 ∧ s.names.length % 2147483647 = 0 then 2147483647 else s.names.length % 2147483647⟩ :: s.random := by
  simp only [step, getSeed, hg, maxInt32, Option.some.injEq, Prod.mk.injEq]
  norm_num
  split_ifs with h
  · simp [h.1]
  · simp

/-- **C128** (unseeded). Without a graph seed, an operation without a seed of its own draws from the source of randomness. -/
theorem C128_unseeded {s : St} (hg : s.graphSeed = none) {Ω : Type} (gen : ℕ × ℕ → ℕ → Ω) (entropy : ℕ → ℕ → Ω) (i : ℕ) :
    ∃ r, (step s (.random none)).1.random = r :: s.random ∧ drawsOf gen entropy i r = entropy i := by
  refine ⟨⟨0, 0⟩, by simp [step, getSeed, hg], by simp [drawsOf]⟩

/-- States that TensorFlow does not tell apart. -/
structure SameTf (s s' : St) : Prop where
  seed : s.graphSeed.map (· % maxInt32) = s'.graphSeed.map (· % maxInt32)
  names : s.names = s'.names
  random : s.random = s'.random

theorem SameTf.getSeed {s s' : St} (h : SameTf s s') (o : Option ℕ) : getSeed s o = getSeed s' o := by
  have h1 := h.seed
  cases hs : s.graphSeed <;> cases hs' : s'.graphSeed <;> rw [hs, hs'] at h1 <;> cases o <;> simp at h1 <;>
    simp [Seeds.getSeed, hs, hs', h.names, h1]

theorem SameTf.step {s s' : St} (h : SameTf s s') (c : Cmd) : SameTf (step s c).1 (step s' c).1 ∧ (step s c).2 = (step s' c).2 := by
  cases c with
  | setSeed x =>
    simp only [Seeds.step, h.names]
    split_ifs
    · exact ⟨h, rfl⟩
    · exact ⟨h, rfl⟩
    · exact ⟨⟨rfl, rfl, h.random⟩, rfl⟩
  | tfSeed x => exact ⟨⟨rfl, h.names, h.random⟩, rfl⟩
  | op n => exact ⟨⟨h.seed, by simp [Seeds.step, h.names], h.random⟩, rfl⟩
  | random o => exact ⟨⟨h.seed, by simp [Seeds.step, h.names], by simp [Seeds.step, h.random, h.getSeed]⟩, rfl⟩
  | copy i =>
    simp only [Seeds.step, h.random, h.getSeed]
    split
    · exact ⟨h, rfl⟩
    · exact ⟨⟨h.seed, by simp [h.names], rfl⟩, rfl⟩

/-- **C128 fails** for different seeds that agree modulo 2^31 - 1: TensorFlow draws the same numbers, whatever the program. -/
theorem C128_truncated_fails (np : Option ℕ) (x : ℕ) (hx : x + 2147483647 < 2 ^ 32) (cs : List Cmd) :
    (exec (fresh np) (.setSeed x :: cs)).1.random = (exec (fresh np) (.setSeed (x + 2147483647) :: cs)).1.random ∧
    (exec (fresh np) (.setSeed x :: cs)).2 = (exec (fresh np) (.setSeed (x + 2147483647) :: cs)).2 := by
  have h1 : ¬ 4294967296 ≤ x := by omega
  have h2 : ¬ 4294967296 ≤ x + 2147483647 := by omega
  have key : ∀ (cs : List Cmd) (s s' : St), SameTf s s' → (exec s cs).1.random = (exec s' cs).1.random ∧ (exec s cs).2 = (exec s' cs).2 := by
    intro cs
    induction cs with
    | nil => exact fun s s' h => ⟨h.random, rfl⟩
    | cons c cs ih =>
      intro s s' h
      obtain ⟨hs, ho⟩ := h.step c
      rw [exec, exec]
      rcases e : Seeds.step s c with ⟨t, o⟩
      rcases e' : Seeds.step s' c with ⟨t', o'⟩
      rw [e, e'] at hs ho
      simp only at ho hs
      subst ho
      cases o with
      | ok => exact ih t t' hs
      | runtimeError => exact ⟨hs.random, rfl⟩
      | valueError => exact ⟨hs.random, rfl⟩
      | indexError => exact ⟨hs.random, rfl⟩
  have he : ∀ y, ¬ 4294967296 ≤ y → exec (fresh np) (.setSeed y :: cs) = exec ⟨some y, some y, [], []⟩ cs := by
    intro y hy
    simp [exec, step, fresh, hy]
  rw [he x h1, he _ h2]
  refine key cs _ _ ⟨?_, rfl, rfl⟩
  have hm : (2147483647 : ℕ) = maxInt32 := by simp [maxInt32]
  rw [hm]
  simp

example : ∃ s : St, s.graphSeed = some 3 := ⟨⟨none, some 3, [], []⟩, rfl⟩

example (cs : List Cmd) : (exec (fresh none) (.setSeed 42 :: cs)).1.random = (exec (fresh none) (.setSeed (42 + 2147483647) :: cs)).1.random :=
  (C128_truncated_fails none 42 (by norm_num) cs).1

/-- **C128** (copy, partial). Under a graph seed the copy of a random operation has the seeds of the original only if the caller gave the original the
number that the copy happens to get. -/
theorem C128_copy_partial {s : St} (hg : s.graphSeed ≠ none) (hl : s.names.length < maxInt32) (h0 : s.names ≠ []) {i : ℕ} {r : RandomOp}
    (hr : s.random.reverse[i]? = some r) :
    ∃ r', (step s (.copy i)).1.random = r' :: s.random ∧ (r' = r ↔ r.seed2 = s.names.length) := by
  obtain ⟨a, b, h1, h2, h3⟩ := getSeed_none hg hl
  refine ⟨{ r with seed2 := b }, by simp [step, hr, h1], ?_⟩
  have hp := List.length_pos_iff.mpr h0
  have hb : b = s.names.length := by rcases h2 with h | ⟨-, h⟩ <;> omega
  obtain ⟨p, q⟩ := r
  simp only [RandomOp.mk.injEq, true_and, hb]
  exact eq_comm

example : ∃ r', (step ⟨none, some 1, ["random", "seed"], [⟨1, 42⟩]⟩ (.copy 0)).1.random = r' :: [⟨1, 42⟩] ∧ r' ≠ ⟨1, 42⟩ := by
  obtain ⟨r', h1, h2⟩ := C128_copy_partial (s := ⟨none, some 1, ["random", "seed"], [⟨1, 42⟩]⟩) (by simp) (by simp [maxInt32]) (by simp) (i := 0)
    (r := ⟨1, 42⟩) rfl
  exact ⟨r', h1, fun h => by simpa using h2.mp h⟩

/-- **C128 fails** without a graph seed: `copy` of an operation with its own seed keeps it, although new seeds are documented, so the copy draws what the
original draws, whatever the generator. -/
theorem C128_copy_fails (s : St) (hg : s.graphSeed = none) (o : ℕ) {Ω : Type} (gen : ℕ × ℕ → ℕ → Ω) (entropy : ℕ → ℕ → Ω) :
    ∃ r r' rest, (exec s [.random (some o), .copy s.random.length]) =
        ({ s with names := "copied/random" :: "random" :: s.names, random := r' :: r :: rest }, .ok) ∧
      drawsOf gen entropy (rest.length + 1) r' = drawsOf gen entropy rest.length r := by
  obtain ⟨np, g, names, random⟩ := s
  simp only at hg
  subst hg
  refine ⟨⟨defaultGraphSeed, o % maxInt32⟩, ⟨defaultGraphSeed, o % maxInt32⟩, random, ?_, ?_⟩
  · simp [exec, step, getSeed, defaultGraphSeed]
  · simp [drawsOf, defaultGraphSeed]

example : (fresh none).graphSeed = none := rfl

/-- **C128 fails** when an operation has a seed of its own: later operations without a seed can get the same seeds. Here the eighth operation draws what the
first one draws. -/
theorem C128_collision_fails (x : ℕ) (hx : x < maxInt32) :
    (exec (fresh none) [.setSeed x, .random (some 7), .op "a", .op "b", .op "c", .op "d", .op "e", .op "f", .random none]).1.random = [⟨x, 7⟩, ⟨x, 7⟩] := by
  have h : ¬ 4294967296 ≤ x := by unfold maxInt32 at hx; omega
  have h7 : 7 % maxInt32 = 7 := rfl
  simp [exec, step, fresh, getSeed, h, Nat.mod_eq_of_lt hx, h7]

/-- **C128 fails** with Keras: `set_seed` makes an exception for its placeholder, but with it the same program draws other numbers. -/
theorem C128_keras_fails (x : ℕ) (hx : x < 2 ^ 32) :
    (exec ⟨none, none, ["keras_learning_phase"], []⟩ [.setSeed x, .random none]).2 = .ok ∧
    (exec ⟨none, none, ["keras_learning_phase"], []⟩ [.setSeed x, .random none]).1.random ≠ (exec (fresh none) [.setSeed x, .random none]).1.random := by
  have h : ¬ 4294967296 ≤ x := by omega
  have h1 : 1 % maxInt32 = 1 := rfl
  refine ⟨by simp [exec, step, h], ?_⟩
  by_cases h0 : x % maxInt32 = 0
  · have h2 : maxInt32 ≠ 1 := by simp [maxInt32]
    simp [exec, step, fresh, getSeed, h, h1, h0, h2.symm]
  · simp [exec, step, fresh, getSeed, h, h1, h0]

end Edward.Seeds
