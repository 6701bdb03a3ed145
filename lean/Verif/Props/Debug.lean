/-
C90: with `debug=True`, an update in which NaN or Inf occurs raises.
-/
import Verif.Model.Debug
import Mathlib.Data.Real.Basic
import Mathlib.Tactic

namespace Edward
variable {Op S Ω : Type}

/-- Some tensor of the graph is NaN or Inf when the update runs. -/
def Spec.Occurs (g : DebugGraph Op S Ω) (s : S) (ω : Ω) : Prop := ∃ op, (op ∈ g.before ∨ op ∈ g.after) ∧ ¬ g.finite op s ω

/-- C90: there are no false alarms. -/
theorem C90_sound (g : DebugGraph Op S Ω) (s : S) (ω ω' : Ω) (h : g.updateRaises s ω ω') :
    Spec.Occurs g (g.next s ω) ω' := by
  obtain ⟨op, hm, hf⟩ := h
  exact ⟨op, .inl hm, hf⟩

/-- C90: NaN or Inf written into a variable which existed before `initialize` (a parameter, or the samples of an
Empirical) is reported by the same update, whatever the draws: the tensor reading the variable is checked after the
train op has run. -/
theorem C90_stored {g : DebugGraph Op S Ω} {read : Op} (hr : read ∈ g.before) {ok : S → Prop}
    (hread : ∀ s ω, g.finite read s ω ↔ ok s) (s : S) (ω ω' : Ω) (hbad : ¬ ok (g.next s ω)) :
    g.updateRaises s ω ω' := ⟨read, hr, fun h => hbad ((hread _ _).mp h)⟩

/-- C90: NaN or Inf in a tensor that existed before `initialize` and depends neither on random draws nor on what the
update writes is reported. -/
theorem C90_partial {g : DebugGraph Op S Ω} {op : Op} (hm : op ∈ g.before)
    (hdet : ∀ s ω ω', g.finite op (g.next s ω) ω' ↔ g.finite op s ω) (s : S) (ω ω' : Ω) (hbad : ¬ g.finite op s ω) :
    g.updateRaises s ω ω' := ⟨op, hm, fun h => hbad ((hdet s ω ω').mp h)⟩

/-- A parameter which `train` sets to NaN (`none`), read by a tensor of the model. -/
example : ∃ g : DebugGraph Bool (Option ℕ) Unit, g.finite true (some 0) () ∧ ∀ ω', g.updateRaises (some 0) () ω' :=
  ⟨⟨[true], [false], fun op s _ => if op then s.isSome else True, fun _ _ => none⟩, by simp,
    fun ω' => C90_stored (ok := fun s => s.isSome) (List.mem_singleton.mpr rfl) (by simp) _ _ _ (by simp)⟩

/-- C90 fails: whatever the graph, a tensor which the algorithm itself builds (the loss, a gradient, an acceptance
ratio) is not checked; it can be NaN in every update of a run without any of them raising. -/
theorem C90_fails (before after : List Op) {op : Op} (ha : op ∈ after) (hb : op ∉ before) :
    ∃ g : DebugGraph Op S Ω, g.before = before ∧ g.after = after ∧
      ∀ (s : S) (ωs ωs' : ℕ → Ω) (n : ℕ), Spec.Occurs g (g.state s ωs n) (ωs n) ∧ ¬ g.finite op (g.state s ωs n) (ωs n) ∧
        ¬ g.updateRaises (g.state s ωs n) (ωs n) (ωs' n) := by
  refine ⟨⟨before, after, fun o _ _ => o ≠ op, fun s _ => s⟩, rfl, rfl, fun s ωs ωs' n =>
    ⟨⟨op, .inr ha, by simp⟩, by simp, ?_⟩⟩
  rintro ⟨o, ho, hf⟩
  simp only [ne_eq, not_not] at hf
  exact hb (hf ▸ ho)

/-! Metropolis-Hastings with a likelihood that is NaN at every proposal: values are `none` for NaN. -/

inductive MhOp
  | params   -- reads the stored samples; built with the Empirical
  | ratio    -- built by `build_update`
  deriving DecidableEq

/-- `accept = tf.log(u) < ratio` is false for a NaN. -/
noncomputable def nanMh (ratio : ℝ → ℝ → Option ℝ) : DebugGraph MhOp ℝ (ℝ × ℝ) where
  before := [.params]
  after := [.ratio]
  finite := fun op s ω => match op with
    | .params => True
    | .ratio => (ratio s ω.1).isSome
  next := fun s ω => match ratio s ω.1 with
    | some r => if ω.2 < r then ω.1 else s
    | none => s

/-- C90 fails for Metropolis-Hastings: if the ratio is NaN for every proposal, no update raises, and every update keeps
the first sample. -/
theorem C90_mh_fails (s : ℝ) (ωs ωs' : ℕ → ℝ × ℝ) (n : ℕ) :
    (nanMh fun _ _ => none).state s ωs n = s ∧
    Spec.Occurs (nanMh fun _ _ => none) ((nanMh fun _ _ => none).state s ωs n) (ωs n) ∧
    ¬ (nanMh fun _ _ => none).updateRaises ((nanMh fun _ _ => none).state s ωs n) (ωs n) (ωs' n) := by
  refine ⟨?_, ⟨.ratio, .inr (List.mem_singleton.mpr rfl), by simp [nanMh]⟩, ?_⟩
  · induction n with
    | zero => rfl
    | succ n ih => simpa [DebugGraph.state, nanMh] using ih
  · rintro ⟨o, ho, hf⟩
    have : o = .params := by simpa [nanMh] using ho
    subst this
    exact hf trivial

/-- C90 fails: also tensors of the model are missed, if they are random: the checks run at other draws. -/
theorem C90_draws_fails : ∃ (g : DebugGraph Unit Unit Bool), g.after = [] ∧ Spec.Occurs g () true ∧
    ¬ g.updateRaises () true false :=
  ⟨⟨[()], [], fun _ _ ω => ω = false, fun s _ => s⟩, rfl, ⟨(), .inl (by simp), by simp⟩, by
    rintro ⟨o, _, hf⟩; exact hf rfl⟩

end Edward
