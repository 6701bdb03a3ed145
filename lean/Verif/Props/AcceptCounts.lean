/-
The acceptance counts of `SGHMC` (C118) and `ReplicaExchangeMC` (C122), end to end.
-/
import Verif.Props.SghmcChain
import Verif.Props.ReplicaChain

namespace Edward

/-- C118, bookkeeping: `T` updates of `SGHMC` with `Empirical` approximations of `T` rows all run, fill the rows with the chain, keep its velocity and count
as accepted. -/
theorem C118_run {ι : Type} [Fintype ι] [DecidableEq ι] [Nonempty ι] (l : ℕ → List (HOp ι)) (step friction : ℝ) (G : (ι → ℝ) → ι → ℝ) (p0 : ι → List ℝ) (x0 v0 : ι → ℝ)
    (h0 : ∀ z, (p0 z)[0]? = some (x0 z)) (ξ : ℕ → ι → ℝ) (late : ℕ → Bool) (T : ℕ) (hlen : ∀ z, (p0 z).length = T) :
    ∃ s infos, mcRun (sghmcKernel l step friction G) ((List.range T).map fun i => (ξ i, late i)) (mcInit p0 v0) = some (s, infos) ∧
      (∀ z, s.params z = (List.range T).map fun i => (chain (sghmcKernel l step friction G) x0 v0 ξ (i + 1)).1 z) ∧
      s.hidden = (chain (sghmcKernel l step friction G) x0 v0 ξ T).2 ∧ s.nAccept = T := by
  obtain ⟨s, infos, e, hl, hr, -, -, hA, hh, -⟩ := C30_bookkeeping (sghmcKernel l step friction G) p0 v0 x0 h0 ξ late T
    ((le_nIter_iff _ _).mpr fun z => (hlen z).ge)
  refine ⟨s, infos, e, fun z => List.ext_getElem? fun i => ?_, hh, hA.trans ?_⟩
  · by_cases hi : i < T
    · rw [hr z i hi]
      simp [hi]
    · rw [List.getElem?_eq_none (by rw [hl z, hlen z]; omega), List.getElem?_eq_none (by simp; omega)]
  · unfold nAcc
    exact (List.countP_eq_length.mpr fun _ _ => rfl).trans List.length_range

example : ∃ (p0 : Unit → List ℝ) (x0 : Unit → ℝ), (∀ z, (p0 z)[0]? = some (x0 z)) ∧ ∀ z, (p0 z).length = 3 :=
  ⟨fun _ => [5, 0, 0], fun _ => 5, fun _ => rfl, fun _ => rfl⟩

/-- C122, bookkeeping: an update counts as accepted if and only if the first replica accepts its own proposal, which is when its move changes it, if the
proposal is a new point. Exchanges and moves of other replicas do not count. -/
theorem C122_accepted {n : ℕ} {Z V E : Type} (m : MHModel ((Z → V) × Unit)) (b : Fin (n + 1) → ℝ) (freq : ℝ) (sample : (Z → V) × Unit → E → Z → V) (t : ℕ)
    (old : Option (Fin (n + 1)) × Z → V) (d : ReplicaDraws (n + 1) E)
    (hnew : sample (fun x => old (some 0, x), ()) (d.1 0).1 ≠ fun x => old (some 0, x)) :
    (replicaKernel m b freq sample t old () d).2.2 = true ↔
      temperedMove m (b 0) sample (fun x => old (some 0, x), ()) (d.1 0) ≠ (fun x => old (some 0, x), ()) := by
  simp only [replicaKernel, temperedMove, decide_eq_true_eq]
  constructor
  · intro h
    rw [if_pos h]
    exact fun he => hnew (congrArg Prod.fst he)
  · intro h
    by_contra hn
    rw [if_neg hn] at h
    exact h rfl

/-- A walk always proposes new points, almost surely. -/
example : (fun (s : (Unit → ℝ) × Unit) (e : ℝ) (_ : Unit) => s.1 () + e) ((fun _ => 2), ()) 1 ≠ fun _ => (2 : ℝ) := by
  intro h
  have := congrFun h ()
  norm_num at this

end Edward
