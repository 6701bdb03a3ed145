/-
Properties C41 (SGLD step sizes) and C42 (SGHMC and the op schedule).
-/
import Mathlib.Analysis.PSeries
import Mathlib.Tactic.IntervalCases
import Verif.Model.Langevin

set_option linter.unusedSectionVars false

namespace Edward

/-! ### C41 -/

/-- C41: the SGLD step sizes are positive and strictly decreasing, their sum diverges and
the sum of their squares converges, for every positive `step_size`. -/
theorem C41_robbins_monro (step : ℝ) (h : 0 < step) :
    (∀ t, 0 < sgldRate step t) ∧ StrictAnti (sgldRate step) ∧ ¬ Summable (sgldRate step) ∧
      Summable (fun t => sgldRate step t ^ 2) := by
  have hpos : ∀ t : ℕ, (0 : ℝ) < ((t + 1 : ℕ) : ℝ) := fun t => by positivity
  refine ⟨fun t => div_pos h (Real.rpow_pos_of_pos (hpos t) _), ?_, ?_, ?_⟩
  · intro a b hab
    unfold sgldRate
    refine div_lt_div_of_pos_left h (Real.rpow_pos_of_pos (hpos a) _) ?_
    exact Real.rpow_lt_rpow (hpos a).le (by exact_mod_cast Nat.succ_lt_succ hab) (by norm_num)
  · intro hs
    have h1 : Summable (fun t : ℕ => 1 / ((t + 1 : ℕ) : ℝ) ^ (0.55 : ℝ)) := by
      have := hs.mul_left step⁻¹
      refine this.congr fun t => ?_
      unfold sgldRate
      field_simp
    rw [summable_nat_add_iff (f := fun t : ℕ => 1 / (t : ℝ) ^ (0.55 : ℝ)) 1, Real.summable_one_div_nat_rpow] at h1
    norm_num at h1
  · have h1 : Summable (fun t : ℕ => 1 / ((t + 1 : ℕ) : ℝ) ^ (1.1 : ℝ)) := by
      rw [summable_nat_add_iff (f := fun t : ℕ => 1 / (t : ℝ) ^ (1.1 : ℝ)) 1, Real.summable_one_div_nat_rpow]
      norm_num
    refine (h1.mul_left (step ^ 2)).congr fun t => ?_
    unfold sgldRate
    rw [div_pow, ← Real.rpow_natCast, ← Real.rpow_natCast, ← Real.rpow_mul (hpos t).le]
    norm_num
    rw [div_eq_mul_inv, mul_comm]
    ring_nf

/-- C41: the injected noise has variance equal to the step size, twice the coefficient
of the gradient (Langevin dynamics). -/
theorem C41_noise (step : ℝ) (h : 0 < step) (t : ℕ) (old grad normal : ℝ) :
    ∃ s, s ^ 2 = sgldRate step t ∧
      sgldSample step t old grad normal = old + (sgldRate step t / 2) * grad + s * normal := by
  refine ⟨Real.sqrt (sgldRate step t), Real.sq_sqrt ((C41_robbins_monro step h).1 t).le, ?_⟩
  unfold sgldSample; ring

example : (∀ t, 0 < sgldRate 0.25 t) ∧ StrictAnti (sgldRate 0.25) ∧ ¬ Summable (sgldRate 0.25) ∧
    Summable (fun t => sgldRate 0.25 t ^ 2) := C41_robbins_monro 0.25 (by norm_num)

/-! ### C42 -/

section
variable {ι : Type} [DecidableEq ι]

/-- Specification: new sample and velocity, from the old ones. -/
noncomputable def sghmcSample (P : HParams ι) (v : ι → ℝ) (i : ι) : ℝ := P.x i + v i

noncomputable def sghmcVelocity (P : HParams ι) (v : ι → ℝ) (i : ι) : ℝ :=
  (1 - 0.5 * P.friction) * v i + (P.step * 0.01) * P.G P.x i +
    Real.sqrt ((P.step * 0.01) * P.friction) * P.eps i

/-- What is known after a prefix of a schedule. -/
structure HInv (aliased : Bool) (P : HParams ι) (v : ι → ℝ) (l : List (HOp ι)) (s : HState ι) : Prop where
  old : ∀ i, .gather i ∈ l → s.old i = some (P.x i)
  rd : ∀ i, .readV i ∈ l → s.rd i = some (v i)
  gr : .grad ∈ l → s.gr = some (P.G P.x)
  nrm : ∀ i, .normal i ∈ l → s.nrm i = some (P.eps i)
  vnew : ∀ i, .addV i ∈ l → s.vnew i = some (sghmcVelocity P v i)
  v1 : ∀ i, .assignV i ∈ l → s.v i = sghmcVelocity P v i
  v0 : ∀ i, .assignV i ∉ l → s.v i = v i

theorem HSchedule.closed {l : List (HOp ι)} (h : HSchedule l) : ∀ o ∈ l, ∀ d, o.Dep d → d ∈ l := by
  induction h with
  | nil => simp
  | snoc l o _ _ hd ih =>
    intro a ha d hda
    rw [List.mem_append] at ha ⊢
    rcases ha with ha | ha
    · exact Or.inl (ih a ha d hda)
    · rw [List.mem_singleton] at ha; subst ha
      exact Or.inl (hd d hda)

theorem HSchedule.inv (aliased : Bool) (P : HParams ι) (v : ι → ℝ) {l : List (HOp ι)} (h : HSchedule l) :
    HInv aliased P v l (hrun aliased P v l) := by
  induction h with
  | nil => constructor <;> simp [hrun, HState.init]
  | snoc l o hl hn hd ih =>
    have hrw : hrun aliased P v (l ++ [o]) = hexec aliased P (hrun aliased P v l) o := by
      simp [hrun]
    rw [hrw]
    set s := hrun aliased P v l with hs
    have hvel : ∀ i, .readV i ∈ l → .assignV i ∉ l → s.velocity aliased i = some (v i) := by
      intro i h1 h2
      unfold HState.velocity
      rw [ih.rd i h1]
      cases aliased <;> simp [ih.v0 i h2]
    have mem : ∀ a, a ∈ l ++ [o] ↔ a ∈ l ∨ a = o := by simp
    have nassign : ∀ i, .addV i ∉ l → .assignV i ∉ l := fun i h1 h2 =>
      h1 (hl.closed _ h2 (.addV i) (by simp [HOp.Dep]))
    have nassign' : ∀ i, .readV i ∉ l → .assignV i ∉ l := fun i h1 h2 =>
      nassign i (fun h3 => h1 (hl.closed _ h3 (.readV i) (by simp [HOp.Dep]))) h2
    have keep : ∀ a, a ∈ l ++ [o] → a ≠ o → a ∈ l := fun a ha hne => ((mem a).1 ha).resolve_right hne
    have keep' : ∀ a, a ∉ l ++ [o] → a ∉ l := fun a ha h => ha ((mem a).2 (Or.inl h))
    cases o with
    | gather j =>
      refine ⟨fun i hi => ?_, fun i hi => ih.rd i (keep _ hi (by simp)), fun hi => ih.gr (keep _ hi (by simp)),
        fun i hi => ih.nrm i (keep _ hi (by simp)), fun i hi => ih.vnew i (keep _ hi (by simp)),
        fun i hi => ih.v1 i (keep _ hi (by simp)), fun i hi => ih.v0 i (keep' _ hi)⟩
      by_cases hij : i = j
      · subst hij; simp [hexec]
      · simp only [hexec]; rw [Function.update_of_ne hij]; exact ih.old i (keep _ hi (by simpa using hij))
    | readV j =>
      refine ⟨fun i hi => ih.old i (keep _ hi (by simp)), fun i hi => ?_, fun hi => ih.gr (keep _ hi (by simp)),
        fun i hi => ih.nrm i (keep _ hi (by simp)), fun i hi => ih.vnew i (keep _ hi (by simp)),
        fun i hi => ih.v1 i (keep _ hi (by simp)), fun i hi => ih.v0 i (keep' _ hi)⟩
      by_cases hij : i = j
      · subst hij; simp [hexec, ih.v0 i (nassign' i hn)]
      · simp only [hexec]; rw [Function.update_of_ne hij]; exact ih.rd i (keep _ hi (by simpa using hij))
    | grad =>
      refine ⟨fun i hi => ih.old i (keep _ hi (by simp)), fun i hi => ih.rd i (keep _ hi (by simp)), fun hi => ?_,
        fun i hi => ih.nrm i (keep _ hi (by simp)), fun i hi => ih.vnew i (keep _ hi (by simp)),
        fun i hi => ih.v1 i (keep _ hi (by simp)), fun i hi => ih.v0 i (keep' _ hi)⟩
      have : (fun i => (s.old i).getD 0) = P.x := by
        funext i; rw [ih.old i (hd (.gather i) (by simp [HOp.Dep]))]; rfl
      simp [hexec, this]
    | normal j =>
      refine ⟨fun i hi => ih.old i (keep _ hi (by simp)), fun i hi => ih.rd i (keep _ hi (by simp)),
        fun hi => ih.gr (keep _ hi (by simp)),
        fun i hi => ?_, fun i hi => ih.vnew i (keep _ hi (by simp)),
        fun i hi => ih.v1 i (keep _ hi (by simp)), fun i hi => ih.v0 i (keep' _ hi)⟩
      by_cases hij : i = j
      · subst hij; simp [hexec]
      · simp only [hexec]; rw [Function.update_of_ne hij]; exact ih.nrm i (keep _ hi (by simpa using hij))
    | addS j =>
      have : ∃ m, hexec aliased P s (.addS j) = { s with smp := m } := by
        simp only [hexec]; split
        · exact ⟨_, rfl⟩
        · exact ⟨s.smp, rfl⟩
      obtain ⟨m, hm⟩ := this
      rw [hm]
      exact ⟨fun i hi => ih.old i (keep _ hi (by simp)), fun i hi => ih.rd i (keep _ hi (by simp)),
        fun hi => ih.gr (keep _ hi (by simp)),
        fun i hi => ih.nrm i (keep _ hi (by simp)), fun i hi => ih.vnew i (keep _ hi (by simp)),
        fun i hi => ih.v1 i (keep _ hi (by simp)), fun i hi => ih.v0 i (keep' _ hi)⟩
    | addV j =>
      have hm : hexec aliased P s (.addV j) =
          { s with vnew := Function.update s.vnew j (some (sghmcVelocity P v j)) } := by
        simp only [hexec]
        rw [hvel j (hd _ (by simp [HOp.Dep])) (nassign j hn), ih.gr (hd _ (by simp [HOp.Dep])),
          ih.nrm j (hd _ (by simp [HOp.Dep]))]
        rfl
      rw [hm]
      refine ⟨fun i hi => ih.old i (keep _ hi (by simp)), fun i hi => ih.rd i (keep _ hi (by simp)),
        fun hi => ih.gr (keep _ hi (by simp)),
        fun i hi => ih.nrm i (keep _ hi (by simp)), fun i hi => ?_,
        fun i hi => ih.v1 i (keep _ hi (by simp)), fun i hi => ih.v0 i (keep' _ hi)⟩
      by_cases hij : i = j
      · subst hij; simp
      · simp only; rw [Function.update_of_ne hij]; exact ih.vnew i (keep _ hi (by simpa using hij))
    | scatter j =>
      exact ⟨fun i hi => ih.old i (keep _ hi (by simp)), fun i hi => ih.rd i (keep _ hi (by simp)),
        fun hi => ih.gr (keep _ hi (by simp)),
        fun i hi => ih.nrm i (keep _ hi (by simp)), fun i hi => ih.vnew i (keep _ hi (by simp)),
        fun i hi => ih.v1 i (keep _ hi (by simp)), fun i hi => ih.v0 i (keep' _ hi)⟩
    | assignV j =>
      have hm : hexec aliased P s (.assignV j) =
          { s with v := Function.update s.v j (sghmcVelocity P v j) } := by
        simp only [hexec]
        rw [ih.vnew j (hd _ (by simp [HOp.Dep]))]
      rw [hm]
      refine ⟨fun i hi => ih.old i (keep _ hi (by simp)), fun i hi => ih.rd i (keep _ hi (by simp)),
        fun hi => ih.gr (keep _ hi (by simp)),
        fun i hi => ih.nrm i (keep _ hi (by simp)), fun i hi => ih.vnew i (keep _ hi (by simp)),
        fun i hi => ?_, fun i hi => ?_⟩
      · by_cases hij : i = j
        · subst hij; simp
        · simp only; rw [Function.update_of_ne hij]; exact ih.v1 i (keep _ hi (by simpa using hij))
      · have hij : i ≠ j := fun h => hi (by simp [h])
        simp only; rw [Function.update_of_ne hij]; exact ih.v0 i (keep' _ hi)

/-- `assignV i` runs before `addS i`. -/
def AssignedFirst (l : List (HOp ι)) (i : ι) : Prop :=
  ∃ l₁ l₂, l = l₁ ++ .addS i :: l₂ ∧ .assignV i ∈ l₁

/-- What the sample tensor and the written row hold after a prefix. -/
theorem HSchedule.sample (aliased : Bool) (P : HParams ι) (v : ι → ℝ) {l : List (HOp ι)} (h : HSchedule l)
    (i : ι) :
    (.addS i ∈ l → (aliased = false ∨ ¬ AssignedFirst l i → (hrun aliased P v l).smp i = some (P.x i + v i)) ∧
      (aliased = true → AssignedFirst l i →
        (hrun aliased P v l).smp i = some (P.x i + sghmcVelocity P v i))) ∧
    (.scatter i ∈ l → (hrun aliased P v l).row i = (hrun aliased P v l).smp i) := by
  induction h with
  | nil => simp
  | snoc l o hl hn hd ih =>
    have hrw : hrun aliased P v (l ++ [o]) = hexec aliased P (hrun aliased P v l) o := by
      simp [hrun]
    rw [hrw]
    have inv := hl.inv aliased P v
    have mem : ∀ a, a ∈ l ++ [o] ↔ a ∈ l ∨ a = o := by simp
    by_cases ho : o = .addS i
    · subst ho
      have hold := inv.old i (hd (.gather i) (by simp [HOp.Dep]))
      have hrd := inv.rd i (hd (.readV i) (by simp [HOp.Dep]))
      have haf : AssignedFirst (l ++ [.addS i]) i ↔ .assignV i ∈ l := by
        constructor
        · rintro ⟨l₁, l₂, he, hm⟩
          rcases List.eq_nil_or_concat l₂ with rfl | ⟨l₃, a, rfl⟩
          · have := List.append_inj_left' he rfl
            rw [this]; exact hm
          · exfalso
            have he' : l ++ [.addS i] = (l₁ ++ .addS i :: l₃) ++ [a] := by simpa using he
            have := List.append_inj_left' he' rfl
            exact hn (by rw [this]; simp)
        · exact fun hm => ⟨l, [], by simp, hm⟩
      refine ⟨fun _ => ⟨fun hc => ?_, fun ha hf => ?_⟩, fun hs => ?_⟩
      · have hvv : (hrun aliased P v l).velocity aliased i = some (v i) := by
          unfold HState.velocity
          rw [hrd]
          rcases hc with hc | hc
          · simp [hc]
          · rw [haf] at hc
            cases aliased <;> simp [inv.v0 i hc]
        simp [hexec, hold, hvv]
      · have hvv : (hrun aliased P v l).velocity aliased i = some (sghmcVelocity P v i) := by
          unfold HState.velocity
          rw [hrd, ha]
          subst ha
          simp [inv.v1 i (haf.1 hf)]
        simp [hexec, hold, hvv]
      · exfalso
        have := (mem _).1 hs
        rcases this with h | h
        · exact hn (hl.closed _ h _ (by simp [HOp.Dep]))
        · simp at h
    · have hsmp : (hexec aliased P (hrun aliased P v l) o).smp i = (hrun aliased P v l).smp i := by
        cases o with
        | addS j =>
          have hij : i ≠ j := fun h => ho (by rw [h])
          simp only [hexec]; split
          · simp only; rw [Function.update_of_ne hij]
          · rfl
        | addV j => simp only [hexec]; split <;> rfl
        | assignV j => simp only [hexec]; split <;> rfl
        | _ => rfl
      have haf : AssignedFirst (l ++ [o]) i ↔ AssignedFirst l i := by
        constructor
        · rintro ⟨l₁, l₂, he, hm⟩
          rcases List.eq_nil_or_concat l₂ with rfl | ⟨l₃, a, rfl⟩
          · have := List.append_inj_right' he rfl
            simp at this; exact absurd this ho
          · have he' : l ++ [o] = (l₁ ++ .addS i :: l₃) ++ [a] := by simpa using he
            exact ⟨l₁, l₃, List.append_inj_left' he' rfl, hm⟩
        · rintro ⟨l₁, l₂, he, hm⟩
          exact ⟨l₁, l₂ ++ [o], by simp [he], hm⟩
      rw [haf, hsmp]
      refine ⟨fun hs => ih.1 (((mem _).1 hs).resolve_right (Ne.symm ho)), fun hs => ?_⟩
      by_cases hsc : o = .scatter i
      · subst hsc; simp [hexec]
      · have hrow : (hexec aliased P (hrun aliased P v l) o).row i = (hrun aliased P v l).row i := by
          cases o with
          | addS j => simp only [hexec]; split <;> rfl
          | addV j => simp only [hexec]; split <;> rfl
          | assignV j => simp only [hexec]; split <;> rfl
          | scatter j =>
            have hij : i ≠ j := fun h => hsc (by rw [h])
            simp only [hexec]; rw [Function.update_of_ne hij]
          | _ => rfl
        rw [hrow]
        exact ih.2 (((mem _).1 hs).resolve_right (Ne.symm hsc))

/-- C42 (partial): if the read of the velocity variable copies it, every complete
schedule writes the same samples and velocities: the ones of the update equations. -/
theorem C42_schedule_partial (P : HParams ι) (v : ι → ℝ) (l : List (HOp ι)) (h : HSchedule l)
    (hall : ∀ o, o ∈ l) (i : ι) :
    (hrun false P v l).row i = some (sghmcSample P v i) ∧
      (hrun false P v l).v i = sghmcVelocity P v i := by
  have hs := h.sample false P v i
  refine ⟨?_, (h.inv false P v).v1 i (hall _)⟩
  rw [hs.2 (hall _), (hs.1 (hall _)).1 (Or.inl rfl)]; rfl

/-- C42: what happens with the shared buffer. The velocity is the one of the update
equations whatever the schedule; the sample uses the old velocity if the addition runs
before the assignment and the new velocity otherwise. -/
theorem C42_outcomes (P : HParams ι) (v : ι → ℝ) (l : List (HOp ι)) (h : HSchedule l)
    (hall : ∀ o, o ∈ l) (i : ι) :
    (hrun true P v l).v i = sghmcVelocity P v i ∧
    (¬ AssignedFirst l i → (hrun true P v l).row i = some (sghmcSample P v i)) ∧
    (AssignedFirst l i → (hrun true P v l).row i = some (P.x i + sghmcVelocity P v i)) := by
  have hs := h.sample true P v i
  refine ⟨(h.inv true P v).v1 i (hall _), fun hf => ?_, fun hf => ?_⟩
  · rw [hs.2 (hall _), (hs.1 (hall _)).1 (Or.inr hf)]; rfl
  · rw [hs.2 (hall _), (hs.1 (hall _)).2 rfl hf]

end

/-- Two schedules of the ops of one latent variable. -/
def hsched₁ : List (HOp Unit) :=
  [.gather (), .readV (), .grad, .normal (), .addS (), .addV (), .scatter (), .assignV ()]

def hsched₂ : List (HOp Unit) :=
  [.gather (), .readV (), .grad, .normal (), .addV (), .assignV (), .addS (), .scatter ()]

theorem hsched₁_valid : HSchedule hsched₁ := by
  have e : hsched₁ = (((((((([] ++ [.gather ()]) ++ [.readV ()]) ++ [.grad]) ++ [.normal ()]) ++
    [.addS ()]) ++ [.addV ()]) ++ [.scatter ()]) ++ [.assignV ()]) := rfl
  rw [e]
  repeat' refine HSchedule.snoc _ _ ?_ (by simp) (by intro d hd; cases d <;> simp_all [HOp.Dep])
  exact HSchedule.nil

theorem hsched₂_valid : HSchedule hsched₂ := by
  have e : hsched₂ = (((((((([] ++ [.gather ()]) ++ [.readV ()]) ++ [.grad]) ++ [.normal ()]) ++
    [.addV ()]) ++ [.assignV ()]) ++ [.addS ()]) ++ [.scatter ()]) := rfl
  rw [e]
  repeat' refine HSchedule.snoc _ _ ?_ (by simp) (by intro d hd; cases d <;> simp_all [HOp.Dep])
  exact HSchedule.nil

theorem hsched₁_all (o : HOp Unit) : o ∈ hsched₁ := by cases o <;> simp [hsched₁]
theorem hsched₂_all (o : HOp Unit) : o ∈ hsched₂ := by cases o <;> simp [hsched₂]

/-- The first update of `ed.SGHMC` for a standard normal log density, from position 1. -/
noncomputable def exH : HParams Unit := ⟨0.25, 0.1, fun x i => - x i, fun _ => 1, fun _ => 0⟩

/-- C42 fails with the shared buffer: two complete schedules of the same update write
different samples. -/
theorem C42_fails :
    ¬ ∀ (P : HParams Unit) (v : Unit → ℝ) (l l' : List (HOp Unit)), HSchedule l → HSchedule l' →
      (∀ o, o ∈ l) → (∀ o, o ∈ l') → (hrun true P v l).row = (hrun true P v l').row := by
  intro h
  have := congrFun (h exH (fun _ => 0) hsched₁ hsched₂ hsched₁_valid hsched₂_valid hsched₁_all hsched₂_all) ()
  have h1 : ¬ AssignedFirst hsched₁ () := by
    rintro ⟨l₁, l₂, he, hm⟩
    have hl : l₁ = hsched₁.take l₁.length := by rw [he]; simp
    have hlen : l₁.length < 8 := by
      have := congrArg List.length he
      simp [hsched₁] at this; omega
    have hget : hsched₁[l₁.length]? = some (.addS ()) := by rw [he]; simp
    generalize l₁.length = n at *
    subst hl
    interval_cases n <;> simp [hsched₁] at hget hm
  have h2 : AssignedFirst hsched₂ () :=
    ⟨[.gather (), .readV (), .grad, .normal (), .addV (), .assignV ()], [.scatter ()], rfl, by simp⟩
  rw [(C42_outcomes exH _ hsched₁ hsched₁_valid hsched₁_all ()).2.1 h1,
    (C42_outcomes exH _ hsched₂ hsched₂_valid hsched₂_all ()).2.2 h2] at this
  simp [sghmcSample, sghmcVelocity, exH] at this
  norm_num at this

example : (hrun false exH (fun _ => 3) hsched₂).row () = some (sghmcSample exH (fun _ => 3) ()) :=
  (C42_schedule_partial exH _ hsched₂ hsched₂_valid hsched₂_all ()).1

end Edward
