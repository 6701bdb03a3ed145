/- Helper lemmas: the loop of `is_independent` and active walks. -/
import Verif.Model.BayesBall
import Verif.Spec.DSep

set_option linter.unusedSectionVars false

namespace Edward
open Relation

section
variable {R : Type}
/-- Walks of the ball in the presence of deterministic nodes (`D`): the ball
moves along edges; `up` steps go to a parent. A node outside `Z` lets the ball
through, except that a deterministic node entered from a child (or started at)
does not send it to its children; a node in `Z` only reflects a ball arriving
from a parent to its parents. `BallStep Z D n up m up'`: the ball, having entered
`n` by an upward step (`up = true`, also at the start) or a downward one, may
next enter `m`. -/
inductive BallStep (P : R → R → Prop) (Z D : R → Prop) : R × Bool → R × Bool → Prop where
  | up {n p} : ¬ Z n → P p n → BallStep P Z D (n, true) (p, true)
  | fork {n c} : ¬ Z n → ¬ D n → P n c → BallStep P Z D (n, true) (c, false)
  | chain {n c} : ¬ Z n → P n c → BallStep P Z D (n, false) (c, false)
  | reflect {n p} : Z n → P p n → BallStep P Z D (n, false) (p, true)

/-- The ball started at `b` makes `a` relevant: `a` is outside `Z` and entered
from a parent, or entered from a child (or started at) without being deterministic. -/
def Relevant (P : R → R → Prop) (Z D : R → Prop) (b a : R) : Prop :=
  ¬ Z a ∧ ((ReflTransGen (BallStep P Z D) (b, true) (a, true) ∧ ¬ D a) ∨
    ReflTransGen (BallStep P Z D) (b, true) (a, false))

end

section Loop
variable {R : Type} [DecidableEq R]

theorem mem_pushAll {l : List R} {f : From} {s : List (R × From)} {p : R × From} :
    p ∈ pushAll l f s ↔ (p.1 ∈ l ∧ p.2 = f) ∨ p ∈ s := by
  induction l generalizing s with
  | nil => simp [pushAll]
  | cons a l ih =>
    have := ih (s := (a, f) :: s)
    simp only [pushAll, List.foldl_cons] at this ⊢
    rw [this]
    obtain ⟨r, g⟩ := p
    simp only [List.mem_cons, Prod.mk.injEq]; tauto

def From.isUp : From → Bool
  | .child => true
  | .parent => false

variable (P : R → R → Prop) (Z D : R → Prop) (A B : List R)

/-- Scheduled at some time. -/
def Ball (n : R) (f : From) : Prop :=
  ∃ b ∈ B, ReflTransGen (BallStep P Z D) (b, true) (n, f.isUp)

/-- The effect of visiting `(n, f)` is recorded in the marks. -/
def Done (s : BState R) (n : R) : From → Prop
  | .child => Z n ∨ (n ∈ s.top ∧ (D n ∨ n ∈ s.bottom))
  | .parent => (Z n ∧ n ∈ s.top) ∨ (¬ Z n ∧ n ∈ s.bottom)

structure BInv (s : BState R) : Prop where
  up : ∀ n ∈ s.top, ∀ p, P p n → Done Z D s p .child ∨ (p, From.child) ∈ s.schedule
  down : ∀ n ∈ s.bottom, ∀ c, P n c → Done Z D s c .parent ∨ (c, From.parent) ∈ s.schedule
  start : ∀ b ∈ B, Done Z D s b .child ∨ (b, From.child) ∈ s.schedule
  sched : ∀ n f, (n, f) ∈ s.schedule → Ball P Z D B n f
  bot : ∀ n ∈ s.bottom, ¬ Z n ∧ ((Ball P Z D B n .child ∧ ¬ D n) ∨ Ball P Z D B n .parent)
  free : ∀ n ∈ s.bottom, n ∉ A

theorem Done.mono {s s' : BState R} {n : R} {f : From} (h : Done Z D s n f)
    (ht : ∀ n ∈ s.top, n ∈ s'.top) (hb : ∀ n ∈ s.bottom, n ∈ s'.bottom) :
    Done Z D s' n f := by
  cases f with
  | child => exact h.imp id (fun h => ⟨ht _ h.1, h.2.imp id (hb _)⟩)
  | parent => exact h.imp (fun h => ⟨h.1, ht _ h.2⟩) (fun h => ⟨h.1, hb _ h.2⟩)

variable {P Z D A B}

theorem ball_up {n p : R} (h : Ball P Z D B n .child) (hz : ¬ Z n) (hp : P p n) :
    Ball P Z D B p .child := by
  obtain ⟨b, hb, h⟩ := h; exact ⟨b, hb, h.tail (.up hz hp)⟩

theorem ball_fork {n c : R} (h : Ball P Z D B n .child) (hz : ¬ Z n) (hd : ¬ D n) (hp : P n c) :
    Ball P Z D B c .parent := by
  obtain ⟨b, hb, h⟩ := h; exact ⟨b, hb, h.tail (.fork hz hd hp)⟩

theorem ball_chain {n c : R} (h : Ball P Z D B n .parent) (hz : ¬ Z n) (hp : P n c) :
    Ball P Z D B c .parent := by
  obtain ⟨b, hb, h⟩ := h; exact ⟨b, hb, h.tail (.chain hz hp)⟩

theorem ball_reflect {n p : R} (h : Ball P Z D B n .parent) (hz : Z n) (hp : P p n) :
    Ball P Z D B p .child := by
  obtain ⟨b, hb, h⟩ := h; exact ⟨b, hb, h.tail (.reflect hz hp)⟩

/-- One iteration keeps the invariant, or returns `False` for a reason. -/
theorem binv_step {par chl : R → List R} {pm : R → Bool} {cond : List R}
    (hZ : ∀ n, Z n ↔ n ∈ cond) (hD : ∀ n, D n ↔ pm n = true)
    (node : R) (hpar : ∀ p, p ∈ par node ↔ P p node) (hchl : ∀ c, c ∈ chl node ↔ P node c) (f : From) (rest : List (R × From)) (s : BState R)
    (hs : s.schedule = (node, f) :: rest) (h : BInv P Z D A B s) :
    (bstep par chl pm A cond node f rest s = none ∧ node ∈ A ∧ ¬ Z node ∧
      ((Ball P Z D B node .child ∧ ¬ D node) ∨ Ball P Z D B node .parent)) ∨
    ∃ s', bstep par chl pm A cond node f rest s = some s' ∧ BInv P Z D A B s' := by
  have hball : Ball P Z D B node f := h.sched node f (by rw [hs]; simp)
  have hrest : ∀ n g, (n, g) ∈ rest → Ball P Z D B n g :=
    fun n g hg => h.sched n g (by rw [hs]; simp [hg])
  have hcov : ∀ {n : R} {g : From}, (n, g) ∈ s.schedule → (n = node ∧ g = f) ∨ (n, g) ∈ rest := by
    intro n g hg; rw [hs] at hg; simpa using hg
  unfold bstep
  by_cases h1 : node ∉ cond ∧ f = .child
  · rw [if_pos h1]
    obtain ⟨hnc, rfl⟩ := h1
    have hnZ : ¬ Z node := fun hz => hnc ((hZ node).mp hz)
    -- the state after the first inner `if`
    set s1 : BState R := (if node ∉ s.top then
        { top := node :: s.top, bottom := s.bottom, schedule := pushAll (par node) .child rest }
      else { s with schedule := rest }) with hs1
    have hs1top : node ∈ s1.top ∧ (∀ n ∈ s.top, n ∈ s1.top) ∧ (∀ n ∈ s1.top, n = node ∨ n ∈ s.top) := by
      rw [hs1]; split
      · simp; exact fun n hn => Or.inr hn
      · rename_i hh; simp only [not_not] at hh; exact ⟨hh, fun _ h => h, fun _ h => Or.inr h⟩
    have hs1bot : s1.bottom = s.bottom := by rw [hs1]; split <;> rfl
    have hs1sch : ∀ p, p ∈ rest → p ∈ s1.schedule := by
      intro p hp; rw [hs1]; split
      · exact mem_pushAll.mpr (Or.inr hp)
      · exact hp
    have hs1sched : ∀ n g, (n, g) ∈ s1.schedule → Ball P Z D B n g := by
      intro n g hg
      rw [hs1] at hg
      split at hg
      · rcases mem_pushAll.mp hg with ⟨ha, hb⟩ | hg
        · dsimp only at ha hb; subst hb; exact ball_up hball hnZ ((hpar _).mp ha)
        · exact hrest n g hg
      · exact hrest n g hg
    have hs1up : ∀ p, P p node → Done Z D s1 p .child ∨ (p, From.child) ∈ s1.schedule ∨ p = node := by
      intro p hp
      by_cases ht : node ∈ s.top
      · rcases h.up node ht p hp with hd | hd
        · exact Or.inl (hd.mono Z D hs1top.2.1 (fun n hn => hs1bot ▸ hn))
        · rcases hcov hd with ⟨rfl, _⟩ | hd
          · exact Or.inr (Or.inr rfl)
          · exact Or.inr (Or.inl (hs1sch _ hd))
      · right; left
        rw [hs1, if_pos ht]
        exact mem_pushAll.mpr (Or.inl ⟨(hpar _).mpr hp, rfl⟩)
    by_cases h2 : pm node = false ∧ node ∉ s1.bottom
    · rw [if_pos h2]
      have hnD : ¬ D node := fun hd => by rw [hD, h2.1] at hd; exact absurd hd (by simp)
      by_cases h3 : node ∈ A
      · left; rw [if_pos h3]; exact ⟨rfl, h3, hnZ, Or.inl ⟨hball, hnD⟩⟩
      · right; rw [if_neg h3]; refine ⟨_, rfl, ?_⟩
        set s2 : BState R := { s1 with bottom := node :: s1.bottom
                                       schedule := pushAll (chl node) .parent s1.schedule } with hs2
        have m1 : ∀ n ∈ s.top, n ∈ s2.top := hs1top.2.1
        have m2 : ∀ n ∈ s.bottom, n ∈ s2.bottom := fun n hn => by
          rw [hs2]; dsimp only; rw [hs1bot]; exact List.mem_cons_of_mem _ hn
        have doneNode : Done Z D s2 node .child :=
          Or.inr ⟨hs1top.1, Or.inr (by rw [hs2]; simp)⟩
        have conv : ∀ n g, Done Z D s n g ∨ (n, g) ∈ s.schedule →
            Done Z D s2 n g ∨ (n, g) ∈ s2.schedule := by
          rintro n g (hd | hd)
          · exact Or.inl (hd.mono Z D m1 m2)
          · rcases hcov hd with ⟨rfl, rfl⟩ | hd
            · exact Or.inl doneNode
            · exact Or.inr (mem_pushAll.mpr (Or.inr (hs1sch _ hd)))
        refine ⟨?_, ?_, ?_, ?_, ?_, ?_⟩
        · intro n hn p hp
          rcases hs1top.2.2 n hn with rfl | hn
          · rcases hs1up p hp with hd | hd | rfl
            · exact Or.inl (hd.mono (s' := s2) Z D (fun _ h => h) (fun n hn => by rw [hs2]; simp [hn]))
            · exact Or.inr (mem_pushAll.mpr (Or.inr hd))
            · exact Or.inl doneNode
          · exact conv _ _ (h.up n hn p hp)
        · intro n hn c hc
          have hn' : n = node ∨ n ∈ s.bottom := by
            rw [hs2] at hn; dsimp only at hn; rw [hs1bot] at hn; simpa using hn
          rcases hn' with rfl | hn
          · exact Or.inr (mem_pushAll.mpr (Or.inl ⟨(hchl _).mpr hc, rfl⟩))
          · exact conv _ _ (h.down n hn c hc)
        · exact fun b hb => conv _ _ (h.start b hb)
        · intro n g hg
          rcases mem_pushAll.mp hg with ⟨ha, hb⟩ | hg
          · dsimp only at ha hb; subst hb; exact ball_fork hball hnZ hnD ((hchl _).mp ha)
          · exact hs1sched n g hg
        · intro n hn
          have hn' : n = node ∨ n ∈ s.bottom := by
            rw [hs2] at hn; dsimp only at hn; rw [hs1bot] at hn; simpa using hn
          rcases hn' with rfl | hn
          · exact ⟨hnZ, Or.inl ⟨hball, hnD⟩⟩
          · exact h.bot n hn
        · intro n hn
          have hn' : n = node ∨ n ∈ s.bottom := by
            rw [hs2] at hn; dsimp only at hn; rw [hs1bot] at hn; simpa using hn
          rcases hn' with rfl | hn
          · exact h3
          · exact h.free n hn
    · right; rw [if_neg h2]; refine ⟨s1, rfl, ?_⟩
      have doneNode : Done Z D s1 node .child := by
        refine Or.inr ⟨hs1top.1, ?_⟩
        by_cases hb : node ∈ s1.bottom
        · exact Or.inr hb
        · left; rw [hD]
          by_contra hh
          exact h2 ⟨by simpa using hh, hb⟩
      have m2 : ∀ n ∈ s.bottom, n ∈ s1.bottom := fun n hn => hs1bot ▸ hn
      have conv : ∀ n g, Done Z D s n g ∨ (n, g) ∈ s.schedule →
          Done Z D s1 n g ∨ (n, g) ∈ s1.schedule := by
        rintro n g (hd | hd)
        · exact Or.inl (hd.mono Z D hs1top.2.1 m2)
        · rcases hcov hd with ⟨rfl, rfl⟩ | hd
          · exact Or.inl doneNode
          · exact Or.inr (hs1sch _ hd)
      refine ⟨?_, ?_, ?_, hs1sched, ?_, ?_⟩
      · intro n hn p hp
        rcases hs1top.2.2 n hn with rfl | hn
        · rcases hs1up p hp with hd | hd | rfl
          · exact Or.inl hd
          · exact Or.inr hd
          · exact Or.inl doneNode
        · exact conv _ _ (h.up n hn p hp)
      · exact fun n hn c hc => conv _ _ (h.down n (hs1bot ▸ hn) c hc)
      · exact fun b hb => conv _ _ (h.start b hb)
      · exact fun n hn => h.bot n (hs1bot ▸ hn)
      · exact fun n hn => h.free n (hs1bot ▸ hn)
  · rw [if_neg h1]
    by_cases hf : f = .parent
    · subst hf
      rw [if_pos rfl]
      by_cases h2 : node ∈ cond ∧ node ∉ s.top
      · right; rw [if_pos h2]; refine ⟨_, rfl, ?_⟩
        have hz : Z node := (hZ node).mpr h2.1
        set s2 : BState R := { s with top := node :: s.top
                                      schedule := pushAll (par node) .child rest } with hs2
        have doneNode : Done Z D s2 node .parent := Or.inl ⟨hz, by rw [hs2]; simp⟩
        have conv : ∀ n g, Done Z D s n g ∨ (n, g) ∈ s.schedule →
            Done Z D s2 n g ∨ (n, g) ∈ s2.schedule := by
          rintro n g (hd | hd)
          · exact Or.inl (hd.mono (s' := s2) Z D (fun n hn => by rw [hs2]; simp [hn]) (fun n hn => hn))
          · rcases hcov hd with ⟨rfl, rfl⟩ | hd
            · exact Or.inl doneNode
            · exact Or.inr (mem_pushAll.mpr (Or.inr hd))
        refine ⟨?_, ?_, ?_, ?_, h.bot, h.free⟩
        · intro n hn p hp
          rw [hs2] at hn
          rcases List.mem_cons.mp hn with rfl | hn
          · exact Or.inr (mem_pushAll.mpr (Or.inl ⟨(hpar _).mpr hp, rfl⟩))
          · exact conv _ _ (h.up n hn p hp)
        · exact fun n hn c hc => conv _ _ (h.down n hn c hc)
        · exact fun b hb => conv _ _ (h.start b hb)
        · intro n g hg
          rcases mem_pushAll.mp hg with ⟨ha, hb⟩ | hg
          · dsimp only at ha hb; subst hb; exact ball_reflect hball hz ((hpar _).mp ha)
          · exact hrest n g hg
      · rw [if_neg h2]
        by_cases h3 : node ∉ cond ∧ node ∉ s.bottom
        · rw [if_pos h3]
          have hnZ : ¬ Z node := fun hz => h3.1 ((hZ node).mp hz)
          by_cases h4 : node ∈ A
          · left; rw [if_pos h4]; exact ⟨rfl, h4, hnZ, Or.inr hball⟩
          · right; rw [if_neg h4]; refine ⟨_, rfl, ?_⟩
            set s2 : BState R := { s with bottom := node :: s.bottom
                                          schedule := pushAll (chl node) .parent rest } with hs2
            have doneNode : Done Z D s2 node .parent := Or.inr ⟨hnZ, by rw [hs2]; simp⟩
            have conv : ∀ n g, Done Z D s n g ∨ (n, g) ∈ s.schedule →
                Done Z D s2 n g ∨ (n, g) ∈ s2.schedule := by
              rintro n g (hd | hd)
              · exact Or.inl (hd.mono (s' := s2) Z D (fun n hn => hn) (fun n hn => by rw [hs2]; simp [hn]))
              · rcases hcov hd with ⟨rfl, rfl⟩ | hd
                · exact Or.inl doneNode
                · exact Or.inr (mem_pushAll.mpr (Or.inr hd))
            refine ⟨?_, ?_, ?_, ?_, ?_, ?_⟩
            · exact fun n hn c hc => conv _ _ (h.up n hn c hc)
            · intro n hn c hc
              rw [hs2] at hn
              rcases List.mem_cons.mp hn with rfl | hn
              · exact Or.inr (mem_pushAll.mpr (Or.inl ⟨(hchl _).mpr hc, rfl⟩))
              · exact conv _ _ (h.down n hn c hc)
            · exact fun b hb => conv _ _ (h.start b hb)
            · intro n g hg
              rcases mem_pushAll.mp hg with ⟨ha, hb⟩ | hg
              · dsimp only at ha hb; subst hb; exact ball_chain hball hnZ ((hchl _).mp ha)
              · exact hrest n g hg
            · intro n hn
              rw [hs2] at hn
              rcases List.mem_cons.mp hn with rfl | hn
              · exact ⟨hnZ, Or.inr hball⟩
              · exact h.bot n hn
            · intro n hn
              rw [hs2] at hn
              rcases List.mem_cons.mp hn with rfl | hn
              · exact h4
              · exact h.free n hn
        · right; rw [if_neg h3]; refine ⟨_, rfl, ?_⟩
          have doneNode : Done Z D s node .parent := by
            by_cases hz : node ∈ cond
            · left; refine ⟨(hZ _).mpr hz, ?_⟩; by_contra ht; exact h2 ⟨hz, ht⟩
            · right; refine ⟨fun h => hz ((hZ _).mp h), ?_⟩; by_contra ht; exact h3 ⟨hz, ht⟩
          have conv : ∀ n g, Done Z D s n g ∨ (n, g) ∈ s.schedule →
              Done Z D { s with schedule := rest } n g ∨ (n, g) ∈ rest := by
            rintro n g (hd | hd)
            · exact Or.inl (hd.mono Z D (fun n hn => hn) (fun n hn => hn))
            · rcases hcov hd with ⟨rfl, rfl⟩ | hd
              · exact Or.inl (doneNode.mono Z D (fun n hn => hn) (fun n hn => hn))
              · exact Or.inr hd
          exact ⟨fun n hn p hp => conv _ _ (h.up n hn p hp),
            fun n hn c hc => conv _ _ (h.down n hn c hc), fun b hb => conv _ _ (h.start b hb),
            hrest, h.bot, h.free⟩
    · right; rw [if_neg hf]; refine ⟨_, rfl, ?_⟩
      have hfc : f = .child := by cases f <;> simp_all
      have hz : node ∈ cond := by by_contra hh; exact h1 ⟨hh, hfc⟩
      subst hfc
      have conv : ∀ n g, Done Z D s n g ∨ (n, g) ∈ s.schedule →
          Done Z D { s with schedule := rest } n g ∨ (n, g) ∈ rest := by
        rintro n g (hd | hd)
        · exact Or.inl (hd.mono Z D (fun n hn => hn) (fun n hn => hn))
        · rcases hcov hd with ⟨rfl, rfl⟩ | hd
          · exact Or.inl (Or.inl ((hZ _).mpr hz))
          · exact Or.inr hd
      exact ⟨fun n hn p hp => conv _ _ (h.up n hn p hp),
        fun n hn c hc => conv _ _ (h.down n hn c hc), fun b hb => conv _ _ (h.start b hb),
        hrest, h.bot, h.free⟩

/-- At the end every scheduled visit has been recorded. -/
theorem done_of_ball {s : BState R} (h : BInv P Z D A B s) (he : s.schedule = []) {n : R} {f : From}
    (hb : Ball P Z D B n f) : Done Z D s n f := by
  obtain ⟨b, hb, hr⟩ := hb
  have key : ∀ q : R × Bool, ReflTransGen (BallStep P Z D) (b, true) q →
      Done Z D s q.1 (if q.2 then .child else .parent) := by
    intro q hq
    induction hq with
    | refl => have := h.start b hb; simpa [he] using this
    | tail _ hst ih =>
      cases hst with
      | up hz hp =>
        simp only [if_true] at ih ⊢
        rcases ih with hd | ⟨ht, _⟩
        · exact absurd hd hz
        · simpa [he] using h.up _ ht _ hp
      | fork hz hd hp =>
        simp only [if_true] at ih
        rcases ih with hd' | ⟨_, hd' | hbt⟩
        · exact absurd hd' hz
        · exact absurd hd' hd
        · simpa [he] using h.down _ hbt _ hp
      | chain hz hp =>
        simp only [Bool.false_eq_true, if_false] at ih
        rcases ih with ⟨hd', _⟩ | ⟨_, hbt⟩
        · exact absurd hd' hz
        · simpa [he] using h.down _ hbt _ hp
      | reflect hz hp =>
        simp only [Bool.false_eq_true, if_false] at ih
        rcases ih with ⟨_, ht⟩ | ⟨hd', _⟩
        · simpa [he] using h.up _ ht _ hp
        · exact absurd hz hd'
  have := key _ hr
  cases f <;> simpa [From.isUp] using this

variable [Fintype R]

theorem ball_mem {S : R → Prop} (hB : ∀ b ∈ B, S b) (hS : ∀ x y, P x y → S x ∧ S y) {n : R} {f : From}
    (h : Ball P Z D B n f) : S n := by
  obtain ⟨b, hb, h⟩ := h
  generalize hq : (n, f.isUp) = q at h
  cases h with
  | refl => obtain ⟨rfl, _⟩ := Prod.mk.inj hq; exact hB _ hb
  | tail _ hst =>
    cases hst <;> (obtain ⟨rfl, _⟩ := Prod.mk.inj hq)
    · rename_i hp; exact (hS _ _ hp).1
    · rename_i hp; exact (hS _ _ hp).2
    · rename_i hp; exact (hS _ _ hp).2
    · rename_i hp; exact (hS _ _ hp).1

theorem bloop_correct {S : R → Prop} (hB : ∀ b ∈ B, S b) (hS : ∀ x y, P x y → S x ∧ S y) {par chl : Nat → R → List R} {pm : R → Bool} {cond : List R}
    (hpar : ∀ k n, S n → ∀ p, p ∈ par k n ↔ P p n) (hchl : ∀ k n, S n → ∀ c, c ∈ chl k n ↔ P n c)
    (hZ : ∀ n, Z n ↔ n ∈ cond) (hD : ∀ n, D n ↔ pm n = true) (k : Nat) (s : BState R)
    (h : BInv P Z D A B s) :
    bloop par chl pm A cond k s = false ↔ ∃ a ∈ A, ∃ b ∈ B, Relevant P Z D b a := by
  fun_induction bloop par chl pm A cond k s with
  | case1 k s hs =>
    simp only [Bool.true_eq_false, false_iff]
    rintro ⟨a, ha, b, hb, hz, hr⟩
    rcases hr with ⟨hr, hd⟩ | hr
    · have := done_of_ball h hs (n := a) (f := .child) ⟨b, hb, hr⟩
      rcases this with h1 | ⟨_, h1 | h1⟩
      · exact hz h1
      · exact hd h1
      · exact h.free a h1 ha
    · have := done_of_ball h hs (n := a) (f := .parent) ⟨b, hb, hr⟩
      rcases this with ⟨h1, _⟩ | ⟨_, h1⟩
      · exact hz h1
      · exact h.free a h1 ha
  | case2 k s node f rest hs hn =>
    simp only [true_iff]
    have hnode : S node := ball_mem hB hS (h.sched node f (by rw [hs]; simp))
    rcases binv_step hZ hD node (hpar k node hnode) (hchl k node hnode) f rest s hs h with h1 | ⟨s', h1, _⟩
    · obtain ⟨_, hA, hz, hr⟩ := h1
      rcases hr with ⟨⟨b, hb, hr⟩, hd⟩ | ⟨b, hb, hr⟩
      · exact ⟨node, hA, b, hb, hz, Or.inl ⟨hr, hd⟩⟩
      · exact ⟨node, hA, b, hb, hz, Or.inr hr⟩
    · rw [hn] at h1; exact absurd h1 (by simp)
  | case3 k s node f rest hs s' hs' ih =>
    apply ih
    have hnode : S node := ball_mem hB hS (h.sched node f (by rw [hs]; simp))
    rcases binv_step hZ hD node (hpar k node hnode) (hchl k node hnode) f rest s hs h with h1 | ⟨s'', h1, h2⟩
    · rw [hs'] at h1; exact absurd h1.1 (by simp)
    · rw [hs'] at h1; rw [Option.some.inj h1]; exact h2

theorem isIndependentSets_correct {S : R → Prop} (hB : ∀ b ∈ B, S b)
    (hS : ∀ x y, P x y → S x ∧ S y) {par chl : Nat → R → List R} {pm : R → Bool} {cond : List R}
    (hpar : ∀ k n, S n → ∀ p, p ∈ par k n ↔ P p n) (hchl : ∀ k n, S n → ∀ c, c ∈ chl k n ↔ P n c)
    (hZ : ∀ n, Z n ↔ n ∈ cond) (hD : ∀ n, D n ↔ pm n = true) :
    isIndependentSets par chl pm A B cond = false ↔ ∃ a ∈ A, ∃ b ∈ B, Relevant P Z D b a := by
  apply bloop_correct hB hS hpar hchl hZ hD
  refine ⟨by simp, by simp, ?_, ?_, by simp, by simp⟩
  · intro b hb; right; exact mem_pushAll.mpr (Or.inl ⟨hb, rfl⟩)
  · intro n f hn
    rcases mem_pushAll.mp hn with ⟨h1, h2⟩ | h
    · dsimp only at h1 h2; subst h2; exact ⟨n, h1, .refl⟩
    · simp at h

end Loop

/-! ### Symmetry of the ball -/
section Symm
variable {R : Type} {P : R → R → Prop} {Z D : R → Prop}

/-- The ball may pass `n` entering with direction `i` and leaving with `o`
(`true` is upwards). -/
def Pass (Z D : R → Prop) (n : R) : Bool → Bool → Prop
  | true, true => ¬ Z n
  | true, false => ¬ Z n ∧ ¬ D n
  | false, false => ¬ Z n
  | false, true => Z n

def Link (P : R → R → Prop) (n m : R) : Bool → Prop
  | true => P m n
  | false => P n m

theorem ballStep_iff {n m : R} {i o : Bool} :
    BallStep P Z D (n, i) (m, o) ↔ Pass Z D n i o ∧ Link P n m o := by
  constructor
  · intro h; cases h <;> simp_all [Pass, Link]
  · rintro ⟨h1, h2⟩
    cases i <;> cases o <;> simp only [Pass, Link] at h1 h2
    · exact .chain h1 h2
    · exact .reflect h1 h2
    · exact .fork h1.1 h1.2 h2
    · exact .up h1 h2

theorem pass_rev {n : R} {i o : Bool} : Pass Z D n i o ↔ Pass Z D n (!o) (!i) := by
  cases i <;> cases o <;> simp [Pass]

theorem link_rev {n m : R} {o : Bool} : Link P n m o ↔ Link P m n (!o) := by
  cases o <;> simp [Link]

theorem relevant_symm {a b : R} (h : Relevant P Z D b a) : Relevant P Z D a b := by
  obtain ⟨hz, h⟩ := h
  obtain ⟨ua, hr, hend⟩ : ∃ ua, ReflTransGen (BallStep P Z D) (b, true) (a, ua) ∧ (ua = true → ¬ D a) := by
    rcases h with ⟨h, hd⟩ | h
    · exact ⟨true, h, fun _ => hd⟩
    · exact ⟨false, h, by simp⟩
  have hstart : ∀ m, Link P a m (!ua) → BallStep P Z D (a, true) (m, !ua) := by
    intro m hm
    rw [ballStep_iff]
    refine ⟨?_, hm⟩
    cases ua <;> simp_all [Pass]
  have key : ∀ q : R × Bool, ReflTransGen (BallStep P Z D) q (a, ua) →
      q = (a, ua) ∨ ∃ w, Pass Z D q.1 q.2 w ∧ ReflTransGen (BallStep P Z D) (a, true) (q.1, !w) := by
    intro q hq
    refine ReflTransGen.head_induction_on hq (Or.inl rfl) ?_
    rintro ⟨n, u⟩ ⟨m, u'⟩ hst _ ih
    right
    rw [ballStep_iff] at hst
    refine ⟨u', hst.1, ?_⟩
    rcases ih with he | ⟨w, hw, hr⟩
    · obtain ⟨rfl, rfl⟩ := Prod.mk.inj he
      exact .single (hstart n (link_rev.mp hst.2))
    · refine hr.tail ?_
      rw [ballStep_iff]
      exact ⟨pass_rev.mp hw, link_rev.mp hst.2⟩
  rcases key _ hr with he | ⟨w, hw, hr'⟩
  · obtain ⟨rfl, rfl⟩ := Prod.mk.inj he
    exact ⟨hz, Or.inl ⟨.refl, hend rfl⟩⟩
  · cases w with
    | true => exact ⟨hw, Or.inr hr'⟩
    | false => exact ⟨hw.1, Or.inl ⟨hr', hw.2⟩⟩

end Symm

/-! ### Active walks and d-connection -/
section DSep
variable {R : Type} {P : R → R → Prop} {Z D : R → Prop}

theorem Acyclic.asymm (h : Acyclic P) {u v : R} (h1 : P u v) (h2 : P v u) : False :=
  h u (TransGen.tail (TransGen.single h1) h2)

/-- The ball started at `b` follows an active walk. -/
theorem ball_of_walk (hac : Acyclic P) {b : R} (l : List R) : ∀ (x : R) (u : Bool) (a : R),
    ReflTransGen (BallStep P Z D) (b, true) (x, u) →
    -- how the walk may continue from `x`
    (∀ y, l.head? = some y → (P y x → ReflTransGen (BallStep P Z D) (b, true) (y, true)) ∧
      (P x y → ReflTransGen (BallStep P Z D) (b, true) (y, false))) →
    (x :: l).getLast? = some a → (x :: l).IsChain (Adj P) →
    (∀ p q r, [p, q, r] <:+: (x :: l) → OpenTriple P Z p q r ∧ ¬ (D q ∧ P q p ∧ P q r)) →
    ∃ u', ReflTransGen (BallStep P Z D) (b, true) (a, u') ∧
      (u' = true → (l = [] ∧ u = true) ∨ ∃ t p, x :: l = t ++ [p, a] ∧ P a p) := by
  have collide : ∀ y d, ReflTransGen P y d → Z d →
      ReflTransGen (BallStep P Z D) (b, true) (y, false) →
      ∀ z, P z y → ReflTransGen (BallStep P Z D) (b, true) (z, true) := by
    intro y d h hd
    refine ReflTransGen.head_induction_on h ?_ ?_
    · intro hb z hz; exact hb.tail (.reflect hd hz)
    · intro y w hyw _ ih hb z hz
      by_cases hy : Z y
      · exact hb.tail (.reflect hy hz)
      · have h1 := ih (hb.tail (.chain hy hyw)) y hyw
        exact h1.tail (.up hy hz)
  induction l with
  | nil =>
    intro x u a hx _ hl _ _
    obtain rfl : x = a := by simpa using hl
    exact ⟨u, hx, fun h => Or.inl ⟨rfl, h⟩⟩
  | cons y l ih =>
    intro x u a hx hc hl hch ho
    obtain ⟨hup, hdn⟩ := hc y rfl
    have hadj : Adj P x y := by
      cases hch with
      | cons_cons h _ => exact h
    have hch' : (y :: l).IsChain (Adj P) := by
      cases hch with
      | cons_cons _ h => exact h
    have ho' : ∀ p q r, [p, q, r] <:+: (y :: l) → OpenTriple P Z p q r ∧ ¬ (D q ∧ P q p ∧ P q r) :=
      fun p q r h => ho p q r (h.trans (List.suffix_cons x _).isInfix)
    have hl' : (y :: l).getLast? = some a := by rw [List.getLast?_cons_cons] at hl; exact hl
    obtain ⟨v, hv, hvdir⟩ : ∃ v, ReflTransGen (BallStep P Z D) (b, true) (y, v) ∧
        (v = true → P y x) ∧ (v = false → P x y) := by
      rcases hadj with h | h
      · exact ⟨false, hdn h, by simp, fun _ => h⟩
      · exact ⟨true, hup h, fun _ => h, by simp⟩
    have := ih y v a hv ?_ hl' hch' ho'
    · obtain ⟨u', h1, h2⟩ := this
      refine ⟨u', h1, fun hu => Or.inr ?_⟩
      rcases h2 hu with ⟨rfl, rfl⟩ | ⟨t, p, he, hp⟩
      · obtain rfl : y = a := by simpa using hl'
        exact ⟨[], x, rfl, hvdir.1 rfl⟩
      · exact ⟨x :: t, p, by rw [he]; rfl, hp⟩
    intro z hz
    obtain ⟨l', rfl⟩ : ∃ l', l = z :: l' := by
      cases l with
      | nil => simp at hz
      | cons w l' => simp at hz; exact ⟨l', by rw [hz]⟩
    obtain ⟨htri, hnf⟩ := ho x y z ⟨[], l', by simp⟩
    constructor
    · intro hzy
      cases v with
      | true =>
        have hyx := hvdir.1 rfl
        have hnZ := htri.2 (fun h => hac.asymm h.1 hyx)
        exact hv.tail (.up hnZ hzy)
      | false =>
        have hxy := hvdir.2 rfl
        obtain ⟨d, hd, hyd⟩ := htri.1 ⟨hxy, hzy⟩
        exact collide y d hyd hd hv z hzy
    · intro hyz
      have hnZ := htri.2 (fun h => hac.asymm h.2 hyz)
      cases v with
      | true => exact hv.tail (.fork hnZ (fun h => hnf ⟨h, hvdir.1 rfl, hyz⟩) hyz)
      | false => exact hv.tail (.chain hnZ hyz)

theorem relevant_of_walk (hac : Acyclic P) {b a : R} {l : List R} (h : DetWalk P Z D b a l) :
    Relevant P Z D b a := by
  obtain ⟨l', rfl⟩ : ∃ l', l = b :: l' := by
    cases l with
    | nil => have := h.first; simp at this
    | cons w l' => have := h.first; simp at this; exact ⟨l', by rw [this]⟩
  obtain ⟨u, hu, hend⟩ := ball_of_walk hac l' b true a (D := D) .refl
    (fun y hy => ⟨fun hp => .single (.up h.bOut hp), fun hp => .single (.fork h.bOut (fun hd => by
      obtain ⟨x, t, he, hx⟩ := h.bEnd hd
      obtain rfl : l' = x :: t := by simpa using he
      obtain rfl : x = y := by simpa using hy
      exact hac.asymm hx hp) hp)⟩)
    h.last h.chain (fun p q r hi => ⟨h.opens p q r hi, h.noFork p q r hi⟩)
  refine ⟨h.aOut, ?_⟩
  cases u with
  | true =>
    refine Or.inl ⟨hu, fun hd => ?_⟩
    obtain ⟨x, t, he, hx⟩ := h.aEnd hd
    rcases hend rfl with ⟨rfl, _⟩ | ⟨t', p, he', hp⟩
    · have := congrArg List.length he; simp at this
    · rw [he'] at he
      have := List.append_inj_right' he (by simp)
      obtain rfl : p = x := by simpa using this
      exact hac.asymm hx hp
  | false => exact Or.inr hu

theorem infix3_cons {x y z w : R} {l : List R} (h : [x, y, z] <:+: w :: l) :
    (x = w ∧ ∃ l', l = y :: z :: l') ∨ [x, y, z] <:+: l := by
  rcases List.infix_cons_iff.mp h with h1 | h1
  · left
    rw [List.cons_prefix_cons] at h1
    obtain ⟨hx, l', hl⟩ := h1
    exact ⟨hx, l', by simpa using hl.symm⟩
  · exact Or.inr h1

/-- The path of the ball, reversed, is an active walk. -/
theorem walk_of_ball (hac : Acyclic P) {b : R} (q : R × Bool)
    (h : ReflTransGen (BallStep P Z D) (b, true) q) :
    ∃ l : List R, (q.1 :: l).getLast? = some b ∧ (q.1 :: l).IsChain (Adj P) ∧
      (∀ x y z, [x, y, z] <:+: (q.1 :: l) → OpenTriple P Z x y z ∧ ¬ (D y ∧ P y x ∧ P y z)) ∧
      (∀ c l', l = c :: l' → ¬ Z b ∧ (D b → ∃ x t, q.1 :: l = t ++ [x, b] ∧ P x b) ∧
        (q.2 = true → P q.1 c) ∧ (q.2 = false → P c q.1)) ∧
      (q.2 = false → l ≠ []) := by
  induction h with
  | refl => exact ⟨[], by simp, by simp, by
      intro x y z h
      rcases infix3_cons h with ⟨_, l', h⟩ | h
      · simp at h
      · simp at h, by simp, by simp⟩
  | @tail q q' _ hst ih =>
    obtain ⟨l, h1, h2, h3, h4, h5⟩ := ih
    obtain ⟨n, u⟩ := q
    obtain ⟨m, u'⟩ := q'
    rw [ballStep_iff] at hst
    obtain ⟨hpass, hlink⟩ := hst
    dsimp only at *
    refine ⟨n :: l, by rw [List.getLast?_cons_cons]; exact h1, ?_, ?_, ?_, by simp⟩
    · refine List.IsChain.cons_cons ?_ h2
      cases u' with
      | true => exact Or.inl hlink
      | false => exact Or.inr hlink
    · intro x y z hxyz
      rcases infix3_cons hxyz with ⟨rfl, l', he⟩ | hxyz
      · obtain ⟨rfl, rfl⟩ : n = y ∧ l = z :: l' := by simpa using he
        obtain ⟨_, _, h6, h7⟩ := h4 z l' rfl
        -- x = m, y = n, z previous
        cases u <;> cases u' <;> simp only [Pass, Link] at hpass hlink
        · have hzy := h7 rfl
          exact ⟨⟨fun h => absurd h.1 (fun h => hac.asymm h hlink), fun _ => hpass⟩,
            fun h => hac.asymm hzy h.2.2⟩
        · have hzy := h7 rfl
          exact ⟨⟨fun _ => ⟨n, hpass, .refl⟩, fun h => absurd ⟨hlink, hzy⟩ h⟩,
            fun h => hac.asymm hzy h.2.2⟩
        · exact ⟨⟨fun h => absurd h.1 (fun h => hac.asymm h hlink), fun _ => hpass.1⟩,
            fun h => hpass.2 h.1⟩
        · exact ⟨⟨fun h => absurd h.2 (fun h => hac.asymm h (h6 rfl)), fun _ => hpass⟩,
            fun h => hac.asymm hlink h.2.1⟩
      · exact h3 x y z hxyz
    · rintro c l' he
      obtain ⟨rfl, rfl⟩ : n = c ∧ l = l' := by simpa using he
      have hb : ¬ Z b ∧ (D b → ∃ x t, m :: n :: l = t ++ [x, b] ∧ P x b) := by
        cases l with
        | nil =>
          obtain rfl : n = b := by simpa using h1
          cases u <;> cases u' <;> simp only [Pass, Link] at hpass hlink
          · exact absurd rfl (h5 rfl)
          · exact absurd rfl (h5 rfl)
          · exact ⟨hpass.1, fun h => absurd h hpass.2⟩
          · exact ⟨hpass, fun _ => ⟨m, [], rfl, hlink⟩⟩
        | cons z l' =>
          obtain ⟨h6, h7, _⟩ := h4 z l' rfl
          refine ⟨h6, fun hd => ?_⟩
          obtain ⟨x, t, he, hx⟩ := h7 hd
          exact ⟨x, m :: t, by rw [he]; rfl, hx⟩
      refine ⟨hb.1, hb.2, ?_, ?_⟩
      · rintro rfl; exact hlink
      · rintro rfl; exact hlink

theorem adj_symm {u v : R} (h : Adj P u v) : Adj P v u := h.symm

theorem openTriple_symm {x y z : R} (h : OpenTriple P Z x y z) : OpenTriple P Z z y x :=
  ⟨fun hh => h.1 ⟨hh.2, hh.1⟩, fun hh => h.2 (fun hc => hh ⟨hc.2, hc.1⟩)⟩

theorem walk_of_relevant (hac : Acyclic P) {b a : R} (h : Relevant P Z D b a) :
    ∃ l, DetWalk P Z D a b l := by
  obtain ⟨hz, h⟩ := h
  obtain ⟨u, hr, hu⟩ : ∃ u, ReflTransGen (BallStep P Z D) (b, true) (a, u) ∧ (u = true → ¬ D a) := by
    rcases h with ⟨h, hd⟩ | h
    · exact ⟨_, h, fun _ => hd⟩
    · exact ⟨_, h, by simp⟩
  obtain ⟨l, h1, h2, h3, h4, h5⟩ := walk_of_ball hac _ hr
  dsimp only at *
  cases l with
  | nil =>
    obtain rfl : a = b := by simpa using h1
    cases u with
    | false => exact absurd rfl (h5 rfl)
    | true => exact ⟨[a], ⟨rfl, h1, h2, fun x y z h => (h3 x y z h).1, hz, hz⟩,
        fun x y z h => (h3 x y z h).2, fun hd => absurd hd (hu rfl), fun hd => absurd hd (hu rfl)⟩
  | cons c l' =>
    obtain ⟨h6, h7, h8, h9⟩ := h4 c l' rfl
    refine ⟨a :: c :: l', ⟨rfl, h1, h2, fun x y z h => (h3 x y z h).1, hz, h6⟩,
      fun x y z h => (h3 x y z h).2, ?_, h7⟩
    intro hd
    cases u with
    | true => exact absurd hd (hu rfl)
    | false => exact ⟨c, l', rfl, h9 rfl⟩

theorem relevant_iff_detWalk (hac : Acyclic P) {b a : R} :
    Relevant P Z D b a ↔ ∃ l, DetWalk P Z D b a l :=
  ⟨fun h => walk_of_relevant hac (relevant_symm h), fun ⟨_, h⟩ => relevant_of_walk hac h⟩

/-- From a node left downwards, an unblocked walk which ends with an upward
arrival must meet an active collider below the node. -/
theorem anc_of_down (hac : Acyclic P) : ∀ (l : List R) (v w u u' : R),
    P v w → (v :: w :: l).IsChain (Adj P) →
    (∀ x y z, [x, y, z] <:+: (v :: w :: l) → OpenTriple P Z x y z) →
    (∃ l', v :: w :: l = l' ++ [u', u]) → P u u' → ActiveCollider P Z v := by
  intro l
  induction l with
  | nil =>
    rintro v w u u' hvw _ _ ⟨l', he⟩ hu
    have hl : l' = [] := by
      have := congrArg List.length he; simp at this; simpa using this
    subst hl
    obtain ⟨rfl, rfl⟩ : v = u' ∧ w = u := by simpa using he
    exact absurd hu (fun h => hac.asymm hvw h)
  | cons r l ih =>
    rintro v w u u' hvw hch ho ⟨l', he⟩ hu
    have hch' : (w :: r :: l).IsChain (Adj P) := by
      cases hch with
      | cons_cons _ h => exact h
    have hadj : Adj P w r := by
      cases hch' with
      | cons_cons h _ => exact h
    have up : ActiveCollider P Z w → ActiveCollider P Z v := by
      rintro ⟨d, hd, h⟩; exact ⟨d, hd, h.head hvw⟩
    rcases hadj with h | h
    · refine up (ih w r u u' h hch' (fun x y z hh => ho x y z (hh.trans (List.suffix_cons v _).isInfix)) ?_ hu)
      cases l' with
      | nil => have := congrArg List.length he; simp at this
      | cons a l' => exact ⟨l', by simpa using (List.cons.inj he).2⟩
    · exact up ((ho v w r ⟨[], l, by simp⟩).1 ⟨hvw, h⟩)

theorem infix3_append {x y z v : R} {l1 l3 : List R} (h : [x, y, z] <:+: l1 ++ v :: l3) :
    [x, y, z] <:+: l1 ++ [v] ∨ [x, y, z] <:+: v :: l3 ∨
      (y = v ∧ l1.getLast? = some x ∧ l3.head? = some z) := by
  induction l1 with
  | nil => exact Or.inr (Or.inl h)
  | cons a l1 ih =>
    rw [List.cons_append] at h
    rcases infix3_cons h with ⟨rfl, l', he⟩ | h
    · match l1, he with
      | [], he =>
        right; right
        obtain ⟨rfl, rfl⟩ : v = y ∧ l3 = z :: l' := by simpa using he
        simp
      | [b], he =>
        left
        obtain ⟨rfl, rfl, rfl⟩ : b = y ∧ v = z ∧ l3 = l' := by simpa using he
        exact List.infix_refl _
      | b :: c :: l1', he =>
        left
        obtain ⟨rfl, rfl, _⟩ : b = y ∧ c = z ∧ l1' ++ v :: l3 = l' := by simpa using he
        exact ⟨[], l1' ++ [v], by simp⟩
    · rcases ih h with h | h | ⟨h1, h2, h3⟩
      · exact Or.inl (h.trans (List.suffix_cons a _).isInfix)
      · exact Or.inr (Or.inl h)
      · refine Or.inr (Or.inr ⟨h1, ?_, h3⟩)
        cases l1 with
        | nil => simp at h2
        | cons b l1 => rw [List.getLast?_cons_cons]; exact h2

/-- Cutting out a loop keeps a walk active. -/
theorem cut_walk (hac : Acyclic P) {b a v : R} {l1 l2 l3 : List R}
    (h : ActiveWalk P Z b a (l1 ++ v :: l2 ++ v :: l3)) : ActiveWalk P Z b a (l1 ++ v :: l3) := by
  have hsub1 : l1 ++ [v] <:+: l1 ++ v :: l2 ++ v :: l3 := ⟨[], l2 ++ v :: l3, by simp⟩
  have hsub3 : v :: l3 <:+: l1 ++ v :: l2 ++ v :: l3 := ⟨l1 ++ v :: l2, [], by simp⟩
  have hsub2 : v :: l2 ++ [v] <:+: l1 ++ v :: l2 ++ v :: l3 := ⟨l1, l3, by simp⟩
  have hc1 : (l1 ++ [v]).IsChain (Adj P) := h.chain.infix hsub1
  have hc3 : (v :: l3).IsChain (Adj P) := h.chain.infix hsub3
  have hc2 : (v :: l2 ++ [v]).IsChain (Adj P) := h.chain.infix hsub2
  have hnirr : ¬ Adj P v v := by rintro (h | h) <;> exact hac.asymm h h
  refine ⟨?_, ?_, ?_, ?_, h.bOut, h.aOut⟩
  · have := h.first
    cases l1 with
    | nil => simpa using this
    | cons c l1 => simpa using this
  · have := h.last
    rw [List.getLast?_append] at this ⊢
    simp only [List.getLast?_cons] at this ⊢
    simpa using this
  · rw [List.isChain_append] at hc1 ⊢
    refine ⟨hc1.1, hc3, ?_⟩
    intro x hx y hy
    have hy' : v = y := by simpa using hy
    exact hc1.2.2 x hx y (by simp [hy'])
  · intro x y z hxyz
    rcases infix3_append hxyz with hi | hi | ⟨rfl, hx, hz⟩
    · exact h.opens _ _ _ (hi.trans hsub1)
    · exact h.opens _ _ _ (hi.trans hsub3)
    · -- the spliced triple
      obtain ⟨l1', rfl⟩ : ∃ l1', l1 = l1' ++ [x] := by
        rw [List.getLast?_eq_some_iff] at hx; exact hx
      obtain ⟨l3', rfl⟩ : ∃ l3', l3 = z :: l3' := by
        cases l3 with
        | nil => simp at hz
        | cons c l3 => simp at hz; exact ⟨l3, by rw [hz]⟩
      -- the loop is non-trivial
      obtain ⟨w, l2', hl2⟩ : ∃ w l2', l2 = w :: l2' := by
        cases l2 with
        | nil =>
          exfalso
          have : (y :: [] ++ [y]).IsChain (Adj P) := hc2
          cases this with
          | cons_cons h _ => exact hnirr h
        | cons w l2' => exact ⟨w, l2', rfl⟩
      obtain ⟨l2'', w', hl2'⟩ : ∃ l2'' w', l2 = l2'' ++ [w'] := by
        rcases List.eq_nil_or_concat l2 with h | ⟨m, w', h⟩
        · rw [h] at hl2; simp at hl2
        · exact ⟨m, w', by simpa using h⟩
      have t1 : OpenTriple P Z x y w := h.opens x y w ⟨l1', l2' ++ y :: z :: l3', by simp [hl2]⟩
      have t2 : OpenTriple P Z w' y z :=
        h.opens w' y z ⟨l1' ++ x :: y :: l2'', l3', by simp [hl2']⟩
      have axy : Adj P x y := by
        rw [List.isChain_append] at hc1
        exact hc1.2.2 x (by simp) y (by simp)
      have ayz : Adj P y z := by
        cases hc3 with
        | cons_cons h _ => exact h
      have ayw : Adj P y w := by
        rw [hl2] at hc2
        cases hc2 with
        | cons_cons h _ => exact h
      have aw'y : Adj P w' y := by
        have he : y :: l2 ++ [y] = (y :: l2'') ++ (w' :: [y]) := by simp [hl2']
        rw [he, List.isChain_append] at hc2
        cases hc2.2.1 with
        | cons_cons h _ => exact h
      constructor
      · rintro ⟨hxy, hzy⟩
        by_cases hwy : P w y
        · exact t1.1 ⟨hxy, hwy⟩
        · by_cases hw'y : P w' y
          · exact t2.1 ⟨hw'y, hzy⟩
          · have hyw : P y w := ayw.resolve_right hwy
            have hyw' : P y w' := aw'y.resolve_left hw'y
            refine anc_of_down hac (l2' ++ [y]) y w y w' hyw ?_ ?_ ?_ hyw'
            · rw [hl2] at hc2; simpa using hc2
            · intro p q r hpqr
              refine h.opens p q r (List.IsInfix.trans ?_ hsub2)
              rw [hl2]; simpa using hpqr
            · refine ⟨y :: l2'', ?_⟩
              have : y :: w :: (l2' ++ [y]) = y :: (l2 ++ [y]) := by simp [hl2]
              rw [this, hl2']; simp
      · intro hnc
        by_cases hxy : P x y
        · have hnzy : ¬ P z y := fun h => hnc ⟨hxy, h⟩
          exact t2.2 (fun h => hnzy h.2)
        · exact t1.2 (fun h => hxy h.1)

/-- An active walk contains an active simple path. -/
theorem path_of_walk (hac : Acyclic P) {b a : R} : ∀ (n : Nat) (l : List R), l.length ≤ n →
    ActiveWalk P Z b a l → DConnected P Z b a := by
  intro n
  induction n with
  | zero =>
    intro l hl h
    have : l = [] := List.length_eq_zero_iff.mp (Nat.le_zero.mp hl)
    subst this
    have := h.first; simp at this
  | succ n ih =>
    intro l hl h
    by_cases hnd : l.Nodup
    · exact ⟨l, h, hnd⟩
    · obtain ⟨v, l1, l2, l3, rfl⟩ : ∃ v l1 l2 l3, l = l1 ++ v :: l2 ++ v :: l3 := by
        clear h hl ih
        induction l with
        | nil => simp at hnd
        | cons c l ih =>
          rw [List.nodup_cons] at hnd
          by_cases hc : c ∈ l
          · obtain ⟨l2, l3, rfl⟩ := List.append_of_mem hc
            exact ⟨c, [], l2, l3, by simp⟩
          · obtain ⟨v, l1, l2, l3, rfl⟩ := ih (fun h => hnd ⟨hc, h⟩)
            exact ⟨v, c :: l1, l2, l3, by simp⟩
      refine ih _ ?_ (cut_walk hac h)
      simp at hl ⊢; omega

theorem relevant_iff_dconnected (hac : Acyclic P) {b a : R} :
    Relevant P Z (fun _ => False) b a ↔ DConnected P Z b a := by
  rw [relevant_iff_detWalk hac]
  constructor
  · rintro ⟨l, hl⟩
    exact path_of_walk hac _ l (le_refl _) hl.toActiveWalk
  · rintro ⟨l, hl, _⟩; exact ⟨l, hl, fun _ _ _ _ h => h.1, fun h => h.elim, fun h => h.elim⟩

end DSep
end Edward
