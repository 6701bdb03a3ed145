/-
C135: the variables which an inference trains if `var_list` is not given.
-/
import Mathlib.Data.Fin.VecNotation
import Mathlib.Tactic.FinCases
import Verif.Model.VarList
import Verif.Spec.VarList
import Verif.Props.Graph

namespace Edward
variable {T O R V : Type} [Fintype T] [Fintype R] [DecidableEq T] [DecidableEq R] [DecidableEq V]

theorem setUpdate_nodup {N : Type} [DecidableEq N] (s new : List N) (h : s.Nodup) : (setUpdate s new).Nodup := by
  unfold setUpdate
  induction new generalizing s with
  | nil => exact h
  | cons a l ih =>
    rw [List.foldl_cons]
    exact ih _ (h.insert)

theorem lastWith_of_injOn {S : Type} {vname : V → S} {coll : List V} (hinj : ∀ v ∈ coll, ∀ w ∈ coll, vname v = vname w → v = w) (v : V) :
    LastWith vname coll v ↔ v ∈ coll := by
  refine ⟨fun ⟨pre, post, e, _⟩ => by rw [e]; simp, fun hv => ?_⟩
  have key : ∀ l : List V, (∀ w ∈ l, w ∈ coll) → v ∈ l → LastWith vname l v := by
    intro l
    induction l with
    | nil => simp
    | cons a l ih =>
      intro hsub hmem
      by_cases hl : v ∈ l
      · obtain ⟨pre, post, e, h⟩ := ih (fun w hw => hsub w (List.mem_cons_of_mem _ hw)) hl
        exact ⟨a :: pre, post, by rw [e]; rfl, h⟩
      · have ha : v = a := by simpa [hl] using hmem
        refine ⟨[], l, by rw [ha]; rfl, fun w hw e => hl ?_⟩
        rw [← hinj w (hsub w (List.mem_cons_of_mem _ hw)) v hv e]
        exact hw
  exact key coll (fun _ h => h) hv

theorem foldl_nodup {A N : Type} (f : List N → A → List N) (hf : ∀ s a, s.Nodup → (f s a).Nodup) (l : List A) (s : List N) (h : s.Nodup) :
    (l.foldl f s).Nodup := by
  induction l generalizing s with
  | nil => exact h
  | cons a l ih => exact ih _ (hf s a h)

theorem mem_foldl_iff {A N : Type} (f : List N → A → List N) (P : A → N → Prop) (hf : ∀ s a x, x ∈ f s a ↔ x ∈ s ∨ P a x) (l : List A)
    (s : List N) (x : N) : x ∈ l.foldl f s ↔ x ∈ s ∨ ∃ a ∈ l, P a x := by
  induction l generalizing s with
  | nil => simp
  | cons a l ih => rw [List.foldl_cons, ih, hf]; simp only [List.exists_mem_cons_iff]; tauto

theorem exists_zipIdx {A : Type} (l : List A) (P : A → Prop) : (∃ p ∈ l.zipIdx, P p.1) ↔ ∃ a ∈ l, P a := by
  constructor
  · rintro ⟨p, hp, h⟩
    exact ⟨p.1, List.fst_mem_of_mem_zipIdx hp, h⟩
  · rintro ⟨a, ha, h⟩
    obtain ⟨i, hi, rfl⟩ := List.mem_iff_getElem.mp ha
    exact ⟨(l[i], i), by rw [List.mem_zipIdx_iff_getElem?]; simp [hi], h⟩

/-- C135: by default exactly those trainable variables are trained, each once, which a latent variable, its approximation, or a random
variable bound to data that is not random, depends on. -/
theorem C135_default (g : Graph T O R) {S : Type} [DecidableEq S] (tname : T → S) (vname : V → S) (sched : Nat → Nat → Nat)
    (order : List V → List V) (horder : ∀ l, (order l).Perm l) (latents : List (Node T R × Node T R)) (data : List (DataItem T R))
    (trainables : List V) (hnames : ∀ v ∈ trainables, ∀ w ∈ trainables, vname v = vname w → v = w) :
    (defaultVarList g tname vname sched order latents data trainables).Nodup ∧
    ∀ v, v ∈ defaultVarList g tname vname sched order latents data trainables ↔ v ∈ trainables ∧
      ((∃ p ∈ latents, Spec.DependsOn g tname vname v (g.toTensor p.1) ∨ Spec.DependsOn g tname vname v (g.toTensor p.2)) ∨
        ∃ e ∈ data, e.keyRandom = true ∧ e.valueRandom = false ∧ Spec.DependsOn g tname vname v (g.toTensor e.key)) := by
  have hget : ∀ s x v, v ∈ getVariables g tname vname s x trainables ↔ v ∈ trainables ∧ Spec.DependsOn g tname vname v (g.toTensor x) :=
    fun s x v => by rw [(C08_getVariables_exact g tname vname s x trainables).2 v, lastWith_of_injOn hnames]; rfl
  refine ⟨(horder _).nodup_iff.mpr ?_, fun v => ?_⟩
  · refine foldl_nodup _ (fun s a h => ?_) _ _ (foldl_nodup _ (fun s a h => setUpdate_nodup _ _ (setUpdate_nodup _ _ h)) _ _ List.nodup_nil)
    split
    · exact setUpdate_nodup _ _ h
    · exact h
  · unfold defaultVarList
    dsimp only
    rw [(horder _).mem_iff,
      mem_foldl_iff _ (fun (a : DataItem T R × ℕ) v => v ∈ trainables ∧ a.1.keyRandom = true ∧ a.1.valueRandom = false ∧
        Spec.DependsOn g tname vname v (g.toTensor a.1.key)) ?_,
      mem_foldl_iff _ (fun (a : (Node T R × Node T R) × ℕ) v => v ∈ trainables ∧ (Spec.DependsOn g tname vname v (g.toTensor a.1.1) ∨
        Spec.DependsOn g tname vname v (g.toTensor a.1.2))) ?_,
      exists_zipIdx latents (fun a => v ∈ trainables ∧ (Spec.DependsOn g tname vname v (g.toTensor a.1) ∨
        Spec.DependsOn g tname vname v (g.toTensor a.2))),
      exists_zipIdx data (fun a => v ∈ trainables ∧ a.keyRandom = true ∧ a.valueRandom = false ∧
        Spec.DependsOn g tname vname v (g.toTensor a.key))]
    · constructor
      · rintro ((h | ⟨p, hp, hv, h⟩) | ⟨e, he, hv, h⟩)
        · simp at h
        · exact ⟨hv, Or.inl ⟨p, hp, h⟩⟩
        · exact ⟨hv, Or.inr ⟨e, he, h⟩⟩
      · rintro ⟨hv, ⟨p, hp, h⟩ | ⟨e, he, h⟩⟩
        · exact Or.inl (Or.inr ⟨p, hp, hv, h⟩)
        · exact Or.inr ⟨e, he, hv, h⟩
    · intro s a x
      simp only [mem_setUpdate, hget]
      tauto
    · intro s a x
      split
      · rename_i h
        simp only [Bool.and_eq_true, Bool.not_eq_true'] at h
        simp only [mem_setUpdate, hget, h.1, h.2, true_and]
      · rename_i h
        simp only [Bool.and_eq_true, Bool.not_eq_true'] at h
        constructor
        · exact Or.inl
        · rintro (h' | ⟨_, h1, h2, _⟩)
          · exact h'
          · exact absurd ⟨h1, h2⟩ h

/-- C135, composed inferences: by default the parameters of an approximation that appears only as a value in `data` are not trained. -/
theorem C135_compose (g : Graph T O R) {S : Type} [DecidableEq S] (tname : T → S) (vname : V → S) (sched : Nat → Nat → Nat)
    (order : List V → List V) (horder : ∀ l, (order l).Perm l) (latents : List (Node T R × Node T R)) (data : List (DataItem T R))
    (trainables : List V) (hnames : ∀ v ∈ trainables, ∀ w ∈ trainables, vname v = vname w → v = w) (v : V)
    (hl : ∀ p ∈ latents, ¬ Spec.DependsOn g tname vname v (g.toTensor p.1) ∧ ¬ Spec.DependsOn g tname vname v (g.toTensor p.2))
    (hd : ∀ e ∈ data, ¬ Spec.DependsOn g tname vname v (g.toTensor e.key)) :
    v ∉ defaultVarList g tname vname sched order latents data trainables := by
  rw [(C135_default g tname vname sched order horder latents data trainables hnames).2]
  rintro ⟨_, ⟨p, hp, h | h⟩ | ⟨e, he, _, _, h⟩⟩
  · exact (hl p hp).1 h
  · exact (hl p hp).2 h
  · exact hd e he h

/-- C135: if the value of a random variable is a sample, so that it depends on the parameters of its distribution, then the trainable
variables which the log densities of the latent variables, their approximations and the data depend on are trained. -/
theorem C135_density_partial (g : Graph T O R) {S : Type} [DecidableEq S] (tname : T → S) (vname : V → S) (sched : Nat → Nat → Nat)
    (order : List V → List V) (horder : ∀ l, (order l).Perm l) (latents : List (R × R)) (data : List R)
    (trainables : List V) (hnames : ∀ v ∈ trainables, ∀ w ∈ trainables, vname v = vname w → v = w) (params : R → List T)
    (hsample : ∀ r, ∀ t ∈ params r, g.Reaches t (g.value r)) (v : V) (hv : v ∈ trainables)
    (h : (∃ p ∈ latents, Spec.DensityDependsOn g tname vname params v p.1 ∨ Spec.DensityDependsOn g tname vname params v p.2) ∨
      ∃ x ∈ data, Spec.DensityDependsOn g tname vname params v x) :
    v ∈ defaultVarList g tname vname sched order (latents.map fun p => (.rv p.1, .rv p.2)) (data.map fun x => ⟨true, .rv x, false⟩)
      trainables := by
  have hdep : ∀ r, Spec.DensityDependsOn g tname vname params v r → Spec.DependsOn g tname vname v (g.toTensor (.rv r)) := by
    rintro r ⟨t, ht, u, hu, hr⟩
    exact ⟨u, hu, hr.trans (hsample r t ht)⟩
  rw [(C135_default g tname vname sched order horder _ _ trainables hnames).2]
  refine ⟨hv, ?_⟩
  rcases h with ⟨p, hp, h⟩ | ⟨x, hx, h⟩
  · exact Or.inl ⟨_, List.mem_map_of_mem hp, h.imp (hdep _) (hdep _)⟩
  · exact Or.inr ⟨_, List.mem_map_of_mem hx, rfl, rfl, hdep _ h⟩

/-! ### `z = Normal(loc=mu)`, `x = Normal(loc=z)`, `qz = Normal(loc=lam)` -/

/-- Tensors: `mu`, `lam`, and the values of `z`, `qz` and `x`, made by the operations of the same number. -/
def vlGraph : Graph (Fin 5) (Fin 5) (Fin 3) where
  op := id
  inputs := ![[], [], [0], [1], [2]]
  outputs := fun o => [o]
  consumers := ![[2], [3], [4], [], []]
  value := ![2, 3, 4]

theorem vl_reaches (s t : Fin 5) (h : vlGraph.Reaches s t) : s = t ∨ (s, t) ∈ [((0 : Fin 5), (2 : Fin 5)), (0, 4), (1, 3), (2, 4)] := by
  induction h with
  | refl => exact Or.inl rfl
  | tail h1 h2 ih =>
    have h2' : ∀ b c : Fin 5, vlGraph.Edge b c → (b, c) ∈ [((0 : Fin 5), (2 : Fin 5)), (1, 3), (2, 4)] := by
      unfold Graph.Edge; decide
    have key : ∀ s b c : Fin 5, (s = b ∨ (s, b) ∈ [((0 : Fin 5), (2 : Fin 5)), (0, 4), (1, 3), (2, 4)]) →
        (b, c) ∈ [((0 : Fin 5), (2 : Fin 5)), (1, 3), (2, 4)] →
        s = c ∨ (s, c) ∈ [((0 : Fin 5), (2 : Fin 5)), (0, 4), (1, 3), (2, 4)] := by decide
    exact key _ _ _ ih (h2' _ _ h2)

/-- `KLqp({z: qz}, data={x: x_data})` trains `mu` and `lam`; with `z` bound to `qz` in `data`, an inference of nothing else trains `mu`
only, which it reaches through `x`. -/
example (sched : Nat → Nat → Nat) :
    (∀ v : Fin 2, v ∈ defaultVarList vlGraph (Fin.val ∘ id) (Fin.val : Fin 2 → ℕ) sched id [(.rv 0, .rv 1)] [⟨true, .rv 2, false⟩] [0, 1]) ∧
    (1 : Fin 2) ∉ defaultVarList vlGraph (Fin.val ∘ id) (Fin.val : Fin 2 → ℕ) sched id [] [⟨true, .rv 2, false⟩, ⟨true, .rv 0, true⟩] [0, 1] ∧
    (0 : Fin 2) ∈ defaultVarList vlGraph (Fin.val ∘ id) (Fin.val : Fin 2 → ℕ) sched id [] [⟨true, .rv 2, false⟩, ⟨true, .rv 0, true⟩] [0, 1] := by
  have hn : ∀ v ∈ [(0 : Fin 2), 1], ∀ w ∈ [(0 : Fin 2), 1], (v : ℕ) = w → v = w := by decide
  have e02 : vlGraph.Reaches 0 2 := Relation.ReflTransGen.single (by unfold Graph.Edge; decide)
  have e24 : vlGraph.Reaches 2 4 := Relation.ReflTransGen.single (by unfold Graph.Edge; decide)
  have e13 : vlGraph.Reaches 1 3 := Relation.ReflTransGen.single (by unfold Graph.Edge; decide)
  refine ⟨fun v => ?_, ?_, ?_⟩
  · rw [(C135_default vlGraph _ _ sched id (fun _ => List.Perm.refl _) _ _ _ hn).2]
    rcases Fin.exists_fin_two.mp ⟨v, rfl⟩ with rfl | rfl
    · exact ⟨by simp, Or.inl ⟨_, List.mem_singleton.mpr rfl, Or.inl ⟨0, rfl, e02⟩⟩⟩
    · exact ⟨by simp, Or.inl ⟨_, List.mem_singleton.mpr rfl, Or.inr ⟨1, rfl, e13⟩⟩⟩
  · refine C135_compose vlGraph _ _ sched id (fun _ => List.Perm.refl _) _ _ _ hn 1 (by simp) fun e he => ?_
    have hk : vlGraph.toTensor e.key = 4 ∨ vlGraph.toTensor e.key = 2 := by
      simp only [List.mem_cons, List.not_mem_nil, or_false] at he
      rcases he with rfl | rfl
      · exact Or.inl rfl
      · exact Or.inr rfl
    rintro ⟨u, hu, hr⟩
    have hu' : u = 1 := Fin.ext hu
    subst hu'
    rcases hk with hk | hk <;> rw [hk] at hr <;> exact absurd (vl_reaches _ _ hr) (by decide)
  · rw [(C135_default vlGraph _ _ sched id (fun _ => List.Perm.refl _) _ _ _ hn).2]
    exact ⟨by simp, Or.inr ⟨_, List.mem_cons_self, rfl, rfl, 0, rfl, e02.trans e24⟩⟩

/-- The hypotheses of `C135_density_partial` are met. -/
example (sched : Nat → Nat → Nat) :
    (0 : Fin 2) ∈ defaultVarList vlGraph (Fin.val ∘ id) (Fin.val : Fin 2 → ℕ) sched id
      ([((0 : Fin 3), (1 : Fin 3))].map fun p => (.rv p.1, .rv p.2)) ([(2 : Fin 3)].map fun x => ⟨true, .rv x, false⟩) [0, 1] :=
  C135_density_partial vlGraph _ _ sched id (fun _ => List.Perm.refl _) _ _ _ (by decide) ![[0], [1], [2]]
    (fun r t ht => by
      fin_cases r <;> simp at ht <;> subst ht <;> exact Relation.ReflTransGen.single (by unfold Graph.Edge; decide))
    0 (by simp) (Or.inl ⟨_, List.mem_singleton.mpr rfl, Or.inl ⟨0, by simp, 0, rfl, Relation.ReflTransGen.refl⟩⟩)

/-- C135 fails for random variables made with the argument `value` (random_variable.py:112-118): here `x` has the location `mu` and a given
value; its log density depends on `mu`, which is not trained. -/
theorem C135_value_fails (sched : Nat → Nat → Nat) :
    ∃ (g : Graph (Fin 2) (Fin 2) Unit) (params : Unit → List (Fin 2)),
      Spec.DensityDependsOn g Fin.val (Fin.val : Fin 1 → ℕ) params 0 () ∧
      (0 : Fin 1) ∉ defaultVarList g Fin.val (Fin.val : Fin 1 → ℕ) sched id [] [⟨true, .rv (), false⟩] [0] := by
  refine ⟨⟨id, fun _ => [], fun o => [o], fun _ => [], fun _ => 1⟩, fun _ => [0], ⟨0, by simp, 0, rfl, Relation.ReflTransGen.refl⟩, ?_⟩
  refine C135_compose _ _ _ sched id (fun _ => List.Perm.refl _) _ _ _ (by decide) 0 (by simp) fun e he => ?_
  rw [List.mem_singleton] at he
  subst he
  rintro ⟨u, hu, hr⟩
  have hu' : u = 0 := Fin.ext hu
  subst hu'
  have hne : (0 : Fin 2) ≠ 1 := by decide
  rcases Relation.ReflTransGen.cases_tail hr with h | ⟨c, _, h⟩
  · exact hne h.symm
  · simp [Graph.Edge] at h

/-- C135 fails for `GANInference`, contrary to its documentation: the default is all trainable variables outside the scope of the
discriminator, whatever the data depend on. -/
theorem C135_gan_fails (trainables : List String) (v : String) (hv : v ∈ trainables) (h : ¬ "Disc".toList <+: v.toList) :
    v ∈ varListG trainables none := by
  rw [varListG, List.mem_filter]
  refine ⟨hv, ?_⟩
  simp only [varListD, List.mem_filter, hv, true_and, decide_eq_true_eq]
  rwa [List.isPrefixOf_iff_prefix]

/-- C135 fails for `BiGANInference`: the list passed as `var_list` is not used; trained are the variables whose names begin with "Gen". -/
theorem C135_bigan_fails (trainables l : List String) :
    biganVarList trainables (some l) = biganVarList trainables none ∧
    ∀ v, v ∈ biganVarList trainables (some l) ↔ v ∈ trainables ∧ "Gen".toList <+: v.toList := by
  refine ⟨rfl, fun v => ?_⟩
  rw [biganVarList, List.mem_filter, List.isPrefixOf_iff_prefix]

end Edward
