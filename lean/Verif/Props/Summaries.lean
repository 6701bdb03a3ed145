/-
C145: what is logged for TensorBoard.
-/
import Verif.Props.VarList
import Verif.Model.Summaries
import Verif.Spec.Summaries
import Mathlib.Order.Interval.Finset.Nat
import Mathlib.Data.Nat.Count
import Mathlib.Tactic.Ring

namespace Edward

section
variable {V : Type}

theorem slashes_eq (z : List Char) (hz : ':' ∉ z) : slashes (z ++ [':', '0']) = z ++ ['/', '0'] := by
  have : z.map (fun c => if c = ':' then '/' else c) = z := by
    conv_rhs => rw [← List.map_id z]
    refine List.map_congr_left fun c hc => ?_
    rw [if_neg]
    · rfl
    · rintro rfl; exact hz hc
  simp [slashes, this]

/-- The summary of a variable with known rank. -/
noncomputable def paramSummary (name : V → List Char) (shape : V → Option (List (Option ℕ))) (v : V) : SummaryOp V := by
  classical
  exact ⟨!decide (Spec.Single (shape v)), "parameter/".toList ++ slashes (name v),
    if shape v = some [some 1] then .first v else .var v⟩

theorem logVariable_eq (name : V → List Char) (shape : V → Option (List (Option ℕ))) (v : V) :
    logVariable name shape v = if shape v = none then .error .valueError else .ok (paramSummary name shape v) := by
  unfold logVariable paramSummary
  rcases h : shape v with _ | s
  · simp
  · rcases s with _ | ⟨d, _ | ⟨e, s⟩⟩
    · simp [Spec.Single]
    · by_cases hd : d = some 1 <;> simp [Spec.Single, hd]
    · simp [Spec.Single]

/-- C145: `initialize` logs every variable of `log_vars`, in order, with one summary each, if their ranks are known; otherwise it
raises a ValueError. -/
theorem C145_parameters (name : V → List Char) (shape : V → Option (List (Option ℕ))) (vs : List V) :
    ((∀ v ∈ vs, shape v ≠ none) → setLogVariables name shape vs = .ok (vs.map (paramSummary name shape))) ∧
    ((∃ v ∈ vs, shape v = none) → setLogVariables name shape vs = .error .valueError) := by
  induction vs with
  | nil => simp [setLogVariables]
  | cons v vs ih =>
    constructor
    · intro h
      rw [setLogVariables, logVariable_eq, if_neg (h v (by simp))]
      dsimp only
      rw [ih.1 fun w hw => h w (by simp [hw])]
      rfl
    · intro h
      rw [setLogVariables, logVariable_eq]
      by_cases hv : shape v = none
      · rw [if_pos hv]
      · rw [if_neg hv]
        dsimp only
        rw [ih.2 (by
          obtain ⟨w, hw, e⟩ := h
          rcases List.mem_cons.mp hw with rfl | hw
          · exact absurd e hv
          · exact ⟨w, hw, e⟩)]

/-- C145: with `log_vars=[]` no variable is logged. -/
theorem C145_nothing (name : V → List Char) (shape : V → Option (List (Option ℕ))) : setLogVariables name shape [] = .ok [] := rfl

/-- C145: a variable is shown by a scalar summary if and only if it holds a single number, and then the summary shows that number;
the histogram of any other variable is that of its entries. The tag is the name of the variable. -/
theorem C145_kind (name : V → List Char) (shape : V → Option (List (Option ℕ))) (v : V) (s : SummaryOp V)
    (h : logVariable name shape v = .ok s) :
    (s.histogram = false ↔ Spec.Single (shape v)) ∧
    (s.shown = if shape v = some [some 1] then .first v else .var v) ∧
    ∀ x, ':' ∉ x → name v = x ++ ":0".toList → s.tag = "parameter/".toList ++ x ++ "/0".toList := by
  rw [logVariable_eq] at h
  split at h
  · simp at h
  · injection h with h
    subst h
    refine ⟨by simp [paramSummary], rfl, fun x hx e => ?_⟩
    have e' : name v = x ++ [':', '0'] := e
    simp only [paramSummary, e', slashes_eq x hx]
    simp

/-- C145 fails: the docstring promises a histogram for a variable whose shape is not scalar; a vector of length one is shown as a
scalar. -/
theorem C145_vector_fails (name : V → List Char) (v : V) :
    ∃ s, logVariable name (fun _ => some [some 1]) v = .ok s ∧ s.histogram = false :=
  ⟨_, rfl, rfl⟩

/-! Tags -/

theorem slashes_variableName {m n : List Char} (hm : Spec.VariableName m) (hn : Spec.VariableName n) (h : slashes m = slashes n) :
    m = n := by
  obtain ⟨x, hx, rfl⟩ := hm
  obtain ⟨y, hy, rfl⟩ := hn
  rw [slashes_eq x hx, slashes_eq y hy] at h
  rw [List.append_cancel_right h]

theorem gradSummaries_ok (name : V → List Char) (gs : List (V × Bool)) :
    ((∀ p ∈ gs, p.2 = true) → gradSummaries name gs = .ok (gs.flatMap fun p =>
      [⟨true, "gradient/".toList ++ slashes (name p.1), .grad p.1⟩,
        ⟨false, "gradient_norm/".toList ++ slashes (name p.1), .gradNorm p.1⟩])) ∧
    ((∃ p ∈ gs, p.2 = false) → gradSummaries name gs = .error .valueError) := by
  induction gs with
  | nil => simp [gradSummaries]
  | cons p gs ih =>
    obtain ⟨v, g⟩ := p
    constructor
    · intro h
      have hg : g = true := h (v, g) (by simp)
      subst hg
      rw [gradSummaries, if_pos rfl, ih.1 fun q hq => h q (by simp [hq])]
      rfl
    · intro h
      rw [gradSummaries]
      cases g with
      | false => rfl
      | true =>
        rw [if_pos rfl, ih.2 (by
          obtain ⟨q, hq, e⟩ := h
          rcases List.mem_cons.mp hq with rfl | hq
          · simp at e
          · exact ⟨q, hq, e⟩)]

/-- C145: with `logdir`, `initialize` of a variational method succeeds if and only if it does without, the ranks of the variables
logged are known, and every variable has a gradient. -/
theorem C145_initialize (name : V → List Char) (shape : V → Option (List (Option ℕ))) (vs : List V) (terms : List (List Char))
    (grads : List (V × Bool)) :
    (∃ l, viInitialize name shape true vs terms grads = .ok l) ↔
      (∃ l, viInitialize name shape false vs terms grads = .ok l) ∧ (∀ v ∈ vs, shape v ≠ none) ∧ ∀ p ∈ grads, p.2 = true := by
  by_cases h1 : ∀ v ∈ vs, shape v ≠ none
  · by_cases h2 : ∀ p ∈ grads, p.2 = true
    · simp only [viInitialize, if_true, (C145_parameters name shape vs).1 h1, (gradSummaries_ok name grads).1 h2]
      by_cases h3 : grads.any (·.2) = true
      · simp only [h3, if_true, Except.ok.injEq, exists_eq', true_iff]
        exact ⟨⟨[], by simp⟩, h1, h2⟩
      · simp [h3]
    · have h2' : ∃ p ∈ grads, p.2 = false := by
        push Not at h2
        obtain ⟨p, hp, h⟩ := h2
        exact ⟨p, hp, by simpa using h⟩
      simp only [viInitialize, if_true, (C145_parameters name shape vs).1 h1, (gradSummaries_ok name grads).2 h2', h2]
      simp
  · have h1' : ∃ v ∈ vs, shape v = none := by
      push Not at h1
      exact h1
    simp only [viInitialize, if_true, (C145_parameters name shape vs).2 h1', h1]
    simp

/-- C145 fails: if one of two variables has no gradient, `initialize` succeeds without `logdir` and raises a ValueError with it. -/
theorem C145_gradient_fails (name : V → List Char) (shape : V → Option (List (Option ℕ))) (v w : V) (terms : List (List Char)) :
    viInitialize name shape false [] terms [(v, true), (w, false)] = .ok [] ∧
      viInitialize name shape true [] terms [(v, true), (w, false)] = .error .valueError := ⟨rfl, rfl⟩

/-- C145 fails: so does a variable of unknown rank, in variational and Monte Carlo methods. -/
theorem C145_rank_fails (name : V → List Char) (v : V) (terms : List (List Char)) :
    viInitialize name (fun _ => none) false [v] terms [(v, true)] = .ok [] ∧
      viInitialize name (fun _ => none) true [v] terms [(v, true)] = .error .valueError ∧
      mcInitialize name (fun _ => none) false [v] = .ok [] ∧ mcInitialize name (fun _ => none) true [v] = .error .valueError :=
  ⟨rfl, rfl, rfl, rfl⟩

/-- C145: no two summaries of an inference ask for the same tag, if each variable is logged and trained once and the parts of the loss
have different names. -/
theorem C145_tags (name : V → List Char) (shape : V → Option (List (Option ℕ))) (vs : List V) (hvs : vs.Nodup)
    (hname : ∀ v, Spec.VariableName (name v)) (hinj : Function.Injective name) (terms : List (List Char)) (hterms : terms.Nodup)
    (hloss : ∀ t ∈ terms, ∃ r, t = "loss/".toList ++ r) (grads : List (V × Bool)) (hgrads : (grads.map Prod.fst).Nodup) :
    (∀ l, viInitialize name shape true vs terms grads = .ok l → (l.map SummaryOp.tag).Nodup) ∧
    ∀ l, mcInitialize name shape true vs = .ok l → (l.map SummaryOp.tag).Nodup := by
  have inj : ∀ v w, slashes (name v) = slashes (name w) → v = w := fun v w h => hinj (slashes_variableName (hname v) (hname w) h)
  have hp : ((vs.map (paramSummary name shape)).map SummaryOp.tag).Nodup := by
    rw [List.map_map]
    refine hvs.map_on fun v _ w _ h => ?_
    simp only [Function.comp, paramSummary] at h
    exact inj v w (List.append_cancel_left h)
  have hpt : ∀ t ∈ (vs.map (paramSummary name shape)).map SummaryOp.tag, ∃ r, t = "parameter/".toList ++ r := by
    intro t ht
    simp only [List.mem_map, exists_exists_and_eq_and] at ht
    obtain ⟨v, _, rfl⟩ := ht
    exact ⟨_, rfl⟩
  constructor
  · intro l h
    have hs : (∀ v ∈ vs, shape v ≠ none) ∧ ∀ p ∈ grads, p.2 = true :=
      ((C145_initialize name shape vs terms grads).mp ⟨l, h⟩).2
    simp only [viInitialize, if_true, (C145_parameters name shape vs).1 hs.1, (gradSummaries_ok name grads).1 hs.2] at h
    split at h
    · injection h with h
      subst h
      have hgt : ∀ t ∈ (grads.flatMap fun p =>
          ([⟨true, "gradient/".toList ++ slashes (name p.1), .grad p.1⟩,
            ⟨false, "gradient_norm/".toList ++ slashes (name p.1), .gradNorm p.1⟩] : List (SummaryOp V))).map SummaryOp.tag,
          ∃ r, t = "gradient".toList ++ r := by
        intro t ht
        simp only [List.mem_map, List.mem_flatMap, List.mem_cons, List.not_mem_nil, or_false] at ht
        obtain ⟨a, ⟨p, _, rfl | rfl⟩, rfl⟩ := ht
        · exact ⟨'/' :: slashes (name p.1), rfl⟩
        · exact ⟨"_norm/".toList ++ slashes (name p.1), rfl⟩
      have hg : ((grads.flatMap fun p =>
          ([⟨true, "gradient/".toList ++ slashes (name p.1), .grad p.1⟩,
            ⟨false, "gradient_norm/".toList ++ slashes (name p.1), .gradNorm p.1⟩] : List (SummaryOp V))).map SummaryOp.tag).Nodup := by
        clear * - hgrads inj
        induction grads with
        | nil => simp
        | cons p gs ih =>
          have hgrads' := hgrads
          rw [List.map_cons, List.nodup_cons] at hgrads'
          have := ih hgrads'.2
          simp only [List.flatMap_cons, List.map_cons, List.cons_append, List.nil_append,
            List.nodup_cons, List.mem_cons, not_or]
          refine ⟨⟨?_, ?_⟩, ?_, this⟩
          · simp
          · intro hm
            simp only [List.mem_map, List.mem_flatMap, List.mem_cons, List.not_mem_nil, or_false] at hm
            obtain ⟨a, ⟨q, hq, rfl | rfl⟩, e⟩ := hm
            · exact hgrads'.1 (List.mem_map.mpr ⟨q, hq, inj _ _ (List.append_cancel_left e)⟩)
            · simp at e
          · intro hm
            simp only [List.mem_map, List.mem_flatMap, List.mem_cons, List.not_mem_nil, or_false] at hm
            obtain ⟨a, ⟨q, hq, rfl | rfl⟩, e⟩ := hm
            · simp at e
            · exact hgrads'.1 (List.mem_map.mpr ⟨q, hq, inj _ _ (List.append_cancel_left e)⟩)
      have ht : (terms.map (fun t => (⟨false, t, .term t⟩ : SummaryOp V))).map SummaryOp.tag = terms := by
        rw [List.map_map]; exact List.map_id' terms
      rw [List.map_append, List.map_append, ht, List.map_cons]
      refine List.Nodup.append (hp.append hterms ?_) (List.nodup_cons.mpr ⟨?_, hg⟩) ?_
      · intro t h1 h2
        obtain ⟨r, rfl⟩ := hpt t h1
        obtain ⟨r', e⟩ := hloss _ h2
        simp at e
      · intro hm
        obtain ⟨r, e⟩ := hgt _ hm
        simp at e
      · intro t h1 h2
        rcases List.mem_append.mp h1 with h1 | h1
        · obtain ⟨r, rfl⟩ := hpt t h1
          rcases List.mem_cons.mp h2 with e | h2
          · simp at e
          · obtain ⟨r', e⟩ := hgt _ h2
            simp at e
        · obtain ⟨r, rfl⟩ := hloss t h1
          rcases List.mem_cons.mp h2 with e | h2
          · simp at e
          · obtain ⟨r', e⟩ := hgt _ h2
            simp at e
    · simp at h
  · intro l h
    simp only [mcInitialize, if_true] at h
    by_cases hs : ∀ v ∈ vs, shape v ≠ none
    · rw [(C145_parameters name shape vs).1 hs] at h
      injection h with h
      subst h
      rw [List.map_append]
      refine hp.append (by simp) ?_
      intro t h1 h2
      obtain ⟨r, rfl⟩ := hpt t h1
      simp at h2
    · push Not at hs
      rw [(C145_parameters name shape vs).2 hs] at h
      simp at h

/-- Variables of a program: a location and a scale. -/
example : (∀ v, Spec.VariableName ((fun b : Bool => if b then "qmu/loc:0".toList else "qmu/scale:0".toList) v)) ∧
    Function.Injective (fun b : Bool => if b then "qmu/loc:0".toList else "qmu/scale:0".toList) ∧
    ["loss/p_log_prob".toList, "loss/reg_penalty".toList].Nodup ∧
    ∀ t ∈ ["loss/p_log_prob".toList, "loss/reg_penalty".toList], ∃ r, t = "loss/".toList ++ r := by
  refine ⟨fun v => ?_, fun a b h => ?_, by simp, fun t ht => ?_⟩
  · cases v
    · exact ⟨"qmu/scale".toList, by simp, rfl⟩
    · exact ⟨"qmu/loc".toList, by simp, rfl⟩
  · cases a <;> cases b <;> simp_all
  · simp only [List.mem_cons, List.not_mem_nil, or_false] at ht
    rcases ht with rfl | rfl
    · exact ⟨"p_log_prob".toList, rfl⟩
    · exact ⟨"reg_penalty".toList, rfl⟩

end

section
variable {T O R V : Type} [Fintype T] [Fintype R] [DecidableEq T] [DecidableEq R] [DecidableEq V]

/-- C145: by default exactly those variables are logged, each once, which a key of `data`, a latent variable or its approximation
depends on. -/
theorem C145_default (g : Graph T O R) {S : Type} [DecidableEq S] (tname : T → S) (vname : V → S) (sched : Nat → Nat → Nat)
    (order : List V → List V) (horder : ∀ l, (order l).Perm l) (keys : List (Node T R)) (latents : List (Node T R × Node T R))
    (globals : List V) (hnames : ∀ v ∈ globals, ∀ w ∈ globals, vname v = vname w → v = w) :
    (defaultLogVars g tname vname sched order keys latents globals).Nodup ∧
    ∀ v, v ∈ defaultLogVars g tname vname sched order keys latents globals ↔ v ∈ globals ∧
      ((∃ x ∈ keys, Spec.DependsOn g tname vname v (g.toTensor x)) ∨
        ∃ p ∈ latents, Spec.DependsOn g tname vname v (g.toTensor p.1) ∨ Spec.DependsOn g tname vname v (g.toTensor p.2)) := by
  have hget : ∀ s x v, v ∈ getVariables g tname vname s x globals ↔ v ∈ globals ∧ Spec.DependsOn g tname vname v (g.toTensor x) :=
    fun s x v => by rw [(C08_getVariables_exact g tname vname s x globals).2 v, lastWith_of_injOn hnames]; rfl
  refine ⟨(horder _).nodup_iff.mpr (setUpdate_nodup _ _ List.nodup_nil), fun v => ?_⟩
  unfold defaultLogVars
  dsimp only
  rw [(horder _).mem_iff, mem_setUpdate, List.mem_append, List.mem_flatMap, List.mem_flatMap]
  simp only [List.mem_append, hget, List.not_mem_nil, false_or]
  rw [exists_zipIdx keys (fun x => v ∈ globals ∧ Spec.DependsOn g tname vname v (g.toTensor x)),
    exists_zipIdx latents (fun p => v ∈ globals ∧ Spec.DependsOn g tname vname v (g.toTensor p.1) ∨
      v ∈ globals ∧ Spec.DependsOn g tname vname v (g.toTensor p.2))]
  constructor
  · rintro (⟨x, hx, hv, h⟩ | ⟨p, hp, ⟨hv, h⟩ | ⟨hv, h⟩⟩)
    · exact ⟨hv, Or.inl ⟨x, hx, h⟩⟩
    · exact ⟨hv, Or.inr ⟨p, hp, Or.inl h⟩⟩
    · exact ⟨hv, Or.inr ⟨p, hp, Or.inr h⟩⟩
  · rintro ⟨hv, ⟨x, hx, h⟩ | ⟨p, hp, h | h⟩⟩
    · exact Or.inl ⟨x, hx, hv, h⟩
    · exact Or.inr ⟨p, hp, Or.inl ⟨hv, h⟩⟩
    · exact Or.inr ⟨p, hp, Or.inr ⟨hv, h⟩⟩

/-- `KLqp({z: qz}, data={x: x_data})` logs `mu` and `lam`. -/
example (sched : Nat → Nat → Nat) (v : Fin 2) :
    v ∈ defaultLogVars vlGraph (Fin.val ∘ id) (Fin.val : Fin 2 → ℕ) sched id [.rv 2] [(.rv 0, .rv 1)] [0, 1] := by
  have hn : ∀ v ∈ [(0 : Fin 2), 1], ∀ w ∈ [(0 : Fin 2), 1], (v : ℕ) = w → v = w := by decide
  have e02 : vlGraph.Reaches 0 2 := Relation.ReflTransGen.single (by unfold Graph.Edge; decide)
  have e13 : vlGraph.Reaches 1 3 := Relation.ReflTransGen.single (by unfold Graph.Edge; decide)
  rw [(C145_default vlGraph _ _ sched id (fun _ => List.Perm.refl _) _ _ _ hn).2]
  rcases Fin.exists_fin_two.mp ⟨v, rfl⟩ with rfl | rfl
  · exact ⟨by simp, Or.inr ⟨_, List.mem_singleton.mpr rfl, Or.inl ⟨0, rfl, e02⟩⟩⟩
  · exact ⟨by simp, Or.inr ⟨_, List.mem_singleton.mpr rfl, Or.inr ⟨1, rfl, e13⟩⟩⟩

/-- C145 fails: not all variables are logged. With `z` bound to `qz` in `data`, the variable `lam` of `qz` is not. -/
theorem C145_all_fails (sched : Nat → Nat → Nat) :
    (1 : Fin 2) ∉ defaultLogVars vlGraph (Fin.val ∘ id) (Fin.val : Fin 2 → ℕ) sched id [.rv 2, .rv 0] [] [0, 1] ∧
      Spec.DependsOn vlGraph (Fin.val ∘ id) (Fin.val : Fin 2 → ℕ) 1 (vlGraph.toTensor (.rv 1)) := by
  have hn : ∀ v ∈ [(0 : Fin 2), 1], ∀ w ∈ [(0 : Fin 2), 1], (v : ℕ) = w → v = w := by decide
  have e13 : vlGraph.Reaches 1 3 := Relation.ReflTransGen.single (by unfold Graph.Edge; decide)
  refine ⟨?_, 1, rfl, e13⟩
  rw [(C145_default vlGraph _ _ sched id (fun _ => List.Perm.refl _) _ _ _ hn).2]
  rintro ⟨_, ⟨x, hx, h⟩ | ⟨p, hp, _⟩⟩
  · have hk : vlGraph.toTensor x = 4 ∨ vlGraph.toTensor x = 2 := by
      simp only [List.mem_cons, List.not_mem_nil, or_false] at hx
      rcases hx with rfl | rfl
      · left; rfl
      · right; rfl
    obtain ⟨u, hu, hr⟩ := h
    have hu' : u = 1 := Fin.ext hu
    subst hu'
    rcases hk with hk | hk <;> rw [hk] at hr <;> exact absurd (vl_reaches _ _ hr) (by decide)
  · simp at hp

end

section
variable {S A Θ : Type}

theorem updates_t (o : Observed S A Θ) (c : ObserveArgs) (src : S → ℕ → A) (θ : Θ) (n : ℕ) : (o.updates c src θ n).t = n := by
  induction n with
  | zero => rfl
  | succ n ih =>
    simp only [Observed.updates, Observed.update]
    split <;> simp [ih]

/-- C145: with `logdir` and a positive `n_print`, a summary is written at the first update and at the multiples of `n_print`. -/
theorem C145_written (o : Observed S A Θ) (debug : Bool) (p : ℕ) (hp : 0 < p) (src : S → ℕ → A) (θ : Θ) (n : ℕ) :
    (o.updates ⟨debug, true, p⟩ src θ n).logged.length = (Spec.due p n).card := by
  induction n with
  | zero => rfl
  | succ n ih =>
    have e : Spec.due p (n + 1) = if n + 1 = 1 ∨ p ∣ n + 1 then insert (n + 1) (Spec.due p n) else Spec.due p n := by
      unfold Spec.due
      rw [← Finset.insert_Icc_right_eq_Icc_add_one (by omega), Finset.filter_insert]
    have hl : (⟨debug, true, p⟩ : ObserveArgs).logs (n + 1) = decide (n + 1 = 1 ∨ p ∣ n + 1) := by
      have h0 : ((p : ℤ) != 0) = true := by simp; omega
      simp only [ObserveArgs.logs, showsProgress, h0, Bool.true_and]
      rw [Bool.eq_iff_iff]
      simp only [Bool.or_eq_true, beq_iff_eq, decide_eq_true_eq]
      rw [← Int.natCast_dvd_natCast, Int.dvd_iff_emod_eq_zero]
    have hn : n + 1 ∉ Spec.due p n := by simp [Spec.due]
    simp only [Observed.updates, Observed.update, updates_t, hl, e]
    by_cases h : n + 1 = 1 ∨ p ∣ n + 1
    · simp only [decide_eq_true h, if_true, if_pos h, List.length_append, List.length_singleton, ih, Finset.card_insert_of_notMem hn]
    · simp only [decide_eq_false h, if_neg h]
      simpa using ih

/-- C145 fails: with the default `n_print` and less than 100 iterations, `logdir` gets no summaries. -/
theorem C145_short_fails (o : Observed S A Θ) (debug : Bool) (nIter : ℕ) (h : nIter < 100) (src : S → ℕ → A) (θ : Θ) (n : ℕ) :
    (o.updates ⟨debug, true, defaultNPrint nIter⟩ src θ n).logged = [] := by
  have e : defaultNPrint nIter = 0 := by simp [defaultNPrint, Nat.div_eq_of_lt h]
  induction n with
  | zero => rfl
  | succ n ih =>
    rw [e] at ih ⊢
    simp [Observed.updates, Observed.update, ObserveArgs.logs, showsProgress, ih]

example : (Spec.due 10 25).card = 3 := by decide

end

end Edward
