/-
Property C73: `get_session` and `sys.stderr`.
-/
import Verif.Model.Session

namespace Edward

/-- C73 (part): `sys.stderr` is as before whenever the import succeeds or raises
`ImportError`, also when opening the null device or `set_session` raises. -/
theorem C73_stderr_partial (fresh : Nat) (openFails setFails : Bool) (imp : ImportResult)
    (s : SessState) (h : imp ≠ .otherError) :
    (getSession fresh openFails imp setFails s).1.stderr = s.stderr := by
  unfold getSession
  cases openFails <;> cases imp <;> cases setFails <;> first | rfl | exact absurd rfl h

/-- C73 (part): a normal return restores it. -/
theorem C73_return_partial (fresh : Nat) (openFails setFails : Bool) (imp : ImportResult)
    (s : SessState) (k : Nat) (h : (getSession fresh openFails imp setFails s).2 = .returned k) :
    (getSession fresh openFails imp setFails s).1.stderr = s.stderr ∧
    k = s.defaultSession.getD fresh ∧
    (getSession fresh openFails imp setFails s).1.defaultSession = some k ∧
    (getSession fresh openFails imp setFails s).1.edSession = some k := by
  revert h
  unfold getSession
  cases openFails <;> cases imp <;> cases setFails <;> simp <;> rintro rfl <;> exact ⟨rfl, rfl⟩

/-- C73 fails: any other exception during the import leaves the process without its
standard error stream, for every state. -/
theorem C73_stderr_fails (fresh : Nat) (setFails : Bool) (s : SessState) (hs : s.stderr ≠ .devnull) :
    (getSession fresh false .otherError setFails s).1.stderr ≠ s.stderr := by
  simpa [getSession] using fun h => hs h.symm

/-- Two calls in a row select the same session. -/
theorem C73_idempotent (f g : Nat) (o1 o2 s1 s2 : Bool) (i1 i2 : ImportResult) (s : SessState) (a b : Nat)
    (h1 : (getSession f o1 i1 s1 s).2 = .returned a)
    (h2 : (getSession g o2 i2 s2 (getSession f o1 i1 s1 s).1).2 = .returned b) : a = b := by
  obtain ⟨-, -, hd, -⟩ := C73_return_partial f o1 s1 i1 s a h1
  obtain ⟨-, hb, -, -⟩ := C73_return_partial g o2 s2 i2 _ b h2
  rw [hb, hd]; rfl

/-- C73: when the call raises: opening the null device failed, the import raised something
other than `ImportError`, or Keras rejected the session. -/
theorem C73_raises (fresh : Nat) (openFails setFails : Bool) (imp : ImportResult) (s : SessState) :
    (getSession fresh openFails imp setFails s).2 = .raised ↔
      openFails = true ∨ imp = .otherError ∨ (imp = .ok ∧ setFails = true) := by
  unfold getSession
  cases openFails <;> cases imp <;> cases setFails <;> simp

/-- C73: Keras is told the session exactly when it could be imported and took it; in every
other case its session is as before. -/
theorem C73_keras (fresh : Nat) (openFails setFails : Bool) (imp : ImportResult) (s : SessState) :
    (getSession fresh openFails imp setFails s).1.kerasSession =
      if openFails = false ∧ imp = .ok ∧ setFails = false then some (s.defaultSession.getD fresh)
      else s.kerasSession := by
  unfold getSession
  cases openFails <;> cases imp <;> cases setFails <;> simp

example : (getSession 7 false .importError false ⟨.handle 2, none, none, none⟩) =
    (⟨.handle 2, some 7, some 7, none⟩, .returned 7) := rfl

end Edward
