/-
Model of `get_session` (edward/util/graphs.py:13-41): the session it selects and its
effect on `sys.stderr`.
-/
namespace Edward

/-- What `from keras import backend` does. -/
inductive ImportResult where
  | ok
  | importError
  | otherError
  deriving DecidableEq

inductive Stderr where
  | handle (n : Nat)
  | devnull
  deriving DecidableEq

/-- Outcome of a call: normal (with the session) or an exception. -/
inductive SessOutcome where
  | returned (session : Nat)
  | raised
  deriving DecidableEq

structure SessState where
  stderr : Stderr
  edSession : Option Nat
  defaultSession : Option Nat
  kerasSession : Option Nat
  deriving DecidableEq

/-- `get_session()`. `fresh` is the session made by `tf.InteractiveSession()`, which
also becomes the default one; `openFails` tells whether `open(os.devnull, 'w')`
raises; `setFails` whether `K.set_session` raises. -/
def getSession (fresh : Nat) (openFails : Bool) (imp : ImportResult) (setFails : Bool)
    (s : SessState) : SessState × SessOutcome :=
  let sess := s.defaultSession.getD fresh
  let s := { s with edSession := some sess, defaultSession := some sess }
  let save := s.stderr
  if openFails then (s, .raised)
  else
    let s := { s with stderr := .devnull }
    match imp with
    | .ok =>
      let s := { s with stderr := save }
      if setFails then (s, .raised)
      else ({ s with kerasSession := some sess }, .returned sess)
    | .importError => ({ s with stderr := save }, .returned sess)
    | .otherError => (s, .raised)

end Edward
