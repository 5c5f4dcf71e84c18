import Mathlib.Data.List.Basic

/-!
# Model of `smt/utils/silence.py`

Streams are numbered. Stream 0 is `sys.__stdout__`; a stream has a record of what was written to it and may be closed. Text written to the null device goes to a stream nobody reads.
Programs are the statements a user writes around `Silence`: prints, exceptions, assignments to `sys.stdout`, sequencing, `with Silence():` and `try: ... except: pass`.
-/
namespace SMT.Silence

/-- Interpreter state: the stream `sys.stdout` refers to, the streams closed so far, what was written to each stream, and the number of the next stream to be opened. -/
structure St where
  cur : ℕ
  closed : ℕ → Bool
  text : ℕ → List String
  next : ℕ

inductive Prog where
  | print (s : String)
  | fail
  | assign (stream : ℕ)
  | seq (p q : Prog)
  | silence (p : Prog)
  | attempt (p : Prog)

/-- `print(s)`: ValueError on a closed stream. The second component says whether an exception is propagating. -/
def doPrint (s : String) (st : St) : St × Bool :=
  if st.closed st.cur then (st, true) else ({ st with text := Function.update st.text st.cur (st.text st.cur ++ [s]) }, false)

/-- `Silence.__enter__`, `silence.py` 12-13: a new stream on the null device becomes `sys.stdout`. -/
def enter (st : St) : St := { st with cur := st.next, next := st.next + 1 }

/-- `Silence.__exit__`, `silence.py` 15-18: closes whatever `sys.stdout` is now (closing twice is allowed), then installs `sys.__stdout__`; `return False` lets an exception go on. -/
def exit (st : St) : St := { st with closed := Function.update st.closed st.cur true, cur := 0 }

/-- Execution. `with` runs `__exit__` also when the body raises. -/
def run : Prog → St → St × Bool
  | .print s, st => doPrint s st
  | .fail, st => (st, true)
  | .assign k, st => ({ st with cur := k }, false)
  | .seq p q, st => let r := run p st; if r.2 then r else run q r.1
  | .silence p, st => let r := run p (enter st); (exit r.1, r.2)
  | .attempt p, st => ((run p st).1, false)

/-! ### `Silence2` -/

/-- Table of the file descriptors of the process: what descriptor 1 (standard output) is connected to; and whether Python streams were replaced. -/
structure Fds where
  out : String
  deriving DecidableEq

/-- Python 3 `map(f, ...)`: an iterator; `f` runs only when the iterator is consumed. -/
def lazyMap (_effect : Fds → Fds) (st : Fds) : Fds := st

/-- `Silence2.__enter__`, `silence.py` 94-116, as far as the descriptors are concerned: the `map(os.dup2, null_fds, fds)` in line 116 is never consumed. Unpacking the `map` in line 107 does consume it, and
`os.fdopen(fd, "w", 0)` raises ValueError (text streams cannot be unbuffered); so does `open` with a text mode and buffer size 0 (lines 109 and 114). `none` is an exception. -/
def enter2 (stdout stderr : String) (textMode : Bool) (st : Fds) : Option Fds :=
  if textMode then none
  else if stdout = stderr ∧ stdout ≠ "/dev/null" then none
  else some (lazyMap (fun _ => ⟨stdout⟩) st)

end SMT.Silence
