/-!
# Model of `smt/utils/printer.py`

Programs using a printer are trees of commands. Wall times are not modelled: only how many times are
recorded per key, and the text of a message without the number of seconds.
-/
namespace SMT.Printer

/-- Attributes of `Printer` (lines 27-31) plus what has been printed so far, oldest first, as
(number of indentation units, text). -/
structure St where
  active : Bool
  depth : Nat
  maxDepth : Nat
  times : String → Nat          -- length of `times[key]`, 0 when the key is absent
  out : List (Nat × String)

/-- `__init__`, lines 27-31. -/
def St.init : St := ⟨false, 1, 100, fun _ => 0, []⟩

/-- `__call__`, lines 49-64. -/
def emit (s : St) (text : String) (noindent : Bool) : St :=
  if s.active = true ∧ s.depth ≤ s.maxDepth then
    { s with out := s.out ++ [(if noindent then 0 else s.depth, text)] }
  else s

/-- Programs. -/
inductive Cmd where
  | skip
  | print (text : String) (noindent : Bool)
  | ctx (label : Option String) (key : Option String) (body : Cmd)   -- `with printer._timed_context(...)`
  | seq (a b : Cmd)
  | setActive (b : Bool)
  | raise
  | tryExcept (c : Cmd)       -- run `c`, swallow its exception

/-- Message printed before/after a labelled context. -/
def emitOpt (s : St) (label : Option String) (suffix : String) : St :=
  match label with
  | none => s
  | some l => emit s (l ++ suffix) false

def recordTime (s : St) (key : Option String) : St :=
  match key with
  | none => s
  | some k => { s with times := fun k' => if k' = k then s.times k' + 1 else s.times k' }

/-- Execution; the Boolean says whether an exception is propagating. `_timed_context` (lines 98-131):
message, depth + 1, body, depth - 1, message, time. There is no `try/finally`, so if the body raises,
nothing after the `yield` runs. -/
def exec : Cmd → St → St × Bool
  | .skip, s => (s, false)
  | .print t n, s => (emit s t n, false)
  | .setActive b, s => ({ s with active := b }, false)
  | .raise, s => (s, true)
  | .seq a b, s =>
    match exec a s with
    | (s1, true) => (s1, true)
    | (s1, false) => exec b s1
  | .tryExcept c, s => ((exec c s).1, false)
  | .ctx label key body, s =>
    let s1 := emitOpt s label " ..."
    let s2 := { s1 with depth := s1.depth + 1 }
    match exec body s2 with
    | (s3, true) => (s3, true)
    | (s3, false) =>
      let s4 := { s3 with depth := s3.depth - 1 }
      (recordTime (emitOpt s4 label " - done.") key, false)

end SMT.Printer
