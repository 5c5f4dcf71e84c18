/-!
# Model of `smt/utils/caching.py` and of the way trainers use it

The file system is a partial function from paths to file contents. A file is either a complete pickle
of an outputs dictionary or junk (truncated or corrupt: `pickle.load` raises). The checksum is a
parameter (`md5(pickle.dumps(inputs))` in the code). Operations are deterministic functions of their
inputs; failures of the operation and of writing are events chosen by the environment.
-/
namespace SMT.Caching

/-- A path `"%s/%s_%s.dat" % (data_dir, desc, checksum)`, `caching.py` 35, kept as its three parts
(the checksum has fixed length, so the formatting loses nothing). -/
structure Path where
  dir : String
  desc : String
  checksum : String
deriving DecidableEq

/-- Content of a file: a complete pickled dictionary, or something `pickle.load` rejects.
A dictionary of outputs is `none` when empty (falsy in `if outputs:`), else `some r`. -/
inductive Blob (R : Type) where
  | pickle (outputs : Option R)
  | junk

abbrev FS (R : Type) := Path → Option (Blob R)

/-- The `data_dir` option: `None` or a string. `"%s" % None` is `"None"`. -/
def dirString : Option String → String
  | none => "None"
  | some d => d

/-- Truth value of `data_dir` in `if not load_successful and data_dir:` (line 46). -/
def truthy : Option String → Bool
  | none => false
  | some d => d ≠ ""

/-- What the environment lets happen when the file is opened for writing and dumped (lines 47-48). -/
inductive WriteFate where
  | ok            -- the file is written completely
  | openFails     -- `open(..., "wb")` raises: nothing written
  | torn          -- the process dies or the disk fills during the dump: a truncated file remains

/-- How the body of the `with` block behaves. -/
inductive BodyFate where
  | completes
  | raises

/-- Result seen by the caller. -/
inductive Outcome (R : Type) where
  | ok (r : R)
  | raised
deriving DecidableEq

variable {I R : Type}

def setFile (fs : FS R) (p : Path) (b : Option (Blob R)) : FS R := fun q => if q = p then b else fs q

/-- Lines 36-42: try to load; any exception gives the empty dictionary and "not loaded". -/
def load (fs : FS R) (p : Path) : Option R × Bool :=
  match fs p with
  | some (.pickle o) => (o, true)
  | _ => (none, false)

/-- One use of `cached_operation` by a trainer (`rbf.py` 129-146, `rmts.py` 422-449, `ls.py` 58-68,
`qp.py` 60-70, `idw.py` 61-78): inside the block, `if outputs:` use the stored result, else compute it
and (if `fills`) store it in `outputs`. `compute` is the deterministic operation. -/
def runCached (cks : I → String) (fs : FS R) (dataDir : Option String) (desc : String) (inputs : I)
    (compute : I → R) (fills : Bool) (bf : BodyFate) (wf : WriteFate) : FS R × Outcome R :=
  let p : Path := ⟨dirString dataDir, desc, cks inputs⟩
  let (outputs, loaded) := load fs p
  match bf with
  | .raises => (fs, .raised)                     -- the exception is thrown at the `yield`
  | .completes =>
    let r := match outputs with | some r => r | none => compute inputs
    let outputs' := match outputs with
      | some r => some r
      | none => if fills then some (compute inputs) else none
    if loaded = false ∧ truthy dataDir = true then
      match wf with
      | .ok => (setFile fs p (some (.pickle outputs')), .ok r)
      | .openFails => (fs, .raised)
      | .torn => (setFile fs p (some .junk), .raised)
    else (fs, .ok r)

/-- Everything that can happen to the cache directory between two trainings. -/
inductive Event (I : Type) where
  | train (dataDir : Option String) (desc : String) (inputs : I) (bf : BodyFate) (wf : WriteFate)
  | corrupt (p : Path)      -- some other agent truncates or garbles the file
  | delete (p : Path)

/-- One event; `compute desc` is the operation cached under the prefix `desc`, `fills desc` whether it
stores its result. -/
def step (cks : I → String) (compute : String → I → R) (fills : String → Bool) (fs : FS R) :
    Event I → FS R
  | .train dd desc i bf wf => (runCached cks fs dd desc i (compute desc) (fills desc) bf wf).1
  | .corrupt p => setFile fs p (some .junk)
  | .delete p => setFile fs p none

def run (cks : I → String) (compute : String → I → R) (fills : String → Bool) (h : List (Event I)) : FS R :=
  h.foldl (step cks compute fills) (fun _ => none)

/-! ## `_caching_checksum` (lines 51-79): the printer attribute is removed while pickling -/

/-- The `printer` attribute before/after; `dumps` says whether pickling succeeds. If it raises, the
exception leaves the function before the attribute is restored. -/
def checksumPrinter {P : Type} (printer : Option P) (dumpsOk : Bool) : Option P × Except Unit Unit :=
  let tmp := printer                       -- line 65
  let during : Option P := none            -- line 66
  if dumpsOk = false then (during, .error ())   -- line 70 raises
  else (tmp, .ok ())                       -- line 74

/-! ## RBF: which attributes survive a cache hit (`rbf.py` 99-146) -/

/-- Attributes of an RBF object set by training. -/
structure RbfAttrs (M S : Type) where
  mtx : Option M
  sol : Option S

/-- `RBF._train`, `rbf.py` 138-146: on a hit only `sol` is restored; otherwise `_new_train` sets both. -/
def rbfTrain {M S : Type} (a : RbfAttrs M S) (outputs : Option S) (mtx : M) (sol : S) : RbfAttrs M S :=
  match outputs with
  | some s => { a with sol := some s }
  | none => { mtx := some mtx, sol := some sol }

/-- `RBF._predict_output_derivatives` (`rbf.py` 198-216) reads `self.mtx`: `AttributeError` if unset. -/
def rbfOutputDerivs {M S D : Type} (a : RbfAttrs M S) (f : M → D) : Except Unit D :=
  match a.mtx with
  | some m => .ok (f m)
  | none => .error ()

end SMT.Caching
