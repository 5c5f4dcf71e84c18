/-!
# Model of the training-data store and prediction entry points

`smt/surrogate_models/surrogate_model.py`, `smt/utils/checks.py`.

Arrays are a shape and the row-major list of entries. NumPy copies (`np.array(xt)`, `np.copy(x)`)
are value semantics here: the stored array is a value, so later mutation of the caller's array
cannot reach it. Printing is not modelled.
-/
namespace SMT.Surrogate

/-- A NumPy array of any rank: shape and row-major data. -/
structure NdArray (K : Type) where
  shape : List Nat
  data : List K
deriving DecidableEq, Repr

/-- What a caller may pass where an array is expected. -/
inductive PyObj (K : Type) where
  | nd (a : NdArray K)   -- an np.ndarray
  | other                -- anything else (list, float, None, ...)
deriving DecidableEq, Repr

/-- Python exceptions that occur. -/
inductive Err where
  | value | notImplemented | key | attribute | zeroDivision | assertion | unbound
deriving DecidableEq, Repr

variable {K : Type}

/-- `ensure_2d_array`, `checks.py` 10-19. `np.atleast_2d(array.T).T` maps rank 0 to `(1,1)`, rank 1
`(n,)` to `(n,1)` (the double transposition makes it a column), leaves rank ≥ 2 unchanged;
the rank test then rejects rank ≥ 3. In all accepted cases the row-major data is unchanged. -/
def ensure2d : PyObj K → Except Err (NdArray K)
  | .other => .error .value
  | .nd a =>
    match a.shape with
    | [] => .ok ⟨[1, 1], a.data⟩
    | [n] => .ok ⟨[n, 1], a.data⟩
    | [_, _] => .ok a
    | _ => .error .value

/-- `array.shape[0]` / `array.shape[1]` of a 2-D array. -/
def NdArray.nrows (a : NdArray K) : Nat := a.shape.headD 0
def NdArray.ncols (a : NdArray K) : Nat := (a.shape.drop 1).headD 0

/-- Label of a group of training points (`None` or a string). -/
abbrev Group := Option String

/-- Argument `kx` as passed by the caller: an int (negative allowed by the code) or not an int. -/
inductive KxArg where
  | int (i : Int)
  | other
deriving DecidableEq, Repr

/-- State of the model object touched here: `training_points` (`surrogate_model.py` 95) as
group → key → `[x, y]`, and the attributes `nt`, `nx`, `ny` (`none` before they are first set). -/
structure Store (K : Type) where
  tp : Group → Int → Option (NdArray K × NdArray K)
  dims : Option (Nat × Nat × Nat)   -- (nt, nx, ny)

/-- Fresh object, lines 93-96. -/
def Store.init : Store K := ⟨fun _ _ => none, none⟩

/-- `self.training_points[name][key] = [x, y]`. -/
def Store.put (s : Store K) (g : Group) (k : Int) (x y : NdArray K) : Store K :=
  { s with tp := fun g' k' => if g' = g ∧ k' = k then some (x, y) else s.tp g' k' }

/-- `set_training_values`, lines 102-128. -/
def setValues (s : Store K) (xt yt : PyObj K) (name : Group) : Store K × Except Err Unit :=
  match ensure2d xt with
  | .error e => (s, .error e)
  | .ok x =>
    match ensure2d yt with
    | .error e => (s, .error e)
    | .ok y =>
      if x.nrows ≠ y.nrows then (s, .error .value)
      else ({ s with dims := some (x.nrows, x.ncols, y.ncols) }.put name 0 x y, .ok ())

/-- `update_training_values`, lines 130-167. (The `defaultdict` lookup of a fresh `name` inserts an
empty group; an empty group and a missing one are not distinguished here.) -/
def updateValues (s : Store K) (yt : PyObj K) (name : Group) : Store K × Except Err Unit :=
  match ensure2d yt with
  | .error e => (s, .error e)
  | .ok y =>
    match s.tp name 0 with
    | none => (s, .error .value)
    | some (x, _) =>
      if x.nrows ≠ y.nrows then (s, .error .value)
      else (s.put name 0 x y, .ok ())

/-- `set_training_derivatives`, lines 169-200; `sup` is `supports["training_derivatives"]`. -/
def setDerivs (sup : Bool) (s : Store K) (xt dyt : PyObj K) (kx : KxArg) (name : Group) :
    Store K × Except Err Unit :=
  if sup = false then (s, .error .notImplemented)
  else
    match ensure2d xt with
    | .error e => (s, .error e)
    | .ok x =>
      match ensure2d dyt with
      | .error e => (s, .error e)
      | .ok y =>
        if x.nrows ≠ y.nrows then (s, .error .value)
        else
          match kx with
          | .other => (s, .error .value)
          | .int k => (s.put name (k + 1) x y, .ok ())

/-- `update_training_derivatives`, lines 202-241, for an integer `kx`: the presence test and the
row test use key `kx`, the write goes to key `kx + 1` (whose absence is a `KeyError`). -/
def updateDerivs (sup : Bool) (s : Store K) (dyt : PyObj K) (kx : Int) (name : Group) :
    Store K × Except Err Unit :=
  if sup = false then (s, .error .notImplemented)
  else
    match ensure2d dyt with
    | .error e => (s, .error e)
    | .ok y =>
      match s.tp name kx with
      | none => (s, .error .value)
      | some (x, _) =>
        if x.nrows ≠ y.nrows then (s, .error .value)
        else
          match s.tp name (kx + 1) with
          | none => (s, .error .key)
          | some (x', _) => (s.put name (kx + 1) x' y, .ok ())

/-- Client calls that write training data. -/
inductive Op (K : Type) where
  | setValues (xt yt : PyObj K) (name : Group)
  | updateValues (yt : PyObj K) (name : Group)
  | setDerivs (xt dyt : PyObj K) (kx : KxArg) (name : Group)
  | updateDerivs (dyt : PyObj K) (kx : Int) (name : Group)

def step (sup : Bool) (s : Store K) : Op K → Store K × Except Err Unit
  | .setValues x y g => setValues s x y g
  | .updateValues y g => updateValues s y g
  | .setDerivs x y k g => setDerivs sup s x y k g
  | .updateDerivs y k g => updateDerivs sup s y k g

/-- State after a history of calls, exceptions caught by the caller. -/
def run (sup : Bool) (h : List (Op K)) : Store K :=
  h.foldl (fun s o => (step sup s o).1) Store.init

/-! ## Prediction entry points -/

/-- `check_nx`, `checks.py` 28-35. -/
def checkNx (nx : Nat) (x : NdArray K) : Except Err Unit :=
  if x.ncols ≠ nx then .error .value else .ok ()

/-- `check_support`, `checks.py` 22-25 (with `fail=False`). -/
def checkSupport (sup : Bool) : Except Err Unit :=
  if sup = false then .error .notImplemented else .ok ()

/-- `y.reshape((n, self.ny))`: NumPy raises `ValueError` unless the sizes agree. -/
def reshape2 (n ny : Nat) (data : List K) : Except Err (NdArray K) :=
  if data.length = n * ny then .ok ⟨[n, ny], data⟩ else .error .value

/-- `predict_values`, lines 273-310. `core` is the model-specific `_predict_values` (any function of
the 2-D input that may raise). The division `... / n` of line 306 is `ZeroDivisionError` for `n = 0`.
`nx`/`ny` are read from the attributes (`AttributeError` before training data are set). -/
def predictValues (s : Store K) (core : NdArray K → Except Err (List K)) (x : PyObj K) :
    Except Err (NdArray K) := do
  let x2 ← ensure2d x
  let (_, nx, ny) ← (match s.dims with | some d => .ok d | none => .error .attribute)
  checkNx nx x2
  let y ← core x2
  if x2.nrows = 0 then .error .zeroDivision
  else reshape2 x2.nrows ny y

/-- `predict_derivatives`, lines 312-353 (`core` is `_predict_derivatives(x, kx)` for the given `kx`). -/
def predictDerivatives (sup : Bool) (s : Store K) (core : NdArray K → Except Err (List K))
    (x : PyObj K) : Except Err (NdArray K) := do
  checkSupport sup
  let x2 ← ensure2d x
  let (_, nx, ny) ← (match s.dims with | some d => .ok d | none => .error .attribute)
  checkNx nx x2
  let y ← core x2
  if x2.nrows = 0 then .error .zeroDivision
  else reshape2 x2.nrows ny y

/-- `predict_variances`, lines 377-397 (no timing, hence no division). -/
def predictVariances (sup : Bool) (s : Store K) (core : NdArray K → Except Err (List K))
    (x : PyObj K) : Except Err (NdArray K) := do
  checkSupport sup
  let x2 ← ensure2d x
  let (_, nx, ny) ← (match s.dims with | some d => .ok d | none => .error .attribute)
  checkNx nx x2
  let y ← core x2
  reshape2 x2.nrows ny y

end SMT.Surrogate
