import Mathlib.Algebra.Order.Field.Basic
import Mathlib.Data.List.Basic
import Mathlib.Data.Nat.Digits.Defs

/-!
# Model of saving and loading for neural networks

`smt/utils/neural_net/model.py` (`Model.__init__`, `initialize`, `load_parameters`, `evaluate`), `fwd_prop.py` (`L_model_forward`),
`data.py` (`load_csv`).

Here the parameters are what they are in the code: a dictionary from names `"W1"`, `"b1"`, … to arrays, of any shapes. (`Nn/Model.lean` has the networks
whose shapes fit.) `evaluate` treats the columns of `X` (the examples) separately, so the model has one of them.
-/
namespace SMT.Nn.Persist

variable {K : Type} [Field K]

/-- An array with two axes: `rows` and `shape[1]` (every row has that many entries). -/
structure Arr (K : Type) where
  rows : List (List K)
  cols : ℕ
deriving DecidableEq

/-- The exceptions. -/
inductive Err where
  | key (k : String)
  | assertion
  | value
  | index
  | exception (msg : String)
deriving DecidableEq

/-- The activations of `Model`, `model.py` 126, 143. -/
inductive Act where
  | tanh
  | linear
deriving DecidableEq

/-- A dictionary of arrays (distinct keys, insertion order). -/
abbrev Params (K : Type) := List (String × Arr K)

/-- `"W" + str(l)`, `"b" + str(l)`. -/
def wKey (l : ℕ) : String := "W" ++ toString l
@[inherit_doc wKey] def bKey (l : ℕ) : String := "b" ++ toString l

/-- `parameters[key]`. -/
def get (p : Params K) (k : String) : Except Err (Arr K) :=
  match p.lookup k with
  | some a => .ok a
  | none => .error (.key k)

/-- Attributes of the object used by `evaluate`, `model.py` 104-118. The scale factors `(mu, sigma)` of inputs and outputs are numbers
or columns; here functions of the row. -/
structure Model (K : Type) where
  params : Params K
  acts : List Act
  dims : List ℕ
  nx : Option ℕ
  ny : Option ℕ
  muX : ℕ → K
  sigmaX : ℕ → K
  muY : ℕ → K
  sigmaY : ℕ → K

/-- `Model()`, `model.py` 104-118: the scale factors start as `(1, 1)`. -/
def fresh : Model K := ⟨[], [], [], none, none, fun _ => 1, fun _ => 1, fun _ => 1, fun _ => 1⟩

/-- `[n_x] + [wide] * deep + [n_y]`, `model.py` 124, 142. -/
def layerDims (nx wide deep ny : ℕ) : List ℕ := nx :: List.replicate deep wide ++ [ny]

/-- `[Tanh()] * deep + [Linear()]`, `model.py` 126, 143. -/
def activations (deep : ℕ) : List Act := List.replicate deep .tanh ++ [.linear]

/-- `Model.initialize(n_x, n_y, deep, wide)`, `model.py` 122-134, with the parameters drawn by `initialize_parameters`. -/
def init (nx ny deep wide : ℕ) (drawn : Params K) : Model K :=
  { (fresh : Model K) with params := drawn, acts := activations deep, dims := layerDims nx wide deep ny, nx := some nx, ny := some ny }

/-- `load_parameters`, `model.py` 136-144: the new state and the exception, if any. (The attributes are assigned one after another, so
`_n_x` has changed when `parameters["W" + str(L)]` fails. For `L = 0` the deep of line 138 is negative, and the key is `W0`.) -/
def loadParameters (m : Model K) (p : Params K) : Model K × Option Err :=
  let L := p.length / 2
  let deep := L - 1
  match get p "W1" with
  | .error e => (m, some e)
  | .ok w1 =>
    let m1 := { m with nx := some w1.cols }
    match get p (wKey L) with
    | .error e => (m1, some e)
    | .ok wl =>
      ({ m1 with ny := some wl.rows.length, dims := layerDims w1.cols w1.rows.length deep wl.rows.length, acts := activations deep,
                 params := p }, none)

/-- `activation.evaluate(np.dot(W, A_prev) + b)`, `fwd_prop.py` 42-46, for one example. `np.dot` needs as many columns as `A_prev` has rows;
`b` is a column with as many rows as `W` (NumPy would also broadcast one row). -/
def layer (th : K → K) (W b : Arr K) (act : Act) (a : List K) : Except Err (List K) :=
  if W.cols ≠ a.length ∨ b.rows.length ≠ W.rows.length ∨ b.cols ≠ 1 then .error .value
  else
    let z := List.zipWith (fun w (r : List K) => (List.zipWith (· * ·) w a).sum + r.headD 0) W.rows b.rows
    .ok (match act with
      | .tanh => z.map th
      | .linear => z)

/-- The loop of `L_model_forward` from layer `l`, `fwd_prop.py` 85-98. -/
def forward (th : K → K) (p : Params K) : ℕ → List Act → List K → Except Err (List K)
  | _, [], a => .ok a
  | l, act :: acts, a =>
    match get p (wKey l) with
    | .error e => .error e
    | .ok W =>
      match get p (bKey l) with
      | .error e => .error e
      | .ok b =>
        match layer th W b act a with
        | .error e => .error e
        | .ok a' => forward th p (l + 1) acts a'

/-- `(X - mu_x) / sigma_x`, `model.py` 252. -/
def normalise (mu sigma : ℕ → K) (x : List K) : List K := x.mapIdx fun i v => (v - mu i) / sigma i

/-- `Y_norm * sigma_y + mu_y`, `model.py` 256-258. -/
def unnormalise (mu sigma : ℕ → K) (y : List K) : List K := y.mapIdx fun i v => v * sigma i + mu i

/-- `evaluate`, `model.py` 238-260, for one example; `reshape` needs as many rows as `number_of_outputs`. -/
def evaluate (th : K → K) (m : Model K) (x : List K) : Except Err (List K) :=
  if m.nx ≠ some x.length then .error .assertion
  else
    match forward th m.params 1 m.acts (normalise m.muX m.sigmaX x) with
    | .error e => .error e
    | .ok y => if m.ny ≠ some y.length then .error .value else .ok (unnormalise m.muY m.sigmaY y)

/-! ## `load_csv` -/

/-- What `np.genfromtxt` reads: the labels of the first line and the table below (`nan` for what is not a number). -/
structure Csv (K : Type) where
  headers : List String
  table : List (List K)

/-- `data[:, index(label)]`, `data.py` 51-53, 67: `headers.index` finds the first one, raising `ValueError` if there is none; a table with a single row or
a single column (or none) is read as an array with one axis, which has no `data[:, i]`: `IndexError`. -/
def column (c : Csv K) (label : String) : Except Err (List K) :=
  match c.headers.findIdx? (· == label) with
  | none => .error .value
  | some i =>
    if c.table.length ≤ 1 ∨ c.headers.length ≤ 1 then .error .index
    else .ok (c.table.map fun r => r.getD i 0)

/-- `mapM` for the loops below: the first exception ends the loop. -/
def each {α β : Type} (f : α → Except Err β) : List α → Except Err (List β)
  | [] => .ok []
  | a :: l =>
    match f a with
    | .error e => .error e
    | .ok b =>
      match each f l with
      | .error e => .error e
      | .ok bs => .ok (b :: bs)

/-- `J[i][j] = data[:, index(dy_label)]` for the labels of one response, `data.py` 79-80. The label is looked up before the place is; the places that no label
is given for keep their zeros. -/
def jacRow (c : Csv K) (nx m : ℕ) (labels : List String) : Except Err (List (List K)) :=
  match each (column c) (labels.take nx) with
  | .error e => .error e
  | .ok cols =>
    match labels.drop nx with
    | [] => .ok (cols ++ List.replicate (nx - cols.length) (List.replicate m 0))
    | l :: _ => match column c l with
      | .error e => .error e
      | .ok _ => .error .index

/-- The loop over the responses, `data.py` 76-80: `J[i]` raises `IndexError` for a response too many, but only when it is assigned to. -/
def jac (c : Csv K) (nx m : ℕ) : ℕ → List (List String) → Except Err (List (List (List K)))
  | ny, [] => .ok (List.replicate ny (List.replicate nx (List.replicate m 0)))
  | 0, r :: rs => match r with
    | [] => jac c nx m 0 rs
    | l :: _ => match column c l with
      | .error e => .error e
      | .ok _ => .error .index
  | ny + 1, r :: rs =>
    match jacRow c nx m r with
    | .error e => .error e
    | .ok row =>
      match jac c nx m ny rs with
      | .error e => .error e
      | .ok J => .ok (row :: J)

/-- `load_csv(file, inputs, outputs, partials)`, `data.py` 14-83; `file`: `none` if the name is missing or empty, `some none` if there is no such file.
`J` is `none` if no partials are given (`None` or an empty list). -/
def loadCsv (file : Option (Option (Csv K))) (inputs outputs : List String) (partials : List (List String)) :
    Except Err (List (List K) × List (List K) × Option (List (List (List K)))) :=
  match file with
  | none => .error (.exception "No file specified")
  | some none => .error (.exception "The file does not exist")
  | some (some c) =>
    match inputs with
    | [] => .error (.exception "No inputs specified")
    | i0 :: _ =>
      if outputs = [] then .error (.exception "No outputs specified")
      else
        match column c i0 with
        | .error e => .error e
        | .ok c0 =>
          match each (column c) inputs with
          | .error e => .error e
          | .ok X =>
            match each (column c) outputs with
            | .error e => .error e
            | .ok Y =>
              if partials = [] then .ok (X, Y, none)
              else
                match jac c inputs.length c0.length outputs.length partials with
                | .error e => .error e
                | .ok J => .ok (X, Y, some J)

end SMT.Nn.Persist
