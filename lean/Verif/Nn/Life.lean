import Verif.Nn.Model
import Verif.Nn.Train
import Verif.Surrogate.Model

/-!
# Model of the life of a GENN surrogate

`smt/surrogate_models/genn.py` (`load_smt_data`, `smt_to_genn`, `GENN`), `smt/utils/neural_net/model.py` (`initialize_parameters`, `Model.initialize`, `Model.train`,
`_load_training_data`, `training_data`, `goodness_of_fit`), `data.py` (`normalize_data`, `random_mini_batches`), on top of the network (`Nn/Model.lean`), the optimiser
(`Nn/Train.lean`) and the store of training data (`Surrogate/Model.lean`).

Not modelled: printing, plots, the rounding of the metrics, overflow and rounding of floats. A zero standard deviation makes NumPy divide by zero (with warnings) and every later number is
`nan`: this is the separate outcome `Trained.nan`.
-/
namespace SMT.Nn.Life
open SMT.Nn SMT.Surrogate Matrix

noncomputable section

/-- Errors that leave a call. `hang` is not a Python exception: the line search of the optimiser did not finish within the given number of rounds. -/
inductive GErr
  | py (e : Surrogate.Err)
  | hang
  deriving DecidableEq

/-! ### From the SMT store to arrays -/

/-- Entry `[i, j]` of a two-dimensional array. -/
def entry (a : NdArray ℝ) (i j : ℕ) : ℝ := a.data.getD (i * a.ncols + j) 0

/-- `a.all()`: no entry is zero. -/
def allNonzero (a : NdArray ℝ) : Bool := a.data.all fun v => decide (v ≠ 0)

/-- The triple `(X, Y, J)` handed to the network, with its dimensions. `J j i e` is `J[i][j][e]`. -/
structure Data where
  nx : ℕ
  ny : ℕ
  m : ℕ
  X : Mat nx m
  Y : Mat ny m
  J : Fin nx → Mat ny m

/-- One pass of the loop of `smt_to_genn`, `genn.py` 90-103: the table of partials for input `k`, or the `KeyError` of the dictionary, or a failed assertion. The last assertion compares
`xt.all() == X.all()`, two booleans. -/
def partialTable (s : Store ℝ) (x y : NdArray ℝ) (k : ℕ) : Except Surrogate.Err (NdArray ℝ) :=
  match s.tp none (k + 1) with
  | none => .error .key
  | some (xt, dyt) =>
    if xt.nrows = x.nrows ∧ xt.ncols = x.ncols ∧ dyt.nrows = x.nrows ∧ dyt.ncols = y.ncols ∧ allNonzero xt = allNonzero x then .ok dyt
    else .error .assertion

/-- `smt_to_genn`, `genn.py` 53-107: the loop over the inputs stops at the first exception; the transposed arrays are returned. -/
def smtToGenn (s : Store ℝ) : Except Surrogate.Err Data :=
  match s.tp none 0 with
  | none => .error .key
  | some (x, y) =>
    match (List.range x.ncols).mapM (partialTable s x y) with
    | .error e => .error e
    | .ok ds => .ok
      { nx := x.ncols, ny := y.ncols, m := x.nrows
        X := Matrix.of fun i e => entry x e i
        Y := Matrix.of fun i e => entry y e i
        J := fun j => Matrix.of fun i e => entry (ds.getD j ⟨[0, 0], []⟩) e i }

/-- The loop of `load_smt_data` over the inputs, `genn.py` 48-50. `dyt_dxt[:, i].reshape((m, 1))` is column `i`. -/
def loadDerivs (s : Store ℝ) (x : NdArray ℝ) (d : NdArray ℝ) (m nx : ℕ) : List ℕ → Store ℝ × Except Surrogate.Err Unit
  | [] => (s, .ok ())
  | i :: is =>
    let col : NdArray ℝ := ⟨[m, 1], (List.range m).map fun e => entry d e i⟩
    match setDerivs true s (.nd x) (.nd col) (.int i) none with
    | (s', .error e) => (s', .error e)
    | (s', .ok _) => loadDerivs s' x d m nx is

/-- `m, n_x` of `load_smt_data`, `genn.py` 28-32. -/
def dimsX : List ℕ → Option (ℕ × ℕ)
  | [m] => some (m, 1)
  | [m, n] => some (m, n)
  | _ => none

/-- `n_y` of `load_smt_data`, `genn.py` 34-37. -/
def dimsY : List ℕ → Option ℕ
  | [_] => some 1
  | _ :: n :: _ => some n
  | _ => none

/-- `load_smt_data`, `genn.py` 18-50, for array arguments. `reshape` raises `ValueError` unless the sizes agree. (For arrays of rank 0 the code raises `ValueError` or `IndexError` when it
reads the shape; both are reported as `ValueError` here.) -/
def loadSmtData (s : Store ℝ) (xt yt : NdArray ℝ) (dyt : Option (NdArray ℝ)) : Store ℝ × Except Surrogate.Err Unit :=
  match dimsX xt.shape with
  | none => (s, .error .value)
  | some (m, nx) =>
    match dimsY yt.shape with
    | none => (s, .error .value)
    | some ny =>
      if yt.shape.prod ≠ m * ny then (s, .error .value)
      else
        match setValues s (.nd ⟨[m, nx], xt.data⟩) (.nd ⟨[m, ny], yt.data⟩) none with
        | (s', .error e) => (s', .error e)
        | (s', .ok _) =>
          match dyt with
          | none => (s', .ok ())
          | some d =>
            if d.shape.prod ≠ m * nx then (s', .error .value)
            else loadDerivs s' ⟨[m, nx], xt.data⟩ ⟨[m, nx], d.data⟩ m nx (List.range nx)

/-! ### Random numbers -/

/-- NumPy's global generator (state `G`) and the entropy of the operating system (state `E`). `ofSeed` is `np.random.seed(seed)` (`none`: rejected with `ValueError`), `fresh` is
`np.random.seed(None)`, `randn` and `perm` are the draws. -/
structure Rng (G E : Type) where
  ofSeed : ℤ → Option G
  fresh : E → G × E
  randn : G → (k n : ℕ) → (Fin k → Fin n → ℝ) × G
  perm : G → ℕ → List ℕ × G

variable {G E : Type}

/-! ### Parameters of the network -/

/-- `initialize_parameters` and `Model.initialize`, `model.py` 50-57, 120-134, for positive layer sizes: weights `randn(...) * sqrt(1 / n_prev)`, zero biases, `Tanh` for the hidden
layers and `Linear` for the last; layer 1 is drawn first. -/
def initNet (R : Rng G E) : (n : ℕ) → (hidden : List ℕ) → (p : ℕ) → G → Net n p × G
  | n, [], p, g =>
    let d := R.randn g p n
    (.layer { W := Matrix.of fun i j => d.1 i j * √(1 / (n : ℝ)), b := fun _ => 0, act := .linear } (.done p), d.2)
  | n, k :: hidden, p, g =>
    let d := R.randn g k n
    let r := initNet R k hidden p d.2
    (.layer { W := Matrix.of fun i j => d.1 i j * √(1 / (n : ℝ)), b := fun _ => 0, act := .tanh } r.1, r.2)

/-- Key of one number of the dictionary of parameters: layer (counted from 0), `true` for a weight and `false` for a bias, row, column (0 for a bias). -/
abbrev Key := ℕ × Bool × ℕ × ℕ

/-- The dictionary of parameters of a network as one family of numbers, `model.py` 48-57 (0 at keys that do not exist). -/
def toVec : {n p : ℕ} → Net n p → Key → ℝ
  | _, _, .done _, _ => 0
  | _, _, .layer L _, (0, true, i, j) => readMat L.W i j
  | _, _, .layer (k := k) L _, (0, false, i, _) => if h : i < k then L.b ⟨i, h⟩ else 0
  | _, _, .layer _ rest, (l + 1, w, i, j) => toVec rest (l, w, i, j)

/-- The network with the numbers of a dictionary and unchanged activations (`self.cost(p, self.activations, ...)`, `model.py` 211-216). -/
def setVec : {n p : ℕ} → Net n p → (Key → ℝ) → Net n p
  | _, _, .done n, _ => .done n
  | _, _, .layer L rest, v =>
    .layer { W := Matrix.of fun i j => v (0, true, i, j), b := fun i => v (0, false, i, 0), act := L.act } (setVec rest fun q => v (q.1 + 1, q.2))

/-- The dictionary of gradients as one family, `bwd_prop.py` 223-225. -/
def gradVec : {n p : ℕ} → (net : Net n p) → Grads net → Key → ℝ
  | _, _, .done _, _, _ => 0
  | _, _, .layer _ _, g, (0, true, i, j) => readMat g.1.1 i j
  | _, _, .layer (k := k) _ _, g, (0, false, i, _) => if h : i < k then g.1.2 ⟨i, h⟩ else 0
  | _, _, .layer _ rest, g, (l + 1, w, i, j) => gradVec rest g.2 (l, w, i, j)

/-! ### Training -/

/-- Options read by `_train`, `genn.py` 116-150, 171-182 (`int` options may be negative). -/
structure Opts where
  alpha : ℝ
  beta1 : ℝ
  beta2 : ℝ
  lambd : ℝ
  gamma : ℝ
  deep : ℤ
  wide : ℤ
  batch : ℤ
  epochs : ℤ
  iters : ℤ
  seed : Option ℤ

/-- Attributes of the object `Model` after `initialize`, `model.py` 102-134: dimensions, parameters with activations, and what `_load_training_data` and `train` add (scale factors and
normalised data; `training_history`, one entry per epoch, one cost history per batch). `data = none` before any training data were loaded (scale factors `(1, 1)`). `nan`: see above. -/
structure Trained where
  nx : ℕ
  ny : ℕ
  net : Net nx ny
  data : Option (Data × Scale nx ny)
  nan : Bool
  history : List (List (List ℝ))

/-- One example: inputs, outputs and partials. -/
abbrev Ex (nx ny : ℕ) := (Fin nx → ℝ) × (Fin ny → ℝ) × (Fin nx → Fin ny → ℝ)

/-- One mini-batch as arrays. -/
def batchX {nx : ℕ} (b : List (Fin nx → ℝ)) : Mat nx b.length := Matrix.of fun i e => (b.get e) i

/-- Outputs of the batch, column `e` being its `e`-th example. -/
def batchY {ny : ℕ} (m : ℕ) (b : List (Fin ny → ℝ)) : Mat ny m := Matrix.of fun i e => (b.getD e fun _ => 0) i

/-- Partials of the batch. -/
def batchJ {nx ny : ℕ} (m : ℕ) (b : List (Fin nx → Fin ny → ℝ)) : Fin nx → Mat ny m := fun j => Matrix.of fun i e => (b.getD e fun _ _ => 0) j i

/-- Parameters of a run: generator, machine epsilon of the optimiser, bound on the rounds of one line search (`Nn/Train.lean`). -/
structure Env (G E : Type) where
  rng : Rng G E
  eps : ℝ
  fuel : ℕ

/-- `cost_function` of one mini-batch, `model.py` 211-213. -/
def costFun (o : Opts) {nx ny m : ℕ} (net : Net nx ny) (X : Mat nx m) (Y : Mat ny m) (J : Option (Fin nx → Mat ny m)) (v : Key → ℝ) : ℝ :=
  (cost (setVec net v) X Y J o.lambd o.gamma).toOption.getD 0

/-- `grad_function` of one mini-batch, `model.py` 214-216. -/
def gradFun (o : Opts) {nx ny m : ℕ} (net : Net nx ny) (X : Mat nx m) (Y : Mat ny m) (J : Option (Fin nx → Mat ny m)) (v : Key → ℝ) : Key → ℝ :=
  match grad (setVec net v) X Y J o.lambd o.gamma with
  | .ok g => gradVec (setVec net v) g
  | .error _ => fun _ => 0

/-- The optimisation on one mini-batch, `model.py` 204-226: `Adam` from the current parameters on `cost`, `grad`. A batch with one example raises in the first evaluation of `cost`
(`C53_failures`); partials are always given. -/
def trainBatch (env : Env G E) (o : Opts) {nx ny : ℕ} (net : Net nx ny) (b : List (Fin nx → ℝ) × List (Fin ny → ℝ) × Option (List (Fin nx → Fin ny → ℝ))) :
    Except GErr (Net nx ny × List ℝ) :=
  let X := batchX b.1
  let Y := batchY b.1.length b.2.1
  let J := b.2.2.map (batchJ b.1.length)
  match cost net X Y J o.lambd o.gamma with
  | .error _ => .error (.py .value)
  | .ok _ =>
    match optimize env.fuel (costFun o net X Y J) (gradFun o net X Y J) (adamUpdate Real.sqrt env.eps) o.alpha o.beta1 o.beta2 o.iters.toNat (toVec net) with
    | none => .error .hang
    | some r => .ok (setVec net r.cur, r.costs)

/-- The loop over the mini-batches of one epoch, `model.py` 199-229. The attribute `_parameters` and the history of the epoch are updated after each batch, so an exception leaves those of
the earlier batches. -/
def trainBatches (env : Env G E) (o : Opts) {nx ny : ℕ} : List (List (Fin nx → ℝ) × List (Fin ny → ℝ) × Option (List (Fin nx → Fin ny → ℝ))) → Net nx ny → List (List ℝ) →
    (Net nx ny × List (List ℝ)) × Except GErr Unit
  | [], net, h => ((net, h), .ok ())
  | b :: bs, net, h =>
    match trainBatch env o net b with
    | .error e => ((net, h), .error e)
    | .ok r => trainBatches env o bs r.1 (h ++ [r.2])

/-- `random_mini_batches` for an `int` batch size, `data.py` 99-138 with `model.py` 185-187 (`0` means all examples): for a negative size the loop over complete batches is empty, and the
end case reads the unbound `k` unless the size divides the number of examples. -/
def batchesOf {nx ny : ℕ} (perm : List ℕ) (ex : List (Ex nx ny)) (size : ℤ) :
    Except Surrogate.Err (List (List (Fin nx → ℝ) × List (Fin ny → ℝ) × Option (List (Fin nx → Fin ny → ℝ)))) :=
  let size : ℤ := if size = 0 then ex.length else size
  if size < 0 then (if (ex.length : ℤ) % size = 0 then .ok [] else .error .unbound)
  else
    match miniBatches perm (ex.map (·.1)) (ex.map (·.2.1)) (some (ex.map (·.2.2))) size.toNat with
    | none => .error .zeroDivision
    | some bs => .ok bs

/-- `np.random.seed(seed)`, `data.py` 98. -/
def reseed (R : Rng G E) (seed : Option ℤ) (w : G × E) : Option (G × E) :=
  match seed with
  | some s => (R.ofSeed s).map fun g => (g, w.2)
  | none => let r := R.fresh w.2; some r

/-- The loop over the epochs, `model.py` 195-229, on the normalised examples. -/
def trainEpochs (env : Env G E) (o : Opts) {nx ny : ℕ} (ex : List (Ex nx ny)) : ℕ → Net nx ny → List (List (List ℝ)) → G × E →
    (Net nx ny × List (List (List ℝ)) × (G × E)) × Except GErr Unit
  | 0, net, h, w => ((net, h, w), .ok ())
  | n + 1, net, h, w =>
    match reseed env.rng o.seed w with
    | none => ((net, h ++ [[]], w), .error (.py .value))
    | some w1 =>
      let p := env.rng.perm w1.1 ex.length
      let w2 := (p.2, w1.2)
      match batchesOf p.1 ex o.batch with
      | .error e => ((net, h ++ [[]], w2), .error (.py e))
      | .ok bs =>
        match trainBatches env o bs net [] with
        | ((net', hb), .error e) => ((net', h ++ [hb], w2), .error e)
        | ((net', hb), .ok _) => trainEpochs env o ex n net' (h ++ [hb]) w2

/-- The normalised data (`_X_norm`, `_Y_norm`, `_J_norm`), `model.py` 343-347, `data.py` 160-207. -/
def normData (P : Data) : Data :=
  { P with X := normRows P.X, Y := normRows P.Y, J := normPartials P.X P.Y P.J }

/-- The examples of the normalised arrays, one per column. -/
def normExamples (P : Data) : List (Ex P.nx P.ny) :=
  List.ofFn fun e => (fun i => normRows P.X i e, fun i => normRows P.Y i e, fun j i => normPartials P.X P.Y P.J j i e)

/-- Scale factors, `model.py` 348-349. -/
def scaleOf (P : Data) : Scale P.nx P.ny := { muX := rowMean P.X, sdX := rowStd P.X, muY := rowMean P.Y, sdY := rowStd P.Y }

/-- Sizes of the hidden layers, `[wide] * deep`, `model.py` 122. -/
def hiddenDims (o : Opts) : List ℕ := List.replicate o.deep.toNat o.wide.toNat

/-- A GENN object: store, options, `self.model` (`none` for the empty `Model()` of `_initialize`), `_is_trained`. -/
structure Genn where
  store : Store ℝ
  opts : Opts
  model : Option Trained
  isTrained : Bool

/-- Whether some standard deviation is zero. -/
def degenerate (P : Data) : Prop := (∃ i, rowStd P.X i = 0) ∨ ∃ i, rowStd P.Y i = 0

open Classical in
/-- `Model.initialize(n_x, n_y, deep, wide)` then `Model.train`, `genn.py` 189-206, `model.py` 120-134, 145-229, on the data `P`; the world is the state of the generator. A layer without nodes before
another layer raises `ZeroDivisionError` (`1.0 / layer_dims[l - 1]`); a negative width raises `ValueError` in `randn` (reported only if there is a hidden layer). -/
def fit (env : Env G E) (o : Opts) (P : Data) (w : G × E) : (Option Trained × (G × E)) × Except GErr Unit :=
  if 0 < o.deep ∧ o.wide < 0 then ((none, w), .error (.py .value))
  else if P.nx = 0 then ((none, w), .error (.py .zeroDivision))
  else if 0 < o.deep ∧ o.wide = 0 then ((none, (env.rng.randn w.1 0 P.nx).2, w.2), .error (.py .zeroDivision))
  else
    let i := initNet env.rng P.nx (hiddenDims o) P.ny w.1
    let r := trainEpochs env o (normExamples P) o.epochs.toNat i.1 [] (i.2, w.2)
    ((some { nx := P.nx, ny := P.ny, net := r.1.1, data := some (normData P, scaleOf P), nan := decide (degenerate P), history := r.1.2.1 }, r.1.2.2), r.2)

/-- `GENN._train` inside `SurrogateModel.train`, `genn.py` 158-208, `surrogate_model.py` 243-272: the option `gamma` is set to 0 if the array of partials is empty. `self.model` is
assigned before the training starts. (`fit` returns no model when `Model.initialize` raises, before the assignment.) -/
def train (env : Env G E) (g : Genn) (w : G × E) : (Genn × (G × E)) × Except GErr Unit :=
  match smtToGenn g.store with
  | .error e => ((g, w), .error (.py e))
  | .ok P =>
    let o := if P.nx * P.ny * P.m = 0 then { g.opts with gamma := 0 } else g.opts
    let r := fit env o P w
    match r.2 with
    | .error e => (({ g with opts := o, model := match r.1.1 with | some t => some t | none => g.model }, r.1.2), .error e)
    | .ok _ => (({ g with opts := o, model := r.1.1, isTrained := true }, r.1.2), .ok ())

/-! ### Prediction and goodness of fit -/

/-- `GENN._predict_values`, `genn.py` 210-217, with the assertion of `Model.evaluate` (`model.py` 236; an empty `Model()` has no number of inputs). The result is read row by row (one row per
point); it is meaningless if `nan` is set. Predictions with scale factors that were never set are not reachable (a model without data arises only inside `fit`). -/
def predictCore (g : Genn) (x : NdArray ℝ) : Except Surrogate.Err (List ℝ) :=
  match g.model with
  | none => .error .assertion
  | some t =>
    if x.ncols ≠ t.nx then .error .assertion
    else
      match t.data with
      | none => .error .assertion
      | some d =>
        let Y := evaluate d.2 t.net (Matrix.of fun (i : Fin t.nx) (e : Fin x.nrows) => entry x e i)
        .ok ((List.range (x.nrows * t.ny)).map fun q => readMat Y (q % t.ny) (q / t.ny))

/-- `predict_values` of a GENN object. -/
def predict (g : Genn) (x : PyObj ℝ) : Except Surrogate.Err (NdArray ℝ) := predictValues g.store (predictCore g) x

/-- `_J_norm` and the scale factors as arrays, for `Model.training_data`, `model.py` 95-100: `_J_norm * sigma_y / sigma_x`; `none` is the `ValueError` of the broadcasting. -/
def trainingJ {nx ny : ℕ} (sc : Scale nx ny) (P : Data) : Option Arr :=
  let J : Arr := { shape := [P.ny, P.nx, P.m], val := fun idx => if h : idx.getD 1 0 < P.nx then readMat (P.J ⟨idx.getD 1 0, h⟩) (idx.getD 0 0) (idx.getD 2 0) else 0 }
  (J.bop (· * ·) (colArr sc.sdY)).bind fun a => a.bop (· / ·) (colArr sc.sdX)

/-- `Model.goodness_of_fit(X, Y)` as called by GENN (no partials), `model.py` 443-482: assertions, predictions and derivatives at the test points, training data, derivatives at the
training points. The metrics are computed and plotted, then discarded by the caller. -/
def modelGoodness (m : Option Trained) (P : Data) : Except Surrogate.Err Unit :=
  match m with
  | none => .error .assertion
  | some t =>
    if P.nx ≠ t.nx ∨ P.ny ≠ t.ny then .error .assertion
    else
      match t.data with
      | none => .error .assertion
      | some d =>
        match gradientArr d.2 t.net (Matrix.of fun (i : Fin t.nx) (e : Fin P.m) => readMat P.X i e) with
        | .error _ => .error .value
        | .ok _ =>
          match trainingJ d.2 d.1 with
          | none => .error .value
          | some _ =>
            match gradientArr d.2 t.net (Matrix.of fun (i : Fin t.nx) (e : Fin d.1.m) => readMat d.1.X i e * d.2.sdX i + d.2.muX i) with
            | .error _ => .error .value
            | .ok _ => .ok ()

/-- `GENN.goodness_of_fit`, `genn.py` 234-255. `training_points = self.training_points` keeps a reference to the dictionary that `load_smt_data` then fills, so the final assignment
restores nothing. -/
def goodness (g : Genn) (xv yv : NdArray ℝ) (dyv : Option (NdArray ℝ)) : Genn × Except Surrogate.Err Unit :=
  let r := loadSmtData g.store xv yv dyv
  let g' := { g with store := r.1 }
  match r.2 with
  | .error e => (g', .error e)
  | .ok _ =>
    match smtToGenn g'.store with
    | .error e => (g', .error e)
    | .ok P => (g', modelGoodness g'.model P)

end

end SMT.Nn.Life
