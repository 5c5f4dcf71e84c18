import Verif.Moe.Model

/-!
# Model of `MOE.train`, prediction after it, and the wrapper `MOESurrogateModel` (`smt/applications/moe.py`)

The object is a record, training a function from records to records and an outcome. Scikit-learn's mixture, SciPy's densities and the expert surrogates are the fields of
`World`, about which nothing is assumed here. An expert is determined by its class, its `xlimits` and the data sets it has been trained on, in order: its predictions are an
arbitrary function of these, so that an expert may remember earlier trainings. Exact arithmetic.
-/
namespace SMT.Moe.Train

variable {K : Type}

/-- The exceptions: `ValueError`, `IndexError`, `KeyError`, the plain `Exception` of `moe.py` 247, the `RuntimeError` of 299, `AttributeError`, and whatever an expert raises. -/
inductive Err | value | index | key | notConverged | runtime | attribute | expert
  deriving DecidableEq, Repr

/-- A NumPy array with one axis, or with two (`ncol` columns). -/
inductive Arr (K : Type) | d1 (v : List K) | d2 (ncol : ℕ) (rows : List (List K))
  deriving DecidableEq

/-- `a.shape[0]`. -/
def Arr.nrow : Arr K → ℕ
  | .d1 v => v.length
  | .d2 _ rows => rows.length

/-- The number of columns `np.c_` gives the array. -/
def Arr.ncol : Arr K → ℕ
  | .d1 _ => 1
  | .d2 n _ => n

/-- The rows of the array after `np.c_`: a one-axis array becomes a column. -/
def Arr.cols : Arr K → List (List K)
  | .d1 v => v.map fun a => [a]
  | .d2 _ rows => rows

/-- All entries, for the truth value. -/
def Arr.flat : Arr K → List K
  | .d1 v => v
  | .d2 _ rows => rows.flatten

/-- The options of `MOE`, `moe.py` 101-151; `none` is Python's `None`. -/
structure Opts (K : Type) where
  xt : Option (Arr K) := none
  yt : Option (Arr K) := none
  ct : Option (Arr K) := none
  xtest : Option (Arr K) := none
  ytest : Option (Arr K) := none
  nClusters : ℕ := 2
  smooth : Bool := true
  heaviside : Bool := false
  derivs : Bool := false
  vars : Bool := false
  allow : List String := []
  deny : List String := []

/-- A sample as an expert sees it: inputs and one output. -/
abbrev Sample (K : Type) := List K × K

/-- An expert object: its class, the `xlimits` it was created with, the data sets it was trained on (the last one is current). -/
structure Expert (K : Type) where
  name : String
  xlimits : Option (List (K × K))
  hist : List (List (Sample K))
  deriving DecidableEq

/-- A fitted `GaussianMixture`: number of features, `predict`, `weights_`, whether `multivariate_normal` accepts the scaled covariances, and the densities for a Heaviside factor. -/
structure Mix (K : Type) where
  nfeat : ℕ
  label : List K → ℕ
  k : ℕ
  weights : Fin k → K
  distOk : K → Bool
  pdf : K → Fin k → List K → K

/-- The libraries and the experts. `mixture k rows` is `GaussianMixture(n_components=k).fit(rows)`: `none` if it raises, otherwise the mixture and `converged_`
(`nfeat` is overwritten with the number of columns). `trains e` says whether the last training of `e` succeeds. `score expected actual` is line 550. `hfError` is the relative error of
lines 587-591. -/
structure World (K : Type) where
  registered : List (String × Bool × Bool)
  mixture : ℕ → List (List K) → Option (Mix K × Bool)
  trains : Expert K → Bool
  predict : Expert K → List K → K
  variance : Expert K → List K → K
  score : List K → List K → K
  hfError : Mix K → List (Expert K) → List (Sample K) → K → K

/-- The attributes of a `MOE` object that training and prediction use; `mix = none`: no `self.cluster`, or one that has not been fitted. `dist` is `self.distribs`: the mixture and the factor it was built from. -/
structure St (K : Type) where
  opts : Opts K
  sxt : Option (Arr K) := none
  syt : Option (Arr K) := none
  nClusters : ℕ := 0
  smooth : Bool := false
  factor : K
  experts : List (Expert K) := []
  mix : Option (Mix K) := none
  dist : Option (Mix K × K) := none

variable [Field K] [LinearOrder K]

/-- A new object, `moe.py` 101-169. -/
def St.new (o : Opts K) : St K := { opts := o, factor := 1 }

/-- `set_training_values`, `moe.py` 179-194: the name is ignored, nothing is copied or checked. -/
def St.setTraining (s : St K) (xt yt : Arr K) : St K := { s with sxt := some xt, syt := some yt }

/-- `moe.py` 201-207. -/
def chosenData (s : St K) : Option (Arr K) × Option (Arr K) :=
  if s.sxt.isSome && s.syt.isSome then (s.sxt, s.syt) else (s.opts.xt, s.opts.yt)

/-- `if not self.c: self.c = c = y`, `moe.py` 208-210: the truth value of an array raises `ValueError` for two or more entries; no entry counts as false. -/
def chosenCriterion (ct y : Option (Arr K)) : Except Err (Option (Arr K)) :=
  match ct with
  | none => .ok y
  | some a => match a.flat with
    | [] => .ok y
    | [v] => if v = 0 then .ok y else .ok (some a)
    | _ :: _ :: _ => .error .value

/-- `_check_inputs`, `moe.py` 311-334, on arrays that may be absent. -/
def checked (x y c : Option (Arr K)) (nClusters : ℕ) : Except Err (Arr K × Arr K × Arr K) :=
  match x, y, c with
  | some x, some y, some c => if checkInputs x.nrow y.nrow c.nrow nClusters then .ok (x, y, c) else .error .value
  | _, _, _ => .error .value

/-- `np.c_[a, b]` on rows, for arrays with the same number of rows. -/
def hcat (a b : List (List K)) : List (List K) := List.zipWith (· ++ ·) a b

/-- `row[0:nx]` and `row[nx]`. -/
def sample (nx : ℕ) (row : List K) : Sample K := (row.take nx, row.getD nx 0)

/-- `np.c_[xt, ct]` with `xt = row[0:nx]`, `ct = row[nx + 1:]`, `moe.py` 236-239. -/
def features1 (nx : ℕ) (row : List K) : List K := row.take nx ++ row.drop (nx + 1)

/-- `np.amin(self.x[:, i])`, `np.amax(self.x[:, i])` for each `i`, `moe.py` 542-545 (`self.x` is not empty there). -/
def limits (nx : ℕ) (rows : List (List K)) : List (K × K) :=
  (List.range nx).map fun i =>
    let col := rows.map fun r => r.getD i 0
    match col with
    | [] => (0, 0)
    | a :: as => (as.foldl min a, as.foldl max a)

/-- The experts tried for a cluster, `moe.py` 536-561. -/
def candidate (xl : List (K × K)) (training : List (Sample K)) (name : String) : Expert K :=
  ⟨name, if name = "RMTB" ∨ name = "RMTC" then some xl else none, [training]⟩

/-- `_find_best_model`, `moe.py` 512-570, for a cluster of rows (`np.array([])` has one axis, so that slicing it raises `IndexError`). Distinct classes have distinct `name`s, so that the
dictionaries `scores` and `sms` are lists here. -/
def findBest (w : World K) (enabled : List String) (xl : List (K × K)) (cluster : List (Sample K)) : Except Err (Expert K) :=
  let test := (extractPart cluster 10).1
  let training := (extractPart cluster 10).2
  if enabled = [] then .error .key
  else if cluster = [] then .error .index
  else if enabled.all fun n => w.trains (candidate xl training n) then
    match bestOf (enabled.map fun n => (n, w.score (test.map (·.2)) (test.map fun s => w.predict (candidate xl training n) s.1))) with
    | none => .error .key
    | some b => .ok (candidate xl training b.1)
  else .error .expert

/-- The loop of `_fit` with `new_model=True`, `moe.py` 400-403: experts are appended to `self._experts` one by one. -/
def fitNew (w : World K) (enabled : List String) (xl : List (K × K)) : List (List (Sample K)) → List (Expert K) → List (Expert K) × Except Err Unit
  | [], done => (done, .ok ())
  | c :: cs, done => match findBest w enabled xl c with
    | .error e => (done, .error e)
    | .ok m => fitNew w enabled xl cs (done ++ [m])

/-- `set_training_values` and `train` of an expert, `moe.py` 405-409. -/
def Expert.retrain (e : Expert K) (data : List (Sample K)) : Expert K := { e with hist := e.hist ++ [data] }

/-- The loop of `_fit` with `new_model=False`, `moe.py` 404-409: the experts are retrained in place (`self._experts[i]` raises `IndexError` if there are too few). -/
def fitAgain (w : World K) : List (List (Sample K)) → List (Expert K) → List (Expert K) × Except Err Unit
  | [], es => (es, .ok ())
  | _ :: _, [] => ([], .error .index)
  | c :: cs, e :: es =>
    if c = [] then (e :: es, .error .index)
    else if w.trains (e.retrain c) then
      let r := fitAgain w cs es
      (e.retrain c :: r.1, r.2)
    else (e.retrain c :: es, .error .expert)

/-- `self.distribs = self._create_clusters_distributions(self.heaviside_factor)`, `moe.py` 392, 609-637. -/
def St.redistribute (s : St K) (m : Mix K) : Except Err (St K) :=
  if m.distOk s.factor then .ok { s with dist := some (m, s.factor) } else .error .value

/-- `cluster_classifier = self.cluster.predict(rows)` (which raises `ValueError` for a wrong number of features) and `_cluster_values`, `moe.py` 394-397. `ncol` is the number of columns of the rows. -/
def clustered (m : Mix K) (nClusters ncol : ℕ) (feats : List (List K)) (samples : List (Sample K)) : Except Err (List (List (Sample K))) :=
  if ncol = m.nfeat then
    match clusterValues nClusters samples (feats.map m.label) with
    | none => .error .index
    | some c => .ok c
  else .error .value

/-- `moe.py` 225-234: test and training values. -/
def testTraining (o : Opts K) (values : List (List K)) : Except Err (List (List K) × List (List K)) :=
  match o.xtest, o.ytest with
  | some xs, some ys => if xs.nrow = ys.nrow then .ok (hcat xs.cols ys.cols, values) else .error .value
  | _, _ => .ok (extractPart values 10)

/-- `self._fit(xt, yt, ct)` with `new_model=True`, `moe.py` 250, 375-409; `training` are the rows of `self.training_values`, `ncol` the number of columns of `np.c_[xt, ct]`. -/
def fitFirst (w : World K) (s : St K) (m : Mix K) (nx ncol : ℕ) (enabled : List String) (xl : List (K × K)) (training : List (List K)) : St K × Except Err Unit :=
  match s.redistribute m with
  | .error e => (s, .error e)
  | .ok s =>
  match clustered m s.nClusters ncol (training.map (features1 nx)) (training.map (sample nx)) with
  | .error e => (s, .error e)
  | .ok clusters =>
  let r := fitNew w enabled xl clusters s.experts
  ({ s with experts := r.1 }, r.2)

/-- The Heaviside factor, `moe.py` 254-258 (if the new distributions fail, the factor is not recorded here; nothing reads it before the next training). -/
def tuneFactor (w : World K) (s : St K) (m : Mix K) (test : List (Sample K)) : Except Err (St K) :=
  if s.opts.smooth && s.opts.heaviside && decide (1 < s.nClusters) then
    { s with factor := bestHeaviside s.nClusters (w.hfError m s.experts test) }.redistribute m
  else .ok s

/-- `self._fit(x, y, c, new_model=False)`, `moe.py` 262, 375-409. -/
def fitFinal (w : World K) (s : St K) (m : Mix K) (nx : ℕ) (xrows : List (List K)) (y c : Arr K) : St K × Except Err Unit :=
  match s.redistribute m with
  | .error e => (s, .error e)
  | .ok s =>
  match clustered m s.nClusters (nx + c.ncol) (hcat xrows c.cols) ((hcat xrows y.cols).map (sample nx)) with
  | .error e => (s, .error e)
  | .ok clusters =>
  let r := fitAgain w clusters s.experts
  ({ s with experts := r.1 }, r.2)

/-- The experts that may be chosen, `moe.py` 222, 336-373. -/
def enabledFor (w : World K) (o : Opts K) : List String :=
  enabledExperts w.registered ["KRG", "KPLS", "KPLSK", "LS", "QP", "RBF", "IDW", "RMTB", "RMTC"] o.derivs o.vars o.allow o.deny

/-- From the fitted mixture on, `moe.py` 249-262; `ncol` is the number of columns it was fitted on. -/
def trainFit (w : World K) (s : St K) (m : Mix K) (nx ncol : ℕ) (test training xrows : List (List K)) (y c : Arr K) : St K × Except Err Unit :=
  match fitFirst w s m nx ncol (enabledFor w s.opts) (limits nx xrows) training with
  | (s, .error e) => (s, .error e)
  | (s, .ok ()) =>
  match tuneFactor w s m (test.map (sample nx)) with
  | .error e => (s, .error e)
  | .ok s =>
  if s.opts.xtest.isSome && s.opts.ytest.isSome then (s, .ok ())          -- test_data_present
  else fitFinal w s m nx xrows y c

/-- Everything after `_check_inputs`, `moe.py` 222-262. `x`, `y`, `c` have passed the check. -/
def trainChecked (w : World K) (s : St K) (x y c : Arr K) : St K × Except Err Unit :=
  let s := { s with experts := [] }                                       -- self._experts = []
  let values := hcat (hcat x.cols y.cols) c.cols                         -- np.c_[x, y, c]
  match testTraining s.opts values with
  | .error e => (s, .error e)
  | .ok (test, training) =>
  match x with
  | .d1 _ => (s, .error .index)                                           -- x.shape[1]
  | .d2 nx xrows =>
  match w.mixture s.nClusters (training.map (features1 nx)) with
  | none => ({ s with mix := none }, .error .value)
  | some (m, converged) =>
  let ncol := nx + (y.ncol + c.ncol - 1)
  let m := { m with nfeat := ncol }
  let s := { s with mix := some m }
  if converged = false then (s, .error .notConverged)
  else trainFit w s m nx ncol test training xrows y c

/-- `train`, `moe.py` 196-262. -/
def train (w : World K) (s : St K) : St K × Except Err Unit :=
  let xy := chosenData s
  match chosenCriterion s.opts.ct xy.2 with
  | .error e => (s, .error e)
  | .ok c =>
  let s := { s with nClusters := s.opts.nClusters, smooth := s.opts.smooth, factor := 1 }
  match checked xy.1 xy.2 c s.nClusters with
  | .error e => (s, .error e)
  | .ok (x, y, c) => trainChecked w s x y c

/-- `_proba_cluster`, `moe.py` 714-754, for one row: the membership probabilities, one per component (a single one for `n_clusters == 1`). -/
def probs (s : St K) (x : List K) : Except Err (List K) :=
  match s.dist with
  | none => .error .attribute
  | some (m, h) =>
    if s.nClusters = 1 then .ok [1]
    else match s.mix with
      | none => .error .attribute                                         -- self.cluster.weights_
      | some mw =>
        if hk : mw.k ≤ m.k then .ok ((List.finRange mw.k).map fun j => probaOne mw.weights (fun i => m.pdf h (Fin.castLE hk i)) x j)
        else .error .index                                                -- distribs[k]

/-- The recombination loop of `_predict_smooth_output`, `moe.py` 460-485, for one row: over all experts; `sort_proba[i][j]` raises `IndexError` beyond the last component. -/
def recombine (pred : Expert K → K) : List (Expert K) → List K → Except Err K
  | [], _ => .ok 0
  | _ :: _, [] => .error .index
  | e :: es, p :: ps => match recombine pred es ps with
    | .error r => .error r
    | .ok v => .ok (pred e * p + v)

/-- `np.argmax` of a list and its look-up in the experts, `moe.py` 427-441. -/
def mostProbable (es : List (Expert K)) (ps : List K) : Except Err (Expert K) :=
  match ps with
  | [] => .error .value
  | p :: ps =>
    let best := (ps.zipIdx 1).foldl (fun b q => if b.1 < q.1 then q else b) (p, 0)
    match es[best.2]? with
    | none => .error .index
    | some e => .ok e

/-- `predict_values` for one row, `moe.py` 264-282. -/
def predictValue (w : World K) (s : St K) (x : List K) : Except Err K :=
  match probs s x with
  | .error e => .error e
  | .ok ps =>
    if s.smooth then recombine (fun e => w.predict e x) s.experts ps
    else match mostProbable s.experts ps with
      | .error e => .error e
      | .ok e => .ok (w.predict e x)

/-! ## The wrapper -/

/-- A `MOESurrogateModel`: its own options (an option that is `None` in `MOE` is not in the dictionary of the wrapper, `moe.py` 57-59), the training points in order of first insertion, the wrapped object, `nx` and `ny`. -/
structure Wrap (K : Type) where
  opts : Opts K
  points : List (Option String × Arr K × Arr K) := []
  moe : St K
  nx : ℕ := 0
  ny : ℕ := 0

/-- `__init__` and `_initialize`, `moe.py` 49-59. -/
def Wrap.new (o : Opts K) : Wrap K := { opts := o, moe := St.new {} }

/-- `ensure_2d_array`, `checks.py` 10-19. -/
def Arr.ensure2d : Arr K → Arr K
  | .d1 v => .d2 1 (v.map fun a => [a])
  | .d2 n r => .d2 n r

/-- Assignment to a Python dictionary: in place if the key is there, at the end otherwise. -/
def assign (d : List (Option String × Arr K × Arr K)) (name : Option String) (v : Arr K × Arr K) : List (Option String × Arr K × Arr K) :=
  if d.any fun e => decide (e.1 = name) then d.map fun e => if e.1 = name then (name, v) else e
  else d ++ [(name, v)]

/-- `set_training_values` of the base class, `surrogate_model.py` 102-128. -/
def Wrap.setTraining (o : Wrap K) (xt yt : Arr K) (name : Option String) : Except Err (Wrap K) :=
  let xt := xt.ensure2d
  let yt := yt.ensure2d
  if xt.nrow = yt.nrow then .ok { o with points := assign o.points name (xt, yt), nx := xt.ncol, ny := yt.ncol }
  else .error .value

/-- `_setup`, `moe.py` 61-67: options that are set override those of the wrapped object; the others stay. -/
def mergeOpts (own inner : Opts K) : Opts K :=
  { own with xt := own.xt <|> inner.xt, yt := own.yt <|> inner.yt, ct := own.ct <|> inner.ct, xtest := own.xtest <|> inner.xtest, ytest := own.ytest <|> inner.ytest }

/-- `_train`, `moe.py` 77-83. -/
def Wrap.trainInner (w : World K) (o : Wrap K) : Wrap K × Except Err Unit :=
  let m := { o.moe with opts := mergeOpts o.opts o.moe.opts }
  let m := o.points.foldl (fun m e => m.setTraining e.2.1 e.2.2) m
  let r := train w m
  ({ o with moe := r.1 }, r.2)

/-- `train`, `moe.py` 69-75 and `surrogate_model.py` 243-271 (`self.training_points[None][0]` raises `KeyError` if there is no unnamed group; it then adds an empty one to the dictionary, which is not modelled). -/
def Wrap.train (w : World K) (o : Wrap K) : Wrap K × Except Err Unit :=
  let ready : Except Err (Wrap K) :=
    if o.points.length = 0 then
      match o.opts.xt, o.opts.yt with
      | some xt, some yt => o.setTraining xt yt none
      | _, _ => .error .key
    else .ok o
  match ready with
  | .error e => (o, .error e)
  | .ok o => if o.points.any fun e => decide (e.1 = none) then o.trainInner w else (o, .error .key)

/-- `predict_values` for one row: `check_nx` and, for several outputs, the failing `y.reshape((n, self.ny))`, `surrogate_model.py` 273-310. -/
def Wrap.predictValue (w : World K) (o : Wrap K) (x : List K) : Except Err K :=
  if x.length ≠ o.nx then .error .value
  else match Train.predictValue w o.moe x with
    | .error e => .error e
    | .ok v => if o.ny = 1 then .ok v else .error .value

end SMT.Moe.Train
