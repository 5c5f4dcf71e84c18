import Mathlib.Data.List.Basic
import Mathlib.Algebra.Order.Field.Basic

/-!
# Model of the training data of a multi-fidelity Kriging model

`smt/applications/mfk.py` (`_check_list_structure`, `_new_train`, `_new_train_init`, `_new_train_finalize`) on top of the store of training data of
`smt/surrogate_models/surrogate_model.py` (`set_training_values`, `update_training_values`, `train`).

The arrays given by the caller have two axes here (`Verif/Surrogate/Model.lean` has the conversion and its errors). `MFK` does not support training derivatives
(`krg_based.py`, `supports`), so the groups only have the key `0`. The kernel part of the training is a parameter; for the model of it see
`Verif/Mfk/Model.lean`, for the checks of the options `Verif/Params/Model.lean`.
-/
namespace SMT.MfkData

variable {K O M : Type}

/-- A key of `training_points` (keys that Python considers equal, as `1`, `1.0` and `True`, are one key). -/
inductive Name where
  | none
  | int (i : ℤ)
  | str (s : String)
deriving DecidableEq

/-- An array with two axes: the rows and `shape[1]`. -/
structure Tab (K : Type) where
  rows : List (List K)
  cols : ℕ
deriving DecidableEq

/-- The exceptions; `diverge` is the end of the fuel of the loop over the names (shown not to occur). -/
inductive Err where
  | key
  | value
  | diverge
  | fit (msg : String)
deriving DecidableEq

/-- `training_points`: a `defaultdict(dict)`. For every key the group, which is empty (`none`) or has the data under `0`. -/
abbrev Dict (K : Type) := List (Name × Option (Tab K × Tab K))

/-- `training_points[name] = group`, the other keys unchanged. -/
def put (tp : Dict K) (n : Name) (v : Option (Tab K × Tab K)) : Dict K := (n, v) :: tp.filter fun p => p.1 ≠ n

/-- Evaluating `training_points[name]`: a missing key is inserted with an empty group. -/
def touch (tp : Dict K) (n : Name) : Dict K :=
  match tp.lookup n with
  | none => put tp n none
  | some _ => tp

/-- The options that matter here, and all others. -/
structure Opts (O : Type) where
  evalNoise : Bool
  optimVar : Bool
  rest : O

/-- The parts that are parameters: `_check_param`, `mfk.py` 654-725 (options changed even if it raises); standardisation and the loop over the levels,
`mfk.py` 180-188, 215-337 (it may raise, and changes options; its result on success); `_predict_intermediate_values(X, lvl)`, `mfk.py` 357-413, at one point. -/
structure World (K O M : Type) where
  check : List (Tab K × List K) → Opts O → O × Option Err
  fit : List (Tab K × List K) → Opts O → O × Except Err M
  predict : M → ℕ → List K → K

/-- The object. `dims`: the attributes `nt`, `nx`, `ny`. `model`: the result of the last training that succeeded (attributes that a training that
fails half-way leaves are not modelled). -/
structure St (K O M : Type) where
  tp : Dict K
  dims : Option (ℕ × ℕ × ℕ)
  opts : Opts O
  model : Option M

/-- A new object, `surrogate_model.py` 93-95. -/
def new (o : Opts O) : St K O M := ⟨[], none, o, none⟩

/-- `set_training_values(xt, yt, name)`, `surrogate_model.py` 102-128. -/
def setValues (s : St K O M) (x y : Tab K) (n : Name) : St K O M × Option Err :=
  if x.rows.length ≠ y.rows.length then (s, some .value)
  else ({ s with tp := put s.tp n (some (x, y)), dims := some (x.rows.length, x.cols, y.cols) }, none)

/-- `update_training_values(yt, name)`, `surrogate_model.py` 130-167: the test `kx not in self.training_points[name]` inserts a missing name. -/
def updateValues (s : St K O M) (y : Tab K) (n : Name) : St K O M × Option Err :=
  let s := { s with tp := touch s.tp n }
  match s.tp.lookup n with
  | some (some (x, _)) =>
    if x.rows.length ≠ y.rows.length then (s, some .value) else ({ s with tp := put s.tp n (some (x, y)) }, none)
  | _ => (s, some .value)

/-- The loop `while self.training_points.get(i, None) is not None`, `mfk.py` 200-205. -/
def gather (tp : Dict K) : ℕ → ℕ → Except Err (List (Tab K × Tab K))
  | 0, _ => .error .diverge
  | fuel + 1, i =>
    match tp.lookup (.int i) with
    | none => .ok []
    | some none => .error .key
    | some (some d) =>
      match gather tp fuel (i + 1) with
      | .error e => .error e
      | .ok ds => .ok (d :: ds)

/-- All the levels, `mfk.py` 197-207: the loop, then the unnamed data. -/
def allLevels (tp : Dict K) : Except Err (List (Tab K × Tab K)) :=
  match gather tp (tp.length + 1) 0 with
  | .error e => .error e
  | .ok ds =>
    match tp.lookup .none with
    | some (some d) => .ok (ds ++ [d])
    | _ => .error .key

/-- One turn of the loop of `_check_list_structure`, `mfk.py` 158-166, for level `i`; `prev`: number of columns of the level before. `none`: `ValueError`. -/
def checkLevel (i prev : ℕ) (d : Tab K × Tab K) : Option (Tab K × List K) :=
  if 1 < i ∧ d.1.cols ≠ prev then none
  else
    let y := d.2.rows.flatten
    if d.1.rows.length ≠ y.length then none else some (d.1, y)

/-- The loop of `_check_list_structure`, `mfk.py` 158-166. -/
def checkLevels : ℕ → ℕ → List (Tab K × Tab K) → Option (List (Tab K × List K))
  | _, _, [] => some []
  | i, prev, d :: ds =>
    match checkLevel i prev d with
    | none => none
    | some c => (checkLevels (i + 1) d.1.cols ds).map (c :: ·)

/-- `n_features[0]`, `mfk.py` 168. -/
def firstCols (ls : List (Tab K × Tab K)) : ℕ :=
  match ls with
  | [] => 0
  | d :: _ => d.1.cols

/-- `np.concatenate(xt, axis=0)`, `mfk.py` 215: all the arrays must have the same number of columns. -/
def sameCols (ls : List (Tab K × Tab K)) : Bool := ls.all fun d => d.1.cols == firstCols ls

/-- `_new_train` without `_new_train_finalize`, `mfk.py` 179-188. -/
def newTrain (W : World K O M) (s : St K O M) : St K O M × Except Err M :=
  match allLevels s.tp with
  | .error e => (s, .error e)
  | .ok ls =>
    match checkLevels 0 0 ls with
    | none => (s, .error .value)
    | some cs =>
      let s1 := { s with dims := s.dims.map fun (d : ℕ × ℕ × ℕ) => (d.1, firstCols ls, 1) }
      match W.check cs s1.opts with
      | (r, some e) => ({ s1 with opts := { s1.opts with rest := r } }, .error e)
      | (r, none) =>
        let s2 := { s1 with opts := { s1.opts with rest := r } }
        if sameCols ls = false then (s2, .error .value)
        else
          match W.fit cs s2.opts with
          | (r, .error e) => ({ s2 with opts := { s2.opts with rest := r } }, .error e)
          | (r, .ok m) => ({ s2 with opts := { s2.opts with rest := r }, model := some m }, .ok m)

/-- `self.set_training_values(X[lvl], self._predict_intermediate_values(X[lvl], lvl + 1), name)`, `mfk.py` 342-348. -/
def refill1 (W : World K O M) (m : M) (tp : Dict K) (n : Name) (lvl : ℕ) (x : Tab K) : Dict K :=
  put tp n (some (x, ⟨x.rows.map fun r => [W.predict m (lvl + 1) r], 1⟩))

/-- The loop over the named levels and the unnamed one, `mfk.py` 341-348. -/
def refill (W : World K O M) (m : M) : Dict K → ℕ → List (Tab K) → Dict K
  | tp, _, [] => tp
  | tp, lvl, [x] => refill1 W m tp .none lvl x
  | tp, lvl, x :: xs => refill W m (refill1 W m tp (.int lvl) lvl x) (lvl + 1) xs

/-- `train`, `surrogate_model.py` 243-270 (first line: `self.training_points[None][0][0]`), and `_new_train` with `_new_train_finalize`, `mfk.py` 174-190, 339-351: with
`eval_noise` and `optim_var` the data are replaced by the predictions of the model and the model is trained again, with `eval_noise` switched off. (`nt`, `nx`, `ny` after the replacement
are those of the unnamed data, as `newTrain` sets the last two.) -/
def train (W : World K O M) (s : St K O M) : St K O M × Option Err :=
  let s := { s with tp := touch s.tp .none }
  match s.tp.lookup .none with
  | some (some _) =>
    match newTrain W s with
    | (s, .error e) => (s, some e)
    | (s, .ok m) =>
      if s.opts.evalNoise && s.opts.optimVar then
        match allLevels s.tp with
        | .error e => (s, some e)
        | .ok ls =>
          match newTrain W { s with tp := refill W m s.tp 0 (ls.map (·.1)), opts := { s.opts with evalNoise := false } } with
          | (s, .error e) => (s, some e)
          | (s, .ok _) => (s, none)
      else (s, none)
  | _ => (s, some .key)

/-- A call of the user; `options`: assignments to the options. -/
inductive Op (K O : Type) where
  | set (x y : Tab K) (n : Name)
  | update (y : Tab K) (n : Name)
  | options (o : Opts O)
  | train

/-- One call; exceptions are caught by the caller. -/
def step (W : World K O M) (s : St K O M) : Op K O → St K O M × Option Err
  | .set x y n => setValues s x y n
  | .update y n => updateValues s y n
  | .options o => ({ s with opts := o }, none)
  | .train => train W s

/-- A history of calls on a new object. -/
def run (W : World K O M) (o : Opts O) (h : List (Op K O)) : St K O M := h.foldl (fun s c => (step W s c).1) (new o)

end SMT.MfkData
