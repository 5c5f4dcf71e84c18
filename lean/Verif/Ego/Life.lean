import Verif.Ego.Model

/-!
# Model of an `EGO` object over its whole life, `smt/applications/ego.py`

`Verif/Ego/Model.lean` takes `_find_best_point` and `_get_virtual_point` as arbitrary state machines. Here they
are the code: the options, `_setup_optimizer`, the surrogate trained at every search, the criterion stored in
`self.obj_k`, the start points drawn again at every attempt, `_get_virtual_point`, the evaluator's calls, and
the user's `ydoe` array, which `optimize` may write into. Everything observable is kept in a state that
survives an exception, and `optimize` can be called again on the same object.

Parameters (`Env`): the surrogate (training and the two predictions), the special functions, SLSQP
(`scipy.optimize.minimize`, deterministic) and the Latin-hypercube design drawn from a generator.
Simplifications: one output; `n_parallel`, `n_start`, `n_max_optim` and `n_doe` are natural numbers; the user's
function is pure and the evaluator maps it over the rows; floats are an ordered field.
-/
namespace SMT.Ego.Life

open SMT.Ego

/-- Exceptions a run can raise. `attribute`: `self.obj_k` does not exist; `unbound`: `conf` is unbound;
`value`: the training arrays do not fit (`surrogate_model.py`'s checks), or `argmin` of an empty array;
`type`: `None` where an integer is needed; `index`: index out of range. -/
inductive Err where | attribute | unbound | value | type | index
  deriving DecidableEq, Repr

/-- The `random_state` option, `ego.py` 122-126: an integer seed, the user's `RandomState`, or `None`. -/
inductive RS where | seed (k : ℤ) | object | none
  deriving DecidableEq

/-- External code. `lhs g n` is the design `LHS(criterion="ese")` (composed with the cast and unfolding of
`MixedIntegerSamplingMethod` when `xtypes` is given) draws from a generator in state `g`, and `advance g n` the
state it leaves. `slsqp obj x0` is `some (fun, x)` when `minimize` reports success and `none` when it does not
or raises `ValueError`. `train m xs ys` is the surrogate after `set_training_values` and `train`. -/
structure Env (P K μ γ : Type) where
  train : μ → List P → List K → μ
  mean : μ → P → K
  var : μ → P → K
  sqrt : K → K
  cdf : K → K
  pdf : K → K
  dist : P → P → K
  slsqp : (P → K) → P → Option (K × P)
  ofSeed : ℤ → γ
  lhs : γ → Nat → List P
  advance : γ → Nat → γ

/-- The options an `optimize` call reads (`ego.py` 53-126); `ydoe` is in the state because it can be modified.
`unfold` and `fold` are the identity, or `unfold_with_enum_mask` and `fold_with_enum_index` with `xtypes`. -/
structure Opts (P : Type) where
  criterion : String
  qEI : String
  nIter : Option Nat
  nPar : Nat
  nStart : Nat
  nMax : Nat
  nDoe : Option Nat
  xdoe : Option (List P)
  tunneling : Bool
  randomState : RS
  unfold : P → P
  fold : P → P

/-- The lambda stored in `self.obj_k`, `ego.py` 325-333, with what it captures: EI captures `y_data`,
`enable_tunneling` and `x_data`, the others only `self`. -/
inductive Closure (P K : Type) where
  | ei (ys : List K) (tun : Bool) (xs : List P)
  | sbo
  | ucb

/-- State: the surrogate option object, `self.obj_k`, the user's `RandomState`, the generators the operating
system would seed next (`random_state=None`), the normal draws of the global generator, the arguments the
evaluator received, and the array held by the option `ydoe`. -/
structure St (P K μ γ : Type) where
  model : μ
  objK : Option (Closure P K)
  gen : γ
  entropy : Nat → γ
  fresh : Nat
  normal : Nat → K
  used : Nat
  calls : List (List P)
  ydoe : Option (List K)

variable {P K μ γ : Type} [Field K] [LinearOrder K]

/-- `np.min` of a non-empty array. -/
def minOf : List K → K
  | [] => 0
  | a :: as => as.foldl min a

/-- `EI` at one point without tunneling, `ego.py` 199-207. -/
def eiPlain (E : Env P K μ γ) (m : μ) (ys : List K) (p : P) : K :=
  let sig := E.sqrt (E.var m p)
  if sig = 0 then 0
  else (minOf ys - E.mean m p) * E.cdf ((minOf ys - E.mean m p) / sig) +
    sig * E.pdf ((minOf ys - E.mean m p) / sig)

/-- The penalty loop of `EI`, `ego.py` 214-222, for one point. -/
def penalise (E : Env P K μ γ) (m : μ) (ys : List K) (p : P) : K → List P → K
  | e, [] => e
  | e, x :: xs =>
    let pena := (eiPlain E m ys p - eiPlain E m ys x) / E.dist p x ^ 4
    penalise E m ys p (max (if 0 < pena then e - pena else e) 0) xs

/-- `EI` at one point, `ego.py` 197-223. -/
def eiFull (E : Env P K μ γ) (m : μ) (ys : List K) (tun : Bool) (xs : List P) (p : P) : K :=
  if E.sqrt (E.var m p) = 0 then 0
  else if tun then penalise E m ys p (eiPlain E m ys p) xs else eiPlain E m ys p

/-- Calling `self.obj_k`, `ego.py` 225-235 and 326-333: the lambda uses the surrogate as it is now. -/
def objective (E : Env P K μ γ) (m : μ) : Closure P K → P → K
  | .ei ys tun xs, p => -eiFull E m ys tun xs p
  | .sbo, p => E.mean m p
  | .ucb, p => E.mean m p - 3 * E.sqrt (E.var m p)

/-- The `if criterion == ...` chain, `ego.py` 325-333: with any other string `self.obj_k` keeps what it was. -/
def setObj (crit : String) (old : Option (Closure P K)) (xs : List P) (ys : List K) (tun : Bool) :
    Option (Closure P K) :=
  if crit = "EI" then some (.ei ys tun xs)
  else if crit = "SBO" then some .sbo
  else if crit = "UCB" then some .ucb
  else old

/-- One call of `self._sampling(n)`: `LHS._compute` (`lhs.py` 57-62) builds a new generator from an integer
seed every time, draws from the user's `RandomState`, or from a newly seeded generator. -/
def sample (E : Env P K μ γ) (rs : RS) (s : St P K μ γ) (n : Nat) : List P × St P K μ γ :=
  match rs with
  | .seed k => (E.lhs (E.ofSeed k) n, s)
  | .object => (E.lhs s.gen n, { s with gen := E.advance s.gen n })
  | .none => (E.lhs (s.entropy s.fresh) n, { s with fresh := s.fresh + 1 })

/-- One body of the `while` loop, `ego.py` 337-360: new start points, one SLSQP run from each. -/
def attempt (E : Env P K μ γ) (o : Opts P) (c : Option (Closure P K)) (s : St P K μ γ) :
    List (Option (K × P)) × St P K μ γ :=
  let r := sample E o.randomState s o.nStart
  (r.1.map fun x => match c with
    | none => none
    | some c => E.slsqp (objective E s.model c) x, r.2)

/-- The surrogate refuses arrays of different lengths (`surrogate_model.py` 119-123, through
`set_training_values`) and cannot be trained on nothing. -/
def fits (xs : List P) (ys : List K) : Bool := xs.length == ys.length && !xs.isEmpty

/-- The beginning of `_find_best_point`, `ego.py` 312-333: training and the criterion. -/
def prepare (E : Env P K μ γ) (o : Opts P) (xs : List P) (ys : List K) (s : St P K μ γ) : St P K μ γ :=
  { s with model := E.train s.model xs ys, objK := setObj o.criterion s.objK xs ys o.tunneling }

/-- The rest of `_find_best_point`, `ego.py` 335-375. With `self.obj_k` missing, the first SLSQP run raises
`AttributeError`, which is not caught (only `ValueError` is); nothing happens if no run is started. -/
def search (E : Env P K μ γ) (o : Opts P) (s : St P K μ γ) : Except Err (Option P) × St P K μ γ :=
  if s.objK.isNone && decide (0 < o.nMax) && decide (0 < o.nStart) then (.error .attribute, s)
  else (.ok (findBestPoint (attempt E o s.objK) o.nMax s).1, (findBestPoint (attempt E o s.objK) o.nMax s).2)

/-- `_find_best_point`, `ego.py` 297-375. -/
def find (E : Env P K μ γ) (o : Opts P) (xs : List P) (ys : List K) (s : St P K μ γ) :
    Except Err (Option P) × St P K μ γ :=
  if fits xs ys then search E o (prepare E o xs ys s) else (.error .value, s)

/-- `_get_virtual_point`, `ego.py` 377-411. -/
def virt (E : Env P K μ γ) (o : Opts P) (x : P) (ys : List K) (s : St P K μ γ) : Except Err K × St P K μ γ :=
  if o.qEI = "CLmin" then (.ok (minOf ys), s)
  else if o.qEI = "KB" then (.ok (E.mean s.model x), s)
  else if o.qEI = "KBUB" then (.ok (E.mean s.model x + 3 * E.sqrt (E.var s.model x)), s)
  else if o.qEI = "KBLB" then (.ok (E.mean s.model x + (-3) * E.sqrt (E.var s.model x)), s)
  else if o.qEI = "KBRand" then
    (.ok (E.mean s.model x + s.normal s.used * E.sqrt (E.var s.model x)), { s with used := s.used + 1 })
  else (.error .unbound, s)

/-- The arrays of a run; `own` is `true` while `y_data` is still the very array of the option `ydoe`. -/
structure Data (P K : Type) where
  xs : List P
  ys : List K
  own : Bool

/-- The virtual enrichment loop, `ego.py` 152-174. `np.append` makes new arrays. -/
def enrich (E : Env P K μ γ) (o : Opts P) : Nat → Data P K → St P K μ γ → Except Err (Data P K) × St P K μ γ
  | 0, d, s => (.ok d, s)
  | p + 1, d, s =>
    match find E o d.xs d.ys s with
    | (.error e, s1) => (.error e, s1)
    | (.ok none, s1) => (.ok d, s1)
    | (.ok (some x), s1) =>
      match virt E o x d.ys s1 with
      | (.error e, s2) => (.error e, s2)
      | (.ok v, s2) => enrich E o p ⟨d.xs ++ [x], d.ys ++ [v], false⟩ s2

/-- The evaluation at the end of an iteration, `ego.py` 176-181: the last `n_parallel` rows are evaluated and
written into `y_data` in place, hence into the user's array if it is still the one in use. -/
def evaluate (o : Opts P) (f : P → K) (d : Data P K) (s : St P K μ γ) : Data P K × St P K μ γ :=
  let pts := (lastN o.nPar d.xs).map o.fold
  let ys := setLastN o.nPar d.ys (pts.map f)
  ({ d with ys := ys },
   { s with calls := s.calls ++ [pts], ydoe := if d.own then some ys else s.ydoe })

/-- The outer loop, `ego.py` 150-181. -/
def loop (E : Env P K μ γ) (o : Opts P) (f : P → K) : Nat → Data P K → St P K μ γ →
    Except Err (Data P K) × St P K μ γ
  | 0, d, s => (.ok d, s)
  | k + 1, d, s =>
    match enrich E o o.nPar d s with
    | (.error e, s1) => (.error e, s1)
    | (.ok d1, s1) =>
      let r := evaluate o f d1 s1
      loop E o f k r.1 r.2

/-- The initial design, `ego.py` 271-283. -/
def design (E : Env P K μ γ) (o : Opts P) (s : St P K μ γ) : Except Err (List P) × St P K μ γ :=
  match o.xdoe with
  | some xs => (.ok (xs.map o.unfold), s)
  | none =>
    match o.nDoe with
    | none => (.error .type, s)
    | some n => (.ok (sample E o.randomState s n).1, (sample E o.randomState s n).2)

/-- `_setup_optimizer`, `ego.py` 237-291: values given are used as they are (the array itself, not a copy),
otherwise the function is evaluated on the (unfolded) design. -/
def setup (E : Env P K μ γ) (o : Opts P) (f : P → K) (s : St P K μ γ) : Except Err (Data P K) × St P K μ γ :=
  match design E o s with
  | (.error e, s1) => (.error e, s1)
  | (.ok xs, s1) =>
    match s1.ydoe with
    | some ys => (.ok ⟨xs, ys, true⟩, s1)
    | none => (.ok ⟨xs, xs.map f, false⟩, { s1 with calls := s1.calls ++ [xs] })

/-- The end of `optimize`, `ego.py` 183-191. -/
def finish (o : Opts P) (d : Data P K) : Except Err (Result P P K) :=
  match argmin d.ys with
  | none => .error .value
  | some i =>
    match d.xs[i]?, d.ys[i]? with
    | some x, some y => .ok ⟨o.fold x, y, i, d.xs, d.ys⟩
    | _, _ => .error .index

/-- `optimize`, `ego.py` 128-191. `range(None)` raises `TypeError`, after the set-up. -/
def optimize (E : Env P K μ γ) (o : Opts P) (f : P → K) (s : St P K μ γ) :
    Except Err (Result P P K) × St P K μ γ :=
  match setup E o f s with
  | (.error e, s1) => (.error e, s1)
  | (.ok d, s1) =>
    match o.nIter with
    | none => (.error .type, s1)
    | some n =>
      match loop E o f n d s1 with
      | (.error e, s2) => (.error e, s2)
      | (.ok d2, s2) => (finish o d2, s2)

end SMT.Ego.Life
