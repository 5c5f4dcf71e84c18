import Verif.Fp.Standard
import Verif.Ego.Model

/-!
# Model of `smt/applications/ego.py` in IEEE arithmetic: infinities and NaN

Values are format values `X K` (finite, `±∞`, NaN; the sign of a zero is not kept, a zero divisor counts as `+0`). `norm.cdf`, `norm.pdf`, `np.sqrt` and the surrogate are
parameters; what is assumed about the first three is `Lib.Ok` (in `EgoProps`).
-/
set_option linter.unusedSectionVars false
set_option linter.unusedSimpArgs false
set_option linter.unusedVariables false

namespace SMT.Fp.Ego
open SMT.Fp

variable {K : Type} [Field K] [LinearOrder K] [IsStrictOrderedRing K]

/-- `np.isnan`. -/
def isNan : X K → Bool
  | .nan => true
  | _ => false

/-- `MSE[MSE < 0.0] = 0.0`, `krg_based.py` 762 and `krg_mgp.py` 122, 359; also Python's `max(e, 0)`, `ego.py` 222 (`max` keeps its first argument unless the second is greater). -/
def clip (v : X K) : X K := if v.lt (.fin 0) then .fin 0 else v

/-- Functions of NumPy and SciPy. -/
structure Lib (K : Type) where
  sqrt : X K → X K
  cdf : X K → X K
  pdf : X K → X K

variable (F : Format K) (L : Lib K)

/-- One entry of `_predict_variances`, `krg_based.py` 756-763: `s1` and `s2` are the two sums of squares. -/
def mse (sigma2 s1 s2 : X K) : X K := clip (F.mulX sigma2 (F.addX (F.subX (.fin 1) s1) s2))

/-- `args1 + args2`, `ego.py` 202-207, for one entry: `d = f_min - pred`. -/
def eiFormula (d sig : X K) : X K :=
  F.addX (F.mulX d (L.cdf (F.divX d sig))) (F.mulX sig (L.pdf (F.divX d sig)))

/-- `EI` at one point without tunneling, `ego.py` 199-207. -/
def eiOne (fMin pred var : X K) : X K :=
  let sig := L.sqrt var
  if sig = .fin 0 then .fin 0 else eiFormula F L (F.subX fMin pred) sig

/-- `EI` at several points without tunneling, `ego.py` 199-207: the test of line 205 is made only when there is one point. Entries are `(pred, var)`. -/
def eiMany (fMin : X K) : List (X K × X K) → List (X K)
  | [p] => [eiOne F L fMin p.1 p.2]
  | ps => ps.map fun p => eiFormula F L (F.subX fMin p.1) (L.sqrt p.2)

/-- The tunneling loop for one point, `ego.py` 211-222. `eip` is `EIp`; the list holds, for each recorded point `x`, `EI(x)` and `np.power(norm(p - x), 4)`. -/
def penalise (eip : X K) : X K → List (X K × X K) → X K
  | e, [] => e
  | e, q :: qs =>
    let pena := F.divX (F.subX eip q.1) q.2
    penalise eip (clip (if (X.fin 0).lt pena then F.subX e pena else e)) qs

/-- `UCB`, `ego.py` 230-235. -/
def ucb (three pred var : X K) : X K := F.subX pred (F.mulX three (L.sqrt var))

/-- `np.min` of a non-empty array (NaN if there is one), `ego.py` 199. -/
def minGo : X K → List (X K) → X K
  | m, [] => m
  | m, a :: as => if isNan m then minGo m as else if isNan a then minGo a as else minGo (if a.lt m then a else m) as

/-- `np.min`; `none` for an empty array. -/
def npMin : List (X K) → Option (X K)
  | [] => none
  | a :: as => some (minGo a as)

/-- `np.argmin`, `ego.py` 184 and 371. NumPy's loop: stop at the first NaN, otherwise keep the first least value. -/
def argminGo : X K → ℕ → ℕ → List (X K) → ℕ
  | _, best, _, [] => best
  | m, best, i, a :: as => if isNan a then i else if a.lt m then argminGo a i (i + 1) as else argminGo m best (i + 1) as

/-- `np.argmin`; `none` for an empty array. -/
def argmin : List (X K) → Option ℕ
  | [] => none
  | a :: as => some (if isNan a then 0 else argminGo a 0 1 as)

/-- The outputs handed to the likelihood, `kriging_utils.py` 77-82 `standardization`: `(y - y_mean) / y_std`, for any order of the additions and any standard deviation `s`. -/
def standardY (t : Tree) (s : X K) (ys : List (X K)) : List (X K) :=
  let m := F.divX (t.evalX F fun i => ys.getD i .nan) (.fin ys.length)
  ys.map fun y => F.divX (F.subX y m) s

/-! ## A run -/

variable {P Q σ ε : Type}

/-- The last lines of `_find_best_point`, `ego.py` 367-375: the choice among the successful runs `(fun, x)`. -/
def choose (runs : List (X K × P)) : Option P := (argmin (runs.map (·.1))).bind fun i => (runs[i]?).map (·.2)

/-- What `optimize` calls: `_find_best_point` (which trains the surrogate, and may raise) and `_get_virtual_point`. -/
structure Oracle (P K σ ε : Type) where
  find : σ → List P → List (X K) → Except ε (Option P × σ)
  virt : σ → P → List (X K) → Except ε (X K × σ)

/-- The virtual enrichment loop with its `break`, `ego.py` 153-174. -/
def enrich (O : Oracle P K σ ε) : ℕ → List P → List (X K) → σ → Except ε ((List P × List (X K)) × σ)
  | 0, xs, ys, s => .ok ((xs, ys), s)
  | p + 1, xs, ys, s =>
    match O.find s xs ys with
    | .error e => .error e
    | .ok (none, s') => .ok ((xs, ys), s')
    | .ok (some x, s') =>
      match O.virt s' x ys with
      | .error e => .error e
      | .ok (v, s'') => enrich O p (xs ++ [x]) (ys ++ [v]) s''

/-- The iterations of `optimize`, `ego.py` 150-181. -/
def loop (O : Oracle P K σ ε) (f : Q → X K) (fold : P → Q) (nPar : ℕ) : ℕ → List P → List (X K) → σ → Except ε ((List P × List (X K)) × σ)
  | 0, xs, ys, s => .ok ((xs, ys), s)
  | k + 1, xs, ys, s =>
    match enrich O nPar xs ys s with
    | .error e => .error e
    | .ok ((xs', ys'), s') => loop O f fold nPar k xs' (SMT.Ego.setLastN nPar ys' ((SMT.Ego.lastN nPar xs').map fun x => f (fold x))) s'

/-- `optimize`, `ego.py` 146-191, from the initial design: `none` is NumPy's exception for an empty record. -/
def optimize (O : Oracle P K σ ε) (f : Q → X K) (fold : P → Q) (nIter nPar : ℕ) (xdoe : List P) (ydoe : List (X K)) (s : σ) :
    Except ε (Option (SMT.Ego.Result P Q (X K))) :=
  match loop O f fold nPar nIter xdoe ydoe s with
  | .error e => .error e
  | .ok ((xs, ys), _) => .ok <|
    match argmin ys with
    | none => none
    | some i =>
      match xs[i]?, ys[i]? with
      | some x, some y => some ⟨fold x, y, i, xs, ys⟩
      | _, _ => none

end SMT.Fp.Ego
