import Verif.Sampling.Model
import Mathlib.Probability.Distributions.Gaussian.Real

/-!
# Model of `smt/applications/ego.py`

`P` is the type of points handled internally (unfolded when the problem is mixed-integer), `Q` the type of
points the user's function receives. The surrogate, SciPy's optimizer and all random draws are arbitrary
state machines. The user's function is a pure function and the evaluator maps it over the rows.
`y_data`'s trailing dimension of size 1 is dropped.
-/
namespace SMT.Ego

variable {P Q K σ : Type} [LinearOrder K]

/-! ## `_find_best_point` -/

/-- First index of a minimum, `np.argmin`; `none` for an empty array (NumPy raises). -/
def argminGo : K → Nat → Nat → List K → Nat
  | _, best, _, [] => best
  | m, best, i, a :: as => if a < m then argminGo a i (i + 1) as else argminGo m best (i + 1) as

def argmin : List K → Option Nat
  | [] => none
  | a :: as => some (argminGo a 0 1 as)

/-- The `while not success and n_optim <= n_max_optim` loop, `ego.py` 337-366. One attempt returns, for each
start point, `some (fun, x)` for a successful SLSQP run and `none` for a failed one or a `ValueError`.
`fuel` bounds the number of bodies (at most `n_max_optim` are needed). Result: final `n_optim` and the
successful runs of the last attempt. -/
def attemptLoop (attempt : σ → List (Option (K × P)) × σ) (nMax : Nat) :
    Nat → Nat → σ → (Nat × List (K × P)) × σ
  | 0, nOptim, s => ((nOptim, []), s)
  | fuel + 1, nOptim, s =>
    if nOptim ≤ nMax then
      let r := attempt s
      let ok := r.1.filterMap id
      if ok.isEmpty then attemptLoop attempt nMax fuel (nOptim + 1) r.2
      else ((nOptim, ok), r.2)
    else ((nOptim, []), s)

/-- `_find_best_point`, `ego.py` 335-375, after training: `none` = `success` is `False`. -/
def findBestPoint (attempt : σ → List (Option (K × P)) × σ) (nMax : Nat) (s : σ) : Option P × σ :=
  let r := attemptLoop attempt nMax (nMax + 1) 1 s
  if nMax ≤ r.1.1 then (none, r.2)
  else
    match argmin (r.1.2.map (·.1)) with
    | none => (none, r.2)   -- unreachable: see `findBestPoint_spec`
    | some i => ((r.1.2[i]?).map (·.2), r.2)

/-! ## `optimize` -/

/-- Everything `optimize` calls. `find` is `_find_best_point`, `virt` is `_get_virtual_point`; both may use
and change any hidden state (surrogate, generators). -/
structure Oracle (P K σ : Type) where
  find : σ → List P → List K → Option P × σ
  virt : σ → P → List K → K × σ

/-- The virtual enrichment loop with its `break`, `ego.py` 153-174. -/
def enrich (O : Oracle P K σ) : Nat → List P → List K → σ → (List P × List K) × σ
  | 0, xs, ys, s => ((xs, ys), s)
  | p + 1, xs, ys, s =>
    let r := O.find s xs ys
    match r.1 with
    | none => ((xs, ys), r.2)
    | some x =>
      let v := O.virt r.2 x ys
      enrich O p (xs ++ [x]) (ys ++ [v.1]) v.2

/-- `a[-n:]` in Python (`a[-0:]` is the whole array), `ego.py` 177. -/
def lastN {α : Type} (n : Nat) (l : List α) : List α := if n = 0 then l else l.drop (l.length - n)

/-- `a[-n:] = b`, `ego.py` 181, for `b` of the right length. -/
def setLastN {α : Type} (n : Nat) (l b : List α) : List α := if n = 0 then b else l.take (l.length - n) ++ b

/-- Body of the outer loop, `ego.py` 150-181; `fold` is the identity or `mixint.fold_with_enum_index`. -/
def iteration (O : Oracle P K σ) (f : Q → K) (fold : P → Q) (nPar : Nat) (xs : List P) (ys : List K) (s : σ) :
    (List P × List K) × σ :=
  let r := enrich O nPar xs ys s
  let y := (lastN nPar r.1.1).map fun x => f (fold x)
  ((r.1.1, setLastN nPar r.1.2 y), r.2)

def loop (O : Oracle P K σ) (f : Q → K) (fold : P → Q) (nPar : Nat) : Nat → List P → List K → σ →
    (List P × List K) × σ
  | 0, xs, ys, s => ((xs, ys), s)
  | k + 1, xs, ys, s =>
    let r := iteration O f fold nPar xs ys s
    loop O f fold nPar k r.1.1 r.1.2 r.2

structure Result (P Q K : Type) where
  xOpt : Q
  yOpt : K
  ind : Nat
  xData : List P
  yData : List K

/-- `optimize`, `ego.py` 146-191, from the initial design returned by `_setup_optimizer`. `none`: `argmin` of
an empty array. -/
def optimize (O : Oracle P K σ) (f : Q → K) (fold : P → Q) (nIter nPar : Nat) (xdoe : List P) (ydoe : List K)
    (s : σ) : Option (Result P Q K) :=
  let r := (loop O f fold nPar nIter xdoe ydoe s).1
  match argmin r.2 with
  | none => none
  | some i =>
    match r.1[i]?, r.2[i]? with
    | some x, some y => some ⟨fold x, y, i, r.1, r.2⟩
    | _, _ => none

/-! ## Acquisition functions -/

open ProbabilityTheory MeasureTheory

/-- `norm.pdf`. -/
noncomputable def pdf (t : ℝ) : ℝ := gaussianPDFReal 0 1 t
/-- `norm.cdf`. -/
noncomputable def cdf (t : ℝ) : ℝ := ∫ s in Set.Iic t, pdf s

/-- `EI` at one point without tunneling, `ego.py` 199-207. `pred` and `sig` are the surrogate's mean and the
square root of its variance. -/
noncomputable def ei (fMin pred sig : ℝ) : ℝ :=
  if sig = 0 then 0
  else (fMin - pred) * cdf ((fMin - pred) / sig) + sig * pdf ((fMin - pred) / sig)

/-- The tunneling penalty loop for one point, `ego.py` 211-222. `eiAt` is `EI(·)` without tunneling and `dist`
the Euclidean norm of the difference. (At an already sampled point NumPy gets `0/0 = nan` and the test
`nan > 0` fails; here `0/0 = 0` fails the same test.) -/
noncomputable def tunnel {P : Type} (eiAt : P → ℝ) (dist : P → P → ℝ) (p : P) : ℝ → List P → ℝ
  | e, [] => e
  | e, x :: xs =>
    let pena := (eiAt p - eiAt x) / dist p x ^ 4
    tunnel eiAt dist p (max (if 0 < pena then e - pena else e) 0) xs

/-- `EI` with `enable_tunneling=True` at one point. -/
noncomputable def eiTunnel {P : Type} (fMin : ℝ) (pred sig : P → ℝ) (dist : P → P → ℝ) (xData : List P) (p : P) : ℝ :=
  if sig p = 0 then 0
  else tunnel (fun q => ei fMin (pred q) (sig q)) dist p (ei fMin (pred p) (sig p)) xData

/-- `UCB`, `ego.py` 230-235 (minimised). -/
noncomputable def ucb (pred var : ℝ) : ℝ := pred - 3 * Real.sqrt var

/-- The `qEI` option. -/
inductive QEI where | KB | KBLB | KBUB | KBRand | CLmin

/-- `_get_virtual_point`, `ego.py` 377-411; `z` is the `randn()` draw, `yMin = np.min(y_data)`. -/
noncomputable def virtualPoint (q : QEI) (pred var z yMin : ℝ) : ℝ :=
  match q with
  | .CLmin => yMin
  | .KB => pred
  | .KBUB => pred + 3 * Real.sqrt var
  | .KBLB => pred + (-3) * Real.sqrt var
  | .KBRand => pred + z * Real.sqrt var

end SMT.Ego
