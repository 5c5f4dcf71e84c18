import Verif.Sampling.Model
import Mathlib.Algebra.Order.Floor.Ring

/-!
# Model of `smt/applications/mixed_integer.py`

All the array functions of that file work row by row; they are modelled on one row (a list of scalars), and
lifted to matrices with `mapM` (the first failing row decides, as any failing row makes the whole NumPy
call raise). Zero-row matrices are not distinguished.
-/
namespace SMT.MixedInt

variable {K : Type} [Field K] [LinearOrder K] [IsStrictOrderedRing K] [FloorRing K]

/-- A type specification: `FLOAT`, `INT`, `(ENUM, n)` (`mixed_integer.py` 11-13), any other tuple whose
second item is `n`, or anything else. -/
inductive XType where
  | float | int
  | enum (n : Nat)
  | badTuple (n : Nat)
  | bad
deriving DecidableEq, Repr

/-- One item of `xlimits`: numeric bounds or a list of level labels. -/
inductive Lim (K : Type) where
  | bounds (l : List K)
  | levels (l : List String)

/-- `len(xlimits[i])`. -/
def Lim.len : Lim K → Nat
  | .bounds l => l.length
  | .levels l => l.length

inductive Err where
  | valueError | indexError
deriving DecidableEq, Repr

/-- The checks for one variable, `mixed_integer.py` 26-47, in order. -/
def checkOne (t : XType) (l : Lim K) : Except Err Unit :=
  let isTuple := match t with | .enum _ => true | .badTuple _ => true | _ => false
  if !isTuple && l.len ≠ 2 then .error .valueError
  else
    match t with
    | .bad => .error .valueError
    | .badTuple _ => .error .valueError
    | .enum n => if l.len ≠ n then .error .valueError else .ok ()
    | _ => .ok ()

/-- The `for i, xtyp in enumerate(xtypes)` loop of `check_xspec_consistency`. -/
def checkLoop : List XType → List (Lim K) → Except Err Unit
  | [], _ => .ok ()
  | _ :: _, [] => .error .indexError
  | t :: ts, l :: ls =>
    match checkOne t l with
    | .error e => .error e
    | .ok () => checkLoop ts ls

/-- `check_xspec_consistency`, `mixed_integer.py` 16-47. -/
def checkXspec (xtypes : List XType) (xlimits : List (Lim K)) : Except Err Unit :=
  if xlimits.length ≠ xtypes.length then .error .valueError else checkLoop xtypes xlimits

/-- `compute_unfolded_dimension`, `mixed_integer.py` 57-69. -/
def unfoldedDim : List XType → Except Err Nat
  | [] => .ok 0
  | t :: ts =>
    match t with
    | .float | .int => (unfoldedDim ts).map (1 + ·)
    | .enum n => (unfoldedDim ts).map (n + ·)
    | _ => .error .valueError

/-- `unfold_xlimits_with_continuous_limits`, `mixed_integer.py` 72-109. Rows of the result are lists.
Simplification: textual bounds for a numeric variable are an error (`astype(float)` would accept numeric
strings). -/
def unfoldLimits : List XType → List (Lim K) → Except Err (List (List K))
  | [], _ => .ok []
  | _ :: _, [] => .error .indexError
  | t :: ts, l :: ls =>
    match t with
    | .float | .int =>
      match l with
      | .bounds b => (unfoldLimits ts ls).map (b :: ·)
      | .levels _ => .error .valueError
    | .enum n =>
      if n = l.len then (unfoldLimits ts ls).map (List.replicate n [0, 1] ++ ·)
      else .error .valueError
    | _ => .error .valueError

/-- `np.round`: to nearest, ties to even. -/
def roundHalfEven (x : K) : Int :=
  if x - (⌊x⌋ : K) < 1 / 2 then ⌊x⌋
  else if 1 / 2 < x - (⌊x⌋ : K) then ⌊x⌋ + 1
  else if ⌊x⌋ % 2 = 0 then ⌊x⌋ else ⌊x⌋ + 1

/-- `np.max` of a non-empty list. -/
def maxOf : K → List K → K
  | m, [] => m
  | m, a :: as => maxOf (max m a) as

/-- The enum branch of `cast_to_discrete_values`, `mixed_integer.py` 129-133, on one row's block:
entries below the block maximum become 0, the others 1. The maximum of an empty block raises. -/
def castBlock : List K → Except Err (List K)
  | [] => .error .valueError
  | a :: as => .ok ((a :: as).map fun v => if v < maxOf a as then 0 else 1)

/-- `cast_to_discrete_values`, `mixed_integer.py` 112-137, on one row; the list argument is the part of the
row from column `x_col` on. (Out-of-range slices are silently short, float columns are not even read.) -/
def cast : List XType → List K → Except Err (List K)
  | [], xs => .ok xs
  | t :: ts, xs =>
    match t with
    | .float =>
      match xs with
      | [] => cast ts []
      | x :: rest => (cast ts rest).map (x :: ·)
    | .int =>
      match xs with
      | [] => .error .indexError
      | x :: rest => (cast ts rest).map ((roundHalfEven x : K) :: ·)
    | .enum n =>
      match castBlock (xs.take n) with
      | .error e => .error e
      | .ok b => (cast ts (xs.drop n)).map (b ++ ·)
    | _ => .error .valueError

/-- `fold_with_enum_index`, `mixed_integer.py` 140-157, on one row. -/
def fold : List XType → List K → Except Err (List K)
  | [], _ => .ok []
  | t :: ts, xs =>
    match t with
    | .float | .int =>
      match xs with
      | [] => .error .indexError
      | x :: rest => (fold ts rest).map (x :: ·)
    | .enum n =>
      if xs.take n = [] then .error .valueError
      else (fold ts (xs.drop n)).map (((Sampling.argmax (xs.take n) : Nat) : K) :: ·)
    | _ => .error .valueError

/-- `.astype(int)` of a float: truncation towards zero. -/
def truncInt (x : K) : Int := if 0 ≤ x then ⌊x⌋ else ⌈x⌉

/-- Python/NumPy index into a sequence of length `n`: negative indices count from the end. -/
def pyIndex (n : Nat) (i : Int) : Except Err Nat :=
  if 0 ≤ i ∧ i < n then .ok i.toNat
  else if i < 0 ∧ -(n : Int) ≤ i then .ok (i + n).toNat
  else .error .indexError

/-- A block of `n` zeros with a 1 at position `j`. -/
def mask (n j : Nat) : List K := (List.replicate n (0 : K)).set j 1

/-- `unfold_with_enum_mask`, `mixed_integer.py` 160-178, on one row. -/
def unfold : List XType → List K → Except Err (List K)
  | [], _ => .ok []
  | t :: ts, xs =>
    match t with
    | .float | .int =>
      match xs with
      | [] => .error .indexError
      | x :: rest => (unfold ts rest).map (x :: ·)
    | .enum n =>
      match xs with
      | [] => .error .indexError
      | x :: rest =>
        match pyIndex n (truncInt x) with
        | .error e => .error e
        | .ok j => (unfold ts rest).map (mask n j ++ ·)
    | _ => .error .valueError

/-- Items of a point with level labels. -/
inductive Val (K : Type) where
  | num (x : K)
  | int (i : Int)
  | level (s : String)
deriving DecidableEq

/-- `cast_to_mixed_integer`, `mixed_integer.py` 188-203. -/
def castToMixedInteger : List XType → List (Lim K) → List K → Except Err (List (Val K))
  | [], _, _ => .ok []
  | _ :: _, _, [] => .error .indexError
  | t :: ts, ls, x :: xs =>
    match t with
    | .float => (castToMixedInteger ts ls.tail xs).map (.num x :: ·)
    | .int => (castToMixedInteger ts ls.tail xs).map (.int (truncInt x) :: ·)
    | .enum _ =>
      match ls with
      | [] => .error .indexError
      | l :: ls' =>
        match pyIndex l.len (truncInt x) with
        | .error e => .error e
        | .ok j =>
          match l with
          | .bounds b => (castToMixedInteger ts ls' xs).map ((b[j]?.map Val.num).getD (.int 0) :: ·)
          | .levels b => (castToMixedInteger ts ls' xs).map ((b[j]?.map Val.level).getD (.int 0) :: ·)
    | _ => .error .valueError

/-- `MixedIntegerSamplingMethod._compute`, `mixed_integer.py` 237-243; `doe` is what the wrapped sampling
method returned for the unfolded limits. -/
def sampleRow (xtypes : List XType) (folded : Bool) (row : List K) : Except Err (List K) :=
  match cast xtypes row with
  | .error e => .error e
  | .ok u => if folded then fold xtypes u else .ok u

def sampling (xtypes : List XType) (folded : Bool) (doe : List (List K)) : Except Err (List (List K)) :=
  doe.mapM (sampleRow xtypes folded)

/-- The training matrix handed to the inner surrogate, `set_training_values`, `mixed_integer.py` 285-292. -/
def trainingRow (xtypes : List XType) (folded : Bool) (row : List K) : Except Err (List K) :=
  if folded then unfold xtypes row else .ok row

/-- The point handed to the inner surrogate by `predict_values`/`predict_variances`,
`mixed_integer.py` 301-318. -/
def predictionRow (xtypes : List XType) (folded : Bool) (row : List K) : Except Err (List K) :=
  match trainingRow xtypes folded row with
  | .error e => .error e
  | .ok u => cast xtypes u

/-- `predict_values` with the inner surrogate's prediction as a parameter. -/
def predictValues {β : Type} (xtypes : List XType) (folded : Bool) (inner : List (List K) → β)
    (rows : List (List K)) : Except Err β :=
  (rows.mapM (predictionRow xtypes folded)).map inner

end SMT.MixedInt
