import Verif.Fp.Moe
import Verif.Fp.Sampling
import Verif.MixedInt.Model

/-!
# Model of `smt/applications/mixed_integer.py` on floating-point values

Rows are lists of values of a format: numbers, infinities, NaN. None of these functions rounds, except `np.round` (to an integer) and the conversion to `int`.
-/
set_option linter.unusedSectionVars false
set_option linter.unusedSimpArgs false
set_option linter.unusedVariables false

namespace SMT.Fp.MixedInt
open SMT.MixedInt (XType Err Lim pyIndex truncInt sampleRow)
open SMT.Fp.Ego

variable {K : Type} [Field K] [LinearOrder K] [IsStrictOrderedRing K] [FloorRing K]

/-- `np.round`, `mixed_integer.py` 124: to the nearest integer, ties to even; infinities and NaN are kept. -/
def roundX : X K → X K
  | .fin x => .fin (SMT.MixedInt.roundHalfEven x : K)
  | v => v

/-- `np.max`, `mixed_integer.py` 130: NaN if there is one. -/
def maxGo : X K → List (X K) → X K
  | m, [] => m
  | m, a :: as => maxGo (if isNan m then m else if isNan a then a else if m.lt a then a else m) as

/-- The enum branch of `cast_to_discrete_values`, `mixed_integer.py` 129-133. -/
def castBlockX : List (X K) → Except Err (List (X K))
  | [] => .error .valueError
  | a :: as => .ok ((a :: as).map fun v => if v.lt (maxGo a as) then .fin 0 else .fin 1)

/-- `cast_to_discrete_values`, `mixed_integer.py` 112-137, on one row from column `x_col` on. -/
def castX : List XType → List (X K) → Except Err (List (X K))
  | [], xs => .ok xs
  | t :: ts, xs =>
    match t with
    | .float =>
      match xs with
      | [] => castX ts []
      | x :: rest => (castX ts rest).map (x :: ·)
    | .int =>
      match xs with
      | [] => .error .indexError
      | x :: rest => (castX ts rest).map (roundX x :: ·)
    | .enum n =>
      match castBlockX (xs.take n) with
      | .error e => .error e
      | .ok b => (castX ts (xs.drop n)).map (b ++ ·)
    | _ => .error .valueError

/-- `fold_with_enum_index`, `mixed_integer.py` 140-157, on one row. -/
def foldX : List XType → List (X K) → Except Err (List (X K))
  | [], _ => .ok []
  | t :: ts, xs =>
    match t with
    | .float | .int =>
      match xs with
      | [] => .error .indexError
      | x :: rest => (foldX ts rest).map (x :: ·)
    | .enum n =>
      match Moe.argmaxX (xs.take n) with
      | none => .error .valueError
      | some j => (foldX ts (xs.drop n)).map (.fin (j : K) :: ·)
    | _ => .error .valueError

/-- `unfold_with_enum_mask`, `mixed_integer.py` 160-178, on one row. `toInt` is NumPy's `astype(int)`: the C conversion, which truncates what fits into 64 bits and is left open by the C standard for NaN, infinities and larger
numbers. -/
def unfoldX (toInt : X K → ℤ) : List XType → List (X K) → Except Err (List (X K))
  | [], _ => .ok []
  | t :: ts, xs =>
    match t with
    | .float | .int =>
      match xs with
      | [] => .error .indexError
      | x :: rest => (unfoldX toInt ts rest).map (x :: ·)
    | .enum n =>
      match xs with
      | [] => .error .indexError
      | x :: rest =>
        match pyIndex n (toInt x) with
        | .error e => .error e
        | .ok j => (unfoldX toInt ts rest).map ((SMT.MixedInt.mask n j).map .fin ++ ·)
    | _ => .error .valueError

/-- Exceptions of Python's `int(x)` on top of those of the file. -/
inductive ErrX where
  | of (e : Err)
  | nanToInt | overflow
deriving DecidableEq, Repr

/-- Python's `int(x)` of a float: `ValueError` for NaN, `OverflowError` for an infinity. -/
def pyInt : X K → Except ErrX ℤ
  | .fin x => .ok (truncInt x)
  | .inf _ => .error .overflow
  | .nan => .error .nanToInt

/-- An item of a point with level labels. -/
inductive ItemX (K : Type) where
  | num (x : X K)
  | int (i : ℤ)
  | level (j : ℕ)

/-- `cast_to_mixed_integer`, `mixed_integer.py` 188-203. A level is given by its place in `xlimits[i]` (which has `n` entries for a checked specification). -/
def castToMixedIntegerX : List XType → List (X K) → Except ErrX (List (ItemX K))
  | [], _ => .ok []
  | _ :: _, [] => .error (.of .indexError)
  | t :: ts, x :: xs =>
    match t with
    | .float => (castToMixedIntegerX ts xs).map (.num x :: ·)
    | .int =>
      match pyInt x with
      | .error e => .error e
      | .ok i => (castToMixedIntegerX ts xs).map (.int i :: ·)
    | .enum n =>
      match pyInt x with
      | .error e => .error e
      | .ok i =>
        match pyIndex n i with
        | .error e => .error (.of e)
        | .ok j => (castToMixedIntegerX ts xs).map (.level j :: ·)
    | _ => .error (.of .valueError)

/-- The row handed to the inner surrogate by `predict_values`, `mixed_integer.py` 301-308. -/
def predictionRowX (toInt : X K → ℤ) (xtypes : List XType) (folded : Bool) (row : List (X K)) : Except Err (List (X K)) :=
  match (if folded then unfoldX toInt xtypes row else .ok row) with
  | .error e => .error e
  | .ok u => castX xtypes u

/-- One row of `MixedIntegerSamplingMethod(...)(nt)`, `mixed_integer.py` 237-243, from a row of the unit design: scaled to the unfolded limits with rounding (`sampling_method.py` 150), cast and folded. -/
def mixedRowF (R : Rounding K) (xtypes : List XType) (lims : List (K × K)) (unit : List K) : Except Err (List K) :=
  sampleRow xtypes true (scaleRowF R lims unit)

end SMT.Fp.MixedInt
