import Mathlib.Analysis.SpecialFunctions.Pow.Real
import Mathlib.Algebra.BigOperators.Fin

/-!
# Model of `compute_rms_error`

`smt/utils/misc.py` 11-52.
-/
namespace SMT.Misc

noncomputable section

/-- What a call can do: return a float, `nan` or `inf` (NumPy division by zero, with a warning only), return `None`, or raise. -/
inductive Out
  | val (r : ℝ)
  | nan
  | inf
  | none
  | valueError
  | unboundLocal
  | keyOrShape

/-- A surrogate as far as this function uses it: the two prediction methods (`Option.none` when they raise) and the stored training data by key (`0` values, `k + 1` derivatives). -/
structure SM (P : Type) where
  values : List P → Option (List ℝ)
  derivs : List P → ℕ → Option (List ℝ)
  training : ℕ → Option (List P × List ℝ)

/-- `np.linalg.norm` of a column. -/
def norm (l : List ℝ) : ℝ := √((l.map fun v => v ^ 2).sum)

/-- `np.linalg.norm(a - b) / np.linalg.norm(b)` of two columns of equal length, `misc.py` 34, 50-52: NumPy floats divide by zero without raising. -/
def ratio (a b : List ℝ) : Out :=
  let num := norm (List.zipWith (fun u v => u - v) a b)
  let den := norm b
  if den = 0 then (if num = 0 then .nan else .inf) else .val (num / den)

/-- `compute_rms_error`, `misc.py` 28-52. `ye.reshape((ne, 1))` raises unless there are as many values as points. With neither `xe` nor `ye` and a derivative index, `kx2 += 1` reads a local variable that was
never assigned. With exactly one of them given, no branch is taken. Predictions of another length than the data would broadcast or raise; they count as an error here. -/
def rms {P : Type} (sm : SM P) (xe : Option (List P)) (ye : Option (List ℝ)) (kx : Option ℕ) : Out :=
  match xe, ye with
  | some xe, some ye =>
    if ye.length ≠ xe.length then .keyOrShape
    else match (match kx with | .none => sm.values xe | some k => sm.derivs xe k) with
      | .none => .keyOrShape
      | some ye2 => if ye2.length = ye.length then ratio ye2 ye else .keyOrShape
  | .none, .none =>
    match kx with
    | some _ => .unboundLocal
    | .none => match sm.training 0 with
      | .none => .valueError
      | some (xt, yt) => match sm.values xt with
        | .none => .keyOrShape
        | some yt2 => if yt2.length = yt.length then ratio yt2 yt else .keyOrShape
  | _, _ => .none

end

end SMT.Misc
