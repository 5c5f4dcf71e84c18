import Verif.Fp.SplineProps2
import Verif.Fp.Ieee

/-!
# Model of `standardization` (`smt/utils/kriging_utils.py` 22-84) in rounded arithmetic

Columns are independent of each other in `standardization`, so the model is one column (of `X`, or `y`), of `n ≥ 2` values. The order in which
NumPy adds (row by row, or pairwise with eight accumulators, depending on layout and version) is a parameter: any binary tree with the `n` values at
its leaves. `sq` is `np.sqrt`. The variant `scale_X_to_unit=True`, which nothing in the repository uses, is not modelled.
-/
set_option linter.unusedSectionVars false
set_option linter.unusedSimpArgs false
set_option linter.unusedVariables false

namespace SMT.Fp

/-- An order of summation: which values are added first. -/
inductive Tree where
  | leaf : ℕ → Tree
  | node : Tree → Tree → Tree
deriving DecidableEq

namespace Tree
/-- The numbers of the values, in the order of the leaves. -/
def leaves : Tree → List ℕ
  | leaf i => [i]
  | node a b => a.leaves ++ b.leaves

/-- `n` values from the left: `((x₀ + x₁) + x₂) + …`. -/
def left : ℕ → Tree
  | 0 => leaf 0
  | n + 1 => node (left n) (leaf (n + 1))

/-- The tree adds `n` values, each of them once. -/
def Adds (t : Tree) (n : ℕ) : Prop := t.leaves.Perm (List.range n)
end Tree

variable {K : Type} [Field K] [LinearOrder K] [IsStrictOrderedRing K]

/-- `np.sum`, with the sums rounded one after another. -/
def Tree.eval (R : Rounding K) (f : ℕ → K) : Tree → K
  | .leaf i => f i
  | .node a b => R.rnd (a.eval R f + b.eval R f)

/-- `np.mean(X, axis=0)`, `kriging_utils.py` 73, 77 (the sum, divided by the number of values). -/
def meanF (R : Rounding K) (t : Tree) (x : List K) : K := R.rnd (t.eval R (fun i => x.getD i 0) / x.length)

/-- The variance in `X.std(axis=0, ddof=1)`, `kriging_utils.py` 74, 78, as NumPy computes it: deviations from the computed mean,
their squares, their sum, divided by `n - 1`. -/
def varF (R : Rounding K) (t t' : Tree) (x : List K) : K :=
  let d := x.map fun v => R.rnd (v - meanF R t x)
  R.rnd (t'.eval R (fun i => R.rnd (d.getD i 0 * d.getD i 0)) / (x.length - 1 : ℕ))

/-- `X_scale` (`y_std`) with `X_scale[X_scale == 0.0] = 1.0`, `kriging_utils.py` 74-75, 78-79. -/
def scaleOf (R : Rounding K) (sq : K → K) (t t' : Tree) (x : List K) : K :=
  let s := sq (varF R t t' x)
  if s = 0 then 1 else s

/-- `(x - X_offset) / X_scale`, `kriging_utils.py` 82-83; also what `krg_based.py` 648, 684, 738, 780 do to the points of a prediction. -/
def normF (R : Rounding K) (m s v : K) : K := R.rnd (R.rnd (v - m) / s)

/-- One column of `standardization`, `kriging_utils.py` 73-84: the values, the offset and the scale. -/
def standardize (R : Rounding K) (sq : K → K) (t t' : Tree) (x : List K) : List K × K × K :=
  let m := meanF R t x
  let s := scaleOf R sq t t' x
  (x.map (normF R m s), m, s)

/-- `self.y_mean + self.y_std * y_`, `krg_based.py` 662. -/
def denormF (R : Rounding K) (m s y : K) : K := R.rnd (m + R.rnd (s * y))

/-! ## With a finite range of exponents -/

/-- `np.sum` with overflow. -/
def Tree.evalX (F : Format K) (f : ℕ → X K) : Tree → X K
  | .leaf i => f i
  | .node a b => F.addX (a.evalX F f) (b.evalX F f)

/-- The mean with overflow, as `meanF`. -/
def meanX (F : Format K) (t : Tree) (x : List K) : X K := F.divX (t.evalX F (fun i => .fin (x.getD i 0))) (.fin x.length)

/-- The variance with overflow and underflow, as `varF`. -/
def varX (F : Format K) (t t' : Tree) (x : List K) : X K :=
  let d := x.map fun v => F.subX (.fin v) (meanX F t x)
  F.divX (t'.evalX F (fun i => F.mulX (d.getD i (.fin 0)) (d.getD i (.fin 0)))) (.fin (x.length - 1 : ℕ))

/-- `np.sqrt` on values with infinities; negative arguments do not occur. -/
def sqrtX (sq : K → K) : X K → X K
  | .fin v => .fin (sq v)
  | .inf s => .inf s
  | .nan => .nan

/-- The column with overflow and underflow, as `standardize`. -/
def standardizeX (F : Format K) (sq : K → K) (t t' : Tree) (x : List K) : List (X K) × X K × X K :=
  let m := meanX F t x
  let s0 := sqrtX sq (varX F t t' x)
  let s := if s0 = .fin 0 then .fin 1 else s0
  (x.map fun v => F.divX (F.subX (.fin v) m) s, m, s)

end SMT.Fp
