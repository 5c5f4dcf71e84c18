import Mathlib.Algebra.Order.Field.Basic
import Mathlib.Algebra.BigOperators.Fin
import Mathlib.Analysis.SpecialFunctions.Pow.Real

/-!
# Model of the data preparation of the Kriging models

`smt/utils/kriging_utils.py`: `standardization`, `cross_distances`, `differences`, `constant`, `linear`, `quadratic`;
`smt/surrogate_models/krg_based.py`: assembly of the correlation matrix.
-/
namespace SMT.Krg

variable {K : Type}

/-- `a[lo : lo + len(new)] = new`; numpy raises when the slice is shorter than `new`. -/
def assignRange {α : Type} (a : List α) (lo : ℕ) (new : List α) : Option (List α) :=
  if lo + new.length ≤ a.length then some (a.take lo ++ (new ++ a.drop (lo + new.length))) else none

/-- State of the loop of `cross_distances`: `ll_1`, `ij`, `D`. -/
structure CDState (K : Type) (m : ℕ) where
  ll1 : ℕ
  ij : List (ℕ × ℕ)
  D : List (Fin m → K)

/-- One iteration of the loop of `cross_distances`, `kriging_utils.py` 116-121. -/
def cdStep [Sub K] {m : ℕ} (n : ℕ) (X : ℕ → Fin m → K) (s : CDState K m) (k : ℕ) : Option (CDState K m) := do
  let ll0 := s.ll1
  let ll1 := ll0 + n - k - 1
  let ls := List.range' (k + 1) (n - (k + 1))           -- np.arange(k + 1, n_samples)
  if ll1 - ll0 ≠ ls.length then none else               -- shape check of the assignment
  let ij ← assignRange s.ij ll0 (ls.map fun l => (k, l))
  let D ← assignRange s.D ll0 (ls.map fun l j => X k j - X l j)
  pure ⟨ll1, ij, D⟩

/-- `cross_distances`, `kriging_utils.py` 87-123, for `n` samples (rows `X 0 … X (n-1)`). -/
def crossDistances [Sub K] [Zero K] {m : ℕ} (n : ℕ) (X : ℕ → Fin m → K) : Option (List (Fin m → K) × List (ℕ × ℕ)) := do
  let N := n * (n - 1) / 2
  let s ← (List.range (n - 1)).foldlM (cdStep n X) ⟨0, List.replicate N (0, 0), List.replicate N 0⟩
  pure (s.D, s.ij)

/-- `np.eye(nt) * (1.0 + nugget + noise)`, then `R[ij[:, 0], ij[:, 1]] = r` and `R[ij[:, 1], ij[:, 0]] = r`,
`krg_based.py` 255-257. `noise` is broadcast over columns (a scalar is a constant function). -/
def corrMatrix [Field K] (nugget : K) (noise : ℕ → K) (ij : List (ℕ × ℕ)) (r : List K) : ℕ → ℕ → K :=
  let R : ℕ → ℕ → K := fun i j => (if i = j then 1 else 0) * (1 + nugget + noise j)
  let R := (ij.zip r).foldl (fun R p i j => if i = p.1.1 ∧ j = p.1.2 then p.2 else R i j) R
  (ij.zip r).foldl (fun R p i j => if i = p.1.2 ∧ j = p.1.1 then p.2 else R i j) R

/-- `differences`, `kriging_utils.py` 126-129: row `a * nt + b` is `X[a] - Y[b]`. -/
def differences [Sub K] {m : ℕ} (X Y : List (Fin m → K)) : List (Fin m → K) :=
  X.flatMap fun a => Y.map fun b j => a j - b j

/-! ## Trend functions -/

/-- `constant`, `kriging_utils.py` 953-974, one point. -/
def constantRow [One K] (_x : List K) : List K := [1]
/-- `linear`, `kriging_utils.py` 977-998. -/
def linearRow [One K] (x : List K) : List K := [1] ++ x
/-- `quadratic`, `kriging_utils.py` 1001-1027. -/
def quadraticRow [Semiring K] (x : List K) : List K :=
  (List.range x.length).foldl (fun f k => f ++ (x.drop k).map (fun v => x.getD k 0 * v)) ([1] ++ x)

/-! ## Standardisation -/

noncomputable section

/-- `np.mean(X, axis=0)` of one column. -/
def mean {n : ℕ} (x : Fin n → ℝ) : ℝ := (∑ i, x i) / n

/-- `X.std(axis=0, ddof=1)` of one column. -/
def std1 {n : ℕ} (x : Fin n → ℝ) : ℝ := √((∑ i, (x i - mean x) ^ 2) / ((n : ℝ) - 1))

/-- Offset and scale of one column, `kriging_utils.py` 71-79 with `scale_X_to_unit=False` (also used for `y`). -/
def scaling {n : ℕ} (x : Fin n → ℝ) : ℝ × ℝ :=
  let s := std1 x
  (mean x, if s = 0 then 1 else s)

/-- Offset and scale of one column with `scale_X_to_unit=True`, `kriging_utils.py` 67-70 (at least one sample). -/
def scalingUnit {n : ℕ} (x : Fin (n + 1) → ℝ) : ℝ × ℝ :=
  let lo := Finset.univ.inf' Finset.univ_nonempty x
  let hi := Finset.univ.sup' Finset.univ_nonempty x
  (lo, hi - lo)

/-- `(X - X_offset) / X_scale`, `kriging_utils.py` 82-83 and `krg_based.py` 648. -/
def normalise (os : ℝ × ℝ) (v : ℝ) : ℝ := (v - os.1) / os.2

/-- `y_mean + y_std * y_`, `krg_based.py` 662. -/
def denormalise (os : ℝ × ℝ) (v : ℝ) : ℝ := os.1 + os.2 * v

end

end SMT.Krg
