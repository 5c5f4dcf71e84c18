import Mathlib.Analysis.SpecialFunctions.Pow.Real
import Mathlib.Algebra.BigOperators.Fin

/-!
# Model of `smt/src/idw/idw.cpp` and `smt/surrogate_models/idw.py`

Reals instead of doubles; `pow(r2, -p / 2.)` is `Real.rpow` (at `r2 = 0` the C value is infinite, but it is never used
then: the branch is taken on `min_val == 0.`). Work arrays are functions on `Fin`. One evaluation point at a time: the
loops over `i` are independent.
-/
namespace SMT.Idw
open Classical

/-- `r2`, `idw.cpp` 45-49 and 81-85: running sum over the inputs. -/
noncomputable def r2 {nx : ℕ} (x xt : Fin nx → ℝ) : ℝ :=
  (List.finRange nx).foldl (fun acc ix => acc + (x ix - xt ix) ^ 2) 0

/-- The minimum search, `idw.cpp` 42-43, 50-53: `(min_val, min_loc)` start at `(1., 0)`. -/
noncomputable def minSearch {nx : ℕ} (x : Fin nx → ℝ) : List (Fin nx → ℝ) → ℕ → ℝ × ℕ → ℝ × ℕ
  | [], _, st => st
  | t :: ts, it, st => minSearch x ts (it + 1) (if r2 x t < st.1 then (r2 x t, it) else st)

/-- `w[it]`, `idw.cpp` 54. -/
noncomputable def weight {nx : ℕ} (p : ℝ) (x xt : Fin nx → ℝ) : ℝ := (r2 x xt) ^ (-p / 2)

/-- One row of `IDW::compute_jac`, `idw.cpp` 37-74. -/
noncomputable def jac {nx : ℕ} (p : ℝ) (xt : List (Fin nx → ℝ)) (x : Fin nx → ℝ) : List ℝ :=
  let m := minSearch x xt 0 (1, 0)
  if m.1 = 0 then (xt.map fun _ => (0 : ℝ)).set m.2 1
  else
    let w := xt.map (weight p x)
    let sum := w.foldl (· + ·) 0
    w.map (· / sum)

/-- `dw_dx[it]`, `idw.cpp` 86-87, 94. -/
noncomputable def dweight {nx : ℕ} (p : ℝ) (kx : Fin nx) (x xt : Fin nx → ℝ) : ℝ :=
  -p / 2 * (r2 x xt) ^ (-p / 2 - 1) * (2 * (x kx - xt kx))

/-- One row of `IDW::compute_jac_derivs`, `idw.cpp` 76-119. -/
noncomputable def jacDerivs {nx : ℕ} (p : ℝ) (xt : List (Fin nx → ℝ)) (kx : Fin nx) (x : Fin nx → ℝ) : List ℝ :=
  let m := minSearch x xt 0 (1, 0)
  if m.1 = 0 then xt.map fun _ => (0 : ℝ)
  else
    let w := xt.map (weight p x)
    let dw := xt.map (dweight p kx x)
    let sum := w.foldl (· + ·) 0
    let dsum := dw.foldl (· + ·) 0
    List.zipWith (fun dwi wi => (dwi * sum - wi * dsum) / sum ^ 2) dw w

/-- `jac.dot(yt)` for one output, `idw.py` 93 and 121. -/
def dot (row yt : List ℝ) : ℝ := (List.zipWith (· * ·) row yt).sum

/-- `IDW._predict_values`, `idw.py` 80-94. -/
noncomputable def predict {nx : ℕ} (p : ℝ) (xt : List (Fin nx → ℝ)) (yt : List ℝ) (x : Fin nx → ℝ) : ℝ := dot (jac p xt x) yt

/-- `IDW._predict_derivatives`, `idw.py` 96-122. -/
noncomputable def predictDeriv {nx : ℕ} (p : ℝ) (xt : List (Fin nx → ℝ)) (yt : List ℝ) (kx : Fin nx) (x : Fin nx → ℝ) : ℝ :=
  dot (jacDerivs p xt kx x) yt

/-- `IDW._predict_output_derivatives`, `idw.py` 124-135, for one output: the row itself. -/
noncomputable def outputDeriv {nx : ℕ} (p : ℝ) (xt : List (Fin nx → ℝ)) (x : Fin nx → ℝ) : List ℝ := jac p xt x

end SMT.Idw
