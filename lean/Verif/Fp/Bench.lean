import Verif.Fp.CorrProps2

/-!
# Model of the Sphere and Rosenbrock benchmark problems in IEEE arithmetic

`smt/problems/sphere.py` and `smt/problems/rosenbrock.py`, one row of a `float64` array of points at a time (rows do not interact). The result is stored in a `complex` array whose imaginary parts are
zero; `problem.py` returns the real part, and so only real parts are modelled. The order of summation of `np.sum` over the columns is any tree. Invalid indices raise (C94) and are not considered.
-/
set_option linter.unusedSectionVars false
set_option linter.unusedSimpArgs false
set_option linter.unusedVariables false

namespace SMT.Fp.Bench

variable {K : Type} [Field K] [LinearOrder K] [IsStrictOrderedRing K]
variable (F : Format K)

/-- `v ** 2` (NumPy squares). -/
def sq (v : X K) : X K := F.mulX v v

/-- Column `i` of the row (always within the row where it is used). -/
def col (x : List (X K)) (i : ℕ) : X K := x.getD i .nan

/-- `np.sum(x ** 2, 1)`, `sphere.py` 41. -/
def sphere (t : Tree) (x : List (X K)) : X K := t.evalX F fun i => sq F (col x i)

/-- `2 * x[:, kx]`, `sphere.py` 43. -/
def sphereDeriv (x : List (X K)) (kx : ℕ) : X K := F.mulX (.fin 2) (col x kx)

/-- The term of two neighbouring columns, `rosenbrock.py` 41-43. -/
def term (a b : X K) : X K := F.addX (F.mulX (.fin 100) (sq F (F.subX b (sq F a)))) (sq F (F.subX (.fin 1) a))

/-- `rosenbrock.py` 38-43. -/
def rosenbrock (x : List (X K)) : X K :=
  (List.range (x.length - 1)).foldl (fun y ix => F.addX y (term F (col x ix) (col x (ix + 1)))) (.fin 0)

/-- `rosenbrock.py` 46-48. -/
def slopeRight (a b : X K) : X K :=
  F.subX (F.mulX (F.mulX (.fin (-400)) (F.subX b (sq F a))) a) (F.mulX (.fin 2) (F.subX (.fin 1) a))

/-- `rosenbrock.py` 50. -/
def slopeLeft (a b : X K) : X K := F.mulX (.fin 200) (F.subX b (sq F a))

/-- `rosenbrock.py` 38, 44-50. -/
def rosenbrockDeriv (x : List (X K)) (kx : ℕ) : X K :=
  let y := if kx < x.length - 1 then F.addX (.fin 0) (slopeRight F (col x kx) (col x (kx + 1))) else .fin 0
  if 0 < kx then F.addX y (slopeLeft F (col x (kx - 1)) (col x kx)) else y

end SMT.Fp.Bench
