import Verif.Fp.Ieee

/-!
# Model: inverse-distance weighting in floating-point arithmetic

`smt/src/idw/idw.cpp` 38-75 and `smt/surrogate_models/idw.py` 83-99 on values of a format with overflow, underflow, infinities and NaN.
`pow(d, 2)` is the rounded product `d * d` (compilers expand it so); `pow(r2, -p / 2.)` is a parameter `pw`. One evaluation point at a
time (the loops over `i` are independent). `jac.dot(yt)` adds from the left (BLAS may use another order); one output.
-/
namespace SMT.Fp

variable {K : Type} [Field K] [LinearOrder K] [IsStrictOrderedRing K]

/-- `r2`, `idw.cpp` 45-49. -/
def sqDist (F : Format K) (x xt : List (X K)) : X K :=
  (List.zip x xt).foldl (fun r (ab : X K × X K) => F.addX r (F.mulX (F.subX ab.1 ab.2) (F.subX ab.1 ab.2))) (.fin 0)

/-- The minimum search, `idw.cpp` 42-43, 50-53: `(min_val, min_loc)` start at `(1., 0)`. -/
def minX : List (X K) → ℕ → X K × ℕ → X K × ℕ
  | [], _, st => st
  | r :: rs, it, st => minX rs (it + 1) (if r.lt st.1 then (r, it) else st)

/-- One row of `IDW::compute_jac`, `idw.cpp` 38-75. `min_val == 0.` is false for NaN and infinities. -/
def idwRow (F : Format K) (pw : X K → X K) (xt : List (List (X K))) (x : List (X K)) : List (X K) :=
  let rs := xt.map (sqDist F x)
  let m := minX rs 0 (.fin 1, 0)
  if m.1 = .fin 0 then (xt.map fun _ => X.fin (0 : K)).set m.2 (.fin 1)
  else
    let w := rs.map pw
    let sum := w.foldl F.addX (.fin 0)
    w.map fun v => F.divX v sum

/-- `jac.dot(yt)`, `idw.py` 93, for one output and one point. -/
def dotX (F : Format K) (row yt : List (X K)) : X K :=
  (List.zipWith F.mulX row yt).foldl F.addX (.fin 0)

/-- `IDW._predict_values`, `idw.py` 80-94. -/
def idwPredict (F : Format K) (pw : X K → X K) (xt : List (List (X K))) (yt : List (X K)) (x : List (X K)) : X K :=
  dotX F (idwRow F pw xt x) yt

end SMT.Fp
