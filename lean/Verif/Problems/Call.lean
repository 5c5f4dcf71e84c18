import Verif.Problems.Model
import Verif.CStep.Model
import Verif.Surrogate.Model

/-!
# Model of calling a problem: `smt/problems/problem.py` `__call__`, with any index and any array

`Verif/Problems/Model.lean` evaluates one point for an index in range. Here a problem is called with whatever array and `kx` the user passes, and `_evaluate` is modelled for every Python
integer `kx`: negative ones are rejected by `__call__` but reach `_evaluate` through `ReducedProblem`, whose index lists may hold them. Inputs are real (`ReducedProblem` hands a complex
array with zero imaginary parts on). `return_complex` only changes the data type.
-/
namespace SMT.Problems

open SMT.Surrogate (NdArray PyObj ensure2d)

noncomputable section

/-- Exceptions. -/
inductive Exc where
  | value | type | index | assertion
deriving DecidableEq, Repr

/-- Index into an axis of length `n`: negative indices count from the end. -/
def pyIdx (n : ℕ) (k : ℤ) : Except Exc ℕ :=
  if 0 ≤ k ∧ k < n then .ok k.toNat
  else if k < 0 ∧ -(n : ℤ) ≤ k then .ok (k + n).toNat
  else .error .index

/-- Bound of a slice of an axis of length `n` (positive step). -/
def sliceBound (n : ℕ) (s : ℤ) : ℕ := if s < 0 then (s + n).toNat else min s.toNat n

/-- What `_evaluate` does for one point and any integer `kx`; an exception is raised for the whole array. -/
abbrev EvalZ := (ℕ → ℝ) → Option ℤ → Except Exc ℝ

/-- `Sphere._evaluate`, `sphere.py` 22-45. -/
def sphereZ (nx : ℕ) : EvalZ := fun x kx =>
  match kx with
  | none => .ok (sphere nx x none)
  | some k =>
    match pyIdx nx k with
    | .error e => .error e
    | .ok i => .ok (2 * x i)

/-- First term of the derivative of `Rosenbrock`, `rosenbrock.py` 45-48. -/
def rosenA (nx : ℕ) (x : ℕ → ℝ) (k : ℤ) : Except Exc ℝ :=
  if k < (nx : ℤ) - 1 then
    match pyIdx nx (k + 1), pyIdx nx k with
    | .ok j, .ok i => .ok (-400 * (x j - x i ^ 2) * x i - 2 * (1 - x i))
    | _, _ => .error .index
  else .ok 0

/-- Second term, `rosenbrock.py` 49-50. -/
def rosenB (nx : ℕ) (x : ℕ → ℝ) (k : ℤ) : Except Exc ℝ :=
  if k > 0 then
    match pyIdx nx k, pyIdx nx (k - 1) with
    | .ok i, .ok j => .ok (200 * (x i - x j ^ 2))
    | _, _ => .error .index
  else .ok 0

/-- `Rosenbrock._evaluate`, `rosenbrock.py` 21-52. -/
def rosenbrockZ (nx : ℕ) : EvalZ := fun x kx =>
  match kx with
  | none => .ok (rosenbrock nx x none)
  | some k =>
    match rosenA nx x k, rosenB nx x k with
    | .ok a, .ok b => .ok (0 + a + b)
    | _, _ => .error .index

/-- `Branin._evaluate`, `branin.py` 24-59. -/
def braninZ : EvalZ := fun x kx =>
  match kx with
  | none => .ok (branin x none)
  | some k => if k = 0 ∨ k = 1 then .ok (branin x (some k.toNat)) else .error .assertion

/-- `TensorProduct._evaluate`, `tensor_product.py` 37-64. -/
def tensorZ (fn : Func) (a : ℝ) (nx : ℕ) : EvalZ := fun x kx =>
  match kx with
  | none => .ok (tensorProduct fn a nx x none)
  | some k => .ok ((List.range nx).foldl (fun y (ix : ℕ) => if k = (ix : ℤ) then y * fn.df a (x ix) else y * fn.f a (x ix)) 1)

/-- `x[:, s::3]` summed, with `s` any integer. -/
def tailSum (nx : ℕ) (x : ℕ → ℝ) (s : ℤ) : ℝ := strideSum (sliceBound nx s) nx 3 x

/-- One element in the loop for `kx % 3 == 2`, `cantilever_beam.py` 99-115; the indices `0 ≤ 3 * ielem` may be too large. -/
def beamStep (nx : ℕ) (x : ℕ → ℝ) (kelem : ℤ) (acc : Except Exc ℝ) (e : ℕ) : Except Exc ℝ :=
  match acc, pyIdx nx (3 * e), pyIdx nx (3 * e + 1) with
  | .ok y, .ok b, .ok h =>
    let y := y + 36 / x b / x h ^ 3 * tailSum nx x (2 + 3 * e) ^ 2
    .ok (if kelem > e then y - 36 / x b / x h ^ 3 * tailSum nx x (5 + 3 * e) ^ 2 else y)
  | _, _, _ => .error .index

/-- Derivative of `CantileverBeam`, `cantilever_beam.py` 72-115, without the factor `P / 3 / E`. -/
def beamD (nx : ℕ) (x : ℕ → ℝ) (kx : ℤ) : Except Exc ℝ :=
  let k := kx / 3
  if kx % 3 = 0 then
    match pyIdx nx (3 * k), pyIdx nx (3 * k + 1) with
    | .ok b, .ok h => .ok (0 + -12 / x b ^ 2 / x h ^ 3 * tailSum nx x (2 + 3 * k) ^ 3 - -12 / x b ^ 2 / x h ^ 3 * tailSum nx x (5 + 3 * k) ^ 3)
    | _, _ => .error .index
  else if kx % 3 = 1 then
    match pyIdx nx (3 * k), pyIdx nx (3 * k + 1) with
    | .ok b, .ok h => .ok (0 + -36 / x b / x h ^ 4 * tailSum nx x (2 + 3 * k) ^ 3 - -36 / x b / x h ^ 4 * tailSum nx x (5 + 3 * k) ^ 3)
    | _, _ => .error .index
  else (List.range (k + 1).toNat).foldl (beamStep nx x k) (.ok 0)

/-- `CantileverBeam._evaluate`, `cantilever_beam.py` 39-117. -/
def cantileverZ (P E : ℝ) (nx : ℕ) : EvalZ := fun x kx =>
  match kx with
  | none => .ok (cantilever P E nx x none)
  | some k => (beamD nx x k).map (P / 3 / E * ·)

/-- `x[:, 1 : 2 * kseg + 2 : 2]` summed, with `kseg` any integer, `robot_arm.py` 65-66. -/
def angle (nx : ℕ) (x : ℕ → ℝ) (kseg : ℤ) : ℝ := strideSum 1 (sliceBound nx (2 * kseg + 2)) 2 x

/-- `RobotArm._evaluate`, `robot_arm.py` 31-82. -/
def robotArmZ (nx : ℕ) : EvalZ := fun x kx =>
  match kx with
  | none => .ok (robotArm nx x none)
  | some kx =>
    let nseg := nx / 2
    let A := fun s => strideSum 1 (2 * s + 2) 2 x
    let posX := (List.range nseg).foldl (fun p s => p + x (2 * s + 0) * Real.cos (A s)) 0
    let posY := (List.range nseg).foldl (fun p s => p + x (2 * s + 0) * Real.sin (A s)) 0
    let norm := √(posX ^ 2 + posY ^ 2)
    let k := kx / 2
    if kx % 2 = 0 then .ok (0 + posX / norm * Real.cos (angle nx x k) + posY / norm * Real.sin (angle nx x k))
    else
      let dX := (List.range nseg).foldl (fun d (s : ℕ) => if k ≤ s then d - x (2 * s + 0) * Real.sin (A s) else d) 0
      let dY := (List.range nseg).foldl (fun d (s : ℕ) => if k ≤ s then d + x (2 * s + 0) * Real.cos (A s) else d) 0
      .ok (0 + posX / norm * dX + posY / norm * dY)

/-- `LpNorm._evaluate`, `lp_norm.py` 22-50: the unused `np.linalg.norm(x, ord=p)` raises `ValueError` for orders above 2. -/
def lpZ (p nx : ℕ) : EvalZ := fun x kx =>
  if p = 0 then .error .assertion else
  match kx with
  | none => .ok (lp p nx x)
  | some k =>
    if p ≤ 2 then
      match pyIdx nx k with
      | .error e => .error e
      | .ok i => .ok (SignType.sign (x i) * (|x i| / lp p nx x) ^ (p - 1))
    else .error .value

/-- The five problems with complex-step derivatives, `water_flow.py` 69-91 and the same lines of the others: `point[kx]` is a list (or array) access. -/
def stepZ {n : ℕ} (e : CStep.Expr n) (useFD : Bool) (ch dx : ℝ) : EvalZ := fun x kx =>
  match kx with
  | none => .ok (CStep.evaluate e useFD ch dx (fun i => x i) none)
  | some k =>
    match pyIdx n k with
    | .error e => .error e
    | .ok i => if h : i < n then .ok (CStep.evaluate e useFD ch dx (fun i => x i) (some ⟨i, h⟩)) else .error .index

/-- A problem object: number of inputs, limits, `_evaluate` of a row, and what `_evaluate` raises for an array without rows. -/
structure Obj where
  ndim : ℕ
  xlimits : ℕ → ℝ × ℝ
  eval : EvalZ
  onEmpty : Option ℤ → Except Exc Unit

/-- Vectorised code: whether it raises does not depend on the entries, and an array without rows is treated like any other. -/
def vectorised (e : EvalZ) : Option ℤ → Except Exc Unit := fun k => (e (fun _ => 0) k).map fun _ => ()

/-- The `kx` argument: `None`, an `int`, a `bool` (an instance of `int`), anything else (a NumPy integer, a float). -/
inductive KArg where
  | none | int (k : ℤ) | bool (b : Bool) | other

/-- The check of `kx`, `problem.py` 79-81. -/
def checkK : KArg → Except Exc (Option ℤ)
  | .none => .ok Option.none
  | .int k => if k < 0 then .error .type else .ok (some k)
  | .bool b => .ok (some (if b then 1 else 0))
  | .other => .error .type

/-- Rows of a 2-D array as points. -/
def rowsOf (a : NdArray ℝ) : List (ℕ → ℝ) := (List.range a.nrows).map fun i j => a.data.getD (i * a.ncols + j) 0

/-- `_evaluate` on all rows. -/
def evaluateAll (o : Obj) (rows : List (ℕ → ℝ)) (k : Option ℤ) : Except Exc (List ℝ) :=
  match rows with
  | [] => (o.onEmpty k).map fun _ => []
  | _ => rows.mapM (fun r => o.eval r k)

/-- `Problem.__call__`, `problem.py` 55-88. -/
def callProblem (o : Obj) (x : PyObj ℝ) (kx : KArg) : Except Exc (NdArray ℝ) :=
  match ensure2d x with
  | .error _ => .error .value
  | .ok a =>
    if a.ncols ≠ o.ndim then .error .value
    else
      match checkK kx with
      | .error e => .error e
      | .ok k =>
        match evaluateAll o (rowsOf a) k with
        | .error e => .error e
        | .ok ys => .ok ⟨[a.nrows, 1], ys⟩

/-! ## Problem objects -/

/-- `Sphere(ndim=n)`, `sphere.py` 14-20. -/
def sphereO (n : ℕ) : Obj := ⟨n, fun _ => (-10, 10), sphereZ n, vectorised (sphereZ n)⟩
/-- `Rosenbrock(ndim=n)`, `rosenbrock.py` 13-19. -/
def rosenbrockO (n : ℕ) : Obj := ⟨n, fun _ => (-2, 2), rosenbrockZ n, vectorised (rosenbrockZ n)⟩
/-- `Branin()`, `branin.py` 13-22. -/
def braninO : Obj := ⟨2, fun i => if i = 0 then (-5, 10) else (0, 15), braninZ, vectorised (braninZ)⟩
/-- `TensorProduct(ndim=n, func=fn, width=a)`, `tensor_product.py` 13-35. -/
def tensorO (fn : Func) (a : ℝ) (n : ℕ) : Obj := ⟨n, fun _ => (-1, 1), tensorZ fn a n, vectorised (tensorZ fn a n)⟩
/-- `CantileverBeam(ndim=n, P=P, E=E)`, `cantilever_beam.py` 15-37 (`n` a multiple of 3). -/
def cantileverO (P E : ℝ) (n : ℕ) : Obj :=
  ⟨n, fun i => if i % 3 = 0 then (0.01, 0.05) else if i % 3 = 1 then (0.3, 0.65) else (0.5, 1), cantileverZ P E n, vectorised (cantileverZ P E n)⟩
/-- `RobotArm(ndim=n)`, `robot_arm.py` 15-29 (`n` even). -/
def robotArmO (n : ℕ) : Obj := ⟨n, fun i => if i % 2 = 0 then (0, 1) else (0, 2 * Real.pi), robotArmZ n, vectorised (robotArmZ n)⟩
/-- `LpNorm` of an array without rows: the largest singular value (`ord=2`) of an empty matrix raises `ValueError`, `lp_norm.py` 47. -/
def lpEmpty (p n : ℕ) : Option ℤ → Except Exc Unit
  | none => vectorised (lpZ p n) none
  | some k => if p = 2 then .error .value else vectorised (lpZ p n) (some k)
/-- `LpNorm(ndim=n, order=p)`, `lp_norm.py` 13-20. -/
def lpO (p n : ℕ) : Obj := ⟨n, fun _ => (-1, 1), lpZ p n, lpEmpty p n⟩
/-- The problems with complex-step derivatives; they loop over the rows. -/
def stepO {n : ℕ} (e : CStep.Expr n) (lo hi : Fin n → ℝ) (useFD : Bool) (ch dx : ℝ) : Obj :=
  ⟨n, fun i => if h : i < n then (lo ⟨i, h⟩, hi ⟨i, h⟩) else (0, 0), stepZ e useFD ch dx, fun _ => .ok ()⟩

/-- `dims[i]` resolved: `problem.xlimits[dims[i], :]` raises `IndexError` when too negative, `reduced_problem.py` 44-46. -/
def resolve (n : ℕ) (dims : List ℤ) : Except Exc (List ℕ) := dims.mapM (pyIdx n)

/-- `x_prob`, `reduced_problem.py` 64-73. -/
def expandZ (o : Obj) (w : ℝ) (pos : List ℕ) (x : ℕ → ℝ) : ℕ → ℝ :=
  let start := fun ix => if ix < o.ndim then (1 - w) * (o.xlimits ix).1 + w * (o.xlimits ix).2 else 0
  pos.zipIdx.foldl (fun xp q => Function.update xp q.1 (x q.2)) start

/-- `ReducedProblem(problem, dims, w)` with a list of integers, `reduced_problem.py` 15-80: only the largest index is checked; the derivative passes `dims[kx]` on as it is. -/
def reducedZ (o : Obj) (dims : List ℤ) (w : ℝ) : Except Exc Obj :=
  if dims = [] then .error .value
  else if ∃ d ∈ dims, (o.ndim : ℤ) ≤ d then .error .assertion
  else
    match resolve o.ndim dims with
    | .error e => .error e
    | .ok pos => .ok ⟨dims.length, fun i => o.xlimits (pos.getD i 0), fun x kx =>
        match kx with
        | none => o.eval (expandZ o w pos x) none
        | some k =>
          match pyIdx dims.length k with
          | .error e => .error e
          | .ok i => o.eval (expandZ o w pos x) (some (dims.getD i 0)),
        fun kx =>
        match kx with
        | none => o.onEmpty none
        | some k =>
          match pyIdx dims.length k with
          | .error e => .error e
          | .ok i => o.onEmpty (some (dims.getD i 0))⟩

end
end SMT.Problems
