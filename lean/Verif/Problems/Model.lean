import Mathlib.Analysis.SpecialFunctions.Trigonometric.Deriv
import Mathlib.Analysis.SpecialFunctions.Pow.Real
import Mathlib.Analysis.SpecialFunctions.Sqrt
import Mathlib.Analysis.Real.Pi.Bounds

/-!
# Model of `smt/problems/*.py`

One evaluation point (the rows are independent), as a function `x : ℕ → ℝ` of which the entries `0 … nx-1` are read. The complex data type is
only a container here (the inputs are real). `kx = none` asks for the value.
-/
namespace SMT.Problems

noncomputable section

/-- What `__call__` returns for one point. -/
abbrev Eval := (ℕ → ℝ) → Option ℕ → ℝ

/-- `Sphere._evaluate`, `sphere.py` 22-45. -/
def sphere (nx : ℕ) : Eval := fun x kx =>
  match kx with
  | none => ((List.range nx).map fun i => x i ^ 2).sum
  | some k => 2 * x k

/-- `Rosenbrock._evaluate`, `rosenbrock.py` 21-52. -/
def rosenbrock (nx : ℕ) : Eval := fun x kx =>
  match kx with
  | none => (List.range (nx - 1)).foldl (fun y ix => y + (100 * (x (ix + 1) - x ix ^ 2) ^ 2 + (1 - x ix) ^ 2)) 0
  | some k =>
    let y := 0
    let y := if k < nx - 1 then y + (-400 * (x (k + 1) - x k ^ 2) * x k - 2 * (1 - x k)) else y
    if k > 0 then y + 200 * (x k - x (k - 1) ^ 2) else y

/-- `Branin._evaluate`, `branin.py` 24-59. -/
def branin : Eval := fun x kx =>
  let b := 5.1 / (4 * Real.pi ^ 2)
  let c := 5 / Real.pi
  let t := 1 / (8 * Real.pi)
  let u := x 1 - b * x 0 ^ 2 + c * x 0 - 6
  match kx with
  | none => u ^ 2 + (10 * (1 - t) * Real.cos (x 0) + 10)
  | some k =>
    if k = 0 then
      let du_dx0 := -2 * b * x 0 + c
      let dr_dx0 := -10 * (1 - t) * Real.sin (x 0)
      2 * du_dx0 * u + dr_dx0
    else 2 * u

/-- The option `func` of `TensorProduct`. -/
inductive Func | cos | exp | tanh | gaussian
  deriving DecidableEq

/-- `self.func`, `tensor_product.py` 24-36. -/
def Func.f (a : ℝ) : Func → ℝ → ℝ
  | .cos, v => Real.cos (a * Real.pi * v)
  | .exp, v => Real.exp (a * v)
  | .tanh, v => Real.tanh (a * v)
  | .gaussian, v => Real.exp (-2 * a * v ^ 2)

/-- `self.dfunc`, `tensor_product.py` 24-36. -/
def Func.df (a : ℝ) : Func → ℝ → ℝ
  | .cos, v => -a * Real.pi * Real.sin (a * Real.pi * v)
  | .exp, v => a * Real.exp (a * v)
  | .tanh, v => a / Real.cosh (a * v) ^ 2
  | .gaussian, v => -4 * a * v * Real.exp (-2 * a * v ^ 2)

/-- `TensorProduct._evaluate`, `tensor_product.py` 37-64. -/
def tensorProduct (fn : Func) (a : ℝ) (nx : ℕ) : Eval := fun x kx =>
  match kx with
  | none => ((List.range nx).map fun i => fn.f a (x i)).prod
  | some k => (List.range nx).foldl (fun y ix => if k = ix then y * fn.df a (x ix) else y * fn.f a (x ix)) 1

/-- `np.sum(x[:, start : stop : step], axis=1)`. -/
def strideSum (start stop step : ℕ) (x : ℕ → ℝ) : ℝ :=
  ((List.range stop).filterMap fun i => if start ≤ i ∧ (i - start) % step = 0 then some (x i) else none).sum

/-- `CantileverBeam._evaluate`, `cantilever_beam.py` 39-117 (`nx = ndim`). -/
def cantilever (P E : ℝ) (nx : ℕ) : Eval := fun x kx =>
  let nelem := nx / 3
  let S := fun start => strideSum start nx 3 x
  let b := fun e => x (3 * e + 0)
  let h := fun e => x (3 * e + 1)
  let y := match kx with
    | none => (List.range nelem).foldl (fun y e => y + 12 / b e / h e ^ 3 * S (2 + 3 * e) ^ 3 - 12 / b e / h e ^ 3 * S (5 + 3 * e) ^ 3) 0
    | some kx =>
      let k := kx / 3
      if kx % 3 = 0 then 0 + -12 / b k ^ 2 / h k ^ 3 * S (2 + 3 * k) ^ 3 - -12 / b k ^ 2 / h k ^ 3 * S (5 + 3 * k) ^ 3
      else if kx % 3 = 1 then 0 + -36 / b k / h k ^ 4 * S (2 + 3 * k) ^ 3 - -36 / b k / h k ^ 4 * S (5 + 3 * k) ^ 3
      else (List.range (k + 1)).foldl (fun y e =>
        let y := y + 36 / b e / h e ^ 3 * S (2 + 3 * e) ^ 2
        if k > e then y - 36 / b e / h e ^ 3 * S (5 + 3 * e) ^ 2 else y) 0
  P / 3 / E * y

/-- `RobotArm._evaluate`, `robot_arm.py` 31-82 (`** 0.5` is the square root). -/
def robotArm (nx : ℕ) : Eval := fun x kx =>
  let nseg := nx / 2
  let A := fun s => strideSum 1 (2 * s + 2) 2 x
  let posX := (List.range nseg).foldl (fun p s => p + x (2 * s + 0) * Real.cos (A s)) 0
  let posY := (List.range nseg).foldl (fun p s => p + x (2 * s + 0) * Real.sin (A s)) 0
  let norm := √(posX ^ 2 + posY ^ 2)
  match kx with
  | none => norm
  | some kx =>
    let k := kx / 2
    if kx % 2 = 0 then
      0 + posX / norm * Real.cos (A k) + posY / norm * Real.sin (A k)
    else
      let dX := (List.range nseg).foldl (fun d s => if k ≤ s then d - x (2 * s + 0) * Real.sin (A s) else d) 0
      let dY := (List.range nseg).foldl (fun d s => if k ≤ s then d + x (2 * s + 0) * Real.cos (A s) else d) 0
      0 + posX / norm * dX + posY / norm * dY

/-- `lp_norm`, `lp_norm.py` 43. -/
def lp (p nx : ℕ) (x : ℕ → ℝ) : ℝ := (((List.range nx).map fun i => |x i| ^ p).sum) ^ (1 / (p : ℝ))

/-- `LpNorm._evaluate`, `lp_norm.py` 22-50. `none` = an exception: the assertion `p > 0`, or `np.linalg.norm(x, ord=p)` of the two-dimensional `x`, which
knows the orders 1 and 2 only (its result is not used). -/
def lpNorm (p nx : ℕ) (x : ℕ → ℝ) (kx : Option ℕ) : Option ℝ :=
  if p = 0 then none else
  match kx with
  | none => some (lp p nx x)
  | some k => if p ≤ 2 then some (SignType.sign (x k) * (|x k| / lp p nx x) ^ (p - 1)) else none

/-! ## Reduced problems -/

/-- A problem: dimension, limits, evaluation. -/
structure Prob where
  ndim : ℕ
  xlimits : ℕ → ℝ × ℝ
  eval : Eval

/-- `x_prob`, `reduced_problem.py` 64-73: all inputs at the weighted mean of their limits, then `x_prob[:, dims[ix]] = x[:, ix]` for each `ix`. -/
def expand (pr : Prob) (w : ℝ) (dims : List ℕ) (x : ℕ → ℝ) : ℕ → ℝ :=
  let start := fun ix => if ix < pr.ndim then (1 - w) * (pr.xlimits ix).1 + w * (pr.xlimits ix).2 else 0
  dims.zipIdx.foldl (fun xp q => Function.update xp q.1 (x q.2)) start

/-- `ReducedProblem`, `reduced_problem.py` 16-80, for a list of dimension indices; `none` = the assertion on `np.max(dims)` (an empty list raises as well). Negative
indices are not modelled. -/
def reduced (pr : Prob) (dims : List ℕ) (w : ℝ) : Option Prob :=
  if dims ≠ [] ∧ ∀ d ∈ dims, d < pr.ndim then
    some { ndim := dims.length
           xlimits := fun i => pr.xlimits (dims.getD i 0)
           eval := fun x kx => match kx with
             | none => pr.eval (expand pr w dims x) none
             | some k => pr.eval (expand pr w dims x) (some (dims.getD k 0)) }
  else none

/-- `ReducedProblem(problem, n)` with an integer: `dims = np.arange(n)` with `n <= ndim` (`reduced_problem.py` 30-32). -/
def reducedInt (pr : Prob) (n : ℕ) (w : ℝ) : Option Prob :=
  if n ≤ pr.ndim then
    some { ndim := n
           xlimits := fun i => pr.xlimits ((List.range n).getD i 0)
           eval := fun x kx => match kx with
             | none => pr.eval (expand pr w (List.range n) x) none
             | some k => pr.eval (expand pr w (List.range n) x) (some ((List.range n).getD k 0)) }
  else none

/-- `NdimRosenbrock`, `ndim_rosenbrock.py` 16-29 (`rosenbrock.py` 17-19 for the limits). -/
def ndimRosenbrock (ndim : ℕ) (w : ℝ) : Option Prob :=
  reduced ⟨ndim + 1, fun _ => (-2, 2), rosenbrock (ndim + 1)⟩ (List.range' 1 ndim) w

/-- `NdimCantileverBeam`, `ndim_cantilever_beam.py` 16-29: `dims = np.arange(1, 3 * ndim, 3)`; limits from `cantilever_beam.py` 24-37. -/
def ndimCantilever (P E : ℝ) (ndim : ℕ) (w : ℝ) : Option Prob :=
  reduced ⟨3 * ndim, fun i => if i % 3 = 0 then (0.01, 0.05) else if i % 3 = 1 then (0.3, 0.65) else (0.5, 1), cantilever P E (3 * ndim)⟩
    ((List.range ndim).map fun e => 1 + 3 * e) w

/-- `NdimRobotArm`, `ndim_robot_arm.py` 16-29: `dims = np.arange(3, 2 * (ndim + 1), 2)`; limits from `robot_arm.py` 20-29. -/
def ndimRobotArm (ndim : ℕ) (w : ℝ) : Option Prob :=
  reduced ⟨2 * (ndim + 1), fun i => if i % 2 = 0 then (0, 1) else (0, 2 * Real.pi), robotArm (2 * (ndim + 1))⟩
    ((List.range ndim).map fun e => 3 + 2 * e) w

/-- `NdimStepFunction`, `ndim_step_function.py` 15-28. -/
def ndimStep (ndim : ℕ) (width : ℝ) : Prob := ⟨ndim, fun _ => (-1, 1), tensorProduct .tanh width ndim⟩

end

end SMT.Problems
