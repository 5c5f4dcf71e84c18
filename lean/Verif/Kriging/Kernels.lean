import Mathlib.Analysis.SpecialFunctions.Exp
import Mathlib.Analysis.SpecialFunctions.Pow.Real
import Mathlib.Algebra.BigOperators.Fin

/-!
# Model of the correlation kernels of `smt/utils/kriging_utils.py`

Real arithmetic. A row of the distance array is a function `Fin m → ℝ`; the array is a list of rows. `nb_limit` (`int(1e4)` in
the code) is a parameter `lim`, any positive number.
-/
namespace SMT.Krg

noncomputable section

variable {α β : Type} {m : ℕ}

/-- `l[i * nb_limit : (i + 1) * nb_limit]`. -/
def slice (lim i : ℕ) (l : List α) : List α := (l.drop (i * lim)).take lim

/-- `l[i * nb_limit : (i + 1) * nb_limit] = new`. -/
def setSlice (lim i : ℕ) (l new : List α) : List α := l.take (i * lim) ++ (new ++ l.drop ((i + 1) * lim))

/-- A loop `while i * nb_limit <= d.shape[0]: r[slice] = f(d[slice], r[slice]); i += 1`, e.g. `kriging_utils.py` 168-176,
180-185, 189-194 (same loop in every kernel and in `componentwise_distance`, 810-827). `f` is the row-wise expression. -/
def chunkLoop (lim : ℕ) (hl : 0 < lim) (f : β → α → α) (d : List β) (i : ℕ) (r : List α) : List α :=
  if i * lim ≤ d.length then
    chunkLoop lim hl f d (i + 1) (setSlice lim i r (List.zipWith f (slice lim i d) (slice lim i r)))
  else r
termination_by d.length + 1 - i * lim
decreasing_by
  have : (i + 1) * lim = i * lim + lim := by rw [Nat.add_mul, Nat.one_mul]
  omega

/-- `r = np.zeros((d.shape[0], 1))`, e.g. `kriging_utils.py` 163. -/
def zeros (d : List β) : List ℝ := List.replicate d.length 0

/-- The optional gradient/Hessian loops shared by `abs_exp` and `squar_exp`, `kriging_utils.py` 178-194 and 249-267. -/
def expLoop (lim : ℕ) (hl : 0 < lim) (D : List (Fin m → ℝ)) (ind : Option (Fin m)) (r : List ℝ) : List ℝ :=
  match ind with
  | none => r
  | some g => chunkLoop lim hl (fun d r => -d g * r) D 0 r

/-- `abs_exp`, `kriging_utils.py` 132-202, without `derivative_params`. -/
def absExp (lim : ℕ) (hl : 0 < lim) (θ : Fin m → ℝ) (D : List (Fin m → ℝ)) (grad hess : Option (Fin m)) : List ℝ :=
  expLoop lim hl D hess (expLoop lim hl D grad
    (chunkLoop lim hl (fun d _ => Real.exp (-∑ k, θ k * d k)) D 0 (zeros D)))

/-- `squar_exp`, `kriging_utils.py` 205-275, without `derivative_params`. (`d` holds squared distances.) -/
def squarExp (lim : ℕ) (hl : 0 < lim) (θ : Fin m → ℝ) (D : List (Fin m → ℝ)) (grad hess : Option (Fin m)) : List ℝ :=
  expLoop lim hl D hess (expLoop lim hl D grad
    (chunkLoop lim hl (fun d _ => Real.exp (-∑ k, θ k * d k)) D 0 (zeros D)))

/-- `fact_1` of `matern52`, `kriging_utils.py` 323-329 and 350-356. -/
def m52f1 (t d : ℝ) : ℝ := √5 * d + 10 / 3 * t * d ^ 2
/-- `fact_2` of `matern52`, `kriging_utils.py` 330-339 and 357-366. -/
def m52f2 (t d : ℝ) : ℝ := 1 + √5 * t * d + 5 / 3 * t ^ 2 * d ^ 2
/-- `fact_3` of `matern52`, `kriging_utils.py` 340 and 367. -/
def m52f3 (d : ℝ) : ℝ := √5 * d

/-- Value of `matern52` on one row, `kriging_utils.py` 310-315. -/
def m52val (θ d : Fin m → ℝ) : ℝ :=
  (∏ k, (1 + √5 * (θ k * d k) + 5 / 3 * (θ k * d k) ^ 2)) * Real.exp (-√5 * ∑ k, θ k * d k)

/-- `matern52`, `kriging_utils.py` 278-386, without `derivative_params`. `hess_ind` without `grad_ind` raises
`UnboundLocalError` (`theta_r` is assigned only in the gradient branch). -/
def matern52 (lim : ℕ) (hl : 0 < lim) (θ : Fin m → ℝ) (D : List (Fin m → ℝ)) (grad hess : Option (Fin m)) :
    Option (List ℝ) :=
  let r := chunkLoop lim hl (fun d _ => m52val θ d) D 0 (zeros D)
  let M52 := r
  let r := match grad with
    | none => r
    | some g => chunkLoop lim hl (fun d r => (m52f1 (θ g) (d g) / m52f2 (θ g) (d g) - m52f3 (d g)) * r) D 0 r
  match hess, grad with
  | none, _ => some r
  | some _, none => none
  | some h, some g =>
    some (chunkLoop lim hl (fun (dm : (Fin m → ℝ) × ℝ) r =>
      let d := dm.1
      let r := (m52f1 (θ h) (d h) / m52f2 (θ h) (d h) - m52f3 (d h)) * r
      if h = g then
        let fact4 := 10 / 3 * d h ^ 2 * m52f2 (θ h) (d h)
        (fact4 - m52f1 (θ h) (d h) ^ 2) / m52f2 (θ h) (d h) ^ 2 * dm.2 + r
      else r) (D.zip M52) 0 r)

/-- Value of `matern32` on one row, `kriging_utils.py` 469-474. -/
def m32val (θ d : Fin m → ℝ) : ℝ :=
  (∏ k, (1 + √3 * (θ k * d k))) * Real.exp (-√3 * ∑ k, θ k * d k)

/-- `fact_1`/`fact_2` of `matern32`, `kriging_utils.py` 481-490 and 503-512. -/
def m32f (t d : ℝ) : ℝ := 1 / (1 + √3 * t * d) - 1

/-- `matern32`, `kriging_utils.py` 433-532, without `derivative_params`. -/
def matern32 (lim : ℕ) (hl : 0 < lim) (θ : Fin m → ℝ) (D : List (Fin m → ℝ)) (grad hess : Option (Fin m)) : List ℝ :=
  let r := chunkLoop lim hl (fun d _ => m32val θ d) D 0 (zeros D)
  let M32 := r
  let r := match grad with
    | none => r
    | some g => chunkLoop lim hl (fun d r => m32f (θ g) (d g) * r * √3 * d g) D 0 r
  match hess with
  | none => r
  | some h => chunkLoop lim hl (fun (dm : (Fin m → ℝ) × ℝ) r =>
      let d := dm.1
      let r := r * m32f (θ h) (d h) * √3 * d h
      if grad = some h then
        r - 3 * d h ^ 2 / (1 + √3 * θ h * d h) ^ 2 * dm.2
      else r) (D.zip M32) 0 r

/-- `d_A[l]`, `kriging_utils.py` 603-607: `A[k, l] = theta[l * n_components + k]`. -/
def dA (m : ℕ) (θ : ℕ → ℝ) (d : ℕ → ℝ) (l : ℕ) : ℝ := ∑ k ∈ Finset.range m, d k * θ (l * m + k)

/-- `act_exp`, `kriging_utils.py` 569-634, one row, `d_x = None`. `len` is the length of `theta`. A length that is not a
multiple of `n_components` raises. `grad`/`hess` are indices into `theta`. -/
def actExp (m len : ℕ) (θ d : ℕ → ℝ) (grad hess : Option ℕ) : Option ℝ :=
  if len % m ≠ 0 then none else
  let r := Real.exp (-(1 / 2) * ∑ l ∈ Finset.range (len / m), dA m θ d l ^ 2)
  match grad, hess with
  | none, _ => some r
  | some g, none => some (-d (g % m) * dA m θ d (g / m) * r)
  | some g, some h =>
    let fact := -dA m θ d (g / m) * dA m θ d (h / m)
    let fact := if h / m = g / m then 1 + fact else fact
    some (-d (g % m) * d (h % m) * fact * r)

/-! ## Spatial derivatives -/

/-- The correlation names accepted by the option `corr` (`krg_based.py` 32-38). -/
inductive Corr | absExp | squarExp | actExp | matern52 | matern32
  deriving DecidableEq, Repr

/-- `componentwise_distance`, `kriging_utils.py` 771-827, one row, `return_derivative=False`. -/
def compDist (c : Corr) (D : Fin m → ℝ) : Fin m → ℝ :=
  match c with
  | .squarExp => fun k => D k ^ 2
  | .actExp => D
  | _ => fun k => |D k|

/-- `componentwise_distance(…, return_derivative=False)` on all rows: the chunk loop of lines 808-827. -/
def compDistAll (lim : ℕ) (hl : 0 < lim) (c : Corr) (D : List (Fin m → ℝ)) : List (Fin m → ℝ) :=
  chunkLoop lim hl (fun d _ => compDist c d) D 0 (List.replicate D.length 0)

/-- `der`, `kriging_utils.py` 841-844 (also 400-404, 544-548): `-1` for negative entries, `1` otherwise. -/
def der (t : ℝ) : ℝ := if t < 0 then -1 else 1

/-- `componentwise_distance`, `kriging_utils.py` 828-847, one row, `return_derivative=True` with `theta` given. `actExp` raises. -/
def compDistDeriv (c : Corr) (θ D : Fin m → ℝ) : Option (Fin m → ℝ) :=
  match c with
  | .squarExp => some fun j => 2 * (θ j * D j)
  | .actExp => none
  | _ => some fun j => θ j * der (D j)

/-- `componentwise_distance_PLS`, `kriging_utils.py` 852-909, one row, `return_derivative=False`. -/
def compDistPLS {p : ℕ} (c : Corr) (coeff : Fin m → Fin p → ℝ) (D : Fin m → ℝ) : Fin p → ℝ :=
  match c with
  | .squarExp => fun l => ∑ j, D j ^ 2 * coeff j l ^ 2
  | _ => fun l => ∑ j, |D j| * |coeff j l|

/-- `componentwise_distance_PLS`, `kriging_utils.py` 911-939, one row, `return_derivative=True`. -/
def compDistPLSDeriv {p : ℕ} (c : Corr) (coeff : Fin m → Fin p → ℝ) (θ : Fin p → ℝ) (D : Fin m → ℝ) : Fin m → ℝ :=
  match c with
  | .squarExp => fun j => 2 * (∑ l, θ l * coeff j l ^ 2) * D j
  | _ => fun j => (∑ l, θ l * |coeff j l|) * der (D j)

/-- `dr` of `abs_exp` and `squar_exp`, `kriging_utils.py` 196-200 and 268-273, one row. -/
def expDr {p : ℕ} (r : ℝ) (dd : Fin p → ℝ) (k : Fin p) : ℝ := -(r * dd k)

/-- `dB[j][k]` of `matern52`, `kriging_utils.py` 406-420; the loop over `l ≠ k` is a product. -/
def m52dB (θ dx : Fin m → ℝ) (k : Fin m) : ℝ :=
  (√5 * θ k * der (dx k) + 2 * (5 / 3) * der (dx k) * |dx k| * θ k ^ 2) *
    ∏ l ∈ Finset.univ.erase k, (1 + √5 * |dx l| * θ l + 5 / 3 * dx l ^ 2 * θ l ^ 2)

/-- `dr` of `matern52`, `kriging_utils.py` 387-428, one row; `r` is the kernel value. -/
def m52dr (r : ℝ) (θ dx : Fin m → ℝ) (k : Fin m) : ℝ :=
  -√5 * θ k * der (dx k) * r + Real.exp (-√5 * ∑ l, |dx l| * θ l) * m52dB θ dx k

/-- `dB[j][k]` of `matern32`, `kriging_utils.py` 550-557. -/
def m32dB (θ dx : Fin m → ℝ) (k : Fin m) : ℝ :=
  √3 * θ k * der (dx k) * ∏ l ∈ Finset.univ.erase k, (1 + √3 * |dx l| * θ l)

/-- `dr` of `matern32`, `kriging_utils.py` 533-564, one row. -/
def m32dr (r : ℝ) (θ dx : Fin m → ℝ) (k : Fin m) : ℝ :=
  -√3 * θ k * der (dx k) * r + Real.exp (-√3 * ∑ l, |dx l| * θ l) * m32dB θ dx k

end

end SMT.Krg
