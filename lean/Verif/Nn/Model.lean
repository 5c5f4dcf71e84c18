import Mathlib.Data.Matrix.Mul
import Mathlib.Analysis.SpecialFunctions.Exp
import Mathlib.Data.Real.Basic

/-!
# Model of the neural network behind GENN

`smt/utils/neural_net/activation.py`, `fwd_prop.py`, `bwd_prop.py`, `loss.py`, `model.py` (`cost`, `grad`, `evaluate`, `gradient`).

Arrays of shape `(n, m)` are matrices over the reals; a tensor of shape `(n_y, n_x, m)` is a function of `j : Fin n_x` giving its slice `[:, j, :]`. The dictionaries of
parameters and the lists of caches are typed lists whose consecutive layers have matching shapes (a mismatch raises in NumPy and cannot arise from `initialize_parameters`).
Overflow of `exp` is not modelled.
-/
namespace SMT.Nn
open Matrix

noncomputable section

abbrev Mat (n m : ℕ) := Matrix (Fin n) (Fin m) ℝ

/-- The three activation classes, `activation.py` 45-89. -/
inductive Act
  | sigmoid | tanh | linear
  deriving DecidableEq

/-- `evaluate`, `activation.py` 46-48, 63-67, 82-83. -/
def Act.eval : Act → ℝ → ℝ
  | .sigmoid, z => 1 / (1 + Real.exp (-z))
  | .tanh, z => (Real.exp z - Real.exp (-z)) / (Real.exp z + Real.exp (-z))
  | .linear, z => z

/-- `first_derivative`, `activation.py` 50-53, 69-72, 85-86. -/
def Act.d1 : Act → ℝ → ℝ
  | .sigmoid, z => let a := Act.eval .sigmoid z; a * (1 - a)
  | .tanh, z => let a := Act.eval .tanh z; 1 - a ^ 2
  | .linear, _ => 1

/-- `second_derivative`, `activation.py` 55-59, 74-78, 88-89. -/
def Act.d2 : Act → ℝ → ℝ
  | .sigmoid, z => let a := Act.eval .sigmoid z; let da := Act.d1 .sigmoid z; da * (1 - 2 * a)
  | .tanh, z => let a := Act.eval .tanh z; let da := Act.d1 .tanh z; -2 * a * da
  | .linear, _ => 0

/-- `W{l}`, `b{l}` and the activation of one layer, `model.py` 47-57, 123-134. -/
structure Layer (n k : ℕ) where
  W : Mat k n
  b : Fin k → ℝ
  act : Act

/-- A network from `n` inputs to `p` outputs: the parameter dictionary and the list of activations, layer 1 first. -/
inductive Net : ℕ → ℕ → Type
  | done (n : ℕ) : Net n n
  | layer {n k p : ℕ} (L : Layer n k) (rest : Net k p) : Net n p

/-- `caches` of `L_model_forward`: per layer `(A_prev, Z, W, b, activation)`, `fwd_prop.py` 44; `W`, `b` and the activation are those of the network the caches belong to. -/
def Caches (m : ℕ) : {n p : ℕ} → Net n p → Type
  | _, _, .done _ => Unit
  | n, _, .layer (k := k) _ rest => (Mat n m × Mat k m) × Caches m rest

/-- `J_caches` of `L_grads_forward`: per layer the entries `(j, Z_prime_j, A_prime_j_prev)`, `fwd_prop.py` 195. -/
def JCaches (nx m : ℕ) : {n p : ℕ} → Net n p → Type
  | _, _, .done _ => Unit
  | n, _, .layer (k := k) _ rest => ((Fin nx → Mat k m) × (Fin nx → Mat n m)) × JCaches nx m rest

/-- Gradients per layer `(dW, db)`, the dictionary `grads` of `L_model_backward`, `bwd_prop.py` 223-225; also a direction in parameter space. -/
def Grads : {n p : ℕ} → Net n p → Type
  | _, _, .done _ => Unit
  | n, _, .layer (k := k) _ rest => (Mat k n × (Fin k → ℝ)) × Grads rest

/-- `linear_activation_forward`, `fwd_prop.py` 42-46: the pre-activation `Z = np.dot(W, A_prev) + b`. -/
def preact {n k m : ℕ} (L : Layer n k) (A : Mat n m) : Mat k m := Matrix.of fun i e => (L.W * A) i e + L.b i

/-- `A = activation.evaluate(Z)`, `fwd_prop.py` 43. -/
def postact {k m : ℕ} (a : Act) (Z : Mat k m) : Mat k m := Matrix.of fun i e => a.eval (Z i e)

/-- `L_model_forward`, `fwd_prop.py` 84-100. -/
def forward {m : ℕ} : {n p : ℕ} → (net : Net n p) → Mat n m → Mat p m × Caches m net
  | _, _, .done _, A => (A, ())
  | _, _, .layer L rest, A =>
    let Z := preact L A
    let r := forward rest (postact L.act Z)
    (r.1, ((A, Z), r.2))

/-- The loop over layers of `L_grads_forward`, `fwd_prop.py` 166-198: values and, for every input `j`, the derivative slice `A_prime_j`. The code runs the loop once per `j`,
recomputing the values; the runs do not interact, so one pass carries all of them. -/
def gradsLoop {nx m : ℕ} : {n p : ℕ} → (net : Net n p) → Mat n m → (Fin nx → Mat n m) → (Fin nx → Mat p m) × JCaches nx m net
  | _, _, .done _, _, Ap => (Ap, ())
  | _, _, .layer L rest, A, Ap =>
    let Z := preact L A
    let Zp := fun j => L.W * Ap j
    let r := gradsLoop rest (postact L.act Z) (fun j => Matrix.of fun i e => L.act.d1 (Z i e) * (L.W * Ap j) i e)
    (r.1, ((Zp, Ap), r.2))

/-- `L_grads_forward`, `fwd_prop.py` 137-204: starts from `J0[:, j, :]`, the `j`-th column of the identity repeated for every example. -/
def gradsForward {nx p m : ℕ} (net : Net nx p) (X : Mat nx m) : (Fin nx → Mat p m) × JCaches nx m net :=
  gradsLoop net X (fun j => Matrix.of fun i _ => if i = j then 1 else 0)

/-- Result of `linear_activation_backward`. -/
structure Back (nx m n k : ℕ) where
  dAprev : Mat n m
  dW : Mat k n
  db : Fin k → ℝ
  dApPrev : Fin nx → Mat n m

/-- `linear_activation_backward`, `bwd_prop.py` 87-147. The loop over `J_cache` visits every input once and adds its contribution. -/
def layerBackward {nx m n k : ℕ} (dA : Mat k m) (dAp : Fin nx → Mat k m) (Aprev : Mat n m) (Z : Mat k m) (L : Layer n k)
    (Zp : Fin nx → Mat k m) (Ap : Fin nx → Mat n m) (lam gam : ℝ) : Back nx m n k :=
  let G1 : Mat k m := Matrix.of fun i e => L.act.d1 (Z i e)
  let GdA : Mat k m := Matrix.of fun i e => G1 i e * dA i e
  let dW0 : Mat k n := (1 / (m : ℝ)) • (GdA * Aprevᵀ) + (lam / m) • L.W
  let db0 : Fin k → ℝ := fun i => 1 / (m : ℝ) * ∑ e, GdA i e
  let dAprev0 : Mat n m := L.Wᵀ * GdA
  if gam ≠ 0 then
    let G2 : Mat k m := Matrix.of fun i e => L.act.d2 (Z i e)
    let T (j : Fin nx) : Mat k m := Matrix.of fun i e => dAp j i e * G2 i e * Zp j i e
    let S (j : Fin nx) : Mat k m := Matrix.of fun i e => dAp j i e * G1 i e
    { dAprev := dAprev0 + ∑ j, gam • (L.Wᵀ * T j)
      dW := dW0 + ∑ j, (gam / m) • (T j * Aprevᵀ + S j * (Ap j)ᵀ)
      db := fun i => db0 i + ∑ j, gam / m * ∑ e, T j i e
      dApPrev := fun j => gam • (L.Wᵀ * S j) }
  else
    { dAprev := dAprev0, dW := dW0, db := db0, dApPrev := fun _ => 0 }

/-- The reversed loop of `L_model_backward`, `bwd_prop.py` 211-226: the last layer first (`cache = caches[l]; J_cache = J_caches[l]`), each step handing `dA`, `dA_prime` to the
previous layer. Returns what is handed below the first layer, and the gradients. -/
def backLoop {nx m : ℕ} (lam gam : ℝ) : {n p : ℕ} → (net : Net n p) → Caches m net → JCaches nx m net → (dAL : Mat p m) → (dALp : Fin nx → Mat p m) →
    (Mat n m × (Fin nx → Mat n m)) × Grads net
  | _, _, .done _, _, _, dAL, dALp => ((dAL, dALp), ())
  | _, _, .layer L rest, c, jc, dAL, dALp =>
    let r := backLoop lam gam rest c.2 jc.2 dAL dALp
    let b := layerBackward r.1.1 r.1.2 c.1.1 c.1.2 L jc.1.1 jc.1.2 lam gam
    ((b.dAprev, b.dApPrev), ((b.dW, b.db), r.2))

/-- `compute_regularization`, `loss.py` 16-28, over the weights of every layer. -/
def penalty (lam : ℝ) : {n p : ℕ} → Net n p → ℝ
  | _, _, .done _ => 0
  | _, _, .layer L rest => 0.5 * max 0 lam * ∑ i, ∑ j, L.W i j ^ 2 + penalty lam rest

/-- `compute_gradient_enhancement`, `loss.py` 42-54. -/
def enhancement {nx ny m : ℕ} (gam : ℝ) (dyTrue dyPred : Fin nx → Mat ny m) : ℝ :=
  ∑ k, ∑ j, 0.5 * min (max 0 gam) 1 * ∑ e, (dyPred j k e - dyTrue j k e) ^ 2

/-- Errors that leave training. -/
inductive Err
  | valueError | typeError
  deriving DecidableEq

/-- `Model.cost` and `lse`, `model.py` 361-387, `loss.py` 57-83. With one example `L_grads_forward` returns a matrix (`fwd_prop.py` 201-202) and the unpacking of its shape in
`compute_gradient_enhancement` (`loss.py` 43) raises a `ValueError`; without partials the enhancement is skipped. -/
def cost {nx ny m : ℕ} (net : Net nx ny) (X : Mat nx m) (Y : Mat ny m) (J : Option (Fin nx → Mat ny m)) (lam gam : ℝ) : Except Err ℝ :=
  let base := (∑ k, 0.5 * ∑ e, ((forward net X).1 k e - Y k e) ^ 2) + penalty lam net
  match J with
  | none => .ok (1 / (m : ℝ) * base)
  | some J => if m = 1 then .error .valueError else .ok (1 / (m : ℝ) * (base + enhancement gam J (gradsForward net X).1))

/-- `Model.grad`, `model.py` 389-416, with `initialize_back_prop` and `L_model_backward`, `bwd_prop.py` 14-46, 150-227. Without partials `AL_prime - Y_prime` is a `TypeError`
(`bwd_prop.py` 41-43). For one example the subtraction of arrays of shapes `(n_y, n_x)` and `(n_y, n_x, 1)` broadcasts; this case is not modelled further because `cost`, called
first by the optimiser, has already raised: it is reported as an error here. -/
def grad {nx ny m : ℕ} (net : Net nx ny) (X : Mat nx m) (Y : Mat ny m) (J : Option (Fin nx → Mat ny m)) (lam gam : ℝ) : Except Err (Grads net) :=
  match J with
  | none => .error .typeError
  | some J =>
    if m = 1 then .error .valueError
    else .ok (backLoop lam gam net (forward net X).2 (gradsForward net X).2 ((forward net X).1 - Y) (fun j => (gradsForward net X).1 j - J j)).2

/-! ### Mean and scale of the data, prediction -/

/-- `np.mean(X[i])`, `np.std(X[i])`, `data.py` 184-186. -/
def rowMean {n m : ℕ} (X : Mat n m) (i : Fin n) : ℝ := (∑ e, X i e) / m

def rowStd {n m : ℕ} (X : Mat n m) (i : Fin n) : ℝ := √((∑ e, (X i e - rowMean X i) ^ 2) / m)

/-- `normalize_data` for inputs or outputs, `data.py` 184-187, 196-199. -/
def normRows {n m : ℕ} (X : Mat n m) : Mat n m := Matrix.of fun i e => (X i e - rowMean X i) / rowStd X i

/-- `normalize_data` for the partials, `data.py` 202-205. -/
def normPartials {nx ny m : ℕ} (X : Mat nx m) (Y : Mat ny m) (J : Fin nx → Mat ny m) : Fin nx → Mat ny m :=
  fun j => Matrix.of fun i e => J j i e * rowStd X j / rowStd Y i

/-- Scale factors of a trained model, `model.py` 352-355. -/
structure Scale (nx ny : ℕ) where
  muX : Fin nx → ℝ
  sdX : Fin nx → ℝ
  muY : Fin ny → ℝ
  sdY : Fin ny → ℝ

/-- `Model.evaluate`, `model.py` 238-260. -/
def evaluate {nx ny m : ℕ} (s : Scale nx ny) (net : Net nx ny) (X : Mat nx m) : Mat ny m :=
  Matrix.of fun i e => (forward net (Matrix.of fun q e => (X q e - s.muX q) / s.sdX q)).1 i e * s.sdY i + s.muY i

/-! ### NumPy arrays: broadcasting and `reshape`, for `Model.gradient` -/

/-- An array: its shape and its entries (meaningful for indices inside the shape). -/
structure Arr where
  shape : List ℕ
  val : List ℕ → ℝ

/-- Broadcasting of two reversed shapes; `none` is the `ValueError` "could not be broadcast together". -/
def bshape : List ℕ → List ℕ → Option (List ℕ)
  | [], b => some b
  | a, [] => some a
  | x :: a, y :: b =>
    if x = y then (bshape a b).map (x :: ·)
    else if x = 1 then (bshape a b).map (y :: ·)
    else if y = 1 then (bshape a b).map (x :: ·)
    else none

/-- Reversed index of an operand: missing leading axes are dropped and axes of length 1 are read at 0. -/
def bidx : List ℕ → List ℕ → List ℕ
  | [], _ => []
  | _ :: _, [] => []
  | s :: sh, i :: idx => (if s = 1 then 0 else i) :: bidx sh idx

/-- Elementwise binary operation with broadcasting. -/
def Arr.bop (f : ℝ → ℝ → ℝ) (a b : Arr) : Option Arr :=
  (bshape a.shape.reverse b.shape.reverse).map fun sh =>
    { shape := sh.reverse
      val := fun idx => f (a.val (bidx a.shape.reverse idx.reverse).reverse) (b.val (bidx b.shape.reverse idx.reverse).reverse) }

/-- Row-major position of an index. -/
def ravel : List ℕ → List ℕ → ℕ
  | _ :: sh, i :: idx => i * sh.prod + ravel sh idx
  | _, _ => 0

/-- Index at a row-major position. -/
def unravel : List ℕ → ℕ → List ℕ
  | [], _ => []
  | _ :: sh, k => k / sh.prod :: unravel sh (k % sh.prod)

/-- `a.reshape(shape)`; `none` is the `ValueError` for different sizes. -/
def Arr.reshape (a : Arr) (sh : List ℕ) : Option Arr :=
  if a.shape.prod = sh.prod then some { shape := sh, val := fun idx => a.val (unravel a.shape (ravel sh idx)) } else none

/-- Entry read with natural-number indices (0 outside the shape, never read). -/
def readMat {n m : ℕ} (M : Mat n m) (i e : ℕ) : ℝ := if h : i < n ∧ e < m then M ⟨i, h.1⟩ ⟨e, h.2⟩ else 0

/-- The array `JL` returned by `L_grads_forward`, `fwd_prop.py` 152, 198-202: shape `(n_y, n_x, m)`, or `(n_y, n_x)` for a single example. -/
def jlArr {nx ny m : ℕ} (net : Net nx ny) (X : Mat nx m) : Arr :=
  let entry (i j e : ℕ) : ℝ := if h : j < nx then readMat ((gradsForward net X).1 ⟨j, h⟩) i e else 0
  if m = 1 then { shape := [ny, nx], val := fun idx => entry (idx.getD 0 0) (idx.getD 1 0) 0 }
  else { shape := [ny, nx, m], val := fun idx => entry (idx.getD 0 0) (idx.getD 1 0) (idx.getD 2 0) }

/-- A column vector of shape `(n, 1)`, as `sigma_x`, `sigma_y` in `data.py` 182, 191. -/
def colArr {n : ℕ} (v : Fin n → ℝ) : Arr := { shape := [n, 1], val := fun idx => if h : idx.getD 0 0 < n then v ⟨idx.getD 0 0, h⟩ else 0 }

/-- `Model.gradient`, `model.py` 418-441: `(J_norm * sigma_y / sigma_x).reshape(n_y, n_x, m)`. -/
def gradientArr {nx ny m : ℕ} (s : Scale nx ny) (net : Net nx ny) (X : Mat nx m) : Except Err Arr :=
  match (jlArr net (Matrix.of fun q e => (X q e - s.muX q) / s.sdX q)).bop (· * ·) (colArr s.sdY) with
  | none => .error .valueError
  | some a => match a.bop (· / ·) (colArr s.sdX) with
    | none => .error .valueError
    | some b => match b.reshape [ny, nx, m] with
      | none => .error .valueError
      | some c => .ok c

/-- `GENN._predict_derivatives`, `genn.py` 220-228: `gradient(x.T)[:, kx, :].T` as the entry for example `e` and output `i`. -/
def predictDeriv {nx ny m : ℕ} (s : Scale nx ny) (net : Net nx ny) (X : Mat nx m) (kx : ℕ) (e i : ℕ) : Except Err ℝ :=
  (gradientArr s net X).map fun a => a.val [i, kx, e]

/-- `rsquare`, `metrics.py` 24-31, one response. -/
def rsquare {m : ℕ} (yPred yTrue : Fin m → ℝ) : ℝ :=
  1 - (∑ e, (yPred e - yTrue e) ^ 2) / ∑ e, ((yTrue e - (∑ e, yTrue e) / m) ^ 2 + 1 / 100000000)

end

end SMT.Nn
