import Verif.Fp.Corr
import Verif.Fp.Optim

/-!
# Model: activations, predictions and one gradient of the neural network in floating-point arithmetic

`smt/utils/neural_net/activation.py`, `fwd_prop.py`, `model.py` (`evaluate`, `gradient`) and the gradient with respect to the last biases in `bwd_prop.py`, on values of a format with
overflow, underflow, infinities and NaN. `np.exp` and the order in which `np.dot` and `np.sum` add the rounded products (a tree, for every unit its own) are parameters; fused
multiply-adds and signs of zeros are left out. One prediction point at a time: the arrays of the code have one column per point, and columns do not interact.
-/
namespace SMT.Fp.NetX

variable {K : Type} [Field K] [LinearOrder K] [IsStrictOrderedRing K] (F : Format K)

/-- `Sigmoid.evaluate`, `activation.py` 46-48. -/
def sigmoid (ex : X K → X K) (z : X K) : X K := F.divX (.fin 1) (F.addX (.fin 1) (ex z.neg))

/-- `Sigmoid.first_derivative`, `activation.py` 50-53. -/
def dSigmoid (ex : X K → X K) (z : X K) : X K :=
  let a := sigmoid F ex z
  F.mulX a (F.subX (.fin 1) a)

/-- `Sigmoid.second_derivative`, `activation.py` 55-59. -/
def ddSigmoid (ex : X K → X K) (z : X K) : X K := F.mulX (dSigmoid F ex z) (F.subX (.fin 1) (F.mulX (.fin 2) (sigmoid F ex z)))

/-- `Tanh.evaluate`, `activation.py` 63-67. -/
def tanh (ex : X K → X K) (z : X K) : X K := F.divX (F.subX (ex z) (ex z.neg)) (F.addX (ex z) (ex z.neg))

/-- `Tanh.first_derivative`, `activation.py` 69-72. -/
def dTanh (ex : X K → X K) (z : X K) : X K :=
  let a := tanh F ex z
  F.subX (.fin 1) (F.mulX a a)

/-- `Tanh.second_derivative`, `activation.py` 74-78. -/
def ddTanh (ex : X K → X K) (z : X K) : X K := F.mulX (F.mulX (.fin (-2)) (tanh F ex z)) (dTanh F ex z)

/-- One layer: weights, biases, and the order in which `np.dot` adds for every unit. -/
structure Layer (K : Type) where
  W : List (List (X K))
  b : List (X K)
  t : ℕ → Tree

/-- One entry of `np.dot(W, A)`. -/
def dot (t : Tree) (row a : List (X K)) : X K := t.evalX F fun i => F.mulX (row.getD i .nan) (a.getD i .nan)

/-- `np.dot(W, A_prev)`, `fwd_prop.py` 42, 186, 193. -/
def Layer.apply (L : Layer K) (a : List (X K)) : List (X K) := (List.range L.W.length).map fun i => dot F (L.t i) (L.W.getD i []) a

/-- `Z = np.dot(W, A_prev) + b`, `fwd_prop.py` 42. -/
def Layer.z (L : Layer K) (a : List (X K)) : List (X K) := (List.range L.W.length).map fun i => F.addX (dot F (L.t i) (L.W.getD i []) a) (L.b.getD i .nan)

/-- `L_model_forward`, `fwd_prop.py` 49-101, with the activations of `Model.initialize` and `load_parameters`, `model.py` 126, 143: `[Tanh()] * deep + [Linear()]`. -/
def forward (ex : X K → X K) : List (Layer K) → List (X K) → List (X K)
  | [], a => a
  | [l], a => l.z F a
  | l :: ls, a => forward ex ls ((l.z F a).map (tanh F ex))

/-- `Z = np.dot(W, A_prev) + b`, `Z_prime_j = np.dot(W, A_prime_j_prev)`, `A_prime_j = G_prime * np.dot(W, A_prime_j_prev)`, `fwd_prop.py` 161-198: activations and one column of the
Jacobian through the layers. `Linear.first_derivative` is 1. -/
def jac (ex : X K → X K) : List (Layer K) → List (X K) → List (X K) → List (X K)
  | [], _, d => d
  | [l], _, d => (l.apply F d).map fun v => F.mulX (.fin 1) v
  | l :: ls, a, d => jac ex ls ((l.z F a).map (tanh F ex)) (List.zipWith (F.mulX) ((l.z F a).map (dTanh F ex)) (l.apply F d))

/-- A network and its scale factors, one pair per coordinate. -/
structure Net (K : Type) where
  layers : List (Layer K)
  muX : List (X K)
  sdX : List (X K)
  muY : List (X K)
  sdY : List (X K)

/-- `X_norm = (X - mu_x) / sigma_x`, `model.py` 252. -/
def Net.norm (N : Net K) (x : List (X K)) : List (X K) := (List.range x.length).map fun i => F.divX (F.subX (x.getD i .nan) (N.muX.getD i .nan)) (N.sdX.getD i .nan)

/-- `Model.evaluate`, `model.py` 235-260, for one point. -/
def Net.evaluate (ex : X K → X K) (N : Net K) (x : List (X K)) : List (X K) :=
  let yn := forward F ex N.layers (N.norm F x)
  (List.range yn.length).map fun j => F.addX (F.mulX (yn.getD j .nan) (N.sdY.getD j .nan)) (N.muY.getD j .nan)

/-- Column `j` of the identity, `fwd_prop.py` 145-149, 165. -/
def unit (n j : ℕ) : List (X K) := (List.range n).map fun i => if i = j then .fin 1 else .fin 0

/-- The Jacobian in normalised units with respect to input `j`, `L_grads_forward` as called by `Model.gradient`, `model.py` 432-435. -/
def Net.jacNorm (ex : X K → X K) (N : Net K) (x : List (X K)) (j : ℕ) : List (X K) := jac F ex N.layers (N.norm F x) (unit x.length j)

/-- The gradient of the cost with respect to one bias of the last (linear) layer, `bwd_prop.py` 41, 108, 139-143: `1.0 / m * np.sum(G_prime * dA)` with `dA = AL - Y` and `G_prime = 1`, over
the `m` examples of the batch (order of summation `t`), plus one term for every input when `gamma` is not zero (`extra`). -/
def lastBias (t : Tree) (m : ℕ) (al y : List (X K)) (extra : List (X K)) : X K :=
  extra.foldl F.addX (F.mulX (F.divX (.fin 1) (.fin m)) (t.evalX F fun i => F.mulX (.fin 1) (F.subX (al.getD i .nan) (y.getD i .nan))))

/-- `Y_norm[i] = (Y[i] - mu_y[i]) / sigma_y[i]`, `data.py` 194. -/
def normOut (mu sd : X K) (y : List (X K)) : List (X K) := y.map fun v => F.divX (F.subX v mu) sd

end SMT.Fp.NetX
