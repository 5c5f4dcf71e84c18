import Verif.Fp.NetX

/-!
# Model: cost and gradient of the neural network in floating-point arithmetic

`smt/utils/neural_net/loss.py` (`lse`) and `bwd_prop.py` for a batch of examples, on values of a format with overflow, underflow, infinities and NaN. Orders of summation are parameters of
every sum. The terms that gradient enhancement adds (`bwd_prop.py` 117-145, `loss.py` 78-79) and the weight penalty (`loss.py` 75-76) are parameters too: lists of numbers added to what is
modelled here, one after another.
-/
namespace SMT.Fp.NetX

variable {K : Type} [Field K] [LinearOrder K] [IsStrictOrderedRing K] (F : Format K)

/-- Orders of summation in the backward step of one layer, and the numbers that gradient enhancement adds to `dW`, `db` and `dA_prev`. -/
structure Back (K : Type) where
  tW : ℕ → ℕ → Tree
  tb : ℕ → Tree
  tA : ℕ → ℕ → Tree
  xW : ℕ → ℕ → List (X K)
  xb : ℕ → List (X K)
  xA : ℕ → ℕ → List (X K)

/-- What the backward step reads of one layer (`cache = (A_prev, Z, W, b, activation)`, `fwd_prop.py` 44): columns of `A_prev` and `Z` by example. -/
structure Stage (K : Type) where
  l : Layer K
  aPrev : ℕ → List (X K)
  z : ℕ → List (X K)
  slope : X K → X K
  o : Back K

/-- `caches` of `L_model_forward`, `fwd_prop.py` 86-100: one for every layer, in order; `Linear.first_derivative` is 1, `activation.py`. -/
def stages (ex : X K → X K) (os : ℕ → Back K) : ℕ → List (Layer K) → (ℕ → List (X K)) → List (Stage K)
  | _, [], _ => []
  | i, [l], A => [⟨l, A, fun e => l.z F (A e), fun _ => .fin 1, os i⟩]
  | i, l :: ls, A => ⟨l, A, fun e => l.z F (A e), dTanh F ex, os i⟩ :: stages ex os (i + 1) ls fun e => (l.z F (A e)).map (tanh F ex)

/-- `dW` and `db` of one layer. -/
structure LayerGrad (K : Type) where
  dW : List (List (X K))
  db : List (X K)

/-- `G_prime * dA`, `bwd_prop.py` 102, 106, for unit `k` and example `e`. -/
def Stage.delta (S : Stage K) (dA : ℕ → List (X K)) (k e : ℕ) : X K := F.mulX (S.slope ((S.z e).getD k .nan)) ((dA e).getD k .nan)

/-- `linear_activation_backward`, `bwd_prop.py` 95-147, for `m` examples: the gradients of the layer, and `dA_prev` by example. -/
def Stage.step (S : Stage K) (m : ℕ) (lambd : X K) (dA : ℕ → List (X K)) : LayerGrad K × (ℕ → List (X K)) :=
  let n := (S.l.W.getD 0 []).length
  let inv := F.divX (.fin 1) (.fin m)
  ({ dW := (List.range S.l.W.length).map fun k => (List.range n).map fun j =>
        (S.o.xW k j).foldl F.addX (F.addX (F.mulX inv ((S.o.tW k j).evalX F fun e => F.mulX (S.delta F dA k e) ((S.aPrev e).getD j .nan)))
          (F.mulX (F.divX lambd (.fin m)) ((S.l.W.getD k []).getD j .nan)))
     db := (List.range S.l.W.length).map fun k => (S.o.xb k).foldl F.addX (F.mulX inv ((S.o.tb k).evalX F fun e => S.delta F dA k e)) },
   fun e => (List.range n).map fun j => (S.o.xA e j).foldl F.addX ((S.o.tA e j).evalX F fun k => F.mulX ((S.l.W.getD k []).getD j .nan) (S.delta F dA k e)))

/-- The loop of `L_model_backward`, `bwd_prop.py` 213-225, over the layers from the last to the first. -/
def backward (m : ℕ) (lambd : X K) : List (Stage K) → (ℕ → List (X K)) → List (LayerGrad K)
  | [], _ => []
  | S :: Ss, dA => (S.step F m lambd dA).1 :: backward m lambd Ss (S.step F m lambd dA).2

/-- `dAL = AL - Y`, `bwd_prop.py` 41, for one example. -/
def residual (al y : List (X K)) : List (X K) := List.zipWith F.subX al y

/-- `Model.grad`, `model.py` 389-416, for `m` examples with normalised inputs `A` and outputs `Y`. -/
def gradients (ex : X K → X K) (os : ℕ → Back K) (m : ℕ) (lambd : X K) (ls : List (Layer K)) (A Y : ℕ → List (X K)) : List (LayerGrad K) :=
  backward F m lambd (stages F ex os 0 ls A).reverse fun e => residual F (forward F ex ls (A e)) (Y e)

/-- `lse`, `loss.py` 68-81: `t` is the order in which `np.dot` adds for every output, `extra` the penalty and the term of gradient enhancement. -/
def lse (t : ℕ → Tree) (m ny : ℕ) (al y : ℕ → List (X K)) (extra : List (X K)) : X K :=
  let cost := (List.range ny).foldl (fun c k => F.addX c (F.mulX (.fin (1 / 2 : K)) ((t k).evalX F fun e =>
    F.mulX (F.subX ((al e).getD k .nan) ((y e).getD k .nan)) (F.subX ((al e).getD k .nan) ((y e).getD k .nan))))) (.fin (0 : K))
  F.mulX (F.divX (.fin 1) (.fin m)) (extra.foldl F.addX cost)

end SMT.Fp.NetX
