import Verif.Fp.Standard
import Verif.Qp.Model

/-!
# Model of the predictions of LS and QP in rounded arithmetic

`smt/surrogate_models/ls.py` 68-107 and `smt/surrogate_models/qp.py` 72-153, one point and one output, for given coefficients. Every operation is rounded
once; the range of exponents is unbounded. `np.dot` adds its products in an order that depends on NumPy and on the BLAS, and may or may not use fused
multiply-add: `Dot` is any of these programs.
-/
set_option linter.unusedSectionVars false
set_option linter.unusedSimpArgs false
set_option linter.unusedVariables false

namespace SMT.Fp

/-- A program for a scalar product: the rounded product of two entries, the rounded sum of two partial results, and a fused multiply-add
(a product added to a partial result with one rounding). -/
inductive Dot where
  | mul : ℕ → Dot
  | add : Dot → Dot → Dot
  | fma : ℕ → Dot → Dot

namespace Dot
/-- The numbers of the entries it multiplies. -/
def terms : Dot → List ℕ
  | mul i => [i]
  | add a b => a.terms ++ b.terms
  | fma i a => i :: a.terms

/-- It computes a scalar product of `n` entries: each of them is used once. -/
def Computes (d : Dot) (n : ℕ) : Prop := d.terms.Perm (List.range n)

/-- `n + 1` products added from the left, each sum rounded. -/
def left : ℕ → Dot
  | 0 => mul 0
  | n + 1 => add (left n) (mul (n + 1))
end Dot

variable {K : Type} [Field K] [LinearOrder K] [IsStrictOrderedRing K]

/-- `np.dot` of two vectors. -/
def Dot.eval (R : Rounding K) (f g : ℕ → K) : Dot → K
  | .mul i => R.rnd (f i * g i)
  | .add a b => R.rnd (a.eval R f g + b.eval R f g)
  | .fma i a => R.rnd (f i * g i + a.eval R f g)

namespace Poly
open SMT.Qp

/-- LS: scikit-learn's `predict`, `x @ coef_.T + intercept_` (`ls.py` 84). -/
def lsPredictF (R : Rounding K) (d : Dot) (coef : ℕ → K) (b : K) (x : ℕ → K) : K := R.rnd (d.eval R x coef + b)

/-- LS: `np.ones((n_eval, ny)) * coef_[:, kx]` (`ls.py` 106). -/
def lsDerivF (R : Rounding K) (coef : ℕ → K) (kx : ℕ) : K := R.rnd (1 * coef kx)

/-- The assignments to rows of `M`, `qp.py` 89-97, for one point (`x ** 2` is a product in NumPy). -/
def writesF (R : Rounding K) (dim : ℕ) (x : ℕ → K) : List (ℕ × K) :=
  (0, 1) ::
  ((List.range' 1 dim).map (fun i => (i, x (i - 1))) ++
   (List.range' (dim + 1) dim).map (fun i => (i, R.rnd (x (i - (dim + 1)) * x (i - (dim + 1))))) ++
   (List.range (dim - 1)).flatMap fun i =>
     (List.range' (i + 1) (dim - (i + 1))).map fun j => (crossIdx dim i j, R.rnd (x i * x j)))

/-- `_response_surface`, `qp.py` 72-98, one point. -/
def responseRowF (R : Rounding K) (dim : ℕ) (x : ℕ → K) : Option (List K) :=
  (writesF R dim x).foldlM (fun M w => if w.1 < M.length then some (M.set w.1 w.2) else none) (List.replicate (nApp dim) 0)

/-- `_predict_values`, `qp.py` 136-153. -/
def predictF (R : Rounding K) (d : Dot) (dim : ℕ) (coef : ℕ → K) (x : ℕ → K) : Option K :=
  (responseRowF R dim x).map fun row => d.eval R (fun k => row.getD k 0) coef

/-- The loop of `_predict_derivatives`, `qp.py` 121-131. -/
def crossF (R : Rounding K) (dim kx : ℕ) (coef : ℕ → K) (x : ℕ → K) : K :=
  (List.range dim).foldl (fun acc i =>
    if i > kx then R.rnd (acc + R.rnd (coef (crossIdx dim kx i) * x i))
    else if i < kx then R.rnd (acc + R.rnd (coef (crossIdx dim i kx) * x i))
    else acc) 0

/-- `_predict_derivatives`, `qp.py` 118-133: `linear_coef + quad_coef + cross_coef`, with `quad_coef = 2 * coef * x`, from the left. -/
def derivF (R : Rounding K) (dim kx : ℕ) (coef : ℕ → K) (x : ℕ → K) : K :=
  R.rnd (R.rnd (coef (1 + kx) + R.rnd (R.rnd (2 * coef (1 + dim + kx)) * x kx)) + crossF R dim kx coef x)

end Poly
end SMT.Fp
