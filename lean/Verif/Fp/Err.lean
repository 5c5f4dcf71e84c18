import Verif.Fp.Corr

/-!
# Model of error measures, and of the choices made with them, in IEEE arithmetic

`smt/utils/misc.py` `compute_rms_error`; `smt/applications/moe.py` `_find_best_model` (choice of the expert), `_find_best_heaviside_factor`; `smt/utils/neural_net/optimizer.py` `Optimizer.grad_check` (verdict).

Predictions and reference values are arbitrary values of the format (they come from models that may return infinities and NaN). `sqrt` is a parameter; the order of summation in `x.dot(x)` of
`np.linalg.norm` is any tree. The score of an expert is a parameter.
-/
set_option linter.unusedSectionVars false
set_option linter.unusedSimpArgs false
set_option linter.unusedVariables false

namespace SMT.Fp.Err
open SMT.Fp.Corr

variable {K : Type} [Field K] [LinearOrder K] [IsStrictOrderedRing K] {n : ℕ}
variable (F : Format K)

/-- `np.linalg.norm` of an array: `sqrt(x.dot(x))` of the flattened array (NumPy). -/
def norm (sq : X K → X K) (t : Tree) (v : Fin n → X K) : X K := sq (rowSum F t fun i => F.mulX (v i) (v i))

/-- `np.linalg.norm(ye2 - ye) / np.linalg.norm(ye)`, `misc.py` 33, 50-52; `a` are the predictions, `b` the given or training values. -/
def relErr (sq : X K → X K) (t t' : Tree) (a b : Fin n → X K) : X K :=
  F.divX (norm F sq t fun i => F.subX (a i) (b i)) (norm F sq t' b)

/-- One round of the loop of `moe.py` 565-567. -/
def bestStep (best : Option (String × X K)) (s : String × X K) : Option (String × X K) :=
  match best with
  | none => some s
  | some b => if s.2.lt b.2 then some s else some b

/-- The loop over `scores.items()`, `moe.py` 563-567. -/
def bestOf (scores : List (String × X K)) : Option (String × X K) := scores.foldl bestStep none

/-- Python's `max` of a list that is not empty. -/
def pyMax (e : X K) (es : List (X K)) : X K := es.foldl (fun m v => if m.lt v then v else m) e

/-- Python's `min` of a list that is not empty. -/
def pyMin (e : X K) (es : List (X K)) : X K := es.foldl (fun m v => if v.lt m then v else m) e

/-- `errors.index(m)` where `m` is the `min` of `errors`: the first entry that is the same object or equal. NaN is equal to nothing, but `min` is NaN only if it is the first object. -/
def pyIndex (errors : List (X K)) (m : X K) : ℕ :=
  match m with
  | .nan => 0
  | m => errors.findIdx (fun v => decide (v = m))

/-- `_find_best_heaviside_factor`, `moe.py` 588-604, for more than one cluster; `errors` are the relative errors for the 21 factors; `none` is the factor `1.0`, `some i` is `hfactors[i]`. -/
def bestFactor (e : X K) (es : List (X K)) (tol : K) : Option ℕ :=
  if (pyMax e es).lt (.fin tol) then none else some (pyIndex (e :: es) (pyMin e es))

/-- The verdict of `grad_check` on one array of parameters, `optimizer.py` 144-150: `true` is "correct". -/
def verdict (sq : X K → X K) (t1 t2 t3 : Tree) (tol eps : K) (g fd : Fin n → X K) : Bool :=
  let numerator := norm F sq t1 fun i => F.subX (g i) (fd i)
  let denominator := F.addX (norm F sq t2 g) (norm F sq t3 fd)
  let difference := F.divX numerator (F.addX denominator (.fin eps))
  difference.le (.fin tol) || numerator.le (.fin tol)

end SMT.Fp.Err
