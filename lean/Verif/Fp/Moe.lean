import Verif.Fp.EgoProps2

/-!
# Model of the recombination of `smt/applications/moe.py` in floating-point arithmetic

One prediction point, `k` clusters. The mixture weights are numbers of the format, the densities `distribs[j].pdf(x)` and the experts' outputs are any values of it (infinities
and NaN included). The order in which `np.sum` adds is a parameter: any tree over the `k` products.
-/
set_option linter.unusedSectionVars false
set_option linter.unusedSimpArgs false
set_option linter.unusedVariables false

namespace SMT.Fp.Moe
open SMT.Fp.Ego

variable {K : Type} [Field K] [LinearOrder K] [IsStrictOrderedRing K] (F : Format K) {k : ℕ}

/-- `probs = weights * rvs`, `moe.py` 707. -/
def products (w : Fin k → K) (pdf : Fin k → X K) (j : Fin k) : X K := F.mulX (.fin (w j)) (pdf j)

/-- `np.sum(probs)`, `moe.py` 708. -/
def total (t : Tree) (p : Fin k → X K) : X K := t.evalX F fun i => if h : i < k then p ⟨i, h⟩ else .nan

/-- `rad = np.sum(probs); if rad > 0: probs = probs / rad`, `moe.py` 708-711. -/
def normalise (t : Tree) (p : Fin k → X K) (j : Fin k) : X K :=
  let rad := total F t p
  if (X.fin 0).lt rad then F.divX (p j) rad else p j

/-- `_proba_cluster`, `moe.py` 714-753, for one row, with `_proba_cluster_one_sample`, 688-712. -/
def probaX (t : Tree) (w : Fin k → K) (pdf : Fin k → X K) (j : Fin k) : X K :=
  if k = 1 then .fin 1 else normalise F t (products F w pdf) j

/-- The loop of `_predict_smooth_output`, `moe.py` 466-480, `output_variances=False`. -/
def smoothX (q e : Fin k → X K) : X K := (List.finRange k).foldl (fun s j => F.addX s (F.mulX (e j) (q j))) (.fin 0)

/-- The same with `output_variances=True`, `moe.py` 469-473 (`p ** 2` is one rounded multiplication). -/
def smoothVarX (q v : Fin k → X K) : X K := (List.finRange k).foldl (fun s j => F.addX s (F.mulX (v j) (F.mulX (q j) (q j)))) (.fin 0)

/-- `np.argmax`, `moe.py` 429. NumPy's loop: stop at the first NaN, otherwise keep the first largest value. -/
def argmaxGo : X K → ℕ → ℕ → List (X K) → ℕ
  | _, best, _, [] => best
  | m, best, i, a :: as => if isNan a then i else if m.lt a then argmaxGo a i (i + 1) as else argmaxGo m best (i + 1) as

/-- `np.argmax`; `none` for an empty array. -/
def argmaxX : List (X K) → Option ℕ
  | [] => none
  | a :: as => some (if isNan a then 0 else argmaxGo a 0 1 as)

/-- `_predict_hard_output`, `moe.py` 428-441, for one row: the output (value or variance) of the expert of the most probable cluster. -/
def hardX (q e : Fin k → X K) : Option (X K) :=
  (argmaxX ((List.finRange k).map q)).bind fun i => if h : i < k then some (e ⟨i, h⟩) else none

end SMT.Fp.Moe
