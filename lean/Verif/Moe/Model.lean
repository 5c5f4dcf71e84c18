import Mathlib.Algebra.BigOperators.Fin
import Mathlib.Algebra.BigOperators.Group.List.Basic
import Mathlib.Algebra.Order.Field.Basic

/-!
# Model of `smt/applications/moe.py`

`S` is the type of samples (rows of `np.c_[x, y, c]`), `X` of prediction points. Scikit-learn's Gaussian mixture and SciPy's normal densities are parameters:
a classifier, mixture weights and densities. Experts are prediction functions. Exact field arithmetic. `none` stands for an exception.
-/
namespace SMT.Moe

/-! ## Data handling -/

variable {S X : Type}

/-- `_extract_part`, `moe.py` 487-510: `mask` marks the indices `0, q, 2q, …`; returns `values[mask], values[~mask]`. -/
def extractPart (values : List S) (q : ℕ) : List S × List S :=
  let indices := (List.range values.length).filter fun i => i % q == 0     -- np.arange(0, num, quantile)
  let mask := fun i => decide (i ∈ indices)
  ((values.zipIdx.filter fun p => mask p.2).map (·.1), (values.zipIdx.filter fun p => !mask p.2).map (·.1))

/-- `clusters[c].append(v)`; `none` = `IndexError`. -/
def appendTo (clusters : List (List S)) (c : ℕ) (v : S) : Option (List (List S)) :=
  if c < clusters.length then some (clusters.modify c (· ++ [v])) else none

/-- `_cluster_values`, `moe.py` 639-686 (the classifier never returns negative labels). -/
def clusterValues (nClusters : ℕ) (values : List S) (classifier : List ℕ) : Option (List (List S)) :=
  if values.length = classifier.length then
    (values.zip classifier).foldl (fun st vc => st.bind fun cl => appendTo cl vc.2 vc.1) (some (List.replicate nClusters []))
  else none

/-- `_check_inputs`, `moe.py` 311-334 (`true` = passes; `x`, `y`, `c` given by their row numbers). -/
def checkInputs (nx ny nc nClusters : ℕ) : Bool :=
  decide (nx = ny) && decide (ny = nc) && !decide (nClusters > nx / 10 + 1)

/-- `if not self.c: self.c = c = y`, `moe.py` 208-210: the truth value of an array (`none`: NumPy raises for more than one element; an empty array
counts as false). `ct = none` is the default. The result is the criterion used for clustering. -/
def criterion (ct : Option (List S)) (truthOfSingleton : S → Bool) (y : List S) : Option (List S) :=
  match ct with
  | none => some y
  | some [] => some y
  | some [v] => if truthOfSingleton v then some [v] else some y
  | some (_ :: _ :: _) => none

/-- The five filters of `_get_enabled_expert_types`, `moe.py` 336-373. An expert is its name and the two `supports` flags. The `ValueError` for an
empty result (371-374) is built but not raised. -/
def enabledExperts (registered : List (String × Bool × Bool)) (expertNames : List String) (derivs vars : Bool) (allow deny : List String) : List String :=
  let p := registered.filter fun e => decide (e.1 ∈ expertNames)
  let p := if derivs then p.filter fun e => e.2.1 else p
  let p := if vars then p.filter fun e => e.2.2 else p
  let p := if allow ≠ [] then p.filter fun e => decide (e.1 ∈ allow) else p
  let p := if deny ≠ [] then p.filter fun e => !decide (e.1 ∈ deny) else p
  p.map (·.1)

/-! ## Recombination -/

variable {K : Type} [Field K] [LinearOrder K]

/-- `_proba_cluster_one_sample`, `moe.py` 688-712. -/
def probaOne {k : ℕ} (weights : Fin k → K) (pdf : Fin k → X → K) (x : X) (j : Fin k) : K :=
  let probs := fun j => weights j * pdf j x
  let rad := ∑ j, probs j
  if rad > 0 then probs j / rad else probs j

/-- `_proba_cluster`, `moe.py` 714-754, for one row. -/
def proba {k : ℕ} (weights : Fin k → K) (pdf : Fin k → X → K) (x : X) (j : Fin k) : K :=
  if k = 1 then 1 else probaOne weights pdf x j

/-- `_predict_smooth_output`, `moe.py` 443-485, for one row, with `output_variances=False`. -/
def smooth {k : ℕ} (weights : Fin k → K) (pdf : Fin k → X → K) (experts : Fin k → X → K) (x : X) : K :=
  ∑ j, experts j x * proba weights pdf x j

/-- The same with `output_variances=True`, `moe.py` 469-473. -/
def smoothVar {k : ℕ} (weights : Fin k → K) (pdf : Fin k → X → K) (vars : Fin k → X → K) (x : X) : K :=
  ∑ j, vars j x * proba weights pdf x j ^ 2

/-- `np.argmax`: the first position of the largest entry. -/
def argmax {k : ℕ} (f : Fin (k + 1) → K) : Fin (k + 1) :=
  (List.finRange (k + 1)).foldl (fun b i => if f b < f i then i else b) 0

/-- `_predict_hard_output`, `moe.py` 411-441, for one row (`pred` is `predict_values` or `predict_variances` of the experts). -/
def hard {k : ℕ} (weights : Fin (k + 1) → K) (pdf : Fin (k + 1) → X → K) (pred : Fin (k + 1) → X → K) (x : X) : K :=
  pred (argmax (proba weights pdf x)) x

/-! ## Choice of the experts -/

/-- One round of the loop of `moe.py` 563-567. -/
def bestStep (best : Option (String × K)) (s : String × K) : Option (String × K) :=
  match best with
  | none => some s
  | some b => if s.2 < b.2 then some s else some b

/-- The loop over `scores.items()`, `moe.py` 563-567 (scores in insertion order; `none` = `KeyError` for no expert). -/
def bestOf (scores : List (String × K)) : Option (String × K) :=
  scores.foldl bestStep none

/-- The entry `i, j` of `expected - actual`, `moe.py` 553-555: `expected` has shape `(n,)` and `actual` shape `(n, 1)`, so NumPy broadcasts to `(n, n)`. The score is
`np.linalg.norm(·, 2)` of this matrix, its largest singular value. -/
def scoreMatrix {n : ℕ} (expected actual : Fin n → K) (i j : Fin n) : K := expected j - actual i

/-- `hfactors = np.linspace(0.1, 2.1, num=21)`, `moe.py` 591. -/
def hfactors : List K := (List.range 21).map fun (i : ℕ) => 1 / 10 + (i : K) * ((21 / 10 - 1 / 10) / 20)

/-- `errors.index(min(errors))` and the look-up: the first factor of least error. -/
def firstLeast (err : K → K) : K → List K → K
  | best, [] => best
  | best, h :: hs => firstLeast err (if err h < err best then h else best) hs

/-- `_find_best_heaviside_factor`, `moe.py` 572-603; `err` gives the relative test error for a factor. -/
def bestHeaviside (nClusters : ℕ) (err : K → K) : K :=
  if nClusters > 1 then
    if ∀ h ∈ hfactors, err h < 1 / 10 ^ 6 then 1
    else match hfactors (K := K) with
      | [] => 1
      | h :: hs => firstLeast err h hs
  else 1

end SMT.Moe
