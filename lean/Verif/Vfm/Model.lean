import Mathlib.Data.Real.Basic
import Mathlib.Data.List.Sort
import Mathlib.Order.Defs.LinearOrder

/-!
# Model of `smt/applications/vfm.py` and of `NestedLHS` (`smt/applications/mfk.py`)

VFM for one output (`ny = 1`). A surrogate class is a function from options and training data to a predictor. The two option dictionaries given by the
user live in a heap, because `VFM` deletes an entry from them.
-/
namespace SMT.Vfm

variable {O : Type} {nx : ℕ}

abbrev Pt (nx : ℕ) := Fin nx → ℝ

/-- What VFM uses of a trained surrogate: `predict_values`, `predict_derivatives(·, i)`, `supports["derivatives"]`. -/
structure Sur (nx : ℕ) where
  val : Pt nx → ℝ
  der : Fin nx → Pt nx → ℝ
  supportsDer : Bool

/-- A surrogate class: constructed with options, given training values and possibly training derivatives, trained. -/
abbrev Trainer (O : Type) (nx : ℕ) := O → List (Pt nx × ℝ) → Option (List (Fin nx → ℝ)) → Sur nx

/-- A user's option dictionary: the entry `"deriv"` (if present) and the rest. -/
structure Dict (O : Type) where
  deriv : Option Bool
  rest : O

/-- The two dictionaries are objects in a heap (they may be the same object). -/
abbrev Heap (O : Type) := ℕ → Dict O

def Heap.set (h : Heap O) (a : ℕ) (d : Dict O) : Heap O := fun b => if b = a then d else h b

inductive Err | valueError | keyError | unbound
  deriving DecidableEq, Repr

/-- The options of a VFM object, `vfm.py` 24-70. `XLF yLF` (and `XHF yHF`) are given together as a list of pairs. -/
structure Config (O : Type) (nx : ℕ) where
  refLF : ℕ
  refBr : ℕ
  trainLF : Trainer O nx
  trainBr : Trainer O nx
  multiplicative : Bool
  dataLF : Option (List (Pt nx × ℝ))
  dataHF : Option (List (Pt nx × ℝ))
  dyLF : Option (List (Fin nx → ℝ))
  dyHF : Option (List (Fin nx → ℝ))

/-- `sm_HF`, `vfm.py` 210-236. `der = none`: the entry is missing and reading it raises `KeyError`. -/
structure Trained (nx : ℕ) where
  val : Pt nx → ℝ
  der : Option (Fin nx → Pt nx → ℝ)

/-- "Initialize the parameter deriv", `vfm.py` 272-276. -/
def initDeriv (h : Heap O) (a : ℕ) : Heap O :=
  match (h a).deriv with
  | none => h.set a { h a with deriv := some false }
  | some _ => h

/-- `flag = options["deriv"]; del options["deriv"]`, `vfm.py` 155-156, 170-171, 188-189. -/
def popDeriv (h : Heap O) (a : ℕ) : Except Err (Bool × Heap O) :=
  match (h a).deriv with
  | none => .error .keyError
  | some b => .ok (b, h.set a { h a with deriv := none })

/-- Derivative data when requested: a missing `dy` is an unbound local. `vfm.py` 161-163, 172-173, 190-191. -/
def wanted {α : Type} (flag : Bool) (dy : Option α) : Except Err (Option α) :=
  if flag then match dy with
    | none => .error .unbound
    | some d => .ok (some d)
  else .ok none

/-- `y_bridge`, `vfm.py` 169 and 187. -/
noncomputable def bridgeVal (mult : Bool) (lf : Sur nx) (p : Pt nx × ℝ) : Pt nx × ℝ :=
  (p.1, if mult then p.2 / lf.val p.1 else p.2 - lf.val p.1)

/-- One row of `dy_bridge`, `vfm.py` 174-185 and 192-197. -/
noncomputable def bridgeDer (mult : Bool) (lf : Sur nx) (p : Pt nx × ℝ) (dy : Fin nx → ℝ) : Fin nx → ℝ := fun i =>
  if mult then (dy i * lf.val p.1 - p.2 * lf.der i p.1) / lf.val p.1 ^ 2 else dy i - lf.der i p.1

/-- The final model, `vfm.py` 209-236. -/
noncomputable def combine (mult : Bool) (lf br : Sur nx) : Trained nx :=
  if mult then
    { val := fun x => br.val x * lf.val x
      der := if br.supportsDer && lf.supportsDer then some fun i x => br.der i x * lf.val x + br.val x * lf.der i x else none }
  else
    { val := fun x => br.val x + lf.val x
      der := if br.supportsDer && lf.supportsDer then some fun i x => br.der i x + lf.der i x else none }

/-- `_apply`, `vfm.py` 130-240: the heap is changed also when an exception ends it. -/
noncomputable def apply (c : Config O nx) (h : Heap O) : Except Err (Trained nx) × Heap O :=
  match c.dataLF, c.dataHF with
  | some dLF, some dHF =>
    let h := initDeriv (initDeriv h c.refLF) c.refBr
    match popDeriv h c.refLF with
    | .error e => (.error e, h)
    | .ok (dvLF, h) =>
      match wanted dvLF c.dyLF with
      | .error e => (.error e, h)
      | .ok gLF =>
        let lf := c.trainLF (h c.refLF).rest dLF gLF
        match popDeriv h c.refBr with
        | .error e => (.error e, h)
        | .ok (dvBr, h) =>
          match wanted dvBr c.dyHF with
          | .error e => (.error e, h)
          | .ok gHF =>
            let br := c.trainBr (h c.refBr).rest (dHF.map (bridgeVal c.multiplicative lf))
              (gHF.map fun dys => List.zipWith (bridgeDer c.multiplicative lf) dHF dys)
            (.ok (combine c.multiplicative lf br), h)
  | _, _ => (.error .valueError, h)

/-- A VFM object: its options and, after the first successful prediction, the trained model. -/
structure Obj (O : Type) (nx : ℕ) where
  config : Config O nx
  model : Option (Trained nx)

/-- `predict_values`, `vfm.py` 77-98. -/
noncomputable def Obj.predict (o : Obj O nx) (h : Heap O) (x : Pt nx) : Except Err ℝ × Obj O nx × Heap O :=
  match o.model with
  | some m => (.ok (m.val x), o, h)
  | none =>
    match apply o.config h with
    | (.error e, h) => (.error e, o, h)
    | (.ok m, h) => (.ok (m.val x), { o with model := some m }, h)

/-- Operations on one object between which the caller may change anything else. -/
inductive Op (O : Type) (nx : ℕ) where
  | setOptions (c : Config O nx)
  | predict (x : Pt nx)

noncomputable def Obj.step (s : Obj O nx × Heap O × List (Except Err ℝ)) : Op O nx → Obj O nx × Heap O × List (Except Err ℝ)
  | .setOptions c => ({ s.1 with config := c }, s.2.1, s.2.2)
  | .predict x => let r := s.1.predict s.2.1 x; (r.2.1, r.2.2, s.2.2 ++ [r.1])

end SMT.Vfm

namespace SMT.NestedLhs

variable {P K : Type} [LinearOrder K]

/-- `nt`, `mfk.py` 72-74. -/
def sizes (nlevel hifi : ℕ) : List ℕ := ((List.range nlevel).map fun i => 2 ^ i * hifi).reverse

/-- The `while l in ind` loop, `mfk.py` 95-102, from position `m` of the sorted row; running off the sorted row is an `IndexError` (`none`). -/
def pickLoop (row : List K) (ind : List ℕ) : List K → Option ℕ
  | [] => none
  | k :: ks =>
    let l := row.idxOf k                            -- np.where(d[j, :] == k)[0][0]
    if l ∈ ind then pickLoop row ind ks else some l

/-- Body of `for j in range(doe[i].shape[0])`, `mfk.py` 93-103. -/
def pick (row : List K) (ind : List ℕ) : Option ℕ := pickLoop row ind (row.insertionSort (· ≤ ·))     -- dj = np.sort(d[j, :])

/-- The loop over the points of the finer plan, `mfk.py` 91-103. `dist` is the Euclidean distance of `cdist`. -/
def pickAll (dist : P → P → K) (lower : List P) : List P → List ℕ → Option (List ℕ)
  | [], ind => some ind
  | p :: ps, ind => (pick (lower.map (dist p)) ind).bind fun l => pickAll dist lower ps (ind ++ [l])

/-- `np.delete(a, ind, axis=0)`. -/
def delete (a : List P) (ind : List ℕ) : List P := (a.zipIdx.filter fun q => decide (q.2 ∉ ind)).map (·.1)

/-- One round of the outer loop, `mfk.py` 90-106: from the plans of levels `i` and `i - 1` to the new plan of level `i - 1`. -/
def nestInto (dist : P → P → K) (lower upper : List P) : Option (List P) :=
  (pickAll dist lower upper []).map fun ind => delete lower ind ++ upper

/-- The loop `for i in range(1, nlevel)[::-1]`, `mfk.py` 90-106, on the list of plans from low to high fidelity. -/
def nest (dist : P → P → K) : List (List P) → Option (List (List P))
  | [] => some []
  | [d] => some [d]
  | d :: e :: ds => (nest dist (e :: ds)).bind fun r =>
    match r with
    | [] => none
    | u :: r => (nestInto dist d u).map fun d' => d' :: u :: r

/-- `NestedLHS.__call__`, `mfk.py` 54-107; `lhs i n` is the `n`-point plan drawn for level `i` (`nlevel = 0` raises `IndexError`). -/
def nestedLHS (dist : P → P → K) (lhs : ℕ → ℕ → List P) (nlevel hifi : ℕ) : Option (List (List P)) :=
  if nlevel = 0 then none
  else nest dist ((sizes nlevel hifi).zipIdx.map fun q => lhs q.2 q.1)

end SMT.NestedLhs
