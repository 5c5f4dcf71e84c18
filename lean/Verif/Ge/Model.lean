import Mathlib.Algebra.BigOperators.Fin
import Mathlib.Algebra.Order.Field.Basic
import Mathlib.Algebra.Order.BigOperators.Group.Finset
import Mathlib.Algebra.Order.Ring.Abs

/-!
# Model of GEKPLS: gradient-enhanced PLS coefficients and extra points

`smt/utils/kriging_utils.py` 637-768 (`ge_compute_pls`), `smt/surrogate_models/gekpls.py` 39-56, `smt/surrogate_models/surrogate_model.py` 124 and
`smt/surrogate_models/krg_based.py` 112-176, 1189-1204 as far as they use the number of training points.

Scalars are an ordered field. The PLS regression of scikit-learn, the Box-Behnken design of pyDOE2 and the order `np.argsort` gives equal keys are parameters.
-/
namespace SMT.Ge

variable {K : Type} [Field K] [LinearOrder K]

/-- External routines: `pls.fit(X, y).x_rotations_` (`kriging_utils.py` 682, 755-756), `bbdesign(d, center=1)` (687), `np.argsort` (759). -/
structure Ext (K : Type) (h : ℕ) where
  pls : (d : ℕ) → List (Fin d → K) → List K → Fin d → Fin (h + 1) → K
  bb : (d : ℕ) → List (Fin d → K)
  argsort : (d : ℕ) → (Fin d → K) → List (Fin d)

/-- `np.roll(a, 1, axis=0)`: the last row becomes the first. -/
def roll {α : Type} (l : List α) : List α :=
  match l.getLast? with
  | none => []
  | some a => a :: l.dropLast

/-- The step `delta_x * (xlimits[j, 1] - xlimits[j, 0])`. -/
def stp {d : ℕ} (delta : K) (lim : Fin d → K × K) (j : Fin d) : K := delta * ((lim j).2 - (lim j).1)

/-- Local points and first-order values around one training point for three or more inputs, `kriging_utils.py` 686-694: `sign * delta_x * range` is added to the point, and with each column multiplied by the
derivative is summed onto the value. -/
def boxPts {d : ℕ} (design : List (Fin d → K)) (delta : K) (lim : Fin d → K × K) (x : Fin d → K) (y : K) (g : Fin d → K) : List ((Fin d → K) × K) :=
  (roll design).map fun s => (fun j => x j + s j * delta * ((lim j).2 - (lim j).1), y + ∑ j, s j * delta * ((lim j).2 - (lim j).1) * g j)

/-- The nine local points and values for two inputs, `kriging_utils.py` 696-753, in the order of the code. -/
def ninePts (delta : K) (lim : Fin 2 → K × K) (x : Fin 2 → K) (y : K) (g : Fin 2 → K) : List ((Fin 2 → K) × K) :=
  let h0 := delta * ((lim 0).2 - (lim 0).1)
  let h1 := delta * ((lim 1).2 - (lim 1).1)
  let d0 := g 0 * delta * ((lim 0).2 - (lim 0).1)
  let d1 := g 1 * delta * ((lim 1).2 - (lim 1).1)
  [(![x 0, x 1], y), (![x 0 + h0, x 1], y + d0), (![x 0, x 1 + h1], y + d1), (![x 0 - h0, x 1], y - d0), (![x 0, x 1 - h1], y - d1),
   (![x 0 + h0, x 1 + h1], y + d0 + d1), (![x 0 - h0, x 1 + h1], y - d0 + d1), (![x 0 - h0, x 1 - h1], y - d0 - d1), (![x 0 + h0, x 1 - h1], y + d0 - d1)]

/-- The local points, `kriging_utils.py` 686-753; with one input (or none) the assignments to column 1 raise IndexError. -/
def localPts : (d : ℕ) → (bb : List (Fin d → K)) → (delta : K) → (lim : Fin d → K × K) → (x : Fin d → K) → (y : K) → (g : Fin d → K) → Option (List ((Fin d → K) × K))
  | 0, _, _, _, _, _, _ => none
  | 1, _, _, _, _, _, _ => none
  | 2, _, delta, lim, x, y, g => some (ninePts delta lim x y g)
  | _ + 3, bb, delta, lim, x, y, g => some (boxPts bb delta lim x y g)

/-- The slice `[-e:]` of a list: for `e > 0` the last `e` entries (all when there are fewer), for `e ≤ 0` without the first `-e`. -/
def lastSlice {α : Type} (l : List α) (e : ℤ) : List α := if 0 < e then l.drop (l.length - e.toNat) else l.drop (-e).toNat

/-- `XX[-1, ii] += delta_x * range`, `yy[-1, 0] += pts[None][1 + ii][1][i, 0] * delta_x * range`, `kriging_utils.py` 760-767. -/
def extraPt {d : ℕ} (delta : K) (lim : Fin d → K × K) (x : Fin d → K) (y : K) (g : Fin d → K) (j : Fin d) : (Fin d → K) × K :=
  (Function.update x j (x j + delta * ((lim j).2 - (lim j).1)), y + g j * delta * ((lim j).2 - (lim j).1))

/-- The derivatives of training point `i`: `pts[None][j][1][i, 0]` for `j = 1 .. d`, `kriging_utils.py` 693. KeyError if a derivative was not given, IndexError if it has too few rows. The points at which the
derivatives were given (`pts[None][j][0]`) are not looked at. -/
def gradAt {d : ℕ} (pts : Fin d → Option (List K)) (i : ℕ) : Option (Fin d → K) :=
  if (List.finRange d).all fun j => ((pts j).bind fun l => l[i]?).isSome then some fun j => ((pts j).bind fun l => l[i]?).getD 0 else none

/-- One turn of the loop, `kriging_utils.py` 685-767: PLS coefficients of the local points, and the extra points. -/
def point {h d : ℕ} (E : Ext K h) (delta : K) (lim : Fin d → K × K) (extra : ℤ) (pts : Fin d → Option (List K)) (i : ℕ) (x : Fin d → K) (y : K) :
    Option ((Fin d → Fin (h + 1) → K) × List ((Fin d → K) × K)) :=
  (gradAt pts i).bind fun g =>
    (localPts d (E.bb d) delta lim x y g).map fun L =>
      let c := E.pls d (L.map Prod.fst) (L.map Prod.snd)
      (c, if extra = 0 then [] else (lastSlice (E.argsort d fun j => |c j 0|) extra).map (extraPt delta lim x y g))

/-- The loop over the training points, `kriging_utils.py` 685-767. -/
def points {h d : ℕ} (E : Ext K h) (delta : K) (lim : Fin d → K × K) (extra : ℤ) (pts : Fin d → Option (List K)) :
    ℕ → List ((Fin d → K) × K) → Option (List ((Fin d → Fin (h + 1) → K) × List ((Fin d → K) × K)))
  | _, [] => some []
  | i, (x, y) :: rest => (point E delta lim extra pts i x y).bind fun a => (points E delta lim extra pts (i + 1) rest).map fun l => a :: l

/-- `ge_compute_pls`, `kriging_utils.py` 637-768: mean absolute coefficients (768), extra points. With no training point NumPy returns NaN; here 0. -/
def gePls {h d : ℕ} (E : Ext K h) (delta : K) (lim : Fin d → K × K) (extra : ℤ) (pts : Fin d → Option (List K)) (data : List ((Fin d → K) × K)) :
    Option ((Fin d → Fin (h + 1) → K) × List ((Fin d → K) × K)) :=
  (points E delta lim extra pts 0 data).map fun l => (fun j c => (l.map fun a => |a.1 j c|).sum / (data.length : K), l.flatMap Prod.snd)

/-- The attributes and options of a GEKPLS object that the preparation of the training uses. -/
structure Obj (K : Type) (d : ℕ) where
  data : List ((Fin d → K) × K)
  pts : Fin d → Option (List K)
  nt : ℤ
  extra : ℤ
  delta : K
  lim : Fin d → K × K

/-- `set_training_values`, `surrogate_model.py` 102-128: stores the data and the number of points. -/
def Obj.setValues {d : ℕ} (o : Obj K d) (data : List ((Fin d → K) × K)) : Obj K d := { o with data := data, nt := data.length }

/-- `GEKPLS._compute_pls`, `gekpls.py` 39-56: the number of points and the data passed on. -/
def Obj.computePls {h d : ℕ} (E : Ext K h) (o : Obj K d) : Option (Obj K d × (Fin d → Fin (h + 1) → K) × List ((Fin d → K) × K)) :=
  (gePls E o.delta o.lim o.extra o.pts o.data).map fun r =>
    if o.extra ≠ 0 then ({ o with nt := o.nt * (o.extra + 1) }, r.1, o.data ++ r.2) else (o, r.1, o.data)

/-- The preparation of `train`, `krg_based.py` 112-176: PLS, then `_check_F` (1189-1197) compares the rows of the regression matrix, one per row of the augmented data, with the attribute `nt`, and raises when
they differ. The attribute stays changed when it raises. Trend and noise are not part of this check. -/
def Obj.prepare {h d : ℕ} (E : Ext K h) (o : Obj K d) : Obj K d × Option ((Fin d → Fin (h + 1) → K) × List ((Fin d → K) × K)) :=
  match o.computePls E with
  | none => (o, none)
  | some (o', c, rows) => (o', if (rows.length : ℤ) = o'.nt then some (c, rows) else none)

end SMT.Ge
