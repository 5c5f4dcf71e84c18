import Verif.Kriging.Core

/-!
# Model of the heteroscedastic noise estimation from repeated points

`smt/surrogate_models/krg_based.py` 112-190 with `eval_noise=True, use_het_noise=True` (the lines 136-160 replace the training points by the distinct ones), and the same lines for one level in
`smt/applications/mfk.py` 241-270. For given hyper-parameters; exact arithmetic: points are repeated when their standardised coordinates are equal.
-/
namespace SMT.Het
open SMT.Krg Matrix

noncomputable section

variable {n nx p : ℕ}

/-- `np.mean` of a list. -/
def meanL (l : List ℝ) : ℝ := l.sum / l.length

/-- `np.std(l, ddof=1)`. -/
def stdL (l : List ℝ) : ℝ := √((l.map fun v => (v - meanL l) ^ 2).sum / ((l.length : ℝ) - 1))

open Classical in
/-- `self.y_norma[index_unique == i]`: the outputs of the rows equal to the distinct row `u`, `krg_based.py` 150, 155. -/
def outs (rows : List ((Fin nx → ℝ) × ℝ)) (u : Fin nx → ℝ) : List ℝ := (rows.filter fun r => r.1 = u).map Prod.snd

open Classical in
/-- `nt_reps`, the counts of `np.unique`, `krg_based.py` 142-144. -/
def reps (rows : List ((Fin nx → ℝ) × ℝ)) (u : Fin nx → ℝ) : ℕ := (rows.filter fun r => r.1 = u).length

open Classical in
/-- The noise of one distinct row, `krg_based.py` 153-158: start value, replaced by the squared standard deviation of the differences when these do not vanish, divided by the number of repetitions. -/
def noiseAt (noise0 : ℝ) (rows : List ((Fin nx → ℝ) × ℝ)) (u : Fin nx → ℝ) : ℝ :=
  let diff := (outs rows u).map fun v => v - meanL (outs rows u)
  (if (diff.map fun v => v ^ 2).sum ≠ 0 then stdL diff ^ 2 else noise0) / reps rows u

/-- `self.options["noise0"] * np.ones(self.nt)`, `krg_based.py` 153: one value or one per distinct row, otherwise the shapes do not match. (For a single distinct row and several values NumPy would build an
array of the wrong shape; that case counts as an error here.) -/
def spread (noise0 : List ℝ) (m : ℕ) : Option (Fin m → ℝ) :=
  match noise0 with
  | [v] => some fun _ => v
  | l => if h : l.length = m then some fun i => l.get (i.cast h.symm) else none

/-- The standardised training rows, `krg_based.py` 124-132. -/
def stdRows (X : Fin n → Fin nx → ℝ) (y : Fin n → ℝ) : List ((Fin nx → ℝ) × ℝ) :=
  List.ofFn fun i => (fun j => normalise (scaling fun i => X i j) (X i j), normalise (scaling y) (y i))

/-- `np.unique(self.X_norma, axis=0)` as a parameter applied to the rows. -/
def distinct (uniq : List (Fin nx → ℝ) → List (Fin nx → ℝ)) (X : Fin n → Fin nx → ℝ) : List (Fin nx → ℝ) :=
  uniq (List.ofFn fun i j => normalise (scaling fun i => X i j) (X i j))

/-- `_new_train` with `eval_noise` and `use_het_noise` for given hyper-parameters, `krg_based.py` 112-190 and 240-310: offsets and scales come from all rows, the correlation matrix (nugget replaced by 0, line
244) from the distinct ones with their noise, the outputs are the means. -/
def hetTrain (uniq : List (Fin nx → ℝ) → List (Fin nx → ℝ)) (X : Fin n → Fin nx → ℝ)
    (chol : Matrix (Fin (distinct uniq X).length) (Fin (distinct uniq X).length) ℝ → Option (Matrix (Fin (distinct uniq X).length) (Fin (distinct uniq X).length) ℝ))
    (qr : Matrix (Fin (distinct uniq X).length) (Fin p) ℝ → Matrix (Fin (distinct uniq X).length) (Fin p) ℝ × Matrix (Fin p) (Fin p) ℝ)
    (kern : (Fin nx → ℝ) → ℝ) (trend : (Fin nx → ℝ) → Fin p → ℝ) (noise0 : List ℝ) (y : Fin n → ℝ) : Option (Model (distinct uniq X).length nx p) :=
  (spread noise0 (distinct uniq X).length).bind fun n0 =>
    let Xn := (distinct uniq X).get
    let noise := fun u => noiseAt (n0 u) (stdRows X y) (Xn u)
    let F : Matrix (Fin (distinct uniq X).length) (Fin p) ℝ := Matrix.of fun i => trend (Xn i)
    (chol (corrR kern 0 noise Xn)).map fun C =>
      { Xn := Xn, xOS := fun j => scaling fun i => X i j, yOS := scaling y, kern := kern, trend := trend, F := F,
        par := blup C qr F (fun u => meanL (outs (stdRows X y) (Xn u))) (scaling y).2 (distinct uniq X).length }

end

end SMT.Het
