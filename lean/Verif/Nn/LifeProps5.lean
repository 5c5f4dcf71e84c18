import Verif.Nn.LifeProps4

set_option linter.unusedSectionVars false
set_option linter.unusedSimpArgs false
set_option linter.unusedVariables false

/-!
# C90: loading values only, dimensions checked by `goodness_of_fit`, `training_data`
-/
namespace SMT.Nn.Life
open SMT.Nn SMT.Surrogate Matrix

variable {G E : Type}

/-- **C90** `load_smt_data` without derivatives stores the values and succeeds, leaving everything else as it was; on a fresh object `train` then raises `KeyError`. -/
theorem C90_load_values_only (s : Store ℝ) (xt yt : NdArray ℝ) (m nx ny : ℕ) (hx : TwoD xt m nx) (hy : TwoD yt m ny) :
    ∃ s', loadSmtData s xt yt none = (s', .ok ()) ∧ s'.tp none 0 = some (⟨[m, nx], xt.data⟩, ⟨[m, ny], yt.data⟩) ∧ (∀ g k, (g = none → k ≠ 0) → s'.tp g k = s.tp g k) ∧ s'.dims = some (m, nx, ny) ∧
      ((∀ k, s.tp none k = none) → 0 < nx → ∀ (env : Env G E) (g : Genn) (w : G × E), g.store = s' → train env g w = ((g, w), .error (.py .key))) := by
  have e1 : dimsX xt.shape = some (m, nx) := by
    rcases hx with h | ⟨h, rfl⟩ <;> rw [h] <;> rfl
  have e2 : dimsY yt.shape = some ny := by
    rcases hy with h | ⟨h, rfl⟩ <;> rw [h] <;> rfl
  have e3 : yt.shape.prod = m * ny := by
    rcases hy with h | ⟨h, rfl⟩ <;> rw [h] <;> simp
  have h0 : ((({ s with dims := some (m, nx, ny) } : Store ℝ)).put none 0 ⟨[m, nx], xt.data⟩ ⟨[m, ny], yt.data⟩).tp none 0 = some (⟨[m, nx], xt.data⟩, ⟨[m, ny], yt.data⟩) := by simp [Store.put]
  have h1 : ∀ g k, (g = none → k ≠ 0) → ((({ s with dims := some (m, nx, ny) } : Store ℝ)).put none 0 ⟨[m, nx], xt.data⟩ ⟨[m, ny], yt.data⟩).tp g k = s.tp g k := by
    intro g k h
    simp only [Store.put]
    rw [if_neg]
    rintro ⟨rfl, rfl⟩
    exact h rfl rfl
  refine ⟨(({ s with dims := some (m, nx, ny) } : Store ℝ)).put none 0 ⟨[m, nx], xt.data⟩ ⟨[m, ny], yt.data⟩, ?_, h0, h1, rfl, ?_⟩
  · unfold loadSmtData
    rw [e1]
    simp only
    rw [e2]
    simp only [e3, ne_eq, not_true_eq_false, if_false, setValues, ensure2d, NdArray.nrows, NdArray.ncols, List.headD_cons, List.drop_succ_cons, List.drop_zero]
  · intro hfresh hnx env g w hg
    refine C90_values_only env g w ⟨[m, nx], xt.data⟩ ⟨[m, ny], yt.data⟩ (by rw [hg]; exact h0) (by simpa [NdArray.ncols] using hnx) ?_
    rw [hg, h1 none 1 (fun _ => one_ne_zero)]
    exact hfresh 1

/-- **C90** `goodness_of_fit` checks the dimensions against the trained network: validation data with another number of inputs or (the network having several outputs) with one output raise an assertion
error - after the stored training data have been replaced. -/
theorem C90_goodness_dimensions (g : Genn) (t : Trained) (hmod : g.model = some t) (xv yv dyv : NdArray ℝ) (m nx : ℕ) (hx : TwoD xv m nx) (hy : TwoD yv m 1) (hd : dyv.shape.prod = m * nx)
    (hdim : nx ≠ t.nx ∨ t.ny ≠ 1) : (goodness g xv yv (some dyv)).2 = .error .assertion ∧ (goodness g xv yv (some dyv)).1.store.tp none 0 = some (⟨[m, nx], xv.data⟩, ⟨[m, 1], yv.data⟩) := by
  obtain ⟨-, h2, -⟩ := C90_goodness_replaces_data g xv yv dyv m nx hx hy hd
  refine ⟨?_, h2⟩
  obtain ⟨s', h1, h6⟩ := C90_load_single_output g.store xv yv dyv m nx hx hy hd
  unfold goodness
  rw [h1]
  simp only
  rw [h6]
  simp only [modelGoodness, hmod]
  rw [if_pos]
  rcases hdim with h | h
  · exact Or.inl h
  · exact Or.inr fun e => h e.symm

/-- **C90** `training_data` gives back the partial derivatives in the units of the data (one output, no constant column). -/
theorem C90_training_data (P : Data) (hy : P.ny = 1) (hsx : ∀ i, rowStd P.X i ≠ 0) (hsy : ∀ i, rowStd P.Y i ≠ 0) :
    ∃ a, trainingJ (scaleOf P) (normData P) = some a ∧ a.shape = [1, P.nx, P.m] ∧ ∀ (j : Fin P.nx) (e : Fin P.m) (i : Fin P.ny), a.val [0, j, e] = P.J j i e := by
  obtain ⟨nx, ny, m, X, Y, J⟩ := P
  simp only at hy
  subst hy
  have key : ∀ (j : Fin nx) (e : Fin m), normPartials X Y J j 0 e * rowStd Y 0 / rowStd X j = J j 0 e := fun j e => by
    have h1 := hsx j
    have h2 := hsy 0
    simp only at h1 h2
    unfold normPartials
    simp only [Matrix.of_apply]
    field_simp
  by_cases hn1 : nx = 1
  · subst hn1
    by_cases hm1 : m = 1
    · subst hm1
      refine ⟨_, by simp [trainingJ, normData, scaleOf, Arr.bop, bshape, colArr]; rfl, rfl, fun j e i => ?_⟩
      obtain rfl := Subsingleton.elim i 0
      obtain rfl := Subsingleton.elim j 0
      obtain rfl := Subsingleton.elim e 0
      simpa [bidx, readMat] using key 0 0
    · refine ⟨_, by simp [trainingJ, normData, scaleOf, hm1, Arr.bop, bshape, colArr]; rfl, rfl, fun j e i => ?_⟩
      obtain rfl := Subsingleton.elim i 0
      obtain rfl := Subsingleton.elim j 0
      simpa [bidx, readMat, hm1] using key 0 e
  · by_cases hm1 : m = 1
    · subst hm1
      refine ⟨_, by simp [trainingJ, normData, scaleOf, hn1, Arr.bop, bshape, colArr]; rfl, rfl, fun j e i => ?_⟩
      obtain rfl := Subsingleton.elim i 0
      obtain rfl := Subsingleton.elim e 0
      simpa [bidx, readMat, hn1] using key j 0
    · refine ⟨_, by simp [trainingJ, normData, scaleOf, hn1, hm1, Arr.bop, bshape, colArr]; rfl, rfl, fun j e i => ?_⟩
      obtain rfl := Subsingleton.elim i 0
      simpa [bidx, readMat, hn1, hm1] using key j e

/-- Two examples of one input and one output. -/
example : ∃ a, trainingJ (scaleOf ⟨1, 1, 2, !![0, 2], !![1, 5], fun _ => !![3, 4]⟩) (normData ⟨1, 1, 2, !![0, 2], !![1, 5], fun _ => !![3, 4]⟩) = some a ∧ a.val [0, 0, 0] = 3 ∧ a.val [0, 0, 1] = 4 := by
  obtain ⟨a, h1, -, h3⟩ := C90_training_data ⟨1, 1, 2, !![0, 2], !![1, 5], fun _ => !![3, 4]⟩ rfl
    (fun i => by rw [Subsingleton.elim i 0]; simp [rowStd, rowMean, Fin.sum_univ_two]; norm_num) (fun i => by rw [Subsingleton.elim i 0]; simp [rowStd, rowMean, Fin.sum_univ_two]; norm_num)
  exact ⟨a, h1, h3 (0 : Fin 1) (0 : Fin 2) (0 : Fin 1), h3 (0 : Fin 1) (1 : Fin 2) (0 : Fin 1)⟩

/-- Values of three points without derivatives on a fresh object. -/
example : ∃ s', loadSmtData ⟨fun _ _ => none, none⟩ ⟨[3, 1], [0, 1, 2]⟩ ⟨[3], [5, 6, 7]⟩ none = (s', .ok ()) ∧ s'.tp none 0 = some (⟨[3, 1], [0, 1, 2]⟩, ⟨[3, 1], [5, 6, 7]⟩) := by
  obtain ⟨s', h1, h2, -⟩ := C90_load_values_only (G := Unit) (E := Unit) ⟨fun _ _ => none, none⟩ ⟨[3, 1], [0, 1, 2]⟩ ⟨[3], [5, 6, 7]⟩ 3 1 1 (Or.inl rfl) (Or.inr ⟨rfl, rfl⟩)
  exact ⟨s', h1, h2⟩

end SMT.Nn.Life
