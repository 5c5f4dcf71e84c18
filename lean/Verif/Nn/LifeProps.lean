import Verif.Nn.Life
import Verif.Nn.TrainProps

set_option linter.unusedSectionVars false
set_option linter.unusedSimpArgs false
set_option linter.unusedVariables false

/-!
# C90: the life of a GENN surrogate — data and conversion
-/
namespace SMT.Nn.Life
open SMT.Nn SMT.Surrogate Matrix

variable {G E : Type}

theorem mapM_ok_iff {α β ε : Type} (f : α → Except ε β) (l : List α) (ds : List β) : l.mapM f = .ok ds ↔ l.map f = ds.map .ok := by
  induction l generalizing ds with
  | nil =>
    rw [List.mapM_nil]
    cases ds <;> simp [pure, Except.pure]
  | cons a l ih =>
    rw [List.mapM_cons]
    cases h : f a with
    | error e => cases ds <;> simp [h, bind, Except.bind]
    | ok b =>
      cases h' : l.mapM f with
      | error e =>
        have : ∀ ds : List β, l.map f ≠ ds.map .ok := fun ds hd => by rw [← ih, h'] at hd; cases hd
        cases ds with
        | nil => simp [bind, Except.bind, h']
        | cons d ds => simp [bind, Except.bind, h', h, this ds]
      | ok bs =>
        have := ih
        rw [h'] at this
        cases ds with
        | nil => simp [bind, Except.bind, h', pure, Except.pure]
        | cons d ds => simp [bind, Except.bind, h', pure, Except.pure, h, ← this ds]

theorem mapM_first_error {α β ε : Type} (f : α → Except ε β) (l₁ l₂ : List α) (a : α) (e : ε) (h1 : ∀ x ∈ l₁, ∃ y, f x = .ok y) (ha : f a = .error e) :
    (l₁ ++ a :: l₂).mapM f = .error e := by
  induction l₁ with
  | nil => simp [List.mapM_cons, ha, bind, Except.bind]
  | cons x l₁ ih =>
    obtain ⟨y, hy⟩ := h1 x (by simp)
    rw [List.cons_append, List.mapM_cons, hy]
    simp only [bind, Except.bind]
    rw [ih fun z hz => h1 z (by simp [hz])]

/-- What the user must have stored for GENN to accept it: values `x` (one row per point, `nx` columns), `y`, and for every input `k` a table of partials `d k` of the shape of `y`, given at
points `xs k` of the shape of `x`. The points themselves are not compared, only whether a zero occurs among their coordinates. -/
def Complete (s : Store ℝ) (x y : NdArray ℝ) (xs d : ℕ → NdArray ℝ) : Prop :=
  s.tp none 0 = some (x, y) ∧ ∀ k < x.ncols, s.tp none (k + 1) = some (xs k, d k) ∧
    ((xs k).nrows = x.nrows ∧ (xs k).ncols = x.ncols) ∧ ((d k).nrows = x.nrows ∧ (d k).ncols = y.ncols) ∧ ((∀ v ∈ (xs k).data, v ≠ 0) ↔ ∀ v ∈ x.data, v ≠ 0)

/-- The arrays handed to the network: `X[i][e]`, `Y[i][e]` are column `i` of row `e` of the tables; `J[i][j][e] = ∂ y_i / ∂ x_j` at point `e` is column `i` of row `e` of the `j`-th table of
partials. -/
def dataOf (x y : NdArray ℝ) (d : ℕ → NdArray ℝ) : Data :=
  { nx := x.ncols, ny := y.ncols, m := x.nrows
    X := Matrix.of fun i e => x.data.getD (e * x.ncols + i) 0
    Y := Matrix.of fun i e => y.data.getD (e * y.ncols + i) 0
    J := fun j => Matrix.of fun i e => (d j).data.getD (e * (d j).ncols + i) 0 }

theorem allNonzero_iff (a b : NdArray ℝ) : allNonzero a = allNonzero b ↔ ((∀ v ∈ a.data, v ≠ 0) ↔ ∀ v ∈ b.data, v ≠ 0) := by
  unfold allNonzero
  rw [Bool.eq_iff_iff]
  simp

theorem partialTable_ok (s : Store ℝ) (x y : NdArray ℝ) (k : ℕ) (d : NdArray ℝ) : partialTable s x y k = .ok d ↔ ∃ xt, s.tp none (k + 1) = some (xt, d) ∧
    (xt.nrows = x.nrows ∧ xt.ncols = x.ncols) ∧ (d.nrows = x.nrows ∧ d.ncols = y.ncols) ∧ ((∀ v ∈ xt.data, v ≠ 0) ↔ ∀ v ∈ x.data, v ≠ 0) := by
  unfold partialTable
  cases h : s.tp none (k + 1) with
  | none => simp
  | some p =>
    obtain ⟨xt, dy⟩ := p
    simp only [← allNonzero_iff]
    split_ifs with hc
    · constructor
      · intro h; cases h; exact ⟨xt, rfl, ⟨hc.1, hc.2.1⟩, ⟨hc.2.2.1, hc.2.2.2.1⟩, hc.2.2.2.2⟩
      · rintro ⟨xt', h1, -⟩; cases h1; rfl
    · constructor
      · intro h; cases h
      · rintro ⟨xt', h1, h2, h3, h4⟩; cases h1; exact absurd ⟨h2.1, h2.2, h3.1, h3.2, h4⟩ hc

/-- **C90** GENN accepts the stored data exactly if the values and the partials with respect to *every* input are stored with matching shapes, and then the network receives exactly those
numbers. (The last conjunct of `Complete` is what the comparison of points amounts to.) -/
theorem C90_conversion (s : Store ℝ) (P : Data) : smtToGenn s = .ok P ↔ ∃ x y xs d, Complete s x y xs d ∧ P = dataOf x y d := by
  unfold smtToGenn
  constructor
  · intro h
    cases h0 : s.tp none 0 with
    | none => rw [h0] at h; cases h
    | some p =>
      obtain ⟨x, y⟩ := p
      rw [h0] at h
      simp only at h
      cases hm : (List.range x.ncols).mapM (partialTable s x y) with
      | error e => rw [hm] at h; cases h
      | ok ds =>
        rw [hm] at h
        simp only [Except.ok.injEq] at h
        have hl : ds.length = x.ncols := by
          have := congrArg List.length ((mapM_ok_iff _ _ _).1 hm); simpa using this.symm
        have hk : ∀ k < x.ncols, partialTable s x y k = .ok (ds.getD k ⟨[0, 0], []⟩) := fun k hk => by
          have := congrArg (fun l => l[k]?) ((mapM_ok_iff _ _ _).1 hm)
          simp only [List.getElem?_map, List.getElem?_range hk, Option.map_some] at this
          rw [List.getElem?_eq_getElem (by omega), Option.map_some, Option.some.injEq] at this
          rw [this, List.getD_eq_getElem _ _ (by omega)]
        have hk' : ∀ k, ∃ xt, k < x.ncols → s.tp none (k + 1) = some (xt, ds.getD k ⟨[0, 0], []⟩) ∧
            (xt.nrows = x.nrows ∧ xt.ncols = x.ncols) ∧ ((ds.getD k ⟨[0, 0], []⟩).nrows = x.nrows ∧ (ds.getD k ⟨[0, 0], []⟩).ncols = y.ncols) ∧
            ((∀ v ∈ xt.data, v ≠ 0) ↔ ∀ v ∈ x.data, v ≠ 0) := fun k => by
          by_cases hlt : k < x.ncols
          · obtain ⟨xt, h⟩ := (partialTable_ok s x y k _).1 (hk k hlt)
            exact ⟨xt, fun _ => h⟩
          · exact ⟨x, fun h => absurd h hlt⟩
        choose xs hxs using hk'
        exact ⟨x, y, xs, fun k => ds.getD k ⟨[0, 0], []⟩, ⟨h0, hxs⟩, h.symm⟩
  · rintro ⟨x, y, xs, d, ⟨h0, hk⟩, rfl⟩
    rw [h0]
    simp only
    have hm : (List.range x.ncols).mapM (partialTable s x y) = .ok ((List.range x.ncols).map d) := by
      rw [mapM_ok_iff, List.map_map]
      refine List.map_congr_left fun k hkm => ?_
      obtain ⟨h1, h2, h3, h4⟩ := hk k (List.mem_range.1 hkm)
      exact (partialTable_ok s x y k _).2 ⟨xs k, h1, h2, h3, h4⟩
    rw [hm]
    simp only [dataOf, Except.ok.injEq, Data.mk.injEq, heq_eq_eq, true_and]
    refine ⟨rfl, rfl, ?_⟩
    funext j
    ext i e
    simp [entry, List.getD_eq_getElem?_getD]

/-- **C90** GENN cannot be trained without the partials of every input, whatever the option `gamma`: the call raises and the object, its options and the generator are unchanged. (The
code that would switch off the gradient enhancement is not reached.) -/
theorem C90_needs_every_derivative (env : Env G E) (g : Genn) (w : G × E) (x y : NdArray ℝ) (h0 : g.store.tp none 0 = some (x, y)) (k : ℕ) (hk : k < x.ncols)
    (hmiss : g.store.tp none (k + 1) = none) : ∃ e, train env g w = ((g, w), .error (.py e)) := by
  unfold train
  cases h : smtToGenn g.store with
  | error e => exact ⟨e, rfl⟩
  | ok P =>
    obtain ⟨x', y', xs, d, ⟨h1, h2⟩, -⟩ := (C90_conversion _ _).1 h
    rw [h0] at h1
    cases h1
    rw [(h2 k hk).1] at hmiss
    cases hmiss

/-- **C90** In particular after `set_training_values` alone: `KeyError`. -/
theorem C90_values_only (env : Env G E) (g : Genn) (w : G × E) (x y : NdArray ℝ) (h0 : g.store.tp none 0 = some (x, y)) (hx : 0 < x.ncols) (hmiss : g.store.tp none 1 = none) :
    train env g w = ((g, w), .error (.py .key)) := by
  unfold train smtToGenn
  rw [h0]
  simp only
  have : (List.range x.ncols).mapM (partialTable g.store x y) = .error .key := by
    obtain ⟨n, hn⟩ := Nat.exists_eq_succ_of_ne_zero hx.ne'
    rw [hn, List.range_succ_eq_map]
    refine mapM_first_error _ [] _ 0 _ (by simp) ?_
    unfold partialTable
    simp [hmiss]
  rw [this]

/-- **C90** The points at which partials are given are not compared with the training points: partials given at any other points of the same number and dimension without zero coordinates
are used as if they had been given at the training points (also without zero coordinates). -/
theorem C90_points_not_compared (s s' : Store ℝ) (x y : NdArray ℝ) (xs xs' d : ℕ → NdArray ℝ) (h : Complete s x y xs d) (hnz : ∀ v ∈ x.data, v ≠ 0)
    (h0 : s'.tp none 0 = some (x, y)) (h1 : ∀ k < x.ncols, s'.tp none (k + 1) = some (xs' k, d k))
    (h2 : ∀ k < x.ncols, ((xs' k).nrows = x.nrows ∧ (xs' k).ncols = x.ncols) ∧ ∀ v ∈ (xs' k).data, v ≠ 0) : smtToGenn s' = smtToGenn s := by
  rw [(C90_conversion s _).2 ⟨x, y, xs, d, h, rfl⟩]
  refine (C90_conversion s' _).2 ⟨x, y, xs', d, ⟨h0, fun k hk => ⟨h1 k hk, (h2 k hk).1, (h.2 k hk).2.2.1, fun _ => hnz, fun _ => (h2 k hk).2⟩⟩, rfl⟩

/-! ### `load_smt_data` -/

theorem loadDerivs_spec (x d : NdArray ℝ) (m nx : ℕ) (hx : x.shape = [m, nx]) : ∀ (is : List ℕ) (s : Store ℝ),
    ∃ s', loadDerivs s x d m nx is = (s', .ok ()) ∧ (∀ g k, (∀ i ∈ is, (g, k) ≠ (none, (i : ℤ) + 1)) → s'.tp g k = s.tp g k) ∧
      (∀ i ∈ is, s'.tp none ((i : ℤ) + 1) = some (x, ⟨[m, 1], (List.range m).map fun e => entry d e i⟩)) ∧ s'.dims = s.dims := by
  intro is
  induction is with
  | nil => intro s; exact ⟨s, rfl, fun _ _ _ => rfl, by simp, rfl⟩
  | cons i is ih =>
    intro s
    have hset : setDerivs true s (.nd x) (.nd ⟨[m, 1], (List.range m).map fun e => entry d e i⟩) (.int i) none
        = (s.put none (i + 1) x ⟨[m, 1], (List.range m).map fun e => entry d e i⟩, .ok ()) := by
      obtain ⟨sh, da⟩ := x
      simp only at hx
      subst hx
      simp [setDerivs, ensure2d, NdArray.nrows]
    obtain ⟨s', e1, e2, e3, e4⟩ := ih (s.put none (i + 1) x ⟨[m, 1], (List.range m).map fun e => entry d e i⟩)
    refine ⟨s', ?_, ?_, ?_, ?_⟩
    · rw [loadDerivs]
      simp only [hset]
      exact e1
    · intro g k hgk
      rw [e2 g k fun j hj => hgk j (by simp [hj])]
      have := hgk i (by simp)
      simp only [Store.put]
      rw [if_neg fun h => this (by rw [h.1, h.2])]
    · intro j hj
      by_cases hjs : j ∈ is
      · exact e3 j hjs
      · have hji : j = i := by simpa [hjs] using hj
        subst hji
        rw [e2 none _ fun l hl h => hjs (by
          have : (j : ℤ) + 1 = l + 1 := by simpa using h
          have : j = l := by omega
          exact this ▸ hl)]
        simp [Store.put]
    · rw [e4]; rfl

/-- Shape of the inputs accepted by `load_smt_data`: a vector counts as one input. -/
def TwoD (a : NdArray ℝ) (m n : ℕ) : Prop := a.shape = [m, n] ∨ (a.shape = [m] ∧ n = 1)

theorem loadSmtData_spec (s : Store ℝ) (xt yt : NdArray ℝ) (dyt : NdArray ℝ) (m nx ny : ℕ) (hx : TwoD xt m nx) (hy : TwoD yt m ny) (hd : dyt.shape.prod = m * nx) :
    ∃ s', loadSmtData s xt yt (some dyt) = (s', .ok ()) ∧ s'.tp none 0 = some (⟨[m, nx], xt.data⟩, ⟨[m, ny], yt.data⟩) ∧
      (∀ i < nx, s'.tp none ((i : ℤ) + 1) = some (⟨[m, nx], xt.data⟩, ⟨[m, 1], (List.range m).map fun e => dyt.data.getD (e * nx + i) 0⟩)) ∧
      (∀ g k, (g = none → k < 0 ∨ (nx : ℤ) < k) → s'.tp g k = s.tp g k) ∧ s'.dims = some (m, nx, ny) := by
  have e1 : dimsX xt.shape = some (m, nx) := by
    rcases hx with h | ⟨h, rfl⟩ <;> rw [h] <;> rfl
  have e2 : dimsY yt.shape = some ny := by
    rcases hy with h | ⟨h, rfl⟩ <;> rw [h] <;> rfl
  have e3 : yt.shape.prod = m * ny := by
    rcases hy with h | ⟨h, rfl⟩ <;> rw [h] <;> simp
  obtain ⟨s', f1, f2, f3, f4⟩ := loadDerivs_spec ⟨[m, nx], xt.data⟩ ⟨[m, nx], dyt.data⟩ m nx rfl (List.range nx)
    ((({ s with dims := some (m, nx, ny) } : Store ℝ)).put none 0 ⟨[m, nx], xt.data⟩ ⟨[m, ny], yt.data⟩)
  refine ⟨s', ?_, ?_, ?_, ?_, ?_⟩
  · unfold loadSmtData
    rw [e1]
    simp only
    rw [e2]
    simp only [e3, ne_eq, not_true_eq_false, if_false, hd, setValues, ensure2d, NdArray.nrows, NdArray.ncols, List.headD_cons, List.drop_succ_cons, List.drop_zero]
    exact f1
  · rw [f2 none 0 fun i hi h => by
      have : (0 : ℤ) = i + 1 := by simpa using h
      omega]
    simp [Store.put]
  · intro i hi
    rw [f3 i (List.mem_range.2 hi)]
    rfl
  · intro g k hgk
    rw [f2 g k fun i hi h => by
      have h1 : g = none := congrArg Prod.fst h
      have h2 : k = i + 1 := congrArg Prod.snd h
      have := List.mem_range.1 hi
      rcases hgk h1 with h3 | h3 <;> omega]
    simp only [Store.put]
    rw [if_neg]
    rintro ⟨h1, h2⟩
    rcases hgk h1 with h3 | h3 <;> omega
  · rw [f4]; rfl

/-- **C90** Loading data with one output through `load_smt_data`: the network receives exactly the user's inputs, outputs and gradients, `J[0][j][e] = dyt_dxt[e][j]`. -/
theorem C90_load_single_output (s : Store ℝ) (xt yt dyt : NdArray ℝ) (m nx : ℕ) (hx : TwoD xt m nx) (hy : TwoD yt m 1) (hd : dyt.shape.prod = m * nx) :
    ∃ s', loadSmtData s xt yt (some dyt) = (s', .ok ()) ∧ smtToGenn s' = .ok
      { nx := nx, ny := 1, m := m, X := Matrix.of fun i e => xt.data.getD (e * nx + i) 0, Y := Matrix.of fun _ e => yt.data.getD e 0
        J := fun j => Matrix.of fun _ e => dyt.data.getD (e * nx + j) 0 } := by
  obtain ⟨s', h1, h2, h3, -, -⟩ := loadSmtData_spec s xt yt dyt m nx 1 hx hy hd
  refine ⟨s', h1, (C90_conversion _ _).2 ⟨_, _, fun _ => ⟨[m, nx], xt.data⟩, fun i => ⟨[m, 1], (List.range m).map fun e => dyt.data.getD (e * nx + i) 0⟩, ⟨h2, fun k hk => ⟨h3 k hk,
    ⟨rfl, rfl⟩, ⟨rfl, rfl⟩, Iff.rfl⟩⟩, ?_⟩⟩
  have hY : (Matrix.of fun (_ : Fin 1) (e : Fin m) => yt.data.getD e 0) = Matrix.of fun (i : Fin 1) (e : Fin m) => yt.data.getD (e * 1 + i) 0 := by
    ext i e; simp [Subsingleton.elim i 0]
  have hJ : (fun j : Fin nx => (Matrix.of fun (_ : Fin 1) (e : Fin m) => dyt.data.getD (e * nx + j) 0))
      = fun j : Fin nx => (Matrix.of fun (i : Fin 1) (e : Fin m) => ((List.range m).map fun e => dyt.data.getD (e * nx + j) 0).getD (e * 1 + i) 0) := by
    funext j
    ext i e
    simp [Subsingleton.elim i 0]
  rw [hY, hJ]
  rfl

/-- **C90** With several outputs `load_smt_data` can only store one column of partials per input, and training then raises `AssertionError`: gradient-enhanced training with several outputs is
only possible by setting the partials by hand. -/
theorem C90_load_several_outputs (env : Env G E) (g : Genn) (w : G × E) (xt yt dyt : NdArray ℝ) (m nx ny : ℕ) (hx : TwoD xt m nx) (hy : TwoD yt m ny) (hd : dyt.shape.prod = m * nx)
    (hnx : 0 < nx) (hny : ny ≠ 1) : (loadSmtData g.store xt yt (some dyt)).2 = .ok () ∧
      let g' := { g with store := (loadSmtData g.store xt yt (some dyt)).1 }
      train env g' w = ((g', w), .error (.py .assertion)) := by
  obtain ⟨s', h1, h2, h3, -, -⟩ := loadSmtData_spec g.store xt yt dyt m nx ny hx hy hd
  rw [h1]
  refine ⟨rfl, ?_⟩
  intro g'
  unfold train smtToGenn
  have h2' : g'.store.tp none 0 = some (⟨[m, nx], xt.data⟩, ⟨[m, ny], yt.data⟩) := h2
  rw [h2']
  simp only
  have : (List.range (NdArray.ncols ⟨[m, nx], xt.data⟩)).mapM (partialTable g'.store ⟨[m, nx], xt.data⟩ ⟨[m, ny], yt.data⟩) = .error .assertion := by
    show (List.range nx).mapM _ = _
    obtain ⟨n, hn⟩ := Nat.exists_eq_succ_of_ne_zero hnx.ne'
    rw [hn, List.range_succ_eq_map]
    refine mapM_first_error _ [] _ 0 _ (by simp) ?_
    unfold partialTable
    have h3' : g'.store.tp none (((0 : ℕ) : ℤ) + 1) = _ := h3 0 hnx
    rw [h3', ← hn]
    simp only [NdArray.ncols, NdArray.nrows, List.headD_cons, List.drop_succ_cons, List.drop_zero]
    rw [if_neg]
    rintro ⟨-, -, -, h, -⟩
    exact hny h.symm
  rw [this]

/-- **C90** A failing call is not atomic: with gradients of the wrong size, `load_smt_data` raises `ValueError` after the values have been replaced, and the partials of the earlier data
remain. -/
theorem C90_load_not_atomic (s : Store ℝ) (xt yt dyt : NdArray ℝ) (m nx ny : ℕ) (hx : TwoD xt m nx) (hy : TwoD yt m ny) (hd : dyt.shape.prod ≠ m * nx) :
    ∃ s', loadSmtData s xt yt (some dyt) = (s', .error .value) ∧ s'.tp none 0 = some (⟨[m, nx], xt.data⟩, ⟨[m, ny], yt.data⟩) ∧ ∀ k, k ≠ 0 → s'.tp none k = s.tp none k := by
  have e1 : dimsX xt.shape = some (m, nx) := by
    rcases hx with h | ⟨h, rfl⟩ <;> rw [h] <;> rfl
  have e2 : dimsY yt.shape = some ny := by
    rcases hy with h | ⟨h, rfl⟩ <;> rw [h] <;> rfl
  have e3 : yt.shape.prod = m * ny := by
    rcases hy with h | ⟨h, rfl⟩ <;> rw [h] <;> simp
  refine ⟨(({ s with dims := some (m, nx, ny) } : Store ℝ)).put none 0 ⟨[m, nx], xt.data⟩ ⟨[m, ny], yt.data⟩, ?_, ?_, ?_⟩
  · unfold loadSmtData
    rw [e1]
    simp only
    rw [e2]
    simp [e3, hd, setValues, ensure2d, NdArray.nrows, NdArray.ncols]
  · simp [Store.put]
  · intro k hk
    simp [Store.put, hk]

/-! ### `goodness_of_fit` -/

/-- **C90** `goodness_of_fit` replaces the training data by the validation data for good, whatever the outcome of the rest of the call: afterwards the object holds the validation data, and the
next `train()` fits them. Model, options and flag are unchanged. -/
theorem C90_goodness_replaces_data (g : Genn) (xv yv dyv : NdArray ℝ) (m nx : ℕ) (hx : TwoD xv m nx) (hy : TwoD yv m 1) (hd : dyv.shape.prod = m * nx) :
    let g' := (goodness g xv yv (some dyv)).1
    (g'.model = g.model ∧ g'.opts = g.opts ∧ g'.isTrained = g.isTrained) ∧
    g'.store.tp none 0 = some (⟨[m, nx], xv.data⟩, ⟨[m, 1], yv.data⟩) ∧ g'.store.dims = some (m, nx, 1) ∧
    smtToGenn g'.store = .ok
      { nx := nx, ny := 1, m := m, X := Matrix.of fun i e => xv.data.getD (e * nx + i) 0, Y := Matrix.of fun _ e => yv.data.getD e 0
        J := fun j => Matrix.of fun _ e => dyv.data.getD (e * nx + j) 0 } := by
  obtain ⟨s', h1, h2, h3, h4, h5⟩ := loadSmtData_spec g.store xv yv dyv m nx 1 hx hy hd
  obtain ⟨s'', h1', h6⟩ := C90_load_single_output g.store xv yv dyv m nx hx hy hd
  have hs : s'' = s' := by rw [h1] at h1'; exact (congrArg Prod.fst h1').symm
  subst hs
  have hg : (goodness g xv yv (some dyv)).1 = { g with store := s'' } := by
    unfold goodness
    rw [h1]
    simp only
    rw [h6]
  intro g'
  have hg' : g' = { g with store := s'' } := hg
  rw [hg']
  exact ⟨⟨rfl, rfl, rfl⟩, h2, h5, h6⟩

/-- **C90** Calling `goodness_of_fit` on an untrained object raises `AssertionError`, after replacing the training data. -/
theorem C90_goodness_untrained (g : Genn) (hm : g.model = none) (xv yv dyv : NdArray ℝ) (m nx : ℕ) (hx : TwoD xv m nx) (hy : TwoD yv m 1) (hd : dyv.shape.prod = m * nx) :
    (goodness g xv yv (some dyv)).2 = .error .assertion := by
  obtain ⟨s', h1, h6⟩ := C90_load_single_output g.store xv yv dyv m nx hx hy hd
  unfold goodness
  rw [h1]
  simp only
  rw [h6]
  simp [modelGoodness, hm]

end SMT.Nn.Life
