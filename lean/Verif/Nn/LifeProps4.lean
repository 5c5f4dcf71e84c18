import Verif.Nn.LifeProps3
import Verif.Nn.Props

set_option linter.unusedSectionVars false
set_option linter.unusedSimpArgs false
set_option linter.unusedVariables false

/-!
# C90: the life of a GENN surrogate — outcome of `goodness_of_fit`, derivatives after training, concrete cases
-/
namespace SMT.Nn.Life
open SMT.Nn SMT.Surrogate Matrix

variable {G E : Type}

theorem gradientArr_one_ok {nx m : ℕ} (s : Scale nx 1) (net : Net nx 1) (X : Mat nx m) (h : m ≠ 1 ∨ nx = 1) : ∃ a, gradientArr s net X = .ok a := by
  by_cases hm1 : m = 1
  · have hn : nx = 1 := by tauto
    subst hm1; subst hn
    simp [gradientArr, jlArr, Arr.bop, bshape, colArr, Arr.reshape]
  · by_cases hn1 : nx = 1
    · subst hn1
      simp [gradientArr, jlArr, hm1, Arr.bop, bshape, colArr, Arr.reshape]
    · simp [gradientArr, jlArr, hm1, hn1, Arr.bop, bshape, colArr, Arr.reshape]

theorem gradientArr_one_err {nx : ℕ} (s : Scale nx 1) (net : Net nx 1) (X : Mat nx 1) (h : 2 ≤ nx) : gradientArr s net X = .error .valueError := by
  have := C66_single_point s net X h 0 0 0
  unfold predictDeriv at this
  cases hg : gradientArr s net X with
  | ok a => rw [hg] at this; cases this
  | error e => rw [hg] at this; cases this; rfl

theorem trainingJ_one_ok {nx : ℕ} (s : Scale nx 1) (P : Data) (hy : P.ny = 1) (hx : P.nx = nx) : ∃ a, trainingJ s P = some a := by
  by_cases hn1 : nx = 1
  · by_cases hm1 : P.m = 1
    · simp [trainingJ, hy, hx, hn1, hm1, Arr.bop, bshape, colArr]
    · simp [trainingJ, hy, hx, hn1, hm1, Arr.bop, bshape, colArr]
  · by_cases hm1 : P.m = 1
    · simp [trainingJ, hy, hx, hn1, hm1, Arr.bop, bshape, colArr]
    · simp [trainingJ, hy, hx, hn1, hm1, Arr.bop, bshape, colArr]

/-- **C90** Outcome of `goodness_of_fit` for a model with one output trained on at least two points: it succeeds for two or more validation points (or one input); with a single validation point
and two or more inputs it raises `ValueError`. -/
theorem C90_goodness_outcome (g : Genn) (nx : ℕ) (net : Net nx 1) (P0 : Data) (sc : Scale nx 1) (nan : Bool) (hist : List (List (List ℝ)))
    (hmod : g.model = some ⟨nx, 1, net, some (P0, sc), nan, hist⟩) (hP0 : P0.nx = nx ∧ P0.ny = 1 ∧ P0.m ≠ 1)
    (xv yv dyv : NdArray ℝ) (m : ℕ) (hx : TwoD xv m nx) (hy : TwoD yv m 1) (hd : dyv.shape.prod = m * nx) :
    ((m ≠ 1 ∨ nx = 1) → (goodness g xv yv (some dyv)).2 = .ok ()) ∧ (m = 1 → 2 ≤ nx → (goodness g xv yv (some dyv)).2 = .error .value) := by
  obtain ⟨s', h1, h6⟩ := C90_load_single_output g.store xv yv dyv m nx hx hy hd
  obtain ⟨e1, e2, e3⟩ := hP0
  have hg : (goodness g xv yv (some dyv)).2 = modelGoodness g.model { nx := nx, ny := 1, m := m, X := Matrix.of fun i e => xv.data.getD (e * nx + i) 0, Y := Matrix.of fun _ e => yv.data.getD e 0, J := fun j => Matrix.of fun _ e => dyv.data.getD (e * nx + j) 0 } := by
    unfold goodness
    rw [h1]
    simp only
    rw [h6]
  rw [hg, hmod]
  unfold modelGoodness
  simp only [ne_eq, not_true_eq_false, or_self, if_false]
  refine ⟨fun h => ?_, fun hm hn => ?_⟩
  · obtain ⟨a, ha⟩ := gradientArr_one_ok sc net (Matrix.of fun (i : Fin nx) (e : Fin m) => readMat (Matrix.of fun (i : Fin nx) (e : Fin m) => xv.data.getD (e * nx + i) 0) i e) h
    rw [ha]
    simp only
    obtain ⟨b, hb⟩ := trainingJ_one_ok sc P0 e2 e1
    rw [hb]
    simp only
    obtain ⟨c, hc⟩ := gradientArr_one_ok sc net (Matrix.of fun (i : Fin nx) (e : Fin P0.m) => readMat P0.X i e * sc.sdX i + sc.muX i) (Or.inl e3)
    rw [hc]
  · subst hm
    rw [gradientArr_one_err sc net _ hn]

/-- **C90** After a successful training on data with one output and no constant column, `predict_derivatives` at two or more points is the exact derivative of `predict_values` (the
network of `C66` with the scale factors of the training data). -/
theorem C90_derivative_after_training (env : Env G E) (g : Genn) (w : G × E) (P : Data) (h : Ready g P) (hy : P.ny = 1) (hx : ∀ i, rowStd P.X i ≠ 0)
    {q : ℕ} (hq : 2 ≤ q) (Z : Mat P.nx q) (j : Fin P.nx) (e : Fin q) (i : Fin P.ny) : ∃ net nan hist dv,
      (train env g w).1.1.model = some ⟨P.nx, P.ny, net, some (normData P, scaleOf P), nan, hist⟩ ∧ predictDeriv (scaleOf P) net Z j e i = .ok dv ∧
      HasDerivAt (fun t => evaluate (scaleOf P) net (Matrix.of fun a b => if a = j ∧ b = e then t else Z a b) i e) dv (Z j e) := by
  classical
  rw [train_eq env g w P h]
  set r := trainEpochs env (optsFor g.opts P) (normExamples P) (optsFor g.opts P).epochs.toNat (initNet env.rng P.nx (hiddenDims (optsFor g.opts P)) P.ny w.1).1 []
    ((initNet env.rng P.nx (hiddenDims (optsFor g.opts P)) P.ny w.1).2, w.2)
  have key : ∀ (ny : ℕ) (hny : ny = 1) (sc : Scale P.nx ny) (net : Net P.nx ny) (i : Fin ny), sc.sdX j ≠ 0 → ∃ dv, predictDeriv sc net Z j e i = .ok dv ∧
      HasDerivAt (fun t => evaluate sc net (Matrix.of fun a b => if a = j ∧ b = e then t else Z a b) i e) dv (Z j e) := by
    rintro ny rfl sc net i hs
    have hi : i = 0 := Subsingleton.elim _ _
    subst hi
    obtain ⟨d, h1, h2⟩ := C66_predict_derivatives sc net Z hq j e hs
    exact ⟨d, h1, h2⟩
  obtain ⟨dv, h1, h2⟩ := key P.ny hy (scaleOf P) r.1.1 i (hx j)
  exact ⟨r.1.1, decide (degenerate P), r.1.2.1, dv, rfl, h1, h2⟩

/-! ### Concrete cases -/

/-- A generator of ones and identity permutations that rejects negative seeds. -/
noncomputable def exRng : Rng ℕ Unit :=
  { ofSeed := fun s => if 0 ≤ s then some s.toNat else none, fresh := fun _ => (7, ()), randn := fun g _ _ => (fun _ _ => (g : ℝ) + 1, g + 1), perm := fun g n => (List.range n, g + 1) }

noncomputable def exEnv : Env ℕ Unit := ⟨exRng, 1 / 1000000, 6⟩

/-- Three points of `x ↦ x²` with derivatives. -/
noncomputable def exStore : Store ℝ := (loadSmtData Store.init ⟨[3], [1, 2, 4]⟩ ⟨[3], [1, 4, 16]⟩ (some ⟨[3], [2, 4, 8]⟩)).1

/-- The default options of GENN with a seed. -/
noncomputable def exGenn : Genn := ⟨exStore, ⟨0.5, 0.9, 0.99, 0.1, 1, 2, 2, 64, 10, 100, some 3⟩, none, false⟩

noncomputable def exP : Data := { nx := 1, ny := 1, m := 3, X := Matrix.of fun i e => [(1 : ℝ), 2, 4].getD (e * 1 + i) 0, Y := Matrix.of fun _ e => [(1 : ℝ), 4, 16].getD e 0
                                  J := fun j => Matrix.of fun _ e => [(2 : ℝ), 4, 8].getD (e * 1 + j) 0 }

theorem exReady : Ready exGenn exP := by
  obtain ⟨s', h1, h2⟩ := C90_load_single_output (Store.init : Store ℝ) ⟨[3], [1, 2, 4]⟩ ⟨[3], [1, 4, 16]⟩ ⟨[3], [2, 4, 8]⟩ 3 1 (Or.inr ⟨rfl, rfl⟩) (Or.inr ⟨rfl, rfl⟩) rfl
  have hs : exGenn.store = s' := congrArg Prod.fst h1
  exact ⟨by rw [hs]; exact h2, Nat.one_pos, by decide, fun _ => by decide⟩

theorem exEnough : Enough exEnv exGenn.opts.alpha := fun f upd o => C68_six_trials f upd _ (by show (0.5 : ℝ) ≤ 4000; norm_num) o

theorem exDraws : Draws exEnv.rng := fun _ _ => List.Perm.refl _

theorem exSeed : SeedOk exEnv.rng exGenn.opts.seed := fun s hs => by
  have : s = 3 := by cases hs; rfl
  subst this; rfl

instance (m : ℕ) (b : ℤ) : Decidable (BatchOk m b) := by unfold BatchOk; split <;> infer_instance

/-- The default batch size accepts 3 points and refuses 65; batch size 1 is refused; `-1` does no training. -/
example : BatchOk 3 64 ∧ ¬BatchOk 65 64 ∧ ¬BatchOk 3 1 ∧ BatchOk 3 0 ∧ BatchOk 3 (-1) ∧ ¬BatchOk 3 (-2) ∧ ¬BatchOk 1 64 := by
  decide

example : nBatches 130 64 = 3 ∧ nBatches 128 64 = 2 ∧ nBatches 3 64 = 1 ∧ nBatches 3 0 = 1 ∧ nBatches 3 (-1) = 0 := by decide

/-- The hypotheses of the training theorems are met by the defaults on three points: training succeeds and leaves ten epochs of one batch of 101 costs. -/
example (w : ℕ × Unit) : (train exEnv exGenn w).2 = .ok () ∧ ∃ t, (train exEnv exGenn w).1.1.model = some t ∧ t.history.length = 10 ∧ ∀ ep ∈ t.history, ep.length = 1 ∧ ∀ c ∈ ep, c.length = 101 := by
  have hb : BatchOk exP.m exGenn.opts.batch := by show BatchOk 3 64; decide
  refine ⟨(C90_succeeds_iff exEnv exGenn w exP exReady exEnough exDraws exSeed).1 (Or.inr hb), ?_⟩
  obtain ⟨t, h1, h2, h3⟩ := C90_history exEnv exGenn w exP exReady exEnough exDraws exSeed hb
  refine ⟨t, h1, h2, fun ep hep => ⟨(h3 ep hep).1.trans (by show nBatches 3 64 = 1; decide), fun c hc => ?_⟩⟩
  exact ((h3 ep hep).2 c hc).2.2 (by show (100 : ℤ) ≤ 103; norm_num)

/-- Its architecture: two hidden layers of two `tanh` nodes, a linear output. -/
example : archOf 1 (List.replicate 2 2) 1 = [(1, 2, .tanh), (2, 2, .tanh), (2, 1, .linear)] := rfl

/-- The second and third trainings agree; the first differs from the second in general: here the initial weights of the first are `w.1 + 1`, those of the second always 5. -/
example (w : ℕ × Unit) : let r1 := train exEnv exGenn w; let r2 := train exEnv r1.1.1 r1.1.2; (train exEnv r2.1.1 r2.1.2).1.1.model = r2.1.1.model ∧ r1.1.2.1 = 4 := by
  intro r1 r2
  have hb : BatchOk exP.m exGenn.opts.batch := by show BatchOk 3 64; decide
  have ok1 : r1.2 = .ok () := (C90_succeeds_iff exEnv exGenn w exP exReady exEnough exDraws exSeed).1 (Or.inr hb)
  obtain ⟨hr, ho⟩ := ready_after exEnv exGenn w exP exReady
  have ho' : r1.1.1.opts = exGenn.opts := by
    show (train exEnv exGenn w).1.1.opts = _
    rw [ho, optsFor, if_neg (by decide)]
  have ok2 : r2.2 = .ok () := (C90_succeeds_iff exEnv r1.1.1 r1.1.2 exP hr (by rw [ho']; exact exEnough) exDraws (by rw [ho']; exact exSeed)).1 (Or.inr (by rw [ho']; exact hb))
  have := C90_seed_repeatable exEnv exGenn w exP exReady 3 3 rfl rfl (by decide) ok1 ok2
  exact ⟨this.1.symm, by rw [show r1.1.2 = _ from this.2.2]; rfl⟩

/-- `C90_values_only` on a concrete object: values without derivatives. -/
example (w : ℕ × Unit) : (train exEnv { exGenn with store := (loadSmtData Store.init ⟨[3], [1, 2, 4]⟩ ⟨[3], [1, 4, 16]⟩ none).1 } w).2 = .error (.py .key) := by
  rw [C90_values_only exEnv _ w ⟨[3, 1], [1, 2, 4]⟩ ⟨[3, 1], [1, 4, 16]⟩ (by
    simp [loadSmtData, dimsX, dimsY, setValues, ensure2d, Store.init, Store.put, NdArray.nrows]) (by decide) (by
    simp [loadSmtData, dimsX, dimsY, setValues, ensure2d, Store.init, Store.put, NdArray.nrows])]

/-- `C90_goodness_replaces_data` on a concrete object: after evaluating the fit on two other points the object holds these two points. -/
example : (goodness exGenn ⟨[2, 1], [5, 6]⟩ ⟨[2], [25, 36]⟩ (some ⟨[2, 1], [10, 12]⟩)).1.store.tp none 0 = some (⟨[2, 1], [5, 6]⟩, ⟨[2, 1], [25, 36]⟩) :=
  (C90_goodness_replaces_data exGenn _ _ _ 2 1 (Or.inl rfl) (Or.inr ⟨rfl, rfl⟩) rfl).2.1

/-- `C90_units`: metres to millimetres for the input, an affine change for the output. -/
example : smtToGenn (loadSmtData Store.init ⟨[3], [1000, 2000, 4000]⟩ ⟨[3], [3, 9, 33]⟩ (some ⟨[3], [4 / 1000, 8 / 1000, 16 / 1000]⟩)).1
    = .ok (rescale exP (fun _ => 1000) (fun _ => 0) (fun _ => 2) (fun _ => 1)) := by
  obtain ⟨s', h1, h2⟩ := C90_load_single_output (Store.init : Store ℝ) ⟨[3], [1000, 2000, 4000]⟩ ⟨[3], [3, 9, 33]⟩ ⟨[3], [4 / 1000, 8 / 1000, 16 / 1000]⟩ 3 1 (Or.inr ⟨rfl, rfl⟩)
    (Or.inr ⟨rfl, rfl⟩) rfl
  rw [h1, h2]
  have hX : (Matrix.of fun (i : Fin 1) (e : Fin 3) => [(1000 : ℝ), 2000, 4000].getD (e * 1 + i) 0) = Matrix.of fun (i : Fin 1) (e : Fin 3) => 1000 * exP.X i e + 0 := by
    ext i e
    fin_cases i; fin_cases e <;> simp [exP] <;> norm_num
  have hY : (Matrix.of fun (_ : Fin 1) (e : Fin 3) => [(3 : ℝ), 9, 33].getD e 0) = Matrix.of fun (i : Fin 1) (e : Fin 3) => 2 * exP.Y i e + 1 := by
    ext i e
    fin_cases i; fin_cases e <;> simp [exP] <;> norm_num
  have hJ : (fun j : Fin 1 => (Matrix.of fun (_ : Fin 1) (e : Fin 3) => [(4 / 1000 : ℝ), 8 / 1000, 16 / 1000].getD (e * 1 + j) 0))
      = fun j : Fin 1 => Matrix.of fun (i : Fin 1) (e : Fin 3) => 2 / 1000 * exP.J j i e := by
    funext j
    ext i e
    fin_cases j; fin_cases i; fin_cases e <;> simp [exP] <;> norm_num
  show Except.ok (⟨1, 1, 3, _, _, _⟩ : Data) = _
  rw [hX, hY, hJ]
  rfl

end SMT.Nn.Life
