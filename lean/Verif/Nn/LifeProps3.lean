import Verif.Nn.LifeProps2

set_option linter.unusedSectionVars false
set_option linter.unusedSimpArgs false
set_option linter.unusedVariables false

/-!
# C90: the life of a GENN surrogate — seeds, units, prediction
-/
namespace SMT.Nn.Life
open SMT.Nn SMT.Surrogate Matrix

variable {G E : Type}

/-! ### Seeds -/

/-- `n` epochs, each over the same list of mini-batches. -/
noncomputable def epochsOn (env : Env G E) (o : Opts) {nx ny : ℕ} (bs : List (Batch nx ny)) : ℕ → Net nx ny → List (List (List ℝ)) → Net nx ny × List (List (List ℝ))
  | 0, net, h => (net, h)
  | n + 1, net, h => epochsOn env o bs n (trainBatches env o bs net []).1.1 (h ++ [(trainBatches env o bs net []).1.2])

theorem trainEpochs_seeded (env : Env G E) (o : Opts) {nx ny : ℕ} (ex : List (Ex nx ny)) (s : ℤ) (g0 : G) (hs : o.seed = some s) (hg : env.rng.ofSeed s = some g0) :
    ∀ (n : ℕ) (net : Net nx ny) (h : List (List (List ℝ))) (w : G × E), (trainEpochs env o ex n net h w).2 = .ok () → 0 < n →
      (trainEpochs env o ex n net h w).1.2.2 = ((env.rng.perm g0 ex.length).2, w.2) ∧
      ∃ bs, batchesOf (env.rng.perm g0 ex.length).1 ex o.batch = .ok bs ∧
        ((trainEpochs env o ex n net h w).1.1, (trainEpochs env o ex n net h w).1.2.1) = epochsOn env o bs n net h := by
  intro n
  induction n with
  | zero => intro net h w _ h0; omega
  | succ n ih =>
    intro net h w hok _
    have hre : reseed env.rng o.seed w = some (g0, w.2) := by rw [hs]; simp [reseed, hg]
    rw [trainEpochs, hre] at hok ⊢
    simp only at hok ⊢
    cases hb : batchesOf (env.rng.perm g0 ex.length).1 ex o.batch with
    | error e => rw [hb] at hok; cases hok
    | ok bs =>
      rw [hb] at hok
      simp only at hok ⊢
      rcases ht : trainBatches env o bs net [] with ⟨⟨net', hb'⟩, e | u⟩
      · rw [ht] at hok; cases hok
      · rw [ht] at hok
        simp only at hok ⊢
        rcases Nat.eq_zero_or_pos n with rfl | hn
        · refine ⟨rfl, bs, rfl, ?_⟩
          simp [trainEpochs, epochsOn, ht]
        · obtain ⟨i1, bs', i2, i3⟩ := ih net' (h ++ [hb']) ((env.rng.perm g0 ex.length).2, w.2) hok hn
          rw [hb] at i2
          cases i2
          refine ⟨i1, bs, rfl, ?_⟩
          rw [i3, epochsOn, ht]

/-- **C90** With a seed every epoch visits the *same* mini-batches in the same order: the generator is re-seeded at each epoch. -/
theorem C90_seed_same_batches (env : Env G E) (g : Genn) (w : G × E) (P : Data) (h : Ready g P) (s : ℤ) (g0 : G) (hs : g.opts.seed = some s) (hg : env.rng.ofSeed s = some g0)
    (hok : (train env g w).2 = .ok ()) (hep : 0 < g.opts.epochs) :
    ∃ bs, batchesOf (env.rng.perm g0 P.m).1 (normExamples P) g.opts.batch = .ok bs ∧ ∃ nan,
      let r := epochsOn env (optsFor g.opts P) bs g.opts.epochs.toNat (initNet env.rng P.nx (List.replicate g.opts.deep.toNat g.opts.wide.toNat) P.ny w.1).1 []
      (train env g w).1.1.model = some ⟨P.nx, P.ny, r.1, some (normData P, scaleOf P), nan, r.2⟩ := by
  classical
  obtain ⟨o1, o2, o3, o4, o5, o6, o7⟩ := optsFor_eq g.opts P
  have hx : (normExamples P).length = P.m := by simp [normExamples]
  rw [train_eq env g w P h] at hok ⊢
  simp only at hok
  obtain ⟨-, bs, e1, e2⟩ := trainEpochs_seeded env (optsFor g.opts P) (normExamples P) s g0 (o4.trans hs) hg _ _ _ _ hok (by rw [o3]; omega)
  rw [hx, o1] at e1
  refine ⟨bs, e1, decide (degenerate P), ?_⟩
  simp only
  rw [hiddenDims, o6, o7, o3] at e2
  rw [← e2, hiddenDims, o6, o7, o3]

/-- **C90** The option `seed` does not cover the initial network: it is drawn from NumPy's global generator before the generator is seeded. With `num_iterations = 0` the trained network is that draw,
whatever the seed. -/
theorem C90_seed_not_initial (env : Env G E) (g : Genn) (w : G × E) (P : Data) (h : Ready g P) (hi : g.opts.iters ≤ 0) :
    ∃ t, (train env g w).1.1.model = some t ∧ (⟨t.nx, t.ny, t.net⟩ : Σ (a b : ℕ), Net a b)
      = ⟨P.nx, P.ny, (initNet env.rng P.nx (List.replicate g.opts.deep.toNat g.opts.wide.toNat) P.ny w.1).1⟩ := by
  classical
  obtain ⟨o1, o2, o3, o4, o5, o6, o7⟩ := optsFor_eq g.opts P
  have hi' : (optsFor g.opts P).iters.toNat = 0 := by rw [o2]; omega
  have k1 : ∀ (b : Batch P.nx P.ny) (net : Net P.nx P.ny) r, trainBatch env (optsFor g.opts P) net b = .ok r → r.1 = net := by
    intro b net r hr
    unfold trainBatch at hr
    simp only at hr
    split at hr
    · cases hr
    · rw [hi'] at hr
      simp only [optimize, optLoop, Except.ok.injEq] at hr
      rw [← hr]
      exact setVec_toVec net
  have k2 : ∀ (bs : List (Batch P.nx P.ny)) (net : Net P.nx P.ny) hh, (trainBatches env (optsFor g.opts P) bs net hh).1.1 = net := by
    intro bs
    induction bs with
    | nil => intro net hh; rfl
    | cons b bs ih =>
      intro net hh
      rw [trainBatches]
      cases hr : trainBatch env (optsFor g.opts P) net b with
      | error e => rfl
      | ok r =>
        simp only
        rw [ih, k1 b net r hr]
  have k3 : ∀ (n : ℕ) (net : Net P.nx P.ny) hh (w : G × E), (trainEpochs env (optsFor g.opts P) (normExamples P) n net hh w).1.1 = net := by
    intro n
    induction n with
    | zero => intro net hh w; rfl
    | succ n ih =>
      intro net hh w
      rw [trainEpochs]
      cases reseed env.rng (optsFor g.opts P).seed w with
      | none => rfl
      | some w1 =>
        simp only
        cases batchesOf (env.rng.perm w1.1 (normExamples P).length).1 (normExamples P) (optsFor g.opts P).batch with
        | error e => rfl
        | ok bs =>
          simp only
          have := k2 bs net []
          rcases ht : trainBatches env (optsFor g.opts P) bs net [] with ⟨⟨net', hb'⟩, e | u⟩
          · rw [ht] at this; exact this
          · rw [ht] at this
            simp only at this ⊢
            rw [ih, this]
  rw [train_eq env g w P h]
  refine ⟨_, rfl, ?_⟩
  simp only
  rw [k3, hiddenDims, o6, o7]

theorem optsFor_idem (o : Opts) (P : Data) : optsFor (optsFor o P) P = optsFor o P := by
  unfold optsFor
  split_ifs <;> rfl

theorem ready_after (env : Env G E) (g : Genn) (w : G × E) (P : Data) (h : Ready g P) : Ready (train env g w).1.1 P ∧ (train env g w).1.1.opts = optsFor g.opts P := by
  classical
  obtain ⟨o1, o2, o3, o4, o5, o6, o7⟩ := optsFor_eq g.opts P
  rw [train_eq env g w P h]
  refine ⟨⟨h.1, h.2.1, h.2.2.1, ?_⟩, rfl⟩
  show 0 < (optsFor g.opts P).deep → 0 < (optsFor g.opts P).wide
  rw [o6, o7]
  exact h.2.2.2

theorem train_congr (env : Env G E) (g g' : Genn) (w : G × E) (P : Data) (h : Ready g P) (h' : Ready g' P) (ho : optsFor g.opts P = optsFor g'.opts P) :
    (train env g w).1.1.model = (train env g' w).1.1.model ∧ (train env g w).1.2 = (train env g' w).1.2 ∧ (train env g w).2 = (train env g' w).2 := by
  classical
  rw [train_eq env g w P h, train_eq env g' w P h', ho]
  exact ⟨rfl, rfl, rfl⟩

/-- **C90** Repeated training with a seed is repeatable from the second time on: the first training leaves the generator in a state determined by the seed (and the number of points), so the second
and third trainings on the same data give the same model. -/
theorem C90_seed_repeatable (env : Env G E) (g : Genn) (w : G × E) (P : Data) (h : Ready g P) (s : ℤ) (g0 : G) (hs : g.opts.seed = some s) (hg : env.rng.ofSeed s = some g0)
    (hep : 0 < g.opts.epochs) :
    let r1 := train env g w
    let r2 := train env r1.1.1 r1.1.2
    let r3 := train env r2.1.1 r2.1.2
    r1.2 = .ok () → r2.2 = .ok () → r2.1.1.model = r3.1.1.model ∧ r3.2 = .ok () ∧ r1.1.2 = ((env.rng.perm g0 P.m).2, w.2) := by
  classical
  intro r1 r2 r3 ok1 ok2
  have hx : (normExamples P).length = P.m := by simp [normExamples]
  have wd : ∀ (q : Genn) (w : G × E), Ready q P → q.opts.seed = some s → 0 < q.opts.epochs → (train env q w).2 = .ok () → (train env q w).1.2 = ((env.rng.perm g0 P.m).2, w.2) := by
    intro q w hq hqs hqe hok
    obtain ⟨o1, o2, o3, o4, o5, o6, o7⟩ := optsFor_eq q.opts P
    rw [train_eq env q w P hq] at hok ⊢
    simp only at hok ⊢
    rw [(trainEpochs_seeded env (optsFor q.opts P) (normExamples P) s g0 (o4.trans hqs) hg _ _ _ _ hok (by rw [o3]; omega)).1, hx]
  obtain ⟨o1, o2, o3, o4, o5, o6, o7⟩ := optsFor_eq g.opts P
  obtain ⟨h1, e1⟩ := ready_after env g w P h
  have w1 : r1.1.2 = ((env.rng.perm g0 P.m).2, w.2) := wd g w h hs hep ok1
  have hs1 : r1.1.1.opts.seed = some s := by rw [show r1.1.1.opts = _ from e1, o4, hs]
  have hp1 : 0 < r1.1.1.opts.epochs := by rw [show r1.1.1.opts = _ from e1, o3]; exact hep
  have w2 : r2.1.2 = ((env.rng.perm g0 P.m).2, r1.1.2.2) := wd r1.1.1 r1.1.2 h1 hs1 hp1 ok2
  obtain ⟨h2, e2⟩ := ready_after env r1.1.1 r1.1.2 P h1
  have hw : r2.1.2 = r1.1.2 := by rw [w2, w1]
  have hopt : optsFor r1.1.1.opts P = optsFor r2.1.1.opts P := by
    rw [show r2.1.1.opts = _ from e2, optsFor_idem]
  have := train_congr env r1.1.1 r2.1.1 r1.1.2 P h1 h2 hopt
  have e3 : r3 = train env r2.1.1 r1.1.2 := by show train env r2.1.1 r2.1.2 = _; rw [hw]
  rw [e3]
  exact ⟨this.1, by rw [← this.2.2]; exact ok2, w1⟩

/-! ### Units -/

/-- The data in other units: input `j` becomes `a j · x + b j`, output `i` becomes `c i · y + d i`, and partials change accordingly. -/
noncomputable def rescale (P : Data) (a b : Fin P.nx → ℝ) (c d : Fin P.ny → ℝ) : Data :=
  { nx := P.nx, ny := P.ny, m := P.m
    X := Matrix.of fun i e => a i * P.X i e + b i
    Y := Matrix.of fun i e => c i * P.Y i e + d i
    J := fun j => Matrix.of fun i e => c i / a j * P.J j i e }

theorem rowMean_affine {n m : ℕ} (X : Mat n m) (a b : Fin n → ℝ) (hm : 0 < m) (i : Fin n) :
    rowMean (Matrix.of fun i e => a i * X i e + b i) i = a i * rowMean X i + b i := by
  have hm' : (m : ℝ) ≠ 0 := by exact_mod_cast hm.ne'
  simp only [rowMean, Matrix.of_apply, Finset.sum_add_distrib, ← Finset.mul_sum, Finset.sum_const, Finset.card_univ, Fintype.card_fin, nsmul_eq_mul]
  field_simp

theorem rowStd_affine {n m : ℕ} (X : Mat n m) (a b : Fin n → ℝ) (hm : 0 < m) (i : Fin n) (ha : 0 < a i) :
    rowStd (Matrix.of fun i e => a i * X i e + b i) i = a i * rowStd X i := by
  have : ∑ e, ((Matrix.of fun i e => a i * X i e + b i) i e - rowMean (Matrix.of fun i e => a i * X i e + b i) i) ^ 2 = a i ^ 2 * ∑ e, (X i e - rowMean X i) ^ 2 := by
    rw [rowMean_affine X a b hm i, Finset.mul_sum]
    refine Finset.sum_congr rfl fun e _ => ?_
    simp only [Matrix.of_apply]
    ring
  unfold rowStd
  rw [this, mul_div_assoc, Real.sqrt_mul (by positivity), Real.sqrt_sq ha.le]

theorem normRows_affine {n m : ℕ} (X : Mat n m) (a b : Fin n → ℝ) (hm : 0 < m) (ha : ∀ i, 0 < a i) : normRows (Matrix.of fun i e => a i * X i e + b i) = normRows X := by
  ext i e
  simp only [normRows, Matrix.of_apply]
  rw [rowMean_affine X a b hm i, rowStd_affine X a b hm i (ha i)]
  rw [show a i * X i e + b i - (a i * rowMean X i + b i) = a i * (X i e - rowMean X i) by ring, mul_div_mul_left _ _ (ha i).ne']

theorem normPartials_affine {nx ny m : ℕ} (X : Mat nx m) (Y : Mat ny m) (J : Fin nx → Mat ny m) (a b : Fin nx → ℝ) (c d : Fin ny → ℝ) (hm : 0 < m) (ha : ∀ i, 0 < a i) (hc : ∀ i, 0 < c i) :
    normPartials (Matrix.of fun i e => a i * X i e + b i) (Matrix.of fun i e => c i * Y i e + d i) (fun j => Matrix.of fun i e => c i / a j * J j i e) = normPartials X Y J := by
  funext j
  ext i e
  simp only [normPartials, Matrix.of_apply]
  rw [rowStd_affine X a b hm j (ha j), rowStd_affine Y c d hm i (hc i)]
  have h1 := (ha j).ne'
  have h2 := (hc i).ne'
  rw [show c i / a j * J j i e * (a j * rowStd X j) = c i * (J j i e * rowStd X j) by field_simp, mul_div_mul_left _ _ h2]

theorem normExamples_rescale (P : Data) (a b : Fin P.nx → ℝ) (c d : Fin P.ny → ℝ) (hm : 0 < P.m) (ha : ∀ i, 0 < a i) (hc : ∀ i, 0 < c i) :
    normExamples (rescale P a b c d) = normExamples P := by
  show List.ofFn (fun e : Fin P.m => ((fun i => normRows (Matrix.of fun i e => a i * P.X i e + b i) i e), (fun i => normRows (Matrix.of fun i e => c i * P.Y i e + d i) i e),
    (fun j i => normPartials (Matrix.of fun i e => a i * P.X i e + b i) (Matrix.of fun i e => c i * P.Y i e + d i) (fun j => Matrix.of fun i e => c i / a j * P.J j i e) j i e))) = _
  rw [normRows_affine P.X a b hm ha, normRows_affine P.Y c d hm hc, normPartials_affine P.X P.Y P.J a b c d hm ha hc]
  rfl

theorem normData_rescale (P : Data) (a b : Fin P.nx → ℝ) (c d : Fin P.ny → ℝ) (hm : 0 < P.m) (ha : ∀ i, 0 < a i) (hc : ∀ i, 0 < c i) :
    normData (rescale P a b c d) = normData P := by
  show (⟨P.nx, P.ny, P.m, normRows (Matrix.of fun i e => a i * P.X i e + b i), normRows (Matrix.of fun i e => c i * P.Y i e + d i),
    normPartials (Matrix.of fun i e => a i * P.X i e + b i) (Matrix.of fun i e => c i * P.Y i e + d i) (fun j => Matrix.of fun i e => c i / a j * P.J j i e)⟩ : Data) = _
  rw [normRows_affine P.X a b hm ha, normRows_affine P.Y c d hm hc, normPartials_affine P.X P.Y P.J a b c d hm ha hc]
  rfl

theorem evaluate_rescale (P : Data) (a b : Fin P.nx → ℝ) (c d : Fin P.ny → ℝ) (hm : 0 < P.m) (ha : ∀ i, 0 < a i) (hc : ∀ i, 0 < c i) (net : Net P.nx P.ny) {q : ℕ} (Z : Mat P.nx q)
    (i : Fin P.ny) (e : Fin q) : evaluate (scaleOf (rescale P a b c d)) net (Matrix.of fun i e => a i * Z i e + b i) i e = c i * evaluate (scaleOf P) net Z i e + d i := by
  have h1 : ∀ i : Fin P.nx, (scaleOf (rescale P a b c d)).muX i = a i * (scaleOf P).muX i + b i := fun i => rowMean_affine P.X a b hm i
  have h2 : ∀ i : Fin P.nx, (scaleOf (rescale P a b c d)).sdX i = a i * (scaleOf P).sdX i := fun i => rowStd_affine P.X a b hm i (ha i)
  have h3 : (scaleOf (rescale P a b c d)).muY i = c i * (scaleOf P).muY i + d i := rowMean_affine P.Y c d hm i
  have h4 : (scaleOf (rescale P a b c d)).sdY i = c i * (scaleOf P).sdY i := rowStd_affine P.Y c d hm i (hc i)
  have h5 : (Matrix.of fun (r : Fin P.nx) (e : Fin q) => ((Matrix.of fun i e => a i * Z i e + b i) r e - (scaleOf (rescale P a b c d)).muX r) / (scaleOf (rescale P a b c d)).sdX r)
      = Matrix.of fun r e => (Z r e - (scaleOf P).muX r) / (scaleOf P).sdX r := by
    ext r e
    simp only [Matrix.of_apply]
    rw [h1 r, h2 r, show a r * Z r e + b r - (a r * (scaleOf P).muX r + b r) = a r * (Z r e - (scaleOf P).muX r) by ring, mul_div_mul_left _ _ (ha r).ne']
  show (forward net (Matrix.of fun (r : Fin P.nx) (e : Fin q) => ((Matrix.of fun i e => a i * Z i e + b i) r e - (scaleOf (rescale P a b c d)).muX r) /
    (scaleOf (rescale P a b c d)).sdX r)).1 i e * (scaleOf (rescale P a b c d)).sdY i + (scaleOf (rescale P a b c d)).muY i = _
  rw [h5, h3, h4]
  simp only [evaluate, Matrix.of_apply]
  ring

/-- **C90** Units do not matter: two objects with the same options, trained with the same random draws, one on the data of the other in other units (positive factors and shifts per input and
output, partials converted): the outcome of training is the same, both get the same network and history, and the predictions are the same in the respective units. -/
theorem C90_units (env : Env G E) (g g' : Genn) (w : G × E) (P : Data) (a b : Fin P.nx → ℝ) (c d : Fin P.ny → ℝ) (ha : ∀ i, 0 < a i) (hc : ∀ i, 0 < c i) (h : Ready g P)
    (h' : smtToGenn g'.store = .ok (rescale P a b c d)) (ho : g'.opts = g.opts) :
    (train env g' w).2 = (train env g w).2 ∧ ∃ (net : Net P.nx P.ny) (nan nan' : Bool) (hist : List (List (List ℝ))),
      (train env g w).1.1.model = some ⟨P.nx, P.ny, net, some (normData P, scaleOf P), nan, hist⟩ ∧
      (train env g' w).1.1.model = some ⟨P.nx, P.ny, net, some (normData P, scaleOf (rescale P a b c d)), nan', hist⟩ ∧
      ∀ (q : ℕ) (Z : Mat P.nx q) (i : Fin P.ny) (e : Fin q), evaluate (scaleOf (rescale P a b c d)) net (Matrix.of fun i e => a i * Z i e + b i) i e
        = c i * evaluate (scaleOf P) net Z i e + d i := by
  classical
  have hm := h.2.2.1
  have hr' : Ready g' (rescale P a b c d) := ⟨h', h.2.1, h.2.2.1, by rw [ho]; exact h.2.2.2⟩
  have hopt : optsFor g'.opts (rescale P a b c d) = optsFor g.opts P := by rw [ho]; rfl
  have hex := normExamples_rescale P a b c d hm ha hc
  have e1 := train_eq env g w P h
  have e2 := train_eq env g' w (rescale P a b c d) hr'
  simp only at e1 e2
  rw [hopt, normData_rescale P a b c d hm ha hc] at e2
  have hE : ∀ net : Net P.nx P.ny, ∀ hh ww, trainEpochs env (optsFor g.opts P) (nx := P.nx) (ny := P.ny) (normExamples (rescale P a b c d)) (optsFor g.opts P).epochs.toNat net hh ww
      = trainEpochs env (optsFor g.opts P) (normExamples P) (optsFor g.opts P).epochs.toNat net hh ww := fun net hh ww => by rw [hex]
  have hT := hE (initNet env.rng P.nx (hiddenDims (optsFor g.opts P)) P.ny w.1).1 [] ((initNet env.rng P.nx (hiddenDims (optsFor g.opts P)) P.ny w.1).2, w.2)
  refine ⟨?_, _, decide (degenerate P), decide (degenerate (rescale P a b c d)), _, by rw [e1], ?_, fun q Z i e => evaluate_rescale P a b c d hm ha hc _ Z i e⟩
  · rw [e1, e2]
    exact congrArg (fun r => r.2) hT
  · rw [e2]
    exact congrArg (fun r : (Net P.nx P.ny × List (List (List ℝ)) × (G × E)) × Except GErr Unit =>
      (some ⟨P.nx, P.ny, r.1.1, some (normData P, scaleOf (rescale P a b c d)), decide (degenerate (rescale P a b c d)), r.1.2.1⟩ : Option Trained)) hT

/-! ### Prediction -/

theorem predictCore_some (g : Genn) (t : Trained) (d : Data × Scale t.nx t.ny) (hm : g.model = some t) (hd : t.data = some d) (x : NdArray ℝ) (hx : x.ncols = t.nx) :
    predictCore g x = .ok ((List.range (x.nrows * t.ny)).map fun q =>
      readMat (evaluate d.2 t.net (Matrix.of fun (i : Fin t.nx) (e : Fin x.nrows) => entry x e i)) (q % t.ny) (q / t.ny)) := by
  unfold predictCore
  rw [hm]
  simp only [hx, ne_eq, not_true_eq_false, if_false]
  rw [hd]

/-- **C90** What `predict_values` returns after training: one row per point, one column per output; the entry is the trained network in the user's units, evaluated at that point. -/
theorem C90_predict (g : Genn) (t : Trained) (d : Data × Scale t.nx t.ny) (hm : g.model = some t) (hd : t.data = some d) (nt n : ℕ) (hdim : g.store.dims = some (nt, t.nx, t.ny))
    (x : NdArray ℝ) (hx : x.shape = [n, t.nx]) (hn : 0 < n) :
    ∃ r, predict g (.nd x) = .ok r ∧ r.shape = [n, t.ny] ∧ ∀ (e : Fin n) (i : Fin t.ny),
      r.data.getD (e * t.ny + i) 0 = evaluate d.2 t.net (Matrix.of fun (j : Fin t.nx) (e : Fin n) => x.data.getD (e * t.nx + j) 0) i e := by
  obtain ⟨sh, da⟩ := x
  simp only at hx
  subst hx
  have hc := predictCore_some g t d hm hd ⟨[n, t.nx], da⟩ rfl
  refine ⟨⟨[n, t.ny], (List.range (n * t.ny)).map fun q =>
      readMat (evaluate d.2 t.net (Matrix.of fun (i : Fin t.nx) (e : Fin n) => da.getD (e * t.nx + i) 0)) (q % t.ny) (q / t.ny)⟩, ?_, rfl, fun e i => ?_⟩
  · unfold predict predictValues
    simp only [ensure2d, bind, Except.bind, hdim, checkNx, NdArray.ncols, List.drop_succ_cons, List.drop_zero, List.headD_cons, ne_eq, not_true_eq_false, if_false]
    rw [hc]
    simp only [NdArray.nrows, List.headD_cons, hn.ne', if_false, reshape2, List.length_map, List.length_range, if_true]
    rfl
  · have hlt : (e : ℕ) * t.ny + i < n * t.ny := by
      have h1 := e.2
      have h2 := i.2
      calc (e : ℕ) * t.ny + i < e * t.ny + t.ny := by omega
        _ = (e + 1) * t.ny := by ring
        _ ≤ n * t.ny := Nat.mul_le_mul_right _ (by omega)
    have hp : 0 < t.ny := lt_of_le_of_lt (Nat.zero_le _) i.2
    have hmod : ((e : ℕ) * t.ny + i) % t.ny = i := by rw [Nat.mul_comm, Nat.mul_add_mod, Nat.mod_eq_of_lt i.2]
    have hdiv : ((e : ℕ) * t.ny + i) / t.ny = e := by rw [Nat.mul_comm, Nat.mul_add_div hp, Nat.div_eq_of_lt i.2, Nat.add_zero]
    rw [List.getD_eq_getElem?_getD, List.getElem?_map, List.getElem?_range hlt]
    simp [hmod, hdiv, readMat]

/-- **C90** Prediction without training, or after setting training inputs of another dimension than the trained ones, raises `AssertionError`. -/
theorem C90_predict_stale (g : Genn) (nt nx ny n : ℕ) (hdim : g.store.dims = some (nt, nx, ny)) (h : ∀ t, g.model = some t → t.nx ≠ nx) (x : NdArray ℝ) (hx : x.shape = [n, nx]) :
    predict g (.nd x) = .error .assertion := by
  obtain ⟨sh, da⟩ := x
  simp only at hx
  subst hx
  unfold predict predictValues
  have : predictCore g ⟨[n, nx], da⟩ = .error .assertion := by
    unfold predictCore
    cases hm : g.model with
    | none => rfl
    | some t => simp [NdArray.ncols, (h t hm).symm]
  simp [ensure2d, bind, Except.bind, hdim, checkNx, NdArray.ncols, this]

/-- **C90** `goodness_of_fit` on data of the same dimension does not change predictions (until the next training). -/
theorem C90_goodness_keeps_predictions (g : Genn) (xv yv dyv : NdArray ℝ) (m nx nt : ℕ) (hx : TwoD xv m nx) (hy : TwoD yv m 1) (hd : dyv.shape.prod = m * nx)
    (hdim : g.store.dims = some (nt, nx, 1)) (x : PyObj ℝ) : predict (goodness g xv yv (some dyv)).1 x = predict g x := by
  obtain ⟨⟨h1, -, -⟩, -, h3, -⟩ := C90_goodness_replaces_data g xv yv dyv m nx hx hy hd
  have hc : predictCore (goodness g xv yv (some dyv)).1 = predictCore g := by
    funext z
    unfold predictCore
    rw [h1]
  unfold predict predictValues
  rw [hc, h3, hdim]
  rfl

end SMT.Nn.Life
