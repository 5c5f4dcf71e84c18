import Verif.Moe.TrainProps3
import Mathlib.Tactic.NormNum
import Mathlib.Data.Rat.Defs

/-!
# C89, continued: failures, retraining, the wrapper, and a concrete case
-/
namespace SMT.Moe.Train
set_option linter.unusedSectionVars false
set_option linter.unusedSimpArgs false
set_option linter.unusedVariables false

variable {K : Type} [Field K] [LinearOrder K] [IsStrictOrderedRing K]

/-! ## Retraining -/

/-- Training reads the options and the training data only: everything else is overwritten or does not matter. -/
theorem trainChecked_fresh (w : World K) (s t : St K) (x y c : Arr K) (ho : s.opts = t.opts) (hx : s.sxt = t.sxt) (hy : s.syt = t.syt)
    (hn : s.nClusters = t.nClusters) (hs : s.smooth = t.smooth) (hf : s.factor = t.factor) (hok : (trainChecked w s x y c).2 = .ok ()) :
    trainChecked w t x y c = trainChecked w s x y c := by
  obtain ⟨so, sx, sy, sn, ss, sf, se, sm, sd⟩ := s
  obtain ⟨to', tx, ty, tn, ts, tf, te, tm, td⟩ := t
  simp only at ho hx hy hn hs hf
  subst ho hx hy hn hs hf
  unfold trainChecked at hok ⊢
  simp only at hok ⊢
  split
  · rename_i e he
    simp only [he] at hok
    cases hok
  rename_i test training hp
  simp only [hp] at hok
  split
  · simp at hok
  rename_i nx xrows
  simp only at hok
  split
  · rename_i hm
    simp only [hm] at hok
    cases hok
  rename_i m conv hm
  simp only [hm] at hok
  split
  · rename_i hc
    simp only [hc, if_true] at hok
    cases hok
  rename_i hc
  simp only [hc, if_false] at hok
  -- both first fits start by overwriting the distributions
  have key : ∀ d : Option (Mix K × K), fitFirst w (⟨so, sx, sy, sn, ss, sf, [], some { m with nfeat := nx + (y.ncol + c.ncol - 1) }, d⟩ : St K)
      { m with nfeat := nx + (y.ncol + c.ncol - 1) } nx (nx + (y.ncol + c.ncol - 1)) (enabledFor w so) (limits nx xrows) training =
      if m.distOk sf then
        fitFirst w (⟨so, sx, sy, sn, ss, sf, [], some { m with nfeat := nx + (y.ncol + c.ncol - 1) }, none⟩ : St K)
          { m with nfeat := nx + (y.ncol + c.ncol - 1) } nx (nx + (y.ncol + c.ncol - 1)) (enabledFor w so) (limits nx xrows) training
      else (⟨so, sx, sy, sn, ss, sf, [], some { m with nfeat := nx + (y.ncol + c.ncol - 1) }, d⟩, .error .value) := by
    intro d
    unfold fitFirst St.redistribute
    by_cases hd : m.distOk sf = true
    · simp only [hd, if_true]
    · simp only [hd, if_false]
      rfl
  unfold trainFit at hok ⊢
  simp only at hok ⊢
  rw [key] at hok ⊢
  rw [key sd]
  by_cases hd : m.distOk sf = true
  · simp only [hd, if_true]
  · simp only [hd, if_false] at hok
    cases hok

/-- **C89** Training starts afresh: if it succeeds, the resulting object is determined by the options and the training data (and what the libraries answer), whatever the object was trained on before.
Training again with unchanged data changes nothing. -/
theorem C89_retraining_is_fresh (w : World K) (s t : St K) (ho : s.opts = t.opts) (hx : s.sxt = t.sxt) (hy : s.syt = t.syt) (hok : (train w s).2 = .ok ()) :
    train w t = train w s := by
  have hcd : chosenData s = chosenData t := by unfold chosenData; rw [ho, hx, hy]
  unfold train at hok ⊢
  rw [← hcd, ← ho]
  simp only at hok ⊢
  split
  · rename_i e he
    simp only [he] at hok
    cases hok
  rename_i c hc
  simp only [hc] at hok
  split
  · rename_i e he
    simp only [he] at hok
    cases hok
  rename_i x y c' hch
  simp only [hch] at hok
  exact trainChecked_fresh w _ _ x y c' rfl hx hy rfl rfl rfl hok

/-! ## `set_training_values` and the options -/

/-- The options `xt`, `yt` replaced. -/
def chg (s : St K) (a b : Option (Arr K)) : St K := { s with opts := { s.opts with xt := a, yt := b } }

theorem redistribute_chg (s : St K) (m : Mix K) (a b : Option (Arr K)) : (chg s a b).redistribute m = match s.redistribute m with
    | .error e => .error e
    | .ok s => .ok (chg s a b) := by
  unfold St.redistribute chg
  simp only
  split <;> rfl

theorem fitFirst_chg (w : World K) (s : St K) (m : Mix K) (nx ncol : ℕ) (en : List String) (xl : List (K × K)) (tr : List (List K)) (a b : Option (Arr K)) :
    fitFirst w (chg s a b) m nx ncol en xl tr = (chg (fitFirst w s m nx ncol en xl tr).1 a b, (fitFirst w s m nx ncol en xl tr).2) := by
  unfold fitFirst
  rw [redistribute_chg]
  cases s.redistribute m with
  | error e => rfl
  | ok s =>
    simp only
    have : (chg s a b).nClusters = s.nClusters := rfl
    rw [this]
    cases clustered m s.nClusters ncol (tr.map (features1 nx)) (tr.map (sample nx)) <;> rfl

theorem fitFinal_chg (w : World K) (s : St K) (m : Mix K) (nx : ℕ) (xrows : List (List K)) (y c : Arr K) (a b : Option (Arr K)) :
    fitFinal w (chg s a b) m nx xrows y c = (chg (fitFinal w s m nx xrows y c).1 a b, (fitFinal w s m nx xrows y c).2) := by
  unfold fitFinal
  rw [redistribute_chg]
  cases s.redistribute m with
  | error e => rfl
  | ok s =>
    simp only
    have : (chg s a b).nClusters = s.nClusters := rfl
    rw [this]
    cases clustered m s.nClusters (nx + c.ncol) (hcat xrows c.cols) ((hcat xrows y.cols).map (sample nx)) <;> rfl

theorem tuneFactor_chg (w : World K) (s : St K) (m : Mix K) (test : List (Sample K)) (a b : Option (Arr K)) : tuneFactor w (chg s a b) m test = match tuneFactor w s m test with
    | .error e => .error e
    | .ok s => .ok (chg s a b) := by
  have e : ((chg s a b).opts.smooth && (chg s a b).opts.heaviside && decide (1 < (chg s a b).nClusters)) = (s.opts.smooth && s.opts.heaviside && decide (1 < s.nClusters)) := rfl
  unfold tuneFactor
  rw [e]
  by_cases h : (s.opts.smooth && s.opts.heaviside && decide (1 < s.nClusters)) = true
  · rw [if_pos h, if_pos h]
    exact redistribute_chg { s with factor := bestHeaviside s.nClusters (w.hfError m s.experts test) } m a b
  · rw [if_neg h, if_neg h]

theorem trainFit_chg (w : World K) (s : St K) (m : Mix K) (nx ncol : ℕ) (test training xrows : List (List K)) (y c : Arr K) (a b : Option (Arr K)) :
    trainFit w (chg s a b) m nx ncol test training xrows y c =
      (chg (trainFit w s m nx ncol test training xrows y c).1 a b, (trainFit w s m nx ncol test training xrows y c).2) := by
  unfold trainFit
  have e4 : enabledFor w (chg s a b).opts = enabledFor w s.opts := rfl
  rw [e4, fitFirst_chg]
  cases hff : fitFirst w s m nx ncol (enabledFor w s.opts) (limits nx xrows) training with
  | mk s2 r =>
    cases r with
    | error e => rfl
    | ok u =>
      simp only
      rw [tuneFactor_chg]
      cases tuneFactor w s2 m (test.map (sample nx)) with
      | error e => rfl
      | ok s3 =>
        simp only
        have e6 : ((chg s3 a b).opts.xtest.isSome && (chg s3 a b).opts.ytest.isSome) = (s3.opts.xtest.isSome && s3.opts.ytest.isSome) := rfl
        rw [e6]
        by_cases ht : (s3.opts.xtest.isSome && s3.opts.ytest.isSome) = true
        · rw [if_pos ht, if_pos ht]
        · rw [if_neg ht, if_neg ht]
          exact fitFinal_chg w s3 _ nx xrows y c a b

theorem trainChecked_chg (w : World K) (s : St K) (x y c : Arr K) (a b : Option (Arr K)) :
    trainChecked w (chg s a b) x y c = (chg (trainChecked w s x y c).1 a b, (trainChecked w s x y c).2) := by
  unfold trainChecked
  simp only
  have e1 : testTraining (chg s a b).opts (hcat (hcat x.cols y.cols) c.cols) = testTraining s.opts (hcat (hcat x.cols y.cols) c.cols) := rfl
  rw [e1]
  cases testTraining s.opts (hcat (hcat x.cols y.cols) c.cols) with
  | error e => rfl
  | ok tt =>
    obtain ⟨test, training⟩ := tt
    cases x with
    | d1 v => rfl
    | d2 nx xrows =>
      simp only
      have e2 : (chg s a b).nClusters = s.nClusters := rfl
      rw [e2]
      cases w.mixture s.nClusters (training.map (features1 nx)) with
      | none => rfl
      | some mc =>
        obtain ⟨m, conv⟩ := mc
        simp only
        by_cases hc : conv = false
        · rw [if_pos hc, if_pos hc]; rfl
        · rw [if_neg hc, if_neg hc]
          exact trainFit_chg w { s with experts := [], mix := some { m with nfeat := nx + (y.ncol + c.ncol - 1) } } _ nx _ test training xrows y c a b

theorem train_chg (w : World K) (s : St K) (a b : Option (Arr K)) {xt yt : Arr K} (hx : s.sxt = some xt) (hy : s.syt = some yt) :
    train w (chg s a b) = (chg (train w s).1 a b, (train w s).2) := by
  have e0 : chosenData (chg s a b) = (some xt, some yt) := by unfold chosenData chg; simp [hx, hy]
  have e1 : chosenData s = (some xt, some yt) := by unfold chosenData; simp [hx, hy]
  unfold train
  simp only [e0, e1]
  have e2 : chosenCriterion (chg s a b).opts.ct (some yt) = chosenCriterion s.opts.ct (some yt) := rfl
  rw [e2]
  cases chosenCriterion s.opts.ct (some yt) with
  | error e => rfl
  | ok c =>
    simp only
    have e3 : (chg s a b).opts.nClusters = s.opts.nClusters := rfl
    have e4 : (chg s a b).opts.smooth = s.opts.smooth := rfl
    rw [e3, e4]
    cases checked (some xt) (some yt) c s.opts.nClusters with
    | error e => rfl
    | ok r =>
      obtain ⟨x, y, c⟩ := r
      exact trainChecked_chg w { s with nClusters := s.opts.nClusters, smooth := s.opts.smooth, factor := 1 } x y c a b

/-- **C89** Data given by `set_training_values` takes precedence over the options `xt` and `yt`, at every later training: whatever these options are, the outcome of `train` and the experts, clusters and predictions after
it are the same. -/
theorem C89_set_training_values_wins (w : World K) (s : St K) (xt yt : Arr K) (a b : Option (Arr K)) :
    let s1 := s.setTraining xt yt
    let s2 := { s with opts := { s.opts with xt := a, yt := b } }.setTraining xt yt
    (train w s2).2 = (train w s1).2 ∧ (train w s2).1.experts = (train w s1).1.experts ∧
      ∀ w' p, predictValue w' (train w s2).1 p = predictValue w' (train w s1).1 p := by
  have e := train_chg w (s.setTraining xt yt) a b rfl rfl
  have e' : chg (s.setTraining xt yt) a b = { s with opts := { s.opts with xt := a, yt := b } }.setTraining xt yt := rfl
  rw [e'] at e
  simp only
  rw [e]
  exact ⟨rfl, rfl, fun w' p => rfl⟩

/-! ## Failures -/

theorem findBest_err {w : World K} {en : List String} {xl : List (K × K)} {c : List (Sample K)} : findBest w en xl c ≠ .error .notConverged := by
  unfold findBest
  simp only
  split
  · simp
  split
  · simp
  split
  · split <;> simp
  · simp

theorem fitNew_err {w : World K} {en : List String} {xl : List (K × K)} : ∀ (cs : List (List (Sample K))) (done : List (Expert K)),
    (fitNew w en xl cs done).2 ≠ .error .notConverged
  | [], done => by simp [fitNew]
  | c :: cs, done => by
    unfold fitNew
    split
    · rename_i e he
      intro h
      exact findBest_err (w := w) (en := en) (xl := xl) (c := c) (by rw [he]; simpa using h)
    · exact fitNew_err cs _

theorem fitAgain_err {w : World K} : ∀ (cs : List (List (Sample K))) (es : List (Expert K)), (fitAgain w cs es).2 ≠ .error .notConverged
  | [], es => by simp [fitAgain]
  | _ :: _, [] => by simp [fitAgain]
  | c :: cs, e :: es => by
    unfold fitAgain
    split
    · simp
    split
    · exact fitAgain_err cs es
    · simp

theorem redistribute_err {s : St K} {m : Mix K} : s.redistribute m ≠ .error .notConverged := by
  unfold St.redistribute
  split <;> simp

theorem clustered_err {m : Mix K} {k ncol : ℕ} {f : List (List K)} {l : List (Sample K)} : clustered m k ncol f l ≠ .error .notConverged := by
  unfold clustered
  split
  · split <;> simp
  · simp

theorem fitFirst_err {w : World K} {s : St K} {m : Mix K} {nx ncol : ℕ} {en : List String} {xl : List (K × K)} {tr : List (List K)} :
    (fitFirst w s m nx ncol en xl tr).2 ≠ .error .notConverged := by
  unfold fitFirst
  split
  · rename_i e he; intro h; simp only [Except.error.injEq] at h; exact redistribute_err (by rw [he, h])
  · split
    · rename_i e he; intro h; simp only [Except.error.injEq] at h; exact clustered_err (by rw [he, h])
    · exact fitNew_err _ _

theorem fitFinal_err {w : World K} {s : St K} {m : Mix K} {nx : ℕ} {xrows : List (List K)} {y c : Arr K} :
    (fitFinal w s m nx xrows y c).2 ≠ .error .notConverged := by
  unfold fitFinal
  split
  · rename_i e he; intro h; simp only [Except.error.injEq] at h; exact redistribute_err (by rw [he, h])
  · split
    · rename_i e he; intro h; simp only [Except.error.injEq] at h; exact clustered_err (by rw [he, h])
    · exact fitAgain_err _ _

/-- What the object is like after `"Clustering not converged"`. -/
theorem notConverged_state {w : World K} {s s' : St K} (h : train w s = (s', .error .notConverged)) :
    s'.experts = [] ∧ s'.dist = s.dist ∧ s'.smooth = s.opts.smooth ∧ s'.nClusters = s.opts.nClusters ∧ s'.mix.isSome := by
  unfold train at h
  simp only at h
  split at h
  · rename_i e he
    exfalso
    unfold chosenCriterion at he
    split at he
    · cases he
    · split at he
      · cases he
      · split at he <;> cases he
      · cases he; simp at h
  rename_i c0 hc0
  split at h
  · rename_i e he
    exfalso
    unfold checked at he
    split at he
    · split at he
      · cases he
      · cases he; simp at h
    · cases he; simp at h
  rename_i x y c hchk
  unfold trainChecked at h
  simp only at h
  split at h
  · rename_i e he
    exfalso
    unfold testTraining at he
    split at he
    · split at he
      · cases he
      · cases he; simp at h
    · cases he
  split at h
  · simp at h
  rename_i nx xrows
  split at h
  · simp at h
  rename_i m conv hmix
  split at h
  · simp only [Prod.mk.injEq, and_true] at h
    subst h
    simp
  unfold trainFit at h
  simp only at h
  split at h
  · rename_i s2 e he
    exfalso
    simp only [Prod.mk.injEq, Except.error.injEq] at h
    exact fitFirst_err (by rw [he, h.2])
  rename_i s2 he
  split at h
  · rename_i e he
    exfalso
    simp only [Prod.mk.injEq, Except.error.injEq] at h
    unfold tuneFactor at he
    split at he
    · exact redistribute_err (by rw [he, h.2])
    · cases he
  split at h
  · simp at h
  · exfalso
    exact fitFinal_err (by rw [h])

/-- **C89 (violation)** A retraining that fails with "Clustering not converged" does not leave the previous model in place: with smooth recombination every later prediction that does not raise is exactly 0, with hard
recombination every one raises. -/
theorem C89_failed_clustering_predicts_zero (w : World K) (s s' : St K) (h : train w s = (s', .error .notConverged)) (x : List K) :
    (s.opts.smooth = true → ∀ v, predictValue w s' x = .ok v → v = 0) ∧ (s.opts.smooth = false → ∀ v, predictValue w s' x ≠ .ok v) ∧
    (s.opts.smooth = true → s.dist.isSome → s.opts.nClusters = 1 → predictValue w s' x = .ok 0) := by
  obtain ⟨h1, h2, h3, h4, h5⟩ := notConverged_state h
  refine ⟨fun hs v hv => ?_, fun hs v hv => ?_, fun hs hd hk => ?_⟩
  · unfold predictValue at hv
    split at hv
    · cases hv
    · rw [h3, hs, h1] at hv
      simp only [if_true, recombine, Except.ok.injEq] at hv
      exact hv.symm
  · unfold predictValue at hv
    split at hv
    · cases hv
    · rename_i ps hps
      rw [h3, hs, h1] at hv
      simp only [Bool.false_eq_true, if_false] at hv
      unfold mostProbable at hv
      cases ps with
      | nil => simp at hv
      | cons p ps => simp at hv
  · unfold predictValue probs
    obtain ⟨⟨m, f⟩, hm⟩ := Option.isSome_iff_exists.1 hd
    rw [h2, hm]
    simp only [h4, hk, if_true, h3, hs, h1, recombine]

/-- **C89** Data that `train` refuses at once (rows that do not match, too many clusters) leaves the experts and the clusters of the last training as they were, and all predictions too if the options `n_clusters` and
`smooth_recombination` have their values of that training. -/
theorem C89_refused_data_keeps_the_model (w : World K) (s : St K) (x y : Arr K) (hd : TrainingData s x y) (hct : s.opts.ct = none)
    (hbad : x.nrow ≠ y.nrow ∨ x.nrow / 10 + 1 < s.opts.nClusters) :
    (train w s).2 = .error .value ∧ (train w s).1.experts = s.experts ∧
    (s.nClusters = s.opts.nClusters → s.smooth = s.opts.smooth → ∀ p, predictValue w (train w s).1 p = predictValue w s p) := by
  have hc : checkInputs x.nrow y.nrow y.nrow s.opts.nClusters = false := by
    rw [Bool.eq_false_iff]
    intro h
    obtain ⟨a, -, b⟩ := check_lengths h
    rcases hbad with h | h
    · exact h a
    · omega
  have hcd := (chosenData_iff s _ _).2 hd
  have e : train w s = ({ s with nClusters := s.opts.nClusters, smooth := s.opts.smooth, factor := 1 }, .error .value) := by
    unfold train
    simp [hcd, hct, chosenCriterion, checked, hc]
  rw [e]
  refine ⟨rfl, rfl, fun h1 h2 p => ?_⟩
  unfold predictValue probs
  simp only [h1, h2]

/-- **C89 (violation)** Inputs given as a one-axis array, which the documentation of `set_training_values` allows, make `train` raise, after the experts of an earlier training have been thrown away. -/
theorem C89_one_axis_inputs_refused (w : World K) (s : St K) (v : List K) (y : Arr K) (hd : TrainingData s (.d1 v) y) (hct : s.opts.ct = none)
    (ht : ¬ HasTest s.opts) : (train w s).2 ≠ .ok () ∧
    (v.length = y.nrow → s.opts.nClusters ≤ v.length / 10 + 1 → (train w s).2 = .error .index ∧ (train w s).1.experts = []) := by
  have hcd := (chosenData_iff s _ _).2 hd
  have key : v.length = y.nrow → s.opts.nClusters ≤ v.length / 10 + 1 → (train w s).2 = .error .index ∧ (train w s).1.experts = [] := by
    intro h1 h2
    have hc : checkInputs (Arr.d1 v).nrow y.nrow y.nrow s.opts.nClusters = true := (C47_check_inputs _ _ _ _).2 ⟨h1, rfl, h2⟩
    unfold train
    simp only [hcd, hct, chosenCriterion, checked, hc, if_true]
    unfold trainChecked
    simp only
    have : ∃ a b, testTraining s.opts (hcat (hcat (Arr.d1 v).cols y.cols) y.cols) = .ok (a, b) := by
      unfold testTraining
      split
      · rename_i xs ys h1 h2
        exact absurd ⟨by rw [h1]; rfl, by rw [h2]; rfl⟩ ht
      · exact ⟨_, _, rfl⟩
    obtain ⟨a, b, hab⟩ := this
    simp only [hab]
    exact ⟨trivial, trivial⟩
  refine ⟨fun h => ?_, key⟩
  have h' : train w s = ((train w s).1, .ok ()) := Prod.ext rfl h
  obtain ⟨nx', xrows', y', c, m', test, training, s1, s2, s3, r⟩ := train_ok h'
  have hd' := r.data
  rw [hcd] at hd'
  simp at hd'

/-! ## The wrapper -/

/-- The wrapper passes on only its last group of training points. -/
theorem fold_points (m : St K) (pts : List (Option String × Arr K × Arr K)) (e : Option String × Arr K × Arr K) :
    (pts ++ [e]).foldl (fun m e => m.setTraining e.2.1 e.2.2) m = { m with sxt := some e.2.1, syt := some e.2.2 } := by
  rw [List.foldl_append]
  have : ∀ (pts : List (Option String × Arr K × Arr K)) (m : St K), ∃ a b, pts.foldl (fun m e => m.setTraining e.2.1 e.2.2) m = { m with sxt := a, syt := b } := by
    intro pts
    induction pts with
    | nil => intro m; exact ⟨m.sxt, m.syt, rfl⟩
    | cons p pts ih => intro m; obtain ⟨a, b, h⟩ := ih (m.setTraining p.2.1 p.2.2); exact ⟨a, b, by rw [List.foldl_cons, h]; rfl⟩
  obtain ⟨a, b, h⟩ := this pts m
  rw [h]
  rfl

/-- **C89 (violation)** `MOESurrogateModel` with an unnamed group of training points and another group set after it under a new name trains on the named group only; the result is that of a `MOE` given the named
group alone. -/
theorem C89_wrapper_last_group_wins (w : World K) (o : Opts K) (xt yt xt' yt' : Arr K) (name : String) (o1 o2 : Wrap K)
    (h1 : (Wrap.new o).setTraining xt yt none = .ok o1) (h2 : o1.setTraining xt' yt' (some name) = .ok o2) :
    ((o2.train w).1.moe, (o2.train w).2) = train w ((St.new o).setTraining xt'.ensure2d yt'.ensure2d) := by
  unfold Wrap.setTraining at h1 h2
  simp only at h1 h2
  split at h1
  swap
  · cases h1
  cases h1
  split at h2
  swap
  · cases h2
  cases h2
  have e : mergeOpts o ({} : Opts K) = o := by
    unfold mergeOpts
    simp
  simp [Wrap.train, Wrap.new, assign, Wrap.trainInner, St.new, e, St.setTraining]

/-- **C89** An unnamed group alone: the wrapper is a `MOE` with the same options and the same data, made two-dimensional. -/
theorem C89_wrapper_is_moe (w : World K) (o : Opts K) (xt yt : Arr K) (o1 : Wrap K) (h1 : (Wrap.new o).setTraining xt yt none = .ok o1) :
    ((o1.train w).1.moe, (o1.train w).2) = train w ((St.new o).setTraining xt.ensure2d yt.ensure2d) := by
  unfold Wrap.setTraining at h1
  simp only at h1
  split at h1
  swap
  · cases h1
  cases h1
  have e : mergeOpts o ({} : Opts K) = o := by
    unfold mergeOpts
    simp
  simp [Wrap.train, Wrap.new, assign, Wrap.trainInner, St.new, e, St.setTraining]

/-- **C89 (violation)** A wrapper without training points takes them from the options `xt`, `yt` at its first training, and never again: after that, new values of these options change nothing in the outcome of `train`
(a `MOE` object would train on the new values). With an option missing the first training raises `KeyError`. -/
theorem C89_wrapper_options_read_once (w w' : World K) (o : Opts K) (a b : Option (Arr K)) :
    (o.xt = none ∨ o.yt = none → ((Wrap.new o).train w).2 = .error .key) ∧
    (∀ x y, o.xt = some x → o.yt = some y → x.nrow = y.nrow →
      let o1 := ((Wrap.new o).train w).1
      let o2 := { o1 with opts := { o1.opts with xt := a, yt := b } }
      (o2.train w').2 = (o1.train w').2 ∧ (o2.train w').1.moe.experts = (o1.train w').1.moe.experts ∧ (o1.points = [(none, x.ensure2d, y.ensure2d)])) := by
  constructor
  · intro h
    rcases h with h | h <;> simp [Wrap.train, Wrap.new, h]
  · intro x y hx hy hr
    have he : x.ensure2d.nrow = y.ensure2d.nrow := by
      cases x <;> cases y <;> simpa [Arr.ensure2d, Arr.nrow] using hr
    have e1 : ((Wrap.new o).train w).1.points = [(none, x.ensure2d, y.ensure2d)] ∧ ((Wrap.new o).train w).1.opts = o := by
      simp [Wrap.train, Wrap.new, hx, hy, Wrap.setTraining, he, assign, Wrap.trainInner]
    have e3 : mergeOpts { o with xt := a, yt := b } ((Wrap.new o).train w).1.moe.opts =
        { mergeOpts o ((Wrap.new o).train w).1.moe.opts with xt := a <|> ((Wrap.new o).train w).1.moe.opts.xt, yt := b <|> ((Wrap.new o).train w).1.moe.opts.yt } := rfl
    have e4 := train_chg w' { ((Wrap.new o).train w).1.moe with opts := mergeOpts o ((Wrap.new o).train w).1.moe.opts, sxt := some x.ensure2d, syt := some y.ensure2d }
      (a <|> ((Wrap.new o).train w).1.moe.opts.xt) (b <|> ((Wrap.new o).train w).1.moe.opts.yt) rfl rfl
    have e5 : ∀ q : Wrap K, q.points = [(none, x.ensure2d, y.ensure2d)] → (q.train w').2 = (train w' { q.moe with opts := mergeOpts q.opts q.moe.opts, sxt := some x.ensure2d, syt := some y.ensure2d }).2 ∧
        (q.train w').1.moe = (train w' { q.moe with opts := mergeOpts q.opts q.moe.opts, sxt := some x.ensure2d, syt := some y.ensure2d }).1 := by
      intro q hq
      simp [Wrap.train, hq, Wrap.trainInner, St.setTraining]
    obtain ⟨f1, f2⟩ := e5 ((Wrap.new o).train w).1 e1.1
    obtain ⟨f3, f4⟩ := e5 { ((Wrap.new o).train w).1 with opts := { ((Wrap.new o).train w).1.opts with xt := a, yt := b } } e1.1
    simp only
    rw [f1, f2, f3, f4]
    simp only [e1.2, e3]
    refine ⟨?_, ?_, e1.1⟩
    · have := congrArg Prod.snd e4
      exact this
    · have := congrArg (fun q => q.1.experts) e4
      exact this

/-- **C89 (violation)** A wrapper with several outputs never predicts a value: if training succeeds at all (it needs test data), only the first output is learnt and `predict_values` raises. -/
theorem C89_wrapper_several_outputs (w : World K) (o : Wrap K) (x : List K) (h : o.ny ≠ 1) : ∀ v, o.predictValue w x ≠ .ok v := by
  intro v hv
  unfold Wrap.predictValue at hv
  split at hv
  · cases hv
  · split at hv
    · cases hv
    · cases hv

/-! ## A concrete case: twelve samples on a line, two clusters, two classes -/
section example_
set_option maxRecDepth 20000

/-- Classes `LS` (predicts the mean of its data) and `KRG` (predicts its first output); clusters `x < 6` and the rest. -/
def exWorld (conv : Bool) : World ℚ where
  registered := [("LS", true, false), ("KRG", true, true)]
  mixture := fun k _ => some (⟨0, fun r => if r.getD 0 0 < 6 then 0 else 1, 2, fun _ => 1 / 2, fun _ => true, fun _ _ _ => 1⟩, conv)
  trains := fun _ => true
  predict := fun e _ => if e.name = "LS" then (e.data.map (·.2)).sum / e.data.length else (e.data.map (·.2)).headD 0
  variance := fun _ _ => 0
  score := fun a b => (List.zipWith (fun x y => (x - y) ^ 2) a b).sum
  hfError := fun _ _ _ _ => 0

def exX : List (List ℚ) := (List.range 12).map fun (i : ℕ) => [(i : ℚ)]
def exY : Arr ℚ := .d1 ((List.range 12).map fun (i : ℕ) => (i : ℚ) ^ 2)

def exS : St ℚ := (St.new {}).setTraining (.d2 1 exX) exY

/-- Training succeeds, and the hypotheses of `C89_every_sample_used` hold. -/
theorem exS_ok : (train (exWorld true) exS).2 = .ok () := by decide +kernel

example : TrainingData exS (.d2 1 exX) exY ∧ (Arr.d2 1 exX).WF ∧ ¬ HasTest exS.opts := by
  refine ⟨Or.inl ⟨rfl, rfl⟩, ?_, by simp [HasTest, exS, St.new, St.setTraining]⟩
  intro r hr
  obtain ⟨i, -, rfl⟩ := List.mem_map.1 hr
  rfl

example : ((train (exWorld true) exS).1.experts.map fun e => (e.name, e.data.map fun p => p.1)) =
    [("KRG", [[0], [1], [2], [3], [4], [5]]), ("KRG", [[6], [7], [8], [9], [10], [11]])] := by decide +kernel

/-- The hypotheses of `C89_succeeds_iff` hold, and so does its right-hand side. -/
example : ∀ i < 2, ∃ p ∈ withoutEveryTenth (samplesOf exX exY), (if (p.1 ++ [p.2]).getD 0 0 < 6 then 0 else 1) = i := by
  have h := (C89_succeeds_iff (exWorld true) exS 1 exX exY ⟨0, fun r => if r.getD 0 0 < 6 then 0 else 1, 2, fun _ => 1 / 2, fun _ => true, fun _ _ _ => 1⟩
    (Or.inl ⟨rfl, rfl⟩) (by intro r hr; obtain ⟨i, -, rfl⟩ := List.mem_map.1 hr; rfl) trivial rfl rfl
    (by simp [HasTest, exS, St.new, St.setTraining]) (by decide +kernel) (fun _ => rfl) rfl (fun _ => rfl)
    (by intro r; show (if r.getD 0 0 < 6 then 0 else 1) < 2; split <;> norm_num)).1.1 exS_ok
  exact h.2.2

/-- With test data, the samples 0 and 6 (first of each cluster) are never trained on. -/
def exT : St ℚ := (St.new ({ xtest := some (.d2 1 [[1 / 2]]), ytest := some (.d1 [1 / 4]) } : Opts ℚ)).setTraining (.d2 1 exX) exY

example : (train (exWorld true) exT).2 = .ok () ∧ ((train (exWorld true) exT).1.experts.map fun e => e.data.map fun p => p.1) =
    [[[1], [2], [3], [4], [5]], [[7], [8], [9], [10], [11]]] := by decide +kernel

/-- After the successful training the prediction at 3 is not 0; a retraining whose clustering does not converge makes it 0. -/
example : predictValue (exWorld true) (train (exWorld true) exS).1 [3] = .ok 18 ∧
    (train (exWorld false) (train (exWorld true) exS).1).2 = .error .notConverged ∧
    predictValue (exWorld true) (train (exWorld false) (train (exWorld true) exS).1).1 [3] = .ok 0 := by decide +kernel

/-- Two outputs without test data. -/
example : (train (exWorld true) ((St.new {}).setTraining (.d2 1 exX) (.d2 2 (exX.map fun r => r ++ r)))).2 = .error .value := by decide +kernel

/-- The wrapper with an unnamed and a named group. -/
example : ((do
    let o ← (Wrap.new ({ nClusters := 1 } : Opts ℚ)).setTraining (.d2 1 exX) exY none
    let o ← o.setTraining (.d2 1 [[0], [1], [2]]) (.d1 [7, 8, 9]) (some "a")
    pure (((o.train (exWorld true)).1.moe.experts.map fun e => e.data.map (·.2)))) : Except Err _) = .ok [[7, 8, 9]] := by decide +kernel

end example_

end SMT.Moe.Train
