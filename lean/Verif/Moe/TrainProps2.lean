import Verif.Moe.TrainProps

/-!
# C89, continued: the theorems
-/
namespace SMT.Moe.Train
set_option linter.unusedSectionVars false
set_option linter.unusedSimpArgs false
set_option linter.unusedVariables false

variable {K : Type} [Field K] [LinearOrder K] [IsStrictOrderedRing K]

/-- The data `train` uses: that of `set_training_values` if it was called, otherwise the options `xt` and `yt`. -/
def TrainingData (s : St K) (x y : Arr K) : Prop :=
  (s.sxt = some x ∧ s.syt = some y) ∨ ((s.sxt = none ∨ s.syt = none) ∧ s.opts.xt = some x ∧ s.opts.yt = some y)

theorem chosenData_iff (s : St K) (x y : Arr K) : chosenData s = (some x, some y) ↔ TrainingData s x y := by
  unfold chosenData TrainingData
  cases hx : s.sxt <;> cases hy : s.syt <;> simp

/-- What every successful training has in common: the groups of the first clustering, and the expert chosen for each. -/
theorem ran_first {w : World K} {s s' : St K} {nx : ℕ} {xrows : List (List K)} {y c : Arr K} {m : Mix K} {test training : List (List K)} {s1 s2 s3 : St K}
    (r : Ran w s s' nx xrows y c m test training s1 s2 s3) :
    ∃ cl, clusterValues s.opts.nClusters (training.map (sample nx)) ((training.map (features1 nx)).map m.label) = some cl ∧ s3.opts = s.opts ∧ s3.nClusters = s.opts.nClusters ∧
      List.Forall₂ (fun c e => findBest w (enabledFor w s.opts) (limits nx xrows) c = .ok e) cl s3.experts := by
  obtain ⟨cl, -, h2, h3, h4⟩ := fitFirst_ok r.first
  obtain ⟨new, h5, h6⟩ := fitNew_ok _ _ _ h3
  obtain ⟨t1, t2, t3, -⟩ := tuneFactor_ok r.tune
  have e1 := r.st1
  obtain ⟨-, h7⟩ := clustered_ok h2
  have hn : s1.nClusters = s.opts.nClusters := by rw [e1]
  refine ⟨cl, by rw [hn] at h7; exact h7, ?_, ?_, ?_⟩
  · rw [t2, h4, e1]
  · rw [t3, h4, e1]
  · rw [t1, h5]
    have : s1.experts = [] := by rw [e1]
    rw [this, List.nil_append]
    exact h6

theorem forall₂_length {A B : Type} {R : A → B → Prop} {l : List A} {l' : List B} (h : List.Forall₂ R l l') : l.length = l'.length := h.length_eq

theorem zipWith_data : ∀ (cl : List (List (Sample K))) (es : List (Expert K)), cl.length = es.length →
    (List.zipWith (fun c e => Expert.retrain e c) cl es).map Expert.data = cl
  | [], [], _ => rfl
  | [], _ :: _, h => by simp at h
  | _ :: _, [], h => by simp at h
  | c :: cs, e :: es, h => by
    rw [List.zipWith_cons_cons, List.map_cons, zipWith_data cs es (by simpa using h)]
    simp [Expert.data, Expert.retrain]

theorem check_lengths {a b c k : ℕ} (h : checkInputs a b c k = true) : a = b ∧ b = c ∧ k ≤ a / 10 + 1 := (C47_check_inputs a b c k).1 h

/-- **C89** Without user test data, every training sample ends up with exactly one expert: after a successful `train`, there is one expert per cluster, each was last trained on the samples of its
cluster (in order, and at least one), and the experts' data together are exactly all the samples. The tenth set aside to choose the experts is thus not lost. -/
theorem C89_every_sample_used (w : World K) (s s' : St K) (nx : ℕ) (xrows : List (List K)) (y : Arr K) (hd : TrainingData s (.d2 nx xrows) y)
    (hx : (Arr.d2 nx xrows).WF) (ht : ¬ HasTest s.opts) (h : train w s = (s', .ok ())) :
    s'.experts.length = s.opts.nClusters ∧ ((s'.experts.map Expert.data).flatten).Perm (samplesOf xrows y) ∧
    ∃ label : ℕ → ℕ, ∀ i e, s'.experts[i]? = some e → e.data = groupOf label i (samplesOf xrows y) ∧ e.data ≠ [] := by
  obtain ⟨nx', xrows', y', c, m, test, training, s1, s2, s3, r⟩ := train_ok h
  have hd' := r.data
  rw [(chosenData_iff s _ _).2 hd] at hd'
  obtain ⟨⟨rfl, rfl⟩, rfl⟩ : (nx = nx' ∧ xrows = xrows') ∧ y = y' := by simpa using hd'
  obtain ⟨cl1, f1, f2, f3, f4⟩ := ran_first r
  rcases r.final with ⟨hc, -⟩ | ⟨-, hfin⟩
  · exact absurd hc ht
  obtain ⟨cl, -, g2, g3, g4⟩ := fitFinal_ok hfin
  obtain ⟨-, g5⟩ := clustered_ok g2
  rw [f3, hcat_sample nx xrows y.cols hx] at g5
  obtain ⟨q1, q2, q3, q4⟩ := cluster_groups g5
  have hlen : cl.length = s3.experts.length := by
    rw [q1, ← f4.length_eq, (cluster_groups f1).1]
  obtain ⟨a1, a2⟩ := fitAgain_ok cl _ _ hlen g3
  have hdata : s'.experts.map Expert.data = cl := by rw [a1]; exact zipWith_data cl _ hlen
  refine ⟨?_, ?_, ?_⟩
  · rw [← q1, ← hdata, List.length_map]
  · rw [hdata]
    exact ((C47_clusters_partition _ _ _).1 cl g5).2.1
  · refine ⟨fun j => ((hcat xrows c.cols).map m.label).getD j 0, fun i e he => ?_⟩
    have hi : i < s.opts.nClusters := by
      have := (List.getElem?_eq_some_iff.1 he).1
      rwa [← List.length_map (f := Expert.data), hdata, q1] at this
    have h1 : (s'.experts.map Expert.data)[i]? = some e.data := by rw [List.getElem?_map, he]; rfl
    rw [hdata] at h1
    refine ⟨?_, a2 _ (List.mem_of_getElem? h1)⟩
    rw [q4 i hi] at h1
    exact (Option.some.inj h1).symm

/-- **C89** With user test data, the experts are trained once and never see every tenth sample of their cluster: the data of the `i`th expert is its cluster without the samples number 0, 10, 20, … of the
cluster, although separate test data was given. The test data itself is never trained on. -/
theorem C89_test_data_costs_a_tenth (w : World K) (s s' : St K) (nx : ℕ) (xrows : List (List K)) (y : Arr K) (hd : TrainingData s (.d2 nx xrows) y)
    (hx : (Arr.d2 nx xrows).WF) (hy : y.WF) (hy1 : 1 ≤ y.ncol) (ht : HasTest s.opts) (h : train w s = (s', .ok ())) :
    s'.experts.length = s.opts.nClusters ∧
    ∃ label : ℕ → ℕ, (((List.range s.opts.nClusters).map fun i => groupOf label i (samplesOf xrows y)).flatten).Perm (samplesOf xrows y) ∧
      ∀ i e, s'.experts[i]? = some e → e.hist = [withoutEveryTenth (groupOf label i (samplesOf xrows y))] := by
  obtain ⟨nx', xrows', y', c, m, test, training, s1, s2, s3, r⟩ := train_ok h
  have hd' := r.data
  rw [(chosenData_iff s _ _).2 hd] at hd'
  obtain ⟨⟨rfl, rfl⟩, rfl⟩ : (nx = nx' ∧ xrows = xrows') ∧ y = y' := by simpa using hd'
  obtain ⟨cl, f1, f2, f3, f4⟩ := ran_first r
  rcases r.final with ⟨-, rfl⟩ | ⟨hc, -⟩
  swap
  · exact absurd ht hc
  obtain ⟨l1, l2, -⟩ := check_lengths r.chk
  have htr : training = hcat (hcat xrows y.cols) c.cols := by
    have hp := r.parts
    unfold testTraining at hp
    obtain ⟨t1, t2⟩ := ht
    obtain ⟨xs, hxs⟩ := Option.isSome_iff_exists.1 t1
    obtain ⟨ys, hys⟩ := Option.isSome_iff_exists.1 t2
    rw [hxs, hys] at hp
    simp only at hp
    split at hp
    · simp only [Except.ok.injEq, Prod.mk.injEq] at hp; exact hp.2.symm
    · cases hp
  have hs : training.map (sample nx) = samplesOf xrows y := by
    rw [htr]
    exact hcat3_sample nx xrows y.cols c.cols hx (Arr.cols_ne_nil hy hy1) (by rw [Arr.cols_length, l1]) (by rw [Arr.cols_length, Arr.cols_length, l2])
  rw [hs] at f1
  obtain ⟨q1, q2, q3, q4⟩ := cluster_groups f1
  refine ⟨by rw [← f4.length_eq, q1], fun j => ((training.map (features1 nx)).map m.label).getD j 0, ?_, ?_⟩
  · have e : ((List.range s.opts.nClusters).map fun i => groupOf (fun j => ((training.map (features1 nx)).map m.label).getD j 0) i (samplesOf xrows y)) = cl := by
      apply List.ext_getElem?
      intro i
      by_cases hi : i < s.opts.nClusters
      · rw [q4 i hi]; simp [hi]
      · rw [List.getElem?_eq_none (by simp; omega), List.getElem?_eq_none (by omega)]
    rw [e]
    exact ((C47_clusters_partition _ _ _).1 cl f1).2.1
  · intro i e he
    have hi : i < s.opts.nClusters := by
      have := (List.getElem?_eq_some_iff.1 he).1
      rwa [← f4.length_eq, q1] at this
    obtain ⟨b, hb, hfb⟩ := forall₂_getElem? f4 i _ (q4 i hi)
    have hbe : b = e := Option.some.inj (hb.symm.trans he)
    subst hbe
    obtain ⟨-, -, n, -, e1, -⟩ := findBest_ok hfb
    rw [e1, candidate, extract_eq]

/-- **C89 (violation)** Without user test data, training on two or more outputs never succeeds: the mixture is fitted on `nx + 2 ny - 1` columns and asked to classify rows of `nx + ny`. -/
theorem C89_several_outputs_need_test_data (w : World K) (s : St K) (nx : ℕ) (xrows : List (List K)) (y : Arr K) (hd : TrainingData s (.d2 nx xrows) y)
    (hy : 2 ≤ y.ncol) (ht : ¬ HasTest s.opts) : (train w s).2 ≠ .ok () := by
  intro hok
  have h : train w s = ((train w s).1, .ok ()) := Prod.ext rfl hok
  obtain ⟨nx', xrows', y', c, m, test, training, s1, s2, s3, r⟩ := train_ok h
  have hd' := r.data
  rw [(chosenData_iff s _ _).2 hd] at hd'
  obtain ⟨⟨rfl, rfl⟩, rfl⟩ : (nx = nx' ∧ xrows = xrows') ∧ y = y' := by simpa using hd'
  rcases r.final with ⟨hc, -⟩ | ⟨-, hfin⟩
  · exact absurd hc ht
  obtain ⟨cl, -, g2, -⟩ := fitFinal_ok hfin
  obtain ⟨g3, -⟩ := clustered_ok g2
  simp only at g3
  omega

/-- Entries number 0, 10, 20, … of a list. -/
def everyTenth {S : Type} (l : List S) : List S := (l.zipIdx.filter fun p => p.2 % 10 == 0).map (·.1)

theorem withoutEveryTenth_map {S T : Type} (f : S → T) (l : List S) : (withoutEveryTenth l).map f = withoutEveryTenth (l.map f) := by
  unfold withoutEveryTenth
  rw [List.zipIdx_map, List.filter_map, List.map_map, List.map_map]
  congr 1

/-- The classes are compared on the samples left for that: all of them if test data was given, otherwise those not set aside. -/
noncomputable def pool (o : Opts K) (samples : List (Sample K)) : List (Sample K) :=
  open Classical in if HasTest o then samples else withoutEveryTenth samples

theorem training_pool {w : World K} {s s' : St K} {nx : ℕ} {xrows : List (List K)} {y c : Arr K} {m : Mix K} {test training : List (List K)} {s1 s2 s3 : St K}
    (r : Ran w s s' nx xrows y c m test training s1 s2 s3) (hx : (Arr.d2 nx xrows).WF) (hy : y.WF) (hy1 : 1 ≤ y.ncol) :
    training.map (sample nx) = pool s.opts (samplesOf xrows y) := by
  obtain ⟨l1, l2, -⟩ := check_lengths r.chk
  have hs : (hcat (hcat xrows y.cols) c.cols).map (sample nx) = samplesOf xrows y :=
    hcat3_sample nx xrows y.cols c.cols hx (Arr.cols_ne_nil hy hy1) (by rw [Arr.cols_length, l1]) (by rw [Arr.cols_length, Arr.cols_length, l2])
  have hp := r.parts
  unfold testTraining at hp
  split at hp
  · rename_i xs ys hxs hys
    split at hp
    · simp only [Except.ok.injEq, Prod.mk.injEq] at hp
      rw [← hp.2, hs, pool, if_pos]
      exact ⟨by rw [hxs]; rfl, by rw [hys]; rfl⟩
    · cases hp
  · rename_i hno
    simp only [Except.ok.injEq] at hp
    have : training = withoutEveryTenth (hcat (hcat xrows y.cols) c.cols) := by rw [← extract_eq, hp]
    rw [this, withoutEveryTenth_map, hs, pool, if_neg]
    rintro ⟨h1, h2⟩
    obtain ⟨xs, hxs⟩ := Option.isSome_iff_exists.1 h1
    obtain ⟨ys, hys⟩ := Option.isSome_iff_exists.1 h2
    exact hno xs ys hxs hys

/-- The final experts are those of the first fit, possibly trained once more. -/
theorem ran_last {w : World K} {s s' : St K} {nx : ℕ} {xrows : List (List K)} {y c : Arr K} {m : Mix K} {test training : List (List K)} {s1 s2 s3 : St K}
    (r : Ran w s s' nx xrows y c m test training s1 s2 s3) (i : ℕ) (e : Expert K) (he : s'.experts[i]? = some e) :
    ∃ e0, s3.experts[i]? = some e0 ∧ e.name = e0.name ∧ e.xlimits = e0.xlimits ∧ (e.hist = e0.hist ∨ ∃ d, e.hist = e0.hist ++ [d]) := by
  obtain ⟨cl, f1, f2, f3, f4⟩ := ran_first r
  rcases r.final with ⟨-, rfl⟩ | ⟨-, hfin⟩
  · exact ⟨e, he, rfl, rfl, Or.inl rfl⟩
  · obtain ⟨cl', -, g2, g3, -⟩ := fitFinal_ok hfin
    obtain ⟨-, g5⟩ := clustered_ok g2
    rw [f3] at g5
    have hlen : cl'.length = s3.experts.length := by
      rw [(cluster_groups g5).1, ← f4.length_eq, (cluster_groups f1).1]
    obtain ⟨a1, -⟩ := fitAgain_ok cl' _ _ hlen g3
    rw [a1, List.getElem?_zipWith] at he
    split at he
    · rename_i c' e' h1 h2
      simp only [Option.some.injEq] at he
      rw [← he]
      exact ⟨e', h2, rfl, rfl, Or.inr ⟨c', rfl⟩⟩
    · simp at he

/-- **C89** The class of each expert is the best of the enabled ones on its cluster: it was first trained on the cluster without every tenth sample, and its score on those tenth samples is least among
all the enabled classes trained in the same way. -/
theorem C89_best_class_per_cluster (w : World K) (s s' : St K) (nx : ℕ) (xrows : List (List K)) (y : Arr K) (hd : TrainingData s (.d2 nx xrows) y)
    (hx : (Arr.d2 nx xrows).WF) (hy : y.WF) (hy1 : 1 ≤ y.ncol) (h : train w s = (s', .ok ())) :
    ∃ (label : ℕ → ℕ) (xl : List (K × K)), ∀ i e, s'.experts[i]? = some e →
      let group := groupOf label i (pool s.opts (samplesOf xrows y))
      let fresh := fun name => (⟨name, if name = "RMTB" ∨ name = "RMTC" then some xl else none, [withoutEveryTenth group]⟩ : Expert K)
      let score := fun name => w.score ((everyTenth group).map (·.2)) ((everyTenth group).map fun p => w.predict (fresh name) p.1)
      e.name ∈ enabledFor w s.opts ∧ e.hist.head? = some (withoutEveryTenth group) ∧ group ≠ [] ∧
        ∀ n ∈ enabledFor w s.opts, score e.name ≤ score n := by
  obtain ⟨nx', xrows', y', c, m, test, training, s1, s2, s3, r⟩ := train_ok h
  have hd' := r.data
  rw [(chosenData_iff s _ _).2 hd] at hd'
  obtain ⟨⟨rfl, rfl⟩, rfl⟩ : (nx = nx' ∧ xrows = xrows') ∧ y = y' := by simpa using hd'
  obtain ⟨cl, f1, f2, f3, f4⟩ := ran_first r
  rw [training_pool r hx hy hy1] at f1
  obtain ⟨q1, q2, q3, q4⟩ := cluster_groups f1
  refine ⟨fun j => ((training.map (features1 nx)).map m.label).getD j 0, limits nx xrows, fun i e he => ?_⟩
  obtain ⟨e0, he0, n1, n2, n3⟩ := ran_last r i e he
  have hi : i < s.opts.nClusters := by
    have := (List.getElem?_eq_some_iff.1 he0).1
    rwa [← f4.length_eq, q1] at this
  obtain ⟨b, hb, hfb⟩ := forall₂_getElem? f4 i _ (q4 i hi)
  have hbe : b = e0 := Option.some.inj (hb.symm.trans he0)
  subst hbe
  obtain ⟨hne, -, n, hn, e1, hle⟩ := findBest_ok hfb
  have e1n : b.name = n := by rw [e1]; rfl
  have ex1 : ∀ l : List (Sample K), (extractPart l 10).1 = everyTenth l := fun l => extract_fst l 10
  simp only [ex1, extract_eq] at hle e1
  simp only
  rw [n1, e1n]
  refine ⟨hn, ?_, hne, fun n' hn' => ?_⟩
  · rcases n3 with n3 | ⟨d, n3⟩
    · rw [n3, e1]; rfl
    · rw [n3, e1]; rfl
  · have := hle n' hn'
    rw [e1] at this
    exact this

theorem foldl_min_le : ∀ (l : List K) (a : K), l.foldl min a ≤ a ∧ (∀ b ∈ l, l.foldl min a ≤ b) ∧ (l.foldl min a = a ∨ l.foldl min a ∈ l)
  | [], a => by simp
  | b :: l, a => by
    obtain ⟨h1, h2, h3⟩ := foldl_min_le l (min a b)
    simp only [List.foldl_cons, List.forall_mem_cons]
    refine ⟨h1.trans (min_le_left _ _), ⟨h1.trans (min_le_right _ _), h2⟩, ?_⟩
    rcases h3 with h3 | h3
    · rw [h3]
      rcases min_choice a b with h | h <;> simp [h]
    · simp [h3]

theorem foldl_max_le : ∀ (l : List K) (a : K), a ≤ l.foldl max a ∧ (∀ b ∈ l, b ≤ l.foldl max a) ∧ (l.foldl max a = a ∨ l.foldl max a ∈ l)
  | [], a => by simp
  | b :: l, a => by
    obtain ⟨h1, h2, h3⟩ := foldl_max_le l (max a b)
    simp only [List.foldl_cons, List.forall_mem_cons]
    refine ⟨(le_max_left _ _).trans h1, ⟨(le_max_right _ _).trans h1, h2⟩, ?_⟩
    rcases h3 with h3 | h3
    · rw [h3]
      rcases max_choice a b with h | h <;> simp [h]
    · simp [h3]

/-- **C89** The classes an expert may have after training: one of the nine listed in the code, allowed (if `allow` is given) and not denied, registered, with derivatives if `derivatives_support` is asked for
and with variances if `variances_support` is. Conversely every such class is tried (`C89_best_class_per_cluster`). -/
theorem C89_admissible_classes (w : World K) (o : Opts K) (n : String) :
    n ∈ enabledFor w o ↔ n ∈ ["KRG", "KPLS", "KPLSK", "LS", "QP", "RBF", "IDW", "RMTB", "RMTC"] ∧ (o.allow = [] ∨ n ∈ o.allow) ∧ n ∉ o.deny ∧
      ∃ hasDerivatives hasVariances, (n, hasDerivatives, hasVariances) ∈ w.registered ∧ (o.derivs = true → hasDerivatives = true) ∧ (o.vars = true → hasVariances = true) :=
  C60_enabled _ _ _ _ _ _ _

/-- **C89** A spline expert (RMTB, RMTC) is built on the bounding box of all training inputs, not only those of its cluster: its `xlimits` has one pair per input, the least and the largest value. So its retraining on any
samples of the data stays inside its domain. -/
theorem C89_spline_experts_cover_all_data (w : World K) (s s' : St K) (nx : ℕ) (xrows : List (List K)) (y : Arr K) (hd : TrainingData s (.d2 nx xrows) y)
    (h : train w s = (s', .ok ())) :
    ∀ e ∈ s'.experts, ((e.name = "RMTB" ∨ e.name = "RMTC") ↔ e.xlimits.isSome) ∧ ∀ xl, e.xlimits = some xl → xl.length = nx ∧ ∀ d lo hi, xl[d]? = some (lo, hi) →
      (∀ r ∈ xrows, lo ≤ r.getD d 0 ∧ r.getD d 0 ≤ hi) ∧ (xrows ≠ [] → (∃ r ∈ xrows, r.getD d 0 = lo) ∧ ∃ r ∈ xrows, r.getD d 0 = hi) := by
  obtain ⟨nx', xrows', y', c, m, test, training, s1, s2, s3, r⟩ := train_ok h
  have hd' := r.data
  rw [(chosenData_iff s _ _).2 hd] at hd'
  obtain ⟨⟨rfl, rfl⟩, rfl⟩ : (nx = nx' ∧ xrows = xrows') ∧ y = y' := by simpa using hd'
  obtain ⟨cl, f1, f2, f3, f4⟩ := ran_first r
  intro e he
  obtain ⟨i, hi⟩ := List.getElem?_of_mem he
  obtain ⟨e0, he0, n1, n2, -⟩ := ran_last r i e hi
  obtain ⟨g, hg, hfg⟩ := forall₂_getElem? (List.Forall₂.flip f4) i e0 he0
  obtain ⟨-, -, n, hn, e1, -⟩ := findBest_ok hfg
  rw [n1, n2, e1]
  unfold candidate
  refine ⟨by simp only; split <;> simp_all, fun xl hxl => ?_⟩
  simp only at hxl
  split at hxl
  · cases hxl
    refine ⟨by simp [limits], fun d lo hi' hdl => ?_⟩
    unfold limits at hdl
    rw [List.getElem?_map] at hdl
    by_cases hdn : d < nx
    · rw [List.getElem?_range hdn] at hdl
      simp only [Option.map_some, Option.some.injEq] at hdl
      cases xrows with
      | nil => simp
      | cons r0 rs =>
        simp only [List.map_cons, Prod.mk.injEq] at hdl
        obtain ⟨rfl, rfl⟩ := hdl
        obtain ⟨a1, a2, a3⟩ := foldl_min_le (rs.map fun r => r.getD d 0) (r0.getD d 0)
        obtain ⟨b1, b2, b3⟩ := foldl_max_le (rs.map fun r => r.getD d 0) (r0.getD d 0)
        refine ⟨fun q hq => ?_, fun _ => ⟨?_, ?_⟩⟩
        · rcases List.mem_cons.1 hq with rfl | hq
          · exact ⟨a1, b1⟩
          · exact ⟨a2 _ (List.mem_map.2 ⟨q, hq, rfl⟩), b2 _ (List.mem_map.2 ⟨q, hq, rfl⟩)⟩
        · rcases a3 with a3 | a3
          · exact ⟨r0, by simp, a3.symm⟩
          · obtain ⟨q, hq, e⟩ := List.mem_map.1 a3
            exact ⟨q, by simp [hq], e⟩
        · rcases b3 with b3 | b3
          · exact ⟨r0, by simp, b3.symm⟩
          · obtain ⟨q, hq, e⟩ := List.mem_map.1 b3
            exact ⟨q, by simp [hq], e⟩
    · rw [List.getElem?_eq_none (by simpa using hdn)] at hdl
      simp at hdl
  · cases hxl

end SMT.Moe.Train
