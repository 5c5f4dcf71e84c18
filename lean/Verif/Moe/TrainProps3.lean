import Verif.Moe.TrainProps2

/-!
# C89, continued: when training succeeds, what failures leave behind, retraining, and the wrapper
-/
namespace SMT.Moe.Train
set_option linter.unusedSectionVars false
set_option linter.unusedSimpArgs false
set_option linter.unusedVariables false

variable {K : Type} [Field K] [LinearOrder K] [IsStrictOrderedRing K]

/-! ## When training succeeds -/

theorem findBest_total (w : World K) (en : List String) (xl : List (K × K)) (c : List (Sample K)) (hen : en ≠ []) (ht : ∀ e, w.trains e = true) :
    (c = [] → findBest w en xl c = .error .index) ∧ (c ≠ [] → ∃ e, findBest w en xl c = .ok e) := by
  unfold findBest
  simp only [hen, if_false]
  refine ⟨fun h => by simp [h], fun h => ?_⟩
  simp only [h, if_false, ht, List.all_eq_true, implies_true, if_true]
  have h1 := (C60_best_has_least_score (en.map fun n => (n, w.score ((extractPart c 10).1.map (·.2))
    ((extractPart c 10).1.map fun s => w.predict (candidate xl (extractPart c 10).2 n) s.1)))).1
  split
  · rename_i h2
    exact absurd (h1.2 h2) (by simpa using hen)
  · exact ⟨_, rfl⟩

theorem fitNew_total (w : World K) (en : List String) (xl : List (K × K)) (hen : en ≠ []) (ht : ∀ e, w.trains e = true) :
    ∀ (cs : List (List (Sample K))) (done : List (Expert K)),
      ((∀ c ∈ cs, c ≠ []) → (fitNew w en xl cs done).2 = .ok ()) ∧ ((∃ c ∈ cs, c = []) → (fitNew w en xl cs done).2 = .error .index)
  | [], done => by simp [fitNew]
  | c :: cs, done => by
    obtain ⟨h1, h2⟩ := findBest_total w en xl c hen ht
    by_cases hc : c = []
    · refine ⟨fun h => absurd hc (h c (by simp)), fun _ => ?_⟩
      unfold fitNew
      rw [h1 hc]
    · obtain ⟨e, he⟩ := h2 hc
      obtain ⟨i1, i2⟩ := fitNew_total w en xl hen ht cs (done ++ [e])
      unfold fitNew
      rw [he]
      refine ⟨fun h => i1 fun c' hc' => h c' (by simp [hc']), fun ⟨c', hc', e'⟩ => i2 ?_⟩
      rcases List.mem_cons.1 hc' with rfl | hc'
      · exact absurd e' hc
      · exact ⟨c', hc', e'⟩

theorem fitAgain_total (w : World K) (ht : ∀ e, w.trains e = true) : ∀ (cs : List (List (Sample K))) (es : List (Expert K)), cs.length = es.length →
    (∀ c ∈ cs, c ≠ []) → (fitAgain w cs es).2 = .ok ()
  | [], es, _, _ => by simp [fitAgain]
  | _ :: _, [], h, _ => by simp at h
  | c :: cs, e :: es, hl, h => by
    unfold fitAgain
    simp only [h c (by simp), if_false, ht, if_true]
    exact fitAgain_total w ht cs es (by simpa using hl) fun c' hc' => h c' (by simp [hc'])

theorem single_cols {a : Arr K} (h : a.WF) (h1 : a.ncol = 1) : a.cols = (a.cols.map fun r => [r.getD 0 0]) := by
  conv_lhs => rw [← List.map_id a.cols]
  apply List.map_congr_left
  intro r hr
  have hl : r.length = 1 := by
    cases a with
    | d1 v => simp [Arr.cols] at hr; obtain ⟨b, -, rfl⟩ := hr; rfl
    | d2 n rows => simp only [Arr.ncol] at h1; rw [h r hr, h1]
  obtain ⟨b, rfl⟩ := List.length_eq_one_iff.1 hl
  rfl

theorem hcat3_features (nx : ℕ) : ∀ (xrows : List (List K)) (vs : List K), (∀ r ∈ xrows, r.length = nx) →
    (hcat (hcat xrows (vs.map fun v => [v])) (vs.map fun v => [v])).map (features1 nx) = List.zipWith (fun x v => x ++ [v]) xrows vs
  | [], _, _ => by simp [hcat]
  | _ :: _, [], _ => by simp [hcat]
  | x :: xs, v :: vs, h => by
    have hx : x.length = nx := h x (by simp)
    have ih := hcat3_features nx xs vs fun r hr => h r (by simp [hr])
    simp only [hcat, List.map_cons, List.zipWith_cons_cons, List.cons.injEq] at ih ⊢
    refine ⟨?_, ih⟩
    unfold features1
    subst hx
    simp

theorem hcat2_features : ∀ (xrows : List (List K)) (vs : List K), hcat xrows (vs.map fun v => [v]) = List.zipWith (fun x v => x ++ [v]) xrows vs
  | [], _ => by simp [hcat]
  | _ :: _, [] => by simp [hcat]
  | x :: xs, v :: vs => by
    have ih := hcat2_features xs vs
    simp only [hcat, List.map_cons, List.zipWith_cons_cons, List.cons.injEq] at ih ⊢
    exact ⟨trivial, ih⟩

/-- The row a sample is classified by. -/
def Sample.row (p : Sample K) : List K := p.1 ++ [p.2]

theorem samples_rows (xrows : List (List K)) (y : Arr K) : (samplesOf xrows y).map Sample.row = List.zipWith (fun x v => x ++ [v]) xrows (y.cols.map fun r => r.getD 0 0) := by
  unfold samplesOf
  rw [List.map_zipWith, List.zipWith_map_right]
  rfl

theorem group_ne_nil {S : Type} (f : S → ℕ) (l : List S) (i : ℕ) : groupOf (fun j => (l.map f).getD j 0) i l ≠ [] ↔ ∃ p ∈ l, f p = i := by
  unfold groupOf
  rw [Ne, List.map_eq_nil_iff, List.filter_eq_nil_iff]
  push Not
  constructor
  · rintro ⟨p, hp, h⟩
    have hp' := List.mem_zipIdx hp
    refine ⟨p.1, ?_, ?_⟩
    · rw [hp'.2.2]; exact List.getElem_mem _
    · have := hp'.2.2
      have hlt : p.2 < l.length := by simpa using hp'.2.1
      rw [List.getD_eq_getElem?_getD, List.getElem?_map] at h
      simp only [Nat.sub_zero] at this
      rw [this]
      simpa [List.getElem?_eq_getElem hlt] using h
  · rintro ⟨p, hp, h⟩
    obtain ⟨j, hj, rfl⟩ := List.getElem_of_mem hp
    refine ⟨(l[j], j), ?_, ?_⟩
    · rw [List.mem_zipIdx_iff_getElem?]; simp [hj]
    · simp [List.getD_eq_getElem?_getD, hj, h]

theorem clusters_nonempty {S : Type} {k : ℕ} (f : S → ℕ) {l : List S} {cl : List (List S)} (h : clusterValues k l (l.map f) = some cl) :
    (∀ c ∈ cl, c ≠ []) ↔ ∀ i < k, ∃ p ∈ l, f p = i := by
  obtain ⟨q1, -, -, q4⟩ := cluster_groups h
  constructor
  · intro hc i hi
    exact (group_ne_nil f l i).1 (hc _ (List.mem_of_getElem? (q4 i hi)))
  · intro hi c hc
    obtain ⟨i, hci⟩ := List.getElem?_of_mem hc
    have hik : i < k := by rw [← q1]; exact (List.getElem?_eq_some_iff.1 hci).1
    rw [q4 i hik] at hci
    cases hci
    exact (group_ne_nil f l i).2 (hi i hik)

theorem clustered_total {m : Mix K} {k ncol : ℕ} (feats : List (List K)) (samples : List (Sample K)) (hn : ncol = m.nfeat) (hl : feats.length = samples.length)
    (hlab : ∀ r, m.label r < k) : ∃ cl, clustered m k ncol feats samples = .ok cl := by
  have := (C47_clusters_partition k samples (feats.map m.label)).2.2 ⟨by simp [hl], by
    intro l hm; obtain ⟨r, -, rfl⟩ := List.mem_map.1 hm; exact hlab r⟩
  obtain ⟨cl, hcl⟩ := Option.isSome_iff_exists.1 this
  exact ⟨cl, by unfold clustered; simp [hn, hcl]⟩

theorem tuneFactor_total (w : World K) (s : St K) (m : Mix K) (test : List (Sample K)) (hd : ∀ h, m.distOk h = true) : ∃ s', tuneFactor w s m test = .ok s' := by
  unfold tuneFactor St.redistribute
  split <;> simp [hd]

/-- **C89** With one output and no test data, and if nothing external fails (the mixture is fitted and converges, covariances are accepted, every expert trains, some class is enabled), training succeeds
exactly when the row numbers agree, there are at most `⌊n / 10⌋ + 1` clusters, and every cluster contains a sample that is not one of the samples number 0, 10, 20, … In particular the final refit never
fails on its own. If only the last condition fails, the exception is an `IndexError`. -/
theorem C89_succeeds_iff (w : World K) (s : St K) (nx : ℕ) (xrows : List (List K)) (y : Arr K) (m : Mix K) (hd : TrainingData s (.d2 nx xrows) y)
    (hx : (Arr.d2 nx xrows).WF) (hy : y.WF) (hy1 : y.ncol = 1) (hct : s.opts.ct = none) (ht : ¬ HasTest s.opts) (hen : enabledFor w s.opts ≠ [])
    (htr : ∀ e, w.trains e = true)
    (hmix : w.mixture s.opts.nClusters ((withoutEveryTenth (samplesOf xrows y)).map fun p => p.1 ++ [p.2]) = some (m, true))
    (hdist : ∀ h, m.distOk h = true) (hlab : ∀ r, m.label r < s.opts.nClusters) :
    ((train w s).2 = .ok () ↔ xrows.length = y.nrow ∧ s.opts.nClusters ≤ xrows.length / 10 + 1 ∧
      ∀ i < s.opts.nClusters, ∃ p ∈ withoutEveryTenth (samplesOf xrows y), m.label (p.1 ++ [p.2]) = i) ∧
    (xrows.length = y.nrow → s.opts.nClusters ≤ xrows.length / 10 + 1 →
      (¬ ∀ i < s.opts.nClusters, ∃ p ∈ withoutEveryTenth (samplesOf xrows y), m.label (p.1 ++ [p.2]) = i) → (train w s).2 = .error .index) := by
  have hcd := (chosenData_iff s _ _).2 hd
  by_cases hlen : xrows.length = y.nrow ∧ s.opts.nClusters ≤ xrows.length / 10 + 1
  swap
  · refine ⟨⟨fun h => ?_, fun h => absurd ⟨h.1, h.2.1⟩ hlen⟩, fun h1 h2 => absurd ⟨h1, h2⟩ hlen⟩
    have h' : train w s = ((train w s).1, .ok ()) := Prod.ext rfl h
    obtain ⟨nx', xrows', y', c, m', test, training, s1, s2, s3, r⟩ := train_ok h'
    have hd' := r.data
    rw [hcd] at hd'
    obtain ⟨⟨rfl, rfl⟩, rfl⟩ : (nx = nx' ∧ xrows = xrows') ∧ y = y' := by simpa using hd'
    obtain ⟨a, -, b⟩ := check_lengths r.chk
    exact absurd ⟨a, b⟩ hlen
  obtain ⟨hl1, hl2⟩ := hlen
  have hchk : checkInputs (Arr.d2 nx xrows).nrow y.nrow y.nrow s.opts.nClusters = true := (C47_check_inputs _ _ _ _).2 ⟨hl1, rfl, hl2⟩
  -- the rows
  have hcols := single_cols hy hy1
  set vs := y.cols.map fun r => r.getD 0 0 with hvs
  have hcols' : y.cols = vs.map fun v => [v] := by rw [hvs, List.map_map]; exact hcols
  set values := hcat (hcat xrows y.cols) y.cols with hvals
  have hlc : xrows.length = y.cols.length := by rw [Arr.cols_length, hl1]
  have hsamp : values.map (sample nx) = samplesOf xrows y := hcat3_sample nx xrows y.cols y.cols hx (Arr.cols_ne_nil hy (by omega)) hlc rfl
  have hfeat : values.map (features1 nx) = (samplesOf xrows y).map Sample.row := by
    rw [samples_rows, hvals, ← hvs, hcols']
    exact hcat3_features nx xrows vs hx
  have hsamp' : (withoutEveryTenth values).map (sample nx) = withoutEveryTenth (samplesOf xrows y) := by rw [withoutEveryTenth_map, hsamp]
  have hfeat' : (withoutEveryTenth values).map (features1 nx) = (withoutEveryTenth (samplesOf xrows y)).map Sample.row := by
    rw [withoutEveryTenth_map, hfeat, ← withoutEveryTenth_map]
  have hfinF : hcat xrows y.cols = (samplesOf xrows y).map Sample.row := by
    rw [samples_rows, ← hvs, hcols']; exact hcat2_features xrows vs
  have hfinS : (hcat xrows y.cols).map (sample nx) = samplesOf xrows y := hcat_sample nx xrows y.cols hx
  -- the run
  set M : Mix K := { m with nfeat := nx + (y.ncol + y.ncol - 1) } with hM
  have hMn : nx + (y.ncol + y.ncol - 1) = M.nfeat := rfl
  set s1 : St K := { s with nClusters := s.opts.nClusters, smooth := s.opts.smooth, factor := 1, experts := [], mix := some M } with hs1
  obtain ⟨cl, hcl⟩ := clustered_total (m := M) (k := s.opts.nClusters) ((withoutEveryTenth values).map (features1 nx)) ((withoutEveryTenth values).map (sample nx)) hMn
    (by simp) hlab
  have hcl' := (clustered_ok hcl).2
  rw [hsamp', hfeat', List.map_map] at hcl'
  have hcov := clusters_nonempty (fun p : Sample K => m.label (p.1 ++ [p.2])) hcl'
  have hft : fitFirst w s1 M nx (nx + (y.ncol + y.ncol - 1)) (enabledFor w s.opts) (limits nx xrows) (withoutEveryTenth values) =
      ({ s1 with dist := some (M, 1), experts := (fitNew w (enabledFor w s.opts) (limits nx xrows) cl []).1 }, (fitNew w (enabledFor w s.opts) (limits nx xrows) cl []).2) := by
    have e1 : s1.redistribute M = .ok { s1 with dist := some (M, 1) } := by
      unfold St.redistribute
      have : M.distOk s1.factor = true := hdist _
      rw [if_pos this]
    have e2 : clustered M s1.nClusters (nx + (y.ncol + y.ncol - 1)) ((withoutEveryTenth values).map (features1 nx)) ((withoutEveryTenth values).map (sample nx)) = .ok cl := hcl
    unfold fitFirst
    rw [e1]
    simp only [e2]
    rfl
  have hparts : testTraining s.opts values = .ok (everyTenth values, withoutEveryTenth values) := by
    have e0 : extractPart values 10 = (everyTenth values, withoutEveryTenth values) := Prod.ext (extract_fst values 10) (extract_eq values)
    unfold testTraining
    split
    · rename_i xs ys h1 h2
      exact absurd ⟨by rw [h1]; rfl, by rw [h2]; rfl⟩ ht
    · rw [e0]
  have htrain : train w s = match fitFirst w s1 M nx (nx + (y.ncol + y.ncol - 1)) (enabledFor w s.opts) (limits nx xrows) (withoutEveryTenth values) with
      | (s, .error e) => (s, .error e)
      | (s, .ok ()) =>
        match tuneFactor w s M ((everyTenth values).map (sample nx)) with
        | .error e => (s, .error e)
        | .ok s => if s.opts.xtest.isSome && s.opts.ytest.isSome then (s, .ok ()) else fitFinal w s M nx xrows y y := by
    unfold train
    simp only [hcd, hct, chosenCriterion, checked, hchk, if_true]
    unfold trainChecked
    have e3 : w.mixture s.opts.nClusters ((withoutEveryTenth values).map (features1 nx)) = some (m, true) := by rw [hfeat']; exact hmix
    have e4 : testTraining s.opts (hcat (hcat (Arr.d2 nx xrows).cols y.cols) y.cols) = .ok (everyTenth values, withoutEveryTenth values) := hparts
    simp only [e4, e3]
    rfl
  obtain ⟨ft1, ft2⟩ := fitNew_total w (enabledFor w s.opts) (limits nx xrows) hen htr cl []
  refine ⟨⟨fun h => ⟨hl1, hl2, ?_⟩, fun ⟨_, _, h⟩ => ?_⟩, fun _ _ h => ?_⟩
  · by_contra hc
    have : ∃ c ∈ cl, c = [] := by
      by_contra hno
      push Not at hno
      exact hc (hcov.1 hno)
    have h2 := ft2 this
    rw [htrain, hft] at h
    simp only [h2] at h
    cases h
  · have h2 := ft1 (hcov.2 h)
    rw [htrain, hft]
    simp only [h2]
    obtain ⟨s3, hs3⟩ := tuneFactor_total w { s1 with dist := some (M, 1), experts := (fitNew w (enabledFor w s.opts) (limits nx xrows) cl []).1 } M
      ((everyTenth values).map (sample nx)) hdist
    obtain ⟨t1, t2, t3, -⟩ := tuneFactor_ok hs3
    rw [hs3]
    have ho : s3.opts = s.opts := t2
    have hnt : (s3.opts.xtest.isSome && s3.opts.ytest.isSome) = false := by
      rw [ho]
      by_contra hc
      rw [Bool.not_eq_false, Bool.and_eq_true] at hc
      exact ht hc
    simp only [hnt]
    rw [if_neg (by simp)]
    unfold fitFinal
    have e1 : s3.redistribute M = .ok { s3 with dist := some (M, s3.factor) } := by
      unfold St.redistribute
      have : M.distOk s3.factor = true := hdist _
      rw [if_pos this]
    rw [e1]
    simp only
    have hk : s3.nClusters = s.opts.nClusters := t3
    obtain ⟨cl2, hcl2⟩ := clustered_total (m := M) (k := s.opts.nClusters) (ncol := nx + y.ncol) (hcat xrows y.cols) ((hcat xrows y.cols).map (sample nx)) (by rw [← hMn, hy1])
      (by simp) hlab
    rw [hk, hcl2]
    simp only
    have hcl2' := (clustered_ok hcl2).2
    rw [hfinS, hfinF, List.map_map] at hcl2'
    have hcov2 := clusters_nonempty (fun p : Sample K => m.label (p.1 ++ [p.2])) hcl2'
    apply fitAgain_total w htr
    · rw [(cluster_groups hcl2').1, t1]
      obtain ⟨new, n1, n2⟩ := fitNew_ok cl [] (fitNew w (enabledFor w s.opts) (limits nx xrows) cl []).1 (Prod.ext rfl h2)
      have e5 : (fitNew w (enabledFor w s.opts) (limits nx xrows) cl []).1.length = cl.length := by
        rw [n1, List.nil_append, ← n2.length_eq]
      show s.opts.nClusters = (fitNew w (enabledFor w s.opts) (limits nx xrows) cl []).1.length
      rw [e5, (cluster_groups hcl').1]
    · refine hcov2.2 fun i hi => ?_
      obtain ⟨p, hp, hpi⟩ := h i hi
      refine ⟨p, ?_, hpi⟩
      unfold withoutEveryTenth at hp
      obtain ⟨q, hq, rfl⟩ := List.mem_map.1 hp
      have := (List.mem_zipIdx (List.mem_of_mem_filter hq)).2.2
      rw [this]
      exact List.getElem_mem _
  · have : ∃ c ∈ cl, c = [] := by
      by_contra hno
      push Not at hno
      exact h (hcov.1 hno)
    have h2 := ft2 this
    rw [htrain, hft]
    simp only [h2]

end SMT.Moe.Train
