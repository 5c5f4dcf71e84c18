import Verif.Moe.Train
import Verif.Moe.Props

/-!
# C89: what training a mixture of experts does with the data
-/
namespace SMT.Moe.Train
set_option linter.unusedSectionVars false
set_option linter.unusedSimpArgs false
set_option linter.unusedVariables false

variable {K : Type} [Field K] [LinearOrder K] [IsStrictOrderedRing K]

/-! ## Specification -/

/-- All rows have the announced length. -/
def Arr.WF : Arr K → Prop
  | .d1 _ => True
  | .d2 n rows => ∀ r ∈ rows, r.length = n

/-- The samples: inputs and first output. -/
def samplesOf (xrows : List (List K)) (y : Arr K) : List (Sample K) := List.zipWith (fun x y => (x, y.getD 0 0)) xrows y.cols

/-- The data an expert was last trained on. -/
def Expert.data (e : Expert K) : List (Sample K) := e.hist.getLast?.getD []

/-- The samples whose number has label `i`, in order. -/
def groupOf {S : Type} (label : ℕ → ℕ) (i : ℕ) (samples : List S) : List S := (samples.zipIdx.filter fun p => label p.2 == i).map (·.1)

/-- A list without its entries number 0, 10, 20, … -/
def withoutEveryTenth {S : Type} (l : List S) : List S := (l.zipIdx.filter fun p => p.2 % 10 != 0).map (·.1)

/-- User test data was given. -/
def HasTest (o : Opts K) : Prop := o.xtest.isSome ∧ o.ytest.isSome

/-! ## The stages -/

theorem redistribute_ok {s s' : St K} {m : Mix K} (h : s.redistribute m = .ok s') : m.distOk s.factor = true ∧ s' = { s with dist := some (m, s.factor) } := by
  unfold St.redistribute at h
  split at h
  · rename_i hd; cases h; exact ⟨hd, rfl⟩
  · cases h

theorem findBest_ok {w : World K} {en : List String} {xl : List (K × K)} {c : List (Sample K)} {e : Expert K} (h : findBest w en xl c = .ok e) :
    c ≠ [] ∧ (∀ n ∈ en, w.trains (candidate xl (extractPart c 10).2 n) = true) ∧ ∃ n ∈ en, e = candidate xl (extractPart c 10).2 n ∧
      ∀ n' ∈ en, w.score ((extractPart c 10).1.map (·.2)) ((extractPart c 10).1.map fun s => w.predict e s.1) ≤
        w.score ((extractPart c 10).1.map (·.2)) ((extractPart c 10).1.map fun s => w.predict (candidate xl (extractPart c 10).2 n') s.1) := by
  unfold findBest at h
  simp only at h
  split at h
  · cases h
  split at h
  · cases h
  split at h
  · rename_i h1 h2 h3
    split at h
    · cases h
    · rename_i b hb
      cases h
      refine ⟨h2, by simpa using h3, ?_⟩
      obtain ⟨h4, pre, post, h5, -⟩ := (C60_best_has_least_score _).2 b hb
      have hm : b ∈ en.map fun n => (n, w.score ((extractPart c 10).1.map (·.2)) ((extractPart c 10).1.map fun s => w.predict (candidate xl (extractPart c 10).2 n) s.1)) := by
        rw [h5]; simp
      obtain ⟨n, hn, rfl⟩ := List.mem_map.1 hm
      refine ⟨n, hn, rfl, fun n' hn' => ?_⟩
      exact h4 _ (List.mem_map.2 ⟨n', hn', rfl⟩)
  · cases h

theorem fitNew_ok {w : World K} {en : List String} {xl : List (K × K)} : ∀ (cs : List (List (Sample K))) (done es : List (Expert K)),
    fitNew w en xl cs done = (es, .ok ()) → ∃ new, es = done ++ new ∧ List.Forall₂ (fun c e => findBest w en xl c = .ok e) cs new
  | [], done, es, h => by
    simp only [fitNew, Prod.mk.injEq] at h
    exact ⟨[], by simp [h.1], .nil⟩
  | c :: cs, done, es, h => by
    unfold fitNew at h
    split at h
    · simp at h
    · rename_i m hm
      obtain ⟨new, h1, h2⟩ := fitNew_ok cs _ _ h
      exact ⟨m :: new, by simp [h1], .cons hm h2⟩

theorem fitAgain_ok {w : World K} : ∀ (cs : List (List (Sample K))) (es es' : List (Expert K)), cs.length = es.length →
    fitAgain w cs es = (es', .ok ()) → es' = List.zipWith (fun c e => e.retrain c) cs es ∧ ∀ c ∈ cs, c ≠ []
  | [], es, es', hl, h => by
    cases es with
    | nil => simp only [fitAgain, Prod.mk.injEq] at h; simp [← h.1]
    | cons => simp at hl
  | c :: cs, [], es', hl, h => by simp at hl
  | c :: cs, e :: es, es', hl, h => by
    unfold fitAgain at h
    split at h
    · simp at h
    split at h
    · rename_i h1 h2
      simp only [Prod.mk.injEq] at h
      obtain ⟨i1, i2⟩ := fitAgain_ok cs es (fitAgain w cs es).1 (by simpa using hl) (Prod.ext rfl h.2)
      rw [← h.1, i1]
      exact ⟨rfl, List.forall_mem_cons.2 ⟨h1, i2⟩⟩
    · simp at h

theorem clustered_ok {m : Mix K} {k ncol : ℕ} {feats : List (List K)} {samples : List (Sample K)} {cl : List (List (Sample K))}
    (h : clustered m k ncol feats samples = .ok cl) : ncol = m.nfeat ∧ clusterValues k samples (feats.map m.label) = some cl := by
  unfold clustered at h
  split at h
  · rename_i h1
    split at h
    · cases h
    · rename_i c hc; cases h; exact ⟨h1, hc⟩
  · cases h

theorem fitFirst_ok {w : World K} {s s' : St K} {m : Mix K} {nx ncol : ℕ} {en : List String} {xl : List (K × K)} {training : List (List K)}
    (h : fitFirst w s m nx ncol en xl training = (s', .ok ())) :
    ∃ cl, m.distOk s.factor = true ∧ clustered m s.nClusters ncol (training.map (features1 nx)) (training.map (sample nx)) = .ok cl ∧
      fitNew w en xl cl s.experts = (s'.experts, .ok ()) ∧ s' = { s with dist := some (m, s.factor), experts := s'.experts } := by
  unfold fitFirst at h
  split at h
  · simp at h
  · rename_i s1 h1
    obtain ⟨hd, rfl⟩ := redistribute_ok h1
    split at h
    · simp at h
    · rename_i cl hcl
      simp only [Prod.mk.injEq] at h
      refine ⟨cl, hd, hcl, ?_, ?_⟩
      · rw [← h.1]; exact Prod.ext rfl h.2
      · rw [← h.1]

theorem fitFinal_ok {w : World K} {s s' : St K} {m : Mix K} {nx : ℕ} {xrows : List (List K)} {y c : Arr K}
    (h : fitFinal w s m nx xrows y c = (s', .ok ())) :
    ∃ cl, m.distOk s.factor = true ∧ clustered m s.nClusters (nx + c.ncol) (hcat xrows c.cols) ((hcat xrows y.cols).map (sample nx)) = .ok cl ∧
      fitAgain w cl s.experts = (s'.experts, .ok ()) ∧ s' = { s with dist := some (m, s.factor), experts := s'.experts } := by
  unfold fitFinal at h
  split at h
  · simp at h
  · rename_i s1 h1
    obtain ⟨hd, rfl⟩ := redistribute_ok h1
    split at h
    · simp at h
    · rename_i cl hcl
      simp only [Prod.mk.injEq] at h
      refine ⟨cl, hd, hcl, ?_, ?_⟩
      · rw [← h.1]; exact Prod.ext rfl h.2
      · rw [← h.1]

theorem tuneFactor_ok {w : World K} {s s' : St K} {m : Mix K} {test : List (Sample K)} (h : tuneFactor w s m test = .ok s') :
    s'.experts = s.experts ∧ s'.opts = s.opts ∧ s'.nClusters = s.nClusters ∧ s'.sxt = s.sxt ∧ s'.syt = s.syt ∧ s'.mix = s.mix ∧ s'.smooth = s.smooth := by
  unfold tuneFactor at h
  split at h
  · obtain ⟨-, rfl⟩ := redistribute_ok h
    simp
  · cases h; simp

/-- What a successful training went through. -/
structure Ran (w : World K) (s s' : St K) (nx : ℕ) (xrows : List (List K)) (y c : Arr K) (m : Mix K) (test training : List (List K))
    (s1 s2 s3 : St K) : Prop where
  data : chosenData s = (some (.d2 nx xrows), some y)
  crit : chosenCriterion s.opts.ct (some y) = .ok (some c)
  chk : checkInputs xrows.length y.nrow c.nrow s.opts.nClusters = true
  parts : testTraining s.opts (hcat (hcat xrows y.cols) c.cols) = .ok (test, training)
  mix : w.mixture s.opts.nClusters (training.map (features1 nx)) = some (m, true)
  st1 : s1 = { s with nClusters := s.opts.nClusters, smooth := s.opts.smooth, factor := 1, experts := [], mix := some { m with nfeat := nx + (y.ncol + c.ncol - 1) } }
  first : fitFirst w s1 { m with nfeat := nx + (y.ncol + c.ncol - 1) } nx (nx + (y.ncol + c.ncol - 1)) (enabledFor w s.opts) (limits nx xrows) training = (s2, .ok ())
  tune : tuneFactor w s2 { m with nfeat := nx + (y.ncol + c.ncol - 1) } (test.map (sample nx)) = .ok s3
  final : (HasTest s.opts ∧ s' = s3) ∨ (¬ HasTest s.opts ∧ fitFinal w s3 { m with nfeat := nx + (y.ncol + c.ncol - 1) } nx xrows y c = (s', .ok ()))

theorem checked_ok {x y c : Option (Arr K)} {k : ℕ} {r : Arr K × Arr K × Arr K} (h : checked x y c k = .ok r) :
    x = some r.1 ∧ y = some r.2.1 ∧ c = some r.2.2 ∧ checkInputs r.1.nrow r.2.1.nrow r.2.2.nrow k = true := by
  unfold checked at h
  split at h
  · split at h
    · rename_i hc; cases h; exact ⟨rfl, rfl, rfl, hc⟩
    · cases h
  · cases h

theorem train_ok {w : World K} {s s' : St K} (h : train w s = (s', .ok ())) :
    ∃ nx xrows y c m test training s1 s2 s3, Ran w s s' nx xrows y c m test training s1 s2 s3 := by
  unfold train at h
  simp only at h
  split at h
  · simp at h
  rename_i c0 hc0
  split at h
  · simp at h
  rename_i x y c hchk
  obtain ⟨hx, hy, hc, hck⟩ := checked_ok hchk
  unfold trainChecked at h
  simp only at h
  split at h
  · simp at h
  rename_i test training hparts
  split at h
  · simp at h
  rename_i nx xrows
  split at h
  · simp at h
  rename_i m conv hmix
  split at h
  · simp at h
  rename_i hconv
  unfold trainFit at h
  simp only at h
  split at h
  · simp at h
  rename_i s2 hfirst
  split at h
  · simp at h
  rename_i s3 htune
  have hopts : s3.opts = s.opts := by
    rw [(tuneFactor_ok htune).2.1]
    obtain ⟨cl, -, -, -, e⟩ := fitFirst_ok hfirst
    rw [e]
  refine ⟨nx, xrows, y, c, m, test, training, { s with nClusters := s.opts.nClusters, smooth := s.opts.smooth, factor := 1, experts := [], mix := some { m with nfeat := nx + (y.ncol + c.ncol - 1) } }, s2, s3, ?_⟩
  refine ⟨Prod.ext hx hy, ?_, hck, hparts, ?_, rfl, hfirst, htune, ?_⟩
  · have : (chosenData s).2 = some y := hy
    rw [this] at hc0
    rw [hc0, hc]
  · have : conv = true := by simpa using hconv
    rw [hmix, this]
  · rw [hopts] at h
    split at h
    · rename_i ht
      simp only [Prod.mk.injEq, and_true] at h
      exact Or.inl ⟨by simpa [HasTest] using ht, h.symm⟩
    · rename_i ht
      exact Or.inr ⟨by simpa [HasTest] using ht, h⟩

/-! ## Lists -/

theorem zip_filter_idx {S : Type} : ∀ (l : List S) (L : List ℕ) (i k : ℕ), L.length = l.length →
    ((l.zip L).filter fun p => p.2 == i).map (·.1) = ((l.zipIdx k).filter fun p => (L.getD (p.2 - k) 0) == i).map (·.1)
  | [], _, _, _, _ => by simp
  | a :: l, [], _, _, h => by simp at h
  | a :: l, b :: L, i, k, h => by
    have ih := zip_filter_idx l L i (k + 1) (by simpa using h)
    have e : ((l.zipIdx (k + 1)).filter fun p => ((b :: L).getD (p.2 - k) 0) == i) = (l.zipIdx (k + 1)).filter fun p => (L.getD (p.2 - (k + 1)) 0) == i := by
      apply List.filter_congr
      intro p hp
      have := List.le_snd_of_mem_zipIdx hp
      obtain ⟨j, hj⟩ : ∃ j, p.2 = k + 1 + j := ⟨p.2 - (k + 1), by omega⟩
      have e1 : p.2 - k = j + 1 := by omega
      have e2 : p.2 - (k + 1) = j := by omega
      rw [e1, e2, List.getD_cons_succ]
    rw [List.zip_cons_cons, List.zipIdx_cons, List.filter_cons, List.filter_cons, Nat.sub_self, List.getD_cons_zero, e]
    by_cases hb : (b == i) = true
    · simp only [hb, if_true, List.map_cons, ih]
    · simp only [hb, if_false, ih]
      simp [ih]

theorem cluster_groups {S : Type} {k : ℕ} {samples : List S} {L : List ℕ} {cl : List (List S)} (h : clusterValues k samples L = some cl) :
    cl.length = k ∧ L.length = samples.length ∧ (∀ l ∈ L, l < k) ∧ ∀ i < k, cl[i]? = some (groupOf (fun j => L.getD j 0) i samples) := by
  obtain ⟨h1, h2⟩ := C47_clusters_partition k samples L
  obtain ⟨g1, -, g3⟩ := h1 cl h
  obtain ⟨f1, f2⟩ := h2.1 (by rw [h]; rfl)
  refine ⟨g1, f1.symm, f2, fun i hi => ?_⟩
  rw [g3 i hi, zip_filter_idx samples L i 0 f1.symm]
  rfl

theorem extract_eq {S : Type} (l : List S) : (extractPart l 10).2 = withoutEveryTenth l := by
  rw [extract_snd]; rfl

theorem hcat_sample (nx : ℕ) : ∀ (xrows ys : List (List K)), (∀ r ∈ xrows, r.length = nx) →
    (hcat xrows ys).map (sample nx) = List.zipWith (fun x y => (x, y.getD 0 0)) xrows ys
  | [], _, _ => by simp [hcat]
  | _ :: _, [], _ => by simp [hcat]
  | x :: xs, y :: ys, h => by
    have hx : x.length = nx := h x (by simp)
    have ih := hcat_sample nx xs ys fun r hr => h r (by simp [hr])
    simp only [hcat, List.zipWith_cons_cons, List.map_cons, List.cons.injEq] at ih ⊢
    refine ⟨?_, ih⟩
    unfold sample
    subst hx
    rw [List.take_left, List.getD_eq_getElem?_getD, List.getD_eq_getElem?_getD, List.getElem?_append_right le_rfl, Nat.sub_self]

theorem hcat3_sample (nx : ℕ) : ∀ (xrows ys cs : List (List K)), (∀ r ∈ xrows, r.length = nx) → (∀ r ∈ ys, r ≠ []) → xrows.length = ys.length → ys.length = cs.length →
    (hcat (hcat xrows ys) cs).map (sample nx) = List.zipWith (fun x y => (x, y.getD 0 0)) xrows ys
  | [], _, _, _, _, _, _ => by simp [hcat]
  | x :: xs, [], _, _, _, h, _ => by simp at h
  | x :: xs, y :: ys, [], _, _, _, h => by simp at h
  | x :: xs, y :: ys, c :: cs, h, hy, hl, hl' => by
    have hx : x.length = nx := h x (by simp)
    have ih := hcat3_sample nx xs ys cs (fun r hr => h r (by simp [hr])) (fun r hr => hy r (by simp [hr])) (by simpa using hl) (by simpa using hl')
    simp only [hcat, List.zipWith_cons_cons, List.map_cons, List.cons.injEq] at ih ⊢
    refine ⟨?_, ih⟩
    obtain ⟨y0, yr, rfl⟩ := List.exists_cons_of_ne_nil (hy y (by simp))
    unfold sample
    subst hx
    simp [List.getD]

theorem Arr.cols_length (a : Arr K) : a.cols.length = a.nrow := by cases a <;> simp [Arr.cols, Arr.nrow]

theorem Arr.cols_ne_nil {a : Arr K} (h : a.WF) (hn : 1 ≤ a.ncol) : ∀ r ∈ a.cols, r ≠ [] := by
  intro r hr
  cases a with
  | d1 v => simp [Arr.cols] at hr; obtain ⟨b, -, rfl⟩ := hr; simp
  | d2 n rows =>
    have := h r hr
    simp only [Arr.ncol] at hn
    intro e; subst e; simp at this; omega

theorem forall₂_getElem? {A B : Type} {R : A → B → Prop} {l : List A} {l' : List B} (h : List.Forall₂ R l l') (i : ℕ) (a : A) (ha : l[i]? = some a) :
    ∃ b, l'[i]? = some b ∧ R a b := by
  induction h generalizing i with
  | nil => simp at ha
  | cons hab _ ih =>
    cases i with
    | zero => simp at ha; subst ha; exact ⟨_, by simp, hab⟩
    | succ i => simpa using ih i (by simpa using ha)

end SMT.Moe.Train
