import Verif.MixedInt.WrapperProps
/-!
# C93, continued: shapes, and designs built by the context
-/
set_option linter.unusedSectionVars false
set_option linter.unusedSimpArgs false
set_option linter.unusedVariables false
namespace SMT.MixedInt.Wrap

open SMT.MixedInt SMT.Surrogate

variable {K M : Type} [Field K] [LinearOrder K] [IsStrictOrderedRing K] [FloorRing K]

/-- A 2-D array given by its rows. -/
def ofRows (rows : List (List K)) (m : ℕ) : NdArray K := ⟨[rows.length, m], rows.flatten⟩

theorem drop_take_flatten : ∀ (rows : List (List K)) (m : ℕ), (∀ r ∈ rows, r.length = m) → ∀ (i : ℕ), i < rows.length → (rows.flatten.drop (i * m)).take m = rows.getD i []
  | [], _, _, i, hi => absurd hi (by simp)
  | r :: rs, m, h, 0, _ => by
    have := h r (by simp)
    rw [List.flatten_cons, Nat.zero_mul, List.drop_zero, ← this, List.take_left]; rfl
  | r :: rs, m, h, i + 1, hi => by
    have hr := h r (by simp)
    rw [List.flatten_cons, show (i + 1) * m = r.length + i * m by rw [hr]; ring, List.drop_append, ]
    simp only [Nat.add_sub_cancel_left, List.drop_eq_nil_of_le (show r.length ≤ r.length + i * m by omega), List.nil_append]
    rw [drop_take_flatten rs m (fun q hq => h q (by simp [hq])) i (by simpa using hi)]
    rfl

theorem rowsOf_ofRows (rows : List (List K)) (m : ℕ) (h : ∀ r ∈ rows, r.length = m) : rowsOf (ofRows rows m) = rows := by
  unfold rowsOf ofRows
  simp only [NdArray.nrows, NdArray.ncols, List.headD_cons, List.drop_succ_cons, List.drop_zero]
  apply List.ext_getElem (by simp)
  intro i h1 h2
  simp only [List.getElem_map, List.getElem_range]
  rw [drop_take_flatten rows m h i h2]
  simp [h2]

theorem ensure2d_ofRows (rows : List (List K)) (m : ℕ) : ensure2d (.nd (ofRows rows m)) = .ok (ofRows rows m) := rfl

/-! ## Extra columns -/

theorem unfold_prefix (ts : List XType) : ∀ (r e : List K), ts.length ≤ r.length → unfold ts (r ++ e) = unfold ts r := by
  induction ts with
  | nil => intro r e _; rfl
  | cons t ts ih =>
    intro r e h
    cases r with
    | nil => simp at h
    | cons a r =>
      have := ih r e (by simpa using h)
      cases t with
      | float => simp only [List.cons_append, unfold, this]
      | int => simp only [List.cons_append, unfold, this]
      | enum n => simp only [List.cons_append, unfold, this]
      | badTuple n => rfl
      | bad => rfl

/-- **C93** Folded mode: columns after those of the variables are ignored without a word, in training data and in prediction points; every call gives the same as without them. -/
theorem C93_extra_columns (c : Spec) (hc : c.folded = true) (I : Inner K M) (w : World K M) (rows extra : List (List K)) (m p : ℕ) (hm : c.xtypes.length ≤ m) (hr : ∀ r ∈ rows, r.length = m)
    (he : ∀ e ∈ extra, e.length = p) (hl : rows.length = extra.length) (y : PyObj K) (g : Group) :
    let x : PyObj K := .nd (ofRows rows m)
    let x' : PyObj K := .nd (ofRows (List.zipWith (· ++ ·) rows extra) (m + p))
    call c I w (.setValues x' y g) = call c I w (.setValues x y g) ∧ call c I w (.values x') = call c I w (.values x) ∧ call c I w (.variances x') = call c I w (.variances x) := by
  have hr' : ∀ r ∈ List.zipWith (· ++ ·) rows extra, r.length = m + p := by
    intro r h
    rw [List.mem_iff_getElem] at h
    obtain ⟨i, hi, rfl⟩ := h
    simp only [List.length_zipWith] at hi
    simp only [List.getElem_zipWith, List.length_append]
    rw [hr _ (List.getElem_mem _), he _ (List.getElem_mem _)]
  have hmap : (List.zipWith (· ++ ·) rows extra).mapM (unfold c.xtypes) = rows.mapM (unfold c.xtypes) := by
    clear hr'
    induction rows generalizing extra with
    | nil => rfl
    | cons r rows ih =>
      cases extra with
      | nil => simp at hl
      | cons e extra =>
        rw [List.zipWith_cons_cons, List.mapM_cons, List.mapM_cons, unfold_prefix c.xtypes r e (by rw [hr r (by simp)]; exact hm),
          ih extra (fun q hq => hr q (by simp [hq])) (fun q hq => he q (by simp [hq])) (by simpa using hl)]
  have ht : trainInput c (.nd (ofRows (List.zipWith (· ++ ·) rows extra) (m + p))) = trainInput c (.nd (ofRows rows m)) := by
    unfold trainInput
    simp only [ensure2d_ofRows, hc, if_true]
    unfold unfold2
    rw [rowsOf_ofRows _ _ hr', rowsOf_ofRows _ _ hr, hmap]
    have : (ofRows (List.zipWith (· ++ ·) rows extra) (m + p)).nrows = (ofRows rows m).nrows := by
      simp [ofRows, NdArray.nrows, hl]
    rw [this]
  have hpr : predInput c (.nd (ofRows (List.zipWith (· ++ ·) rows extra) (m + p))) = predInput c (.nd (ofRows rows m)) := by
    unfold predInput; rw [ht]
  refine ⟨?_, ?_, ?_⟩
  · simp only [call, wSet, ht]
  · simp only [call, hpr]
  · simp only [call, hpr]

/-- **C93** Unfolded mode: a prediction at points with another number of columns than the inner training data raises. -/
theorem C93_wrong_columns (c : Spec) (hc : c.folded = false) (I : Inner K M) (w : World K M) (x : NdArray K) (n m nt nx ny : ℕ) (hx : x.shape = [n, m]) (hd : w.obj.data.dims = some (nt, nx, ny))
    (hne : m ≠ nx) : (∃ e, (call c I w (.values (.nd x))).2 = .error e) ∧ ∃ e, (call c I w (.variances (.nd x))).2 = .error e := by
  have he : ensure2d (.nd x) = .ok x := ensure2d_nd2 x n m hx
  have ht : trainInput c (.nd x) = .ok x := by unfold trainInput; simp only [he, hc, Bool.false_eq_true, if_false]
  have hp : ∀ a, predInput c (.nd x) = .ok a → a.shape = [n, m] := by
    intro a ha
    unfold predInput cast2 at ha
    simp only [ht] at ha
    split at ha
    · cases ha
    · injection ha with ha; rw [← ha]; exact hx
  constructor
  · simp only [call]
    cases hq : predInput c (.nd x) with
    | error e => exact ⟨e, rfl⟩
    | ok a =>
      have ha := hp a hq
      have hnc : a.ncols ≠ nx := by simpa [NdArray.ncols, ha] using hne
      exact ⟨.value, by simp [Surrogate.predictValues, ensure2d_nd2 a n m ha, hd, checkNx, hnc, bind, Except.bind, arrOut, ofS]⟩
  · simp only [call]
    cases hq : predInput c (.nd x) with
    | error e => exact ⟨e, rfl⟩
    | ok a =>
      have ha := hp a hq
      have hnc : a.ncols ≠ nx := by simpa [NdArray.ncols, ha] using hne
      cases hv : I.vars with
      | false => exact ⟨.notImplemented, by simp [Surrogate.predictVariances, checkSupport, bind, Except.bind, arrOut, ofS]⟩
      | true => exact ⟨.value, by simp [Surrogate.predictVariances, checkSupport, ensure2d_nd2 a n m ha, hd, checkNx, hnc, bind, Except.bind, arrOut, ofS]⟩

/-! ## Designs -/

/-- Columns of the design: one per variable (folded), one per unfolded dimension (unfolded). -/
def cols (c : Spec) : ℕ := if c.folded then c.xtypes.length else (c.xtypes.map width).sum

theorem mapM_ok {α β ε : Type} (f : α → Except ε β) : ∀ (l : List α) (out : List β), l.mapM f = .ok out → List.Forall₂ (fun a b => f a = .ok b) l out := by
  intro l
  induction l with
  | nil => intro out h; rw [List.mapM_nil] at h; injection h with h; subst h; exact .nil
  | cons a l ih =>
    intro out h
    rw [List.mapM_cons] at h
    cases hf : f a with
    | error e => rw [hf] at h; cases h
    | ok b =>
      cases hm : l.mapM f with
      | error e => rw [hf, hm] at h; cases h
      | ok bs =>
        rw [hf, hm] at h
        injection h with h
        subst h
        exact .cons hf (ih bs hm)

theorem mapM_of {α β ε : Type} (f : α → Except ε β) (l : List α) (out : List β) (h : List.Forall₂ (fun a b => f a = .ok b) l out) : l.mapM f = .ok out := by
  induction h with
  | nil => rfl
  | cons h1 _ ih => rw [List.mapM_cons, h1, ih]; rfl

theorem cast_length (ts : List XType) (hw : WellTyped ts) (x : List K) (h : x.length = (ts.map width).sum) (y : List K) (hy : cast ts x = .ok y) : y.length = (ts.map width).sum := by
  obtain ⟨y', h1, h2⟩ := cast_ok ts hw x h
  rw [hy] at h1
  injection h1 with h1
  rw [h1, h2, h]

theorem unfold_length (ts : List XType) (d : ℕ) (hd : unfoldedDim ts = .ok d) : ∀ (x u : List K), unfold ts x = .ok u → u.length = d := by
  induction ts generalizing d with
  | nil => intro x u h; simp only [unfold] at h; injection h with h; subst h; simp only [unfoldedDim] at hd; injection hd
  | cons t ts ih =>
    intro x u h
    cases hd' : unfoldedDim ts with
    | error e => cases t <;> simp [unfoldedDim, hd', Except.map] at hd
    | ok d' =>
      cases t with
      | float =>
        simp only [unfoldedDim, hd', Except.map] at hd; injection hd with hd
        cases x with
        | nil => simp [unfold] at h
        | cons a x =>
          simp only [unfold] at h
          cases hu : unfold ts x with
          | error e => rw [hu] at h; cases h
          | ok v => rw [hu] at h; injection h with h; rw [← h]; simp [ih d' hd' x v hu, ← hd]; omega
      | int =>
        simp only [unfoldedDim, hd', Except.map] at hd; injection hd with hd
        cases x with
        | nil => simp [unfold] at h
        | cons a x =>
          simp only [unfold] at h
          cases hu : unfold ts x with
          | error e => rw [hu] at h; cases h
          | ok v => rw [hu] at h; injection h with h; rw [← h]; simp [ih d' hd' x v hu, ← hd]; omega
      | enum n =>
        simp only [unfoldedDim, hd', Except.map] at hd; injection hd with hd
        cases x with
        | nil => simp [unfold] at h
        | cons a x =>
          simp only [unfold] at h
          split at h
          · cases h
          · cases hu : unfold ts x with
            | error e => rw [hu] at h; cases h
            | ok v => rw [hu] at h; injection h with h; rw [← h]; simp [ih d' hd' x v hu, ← hd, mask]
      | badTuple n => simp [unfoldedDim] at hd
      | bad => simp [unfoldedDim] at hd

theorem wellTyped_dim (ts : List XType) (hw : WellTyped ts) : unfoldedDim ts = .ok (ts.map width).sum :=
  (C17_dimension ts fun t ht => by rcases hw t ht with h | h | ⟨n, -, h⟩ <;> [exact Or.inl h; exact Or.inr (Or.inl h); exact Or.inr (Or.inr ⟨n, h⟩)])

/-- **C93** A design drawn by the context's sampling method and used with the context's surrogate (same mode), any well-formed variables, whatever the wrapped sampling method returned: the design has one
row per point and the right number of columns; the inner surrogate is trained at, and a prediction at the design evaluates it at, the same array. -/
theorem C93_design (c : Spec) (hw : WellTyped c.xtypes) (doe : List (List K)) (hd : ∀ r ∈ doe, r.length = (c.xtypes.map width).sum) :
    ∃ out, sampling c.xtypes c.folded doe = .ok out ∧ out.length = doe.length ∧ (∀ r ∈ out, r.length = cols c) ∧
      ∃ rows, trainInput c (.nd (ofRows out (cols c))) = .ok (ofRows rows (c.xtypes.map width).sum) ∧ predInput c (.nd (ofRows out (cols c))) = .ok (ofRows rows (c.xtypes.map width).sum) ∧
        rows.length = doe.length ∧ ∀ r ∈ rows, r.length = (c.xtypes.map width).sum := by
  cases hf : c.folded with
  | true =>
    obtain ⟨out, h1, h2, h3⟩ := C18_sampling_discrete c.xtypes hw doe hd
    have hl : ∀ r ∈ out, r.length = c.xtypes.length := fun r hr => (h3 r hr).length_eq.symm
    have hcols : cols c = c.xtypes.length := by simp [cols, hf]
    refine ⟨out, h1, h2, by rw [hcols]; exact hl, ?_⟩
    have hdim := wellTyped_dim c.xtypes hw
    have key : ∀ (out : List (List K)), (∀ r ∈ out, Discrete c.xtypes r) → ∃ rows, List.Forall₂ (fun a b => unfold c.xtypes a = .ok b) out rows ∧ List.Forall₂ (fun a b => cast c.xtypes a = .ok b) rows rows := by
      intro out
      induction out with
      | nil => intro _; exact ⟨[], .nil, .nil⟩
      | cons r out ih =>
        intro h
        obtain ⟨rows, a1, a2⟩ := ih fun q hq => h q (by simp [hq])
        obtain ⟨u, b1, b2⟩ := C18_discrete_training_row_is_prediction_row c.xtypes r (h r (by simp))
        simp only [trainingRow, if_true] at b1
        simp only [predictionRow, trainingRow, if_true, b1] at b2
        exact ⟨u :: rows, .cons b1 a1, .cons b2 a2⟩
    obtain ⟨rows, a1, a2⟩ := key out h3
    have hlen : ∀ r ∈ rows, r.length = (c.xtypes.map width).sum := by
      clear h1 h2 h3 hl a2
      induction a1 with
      | nil => simp
      | cons q1 _ ih =>
        intro r hr
        rcases List.mem_cons.1 hr with rfl | hr
        · exact unfold_length c.xtypes _ hdim _ _ q1
        · exact ih r hr
    have hrl : rows.length = out.length := a1.length_eq.symm
    have ht : trainInput c (.nd (ofRows out (cols c))) = .ok (ofRows rows (c.xtypes.map width).sum) := by
      unfold trainInput
      simp only [ensure2d_ofRows, hf, if_true]
      unfold unfold2
      rw [hdim, rowsOf_ofRows out (cols c) (by rw [hcols]; exact hl), mapM_of _ _ _ a1]
      simp [ofRows, NdArray.nrows, hrl]
    refine ⟨rows, ht, ?_, by rw [hrl, h2], hlen⟩
    unfold predInput
    rw [ht]
    simp only
    unfold cast2
    rw [rowsOf_ofRows rows _ hlen, mapM_of _ _ _ a2]
    rfl
  | false =>
    have key : ∀ (doe : List (List K)), (∀ r ∈ doe, r.length = (c.xtypes.map width).sum) → ∃ rows, List.Forall₂ (fun a b => sampleRow c.xtypes false a = .ok b) doe rows ∧
        List.Forall₂ (fun a b => cast c.xtypes a = .ok b) rows rows ∧ ∀ r ∈ rows, r.length = (c.xtypes.map width).sum := by
      intro doe
      induction doe with
      | nil => intro _; exact ⟨[], .nil, .nil, by simp⟩
      | cons r doe ih =>
        intro h
        obtain ⟨rows, a1, a2, a3⟩ := ih fun q hq => h q (by simp [hq])
        obtain ⟨u, b1, b2⟩ := cast_ok c.xtypes hw r (h r (by simp))
        refine ⟨u :: rows, .cons (by simp [sampleRow, b1]) a1, .cons (C16_idempotent _ _ _ b1) a2, ?_⟩
        intro q hq
        rcases List.mem_cons.1 hq with rfl | hq
        · rw [b2]; exact h r (by simp)
        · exact a3 q hq
    obtain ⟨rows, a1, a2, a3⟩ := key doe hd
    have hcols : cols c = (c.xtypes.map width).sum := by simp [cols, hf]
    have ht : trainInput c (.nd (ofRows rows (cols c))) = .ok (ofRows rows (c.xtypes.map width).sum) := by
      unfold trainInput
      simp only [ensure2d_ofRows, hf, Bool.false_eq_true, if_false, hcols]
    refine ⟨rows, mapM_of _ _ _ a1, a1.length_eq.symm, by rw [hcols]; exact a3, rows, ht, ?_, a1.length_eq.symm, a3⟩
    unfold predInput
    rw [ht]
    simp only
    unfold cast2
    rw [rowsOf_ofRows rows _ a3, mapM_of _ _ _ a2]
    rfl

/-- Training data after values were set. -/
def filled (s : Store K) (g : Group) (a b : NdArray K) : Store K := { s with dims := some (a.nrows, a.ncols, b.ncols) }.put g 0 a b

/-- **C93** Interpolation carries over. If the inner surrogate, trained on what it is given, predicts the given values at the given points, then the wrapper trained on a set of points whose training and
prediction conversions agree (such as the designs of `C93_design`) predicts the given values at these points. -/
theorem C93_interpolates (c : Spec) (I : Inner K M) (w : World K M) (x y : PyObj K) (a b : NdArray K) (n m q : ℕ) (ha : a.shape = [n, m]) (hb : b.shape = [n, q]) (hbl : b.data.length = n * q) (hn : 0 < n)
    (hx : trainInput c x = .ok a) (hx' : predInput c x = .ok a) (hy : ensure2d y = .ok b) (fit : M)
    (hlearn : ∀ s : Store K, s.tp none 0 = some (a, b) → I.learn s w.obj.fit = (fit, .ok ()) ∧ I.value s fit a = .ok b.data) :
    (call c I (run c I w [.setValues x y none, .train]) (.values x)).2 = .ok (some b) := by
  have ea : ensure2d (.nd a) = .ok a := ensure2d_nd2 a n m ha
  have hr : a.nrows = b.nrows := by simp [NdArray.nrows, ha, hb]
  have s1 : ∀ (s : Store K) (g : Group), setValues s (.nd a) y g = (filled s g a b, .ok ()) := by
    intro s g; unfold setValues filled; simp only [ea, hy, hr, ne_eq, not_true_eq_false, if_false]
  have hs : ∀ s : Store K, (filled s none a b).tp none 0 = some (a, b) := fun s => by simp [filled, Store.put]
  have e1 : (call c I w (.setValues x y none)).1 = ⟨filled w.own none a b, ⟨filled w.obj.data none a b, w.obj.fit⟩⟩ := by
    simp only [call, wSet, hx, s1]
  obtain ⟨l1, l2⟩ := hlearn _ (hs w.obj.data)
  have e2 : (call c I (call c I w (.setValues x y none)).1 .train).1 = ⟨filled w.own none a b, ⟨filled w.obj.data none a b, fit⟩⟩ := by
    rw [e1]
    simp only [call, hs, l1]
  show (call c I (call c I (call c I w (.setValues x y none)).1 .train).1 (.values x)).2 = _
  rw [e2]
  simp only [call, hx']
  have hd : (filled w.obj.data none a b).dims = some (n, m, q) := by simp [filled, Store.put, NdArray.nrows, NdArray.ncols, ha, hb]
  have hnc : a.ncols = m := by simp [NdArray.ncols, ha]
  have hnr : a.nrows = n := by simp [NdArray.nrows, ha]
  have hbb : b = ⟨[n, q], b.data⟩ := by rw [← hb]
  simp only [Surrogate.predictValues, ea, hd, checkNx, hnc, bind, Except.bind, l2, hnr, reshape2, hbl, hn.ne', ne_eq, not_true_eq_false, if_false, if_true, arrOut]
  rw [← hbb]

/-! ## Folded and unfolded mode -/

/-- In each block of an enum variable the largest entry occurs once. -/
inductive NoTie : List XType → List K → Prop
  | nil : NoTie [] []
  | float (ts u v) : NoTie ts u → NoTie (.float :: ts) (v :: u)
  | int (ts u v) : NoTie ts u → NoTie (.int :: ts) (v :: u)
  | enum (ts u) (b : List K) (j : ℕ) : j < b.length → (∀ (i : ℕ) (v w : K), b[i]? = some v → b[j]? = some w → v ≤ w ∧ (v = w → i = j)) → NoTie ts u → NoTie (.enum b.length :: ts) (b ++ u)

theorem noTie_cast (ts : List XType) (r : List K) (h : NoTie ts r) : ∃ u, cast ts r = .ok u ∧ ValidUnfolded ts u := by
  induction h with
  | nil => exact ⟨[], rfl, .nil⟩
  | float ts u v _ ih =>
    obtain ⟨u', h1, h2⟩ := ih
    exact ⟨v :: u', by simp [cast, h1, Except.map], .float _ _ _ h2⟩
  | int ts u v _ ih =>
    obtain ⟨u', h1, h2⟩ := ih
    exact ⟨(roundHalfEven v : K) :: u', by simp only [cast, h1, Except.map], .int _ _ _ h2⟩
  | enum ts u b j hj hb _ ih =>
    obtain ⟨u', h1, h2⟩ := ih
    have hne : b ≠ [] := by rintro rfl; simp at hj
    obtain ⟨m, c, -, -, hc, -⟩ := castBlock_spec b hne
    obtain ⟨k, hk⟩ := (C16_one_hot_iff_unique_max b c hc).2 ⟨j, hj, hb⟩
    exact ⟨c ++ u', by simp only [cast, List.take_left, hc, List.drop_left, h1, Except.map], .enum _ _ _ k _ hk h2⟩

theorem validUnfolded_length (ts : List XType) (u : List K) (h : ValidUnfolded ts u) : u.length = (ts.map width).sum := by
  induction h with
  | nil => rfl
  | float ts u v _ ih => simp [width, ih]; omega
  | int ts u v _ ih => simp [width, ih]; omega
  | enum ts u n j b hb _ ih => simp [width, ih, hb.1]

theorem validUnfolded_dim (ts : List XType) (u : List K) (h : ValidUnfolded ts u) : unfoldedDim ts = .ok (ts.map width).sum := by
  induction h with
  | nil => rfl
  | float ts u v _ ih => simp [unfoldedDim, ih, Except.map, width]
  | int ts u v _ ih => simp [unfoldedDim, ih, Except.map, width]
  | enum ts u n j b hb _ ih => simp [unfoldedDim, ih, Except.map, width]

/-- **C93** The two modes agree. If no point drawn by the wrapped sampling method has a tie in a block of an enum variable, the folded context and the unfolded context give the same results: setting training values
at, and predicting at, the folded design with a folded surrogate is the same as doing it at the unfolded design with an unfolded surrogate, whatever the inner surrogate and the state. -/
theorem C93_modes_agree (ts : List XType) (I : Inner K M) (w : World K M) (doe : List (List K)) (hne : doe ≠ []) (h : ∀ r ∈ doe, NoTie ts r) (y : PyObj K) (g : Group) :
    ∃ f u, sampling ts true doe = .ok f ∧ sampling ts false doe = .ok u ∧ f.length = doe.length ∧ u.length = doe.length ∧
      (∀ r ∈ f, r.length = ts.length) ∧ (∀ r ∈ u, r.length = (ts.map width).sum) ∧
      let xf : PyObj K := .nd (ofRows f ts.length)
      let xu : PyObj K := .nd (ofRows u (ts.map width).sum)
      call ⟨ts, true⟩ I w (.setValues xf y g) = call ⟨ts, false⟩ I w (.setValues xu y g) ∧ call ⟨ts, true⟩ I w (.values xf) = call ⟨ts, false⟩ I w (.values xu) ∧
        call ⟨ts, true⟩ I w (.variances xf) = call ⟨ts, false⟩ I w (.variances xu) := by
  have key : ∀ (doe : List (List K)), (∀ r ∈ doe, NoTie ts r) → ∃ f u, List.Forall₂ (fun a b => sampleRow ts true a = .ok b) doe f ∧ List.Forall₂ (fun a b => sampleRow ts false a = .ok b) doe u ∧
      List.Forall₂ (fun a b => unfold ts a = .ok b) f u ∧ (∀ r ∈ f, r.length = ts.length) ∧ ∀ r ∈ u, r.length = (ts.map width).sum := by
    intro doe
    induction doe with
    | nil => intro _; exact ⟨[], [], .nil, .nil, .nil, by simp, by simp⟩
    | cons r doe ih =>
      intro h
      obtain ⟨f, u, a1, a2, a3, a4, a5⟩ := ih fun q hq => h q (by simp [hq])
      obtain ⟨u0, b1, b2⟩ := noTie_cast ts r (h r (by simp))
      obtain ⟨x0, c1, -, c2, c3⟩ := C15_unfold_fold ts u0 b2
      refine ⟨x0 :: f, u0 :: u, .cons (by simp [sampleRow, b1, c1]) a1, .cons (by simp [sampleRow, b1]) a2, .cons c3 a3, ?_, ?_⟩
      · intro q hq
        rcases List.mem_cons.1 hq with rfl | hq
        · exact c2
        · exact a4 q hq
      · intro q hq
        rcases List.mem_cons.1 hq with rfl | hq
        · exact validUnfolded_length ts _ b2
        · exact a5 q hq
  obtain ⟨f, u, a1, a2, a3, a4, a5⟩ := key doe h
  have hdim : unfoldedDim ts = .ok (ts.map width).sum := by
    obtain ⟨r, hr⟩ := List.exists_mem_of_ne_nil doe hne
    obtain ⟨u0, -, b2⟩ := noTie_cast ts r (h r hr)
    exact validUnfolded_dim ts u0 b2
  have hl : f.length = u.length := a3.length_eq
  have ht : trainInput (K := K) ⟨ts, true⟩ (.nd (ofRows f ts.length)) = trainInput ⟨ts, false⟩ (.nd (ofRows u (ts.map width).sum)) := by
    unfold trainInput
    simp only [ensure2d_ofRows, if_true, Bool.false_eq_true, if_false]
    unfold unfold2
    rw [hdim, rowsOf_ofRows f _ a4, mapM_of _ _ _ a3]
    simp [ofRows, NdArray.nrows, hl]
  have hp : predInput (K := K) ⟨ts, true⟩ (.nd (ofRows f ts.length)) = predInput ⟨ts, false⟩ (.nd (ofRows u (ts.map width).sum)) := by
    unfold predInput; rw [ht]
  refine ⟨f, u, mapM_of _ _ _ a1, mapM_of _ _ _ a2, a1.length_eq.symm, a2.length_eq.symm, a4, a5, ?_, ?_, ?_⟩
  · simp only [call, wSet, ht]
  · simp only [call, hp]
  · simp only [call, hp]

/-- Non-vacuity: points without ties. -/
example : NoTie [.float, .enum 2, .int] ([1 / 3, 1 / 2, 1 / 4, 7 / 3] : List ℚ) :=
  .float _ _ _ (.enum [.int] [7 / 3] [1 / 2, 1 / 4] 0 (by simp) (by
    intro i v w h1 h2
    match i with
    | 0 => simp at h1 h2; subst h1 h2; simp
    | 1 => simp at h1 h2; subst h1 h2; norm_num
    | i + 2 => simp at h1) (.int _ _ _ .nil))

/-- **C93** Exactly without ties. For any well-formed variables and any point of the wrapped sampling method, the row of the folded design, unfolded again (where the folded surrogate is trained), is the row of the
unfolded design (where the unfolded surrogate is trained) if and only if the point has no tie in a block of an enum variable. -/
theorem C93_modes_iff (ts : List XType) (hw : WellTyped ts) : ∀ (r : List K), r.length = (ts.map width).sum →
    ∃ f u u', sampleRow ts true r = .ok f ∧ sampleRow ts false r = .ok u ∧ trainingRow ts true f = .ok u' ∧ trainingRow ts false u = .ok u ∧ u'.length = u.length ∧ (u' = u ↔ NoTie ts r) := by
  have key : ∀ (ts : List XType), WellTyped ts → ∀ (r : List K), r.length = (ts.map width).sum →
      ∃ u f u', cast ts r = .ok u ∧ fold ts u = .ok f ∧ unfold ts f = .ok u' ∧ u'.length = u.length ∧ (u' = u ↔ NoTie ts r) := by
    intro ts
    induction ts with
    | nil => intro _ r h; cases r with
      | nil => exact ⟨[], [], [], rfl, rfl, rfl, rfl, fun _ => .nil, fun _ => rfl⟩
      | cons a r => simp at h
    | cons t ts ih =>
      intro hw r h
      have hw' : WellTyped ts := fun t' ht' => hw t' (by simp [ht'])
      rcases hw t (by simp) with rfl | rfl | ⟨n, hn, rfl⟩
      · cases r with
        | nil => simp [width] at h; omega
        | cons a r =>
          obtain ⟨u, f, u', h1, h2, h3, h4, h5⟩ := ih hw' r (by simp [width] at h; omega)
          refine ⟨a :: u, a :: f, a :: u', by simp [cast, h1, Except.map], by simp [fold, h2, Except.map], by simp [unfold, h3, Except.map], by simp [h4], ?_⟩
          rw [List.cons.injEq, and_iff_right rfl, h5]
          exact ⟨fun h => .float _ _ _ h, fun h => by cases h; assumption⟩
      · cases r with
        | nil => simp [width] at h; omega
        | cons a r =>
          obtain ⟨u, f, u', h1, h2, h3, h4, h5⟩ := ih hw' r (by simp [width] at h; omega)
          refine ⟨(roundHalfEven a : K) :: u, (roundHalfEven a : K) :: f, (roundHalfEven a : K) :: u', by simp only [cast, h1, Except.map], by simp only [fold, h2, Except.map], by simp only [unfold, h3, Except.map], by simp [h4], ?_⟩
          rw [List.cons.injEq, and_iff_right rfl, h5]
          exact ⟨fun h => .int _ _ _ h, fun h => by cases h; assumption⟩
      · have hlen : n ≤ r.length := by simp [width] at h; omega
        obtain ⟨u, f, u', h1, h2, h3, h4, h5⟩ := ih hw' (r.drop n) (by simp [width] at h ⊢; omega)
        have hbl : (r.take n).length = n := by simp [hlen]
        have hne : r.take n ≠ [] := by intro e; rw [e] at hbl; simp at hbl; omega
        obtain ⟨m, c, -, -, hc, hcm⟩ := castBlock_spec (r.take n) hne
        have hcl : c.length = n := by rw [hcm, List.length_map, hbl]
        have hcne : c ≠ [] := by intro e; rw [e] at hcl; simp at hcl; omega
        have hlt := argmax_lt c hcne
        rw [hcl] at hlt
        have htk : (c ++ u).take n = c := by rw [← hcl, List.take_left]
        have hdr : (c ++ u).drop n = u := by rw [← hcl, List.drop_left]
        refine ⟨c ++ u, ((Sampling.argmax c : ℕ) : K) :: f, mask n (Sampling.argmax c) ++ u', ?_, ?_, ?_, ?_, ?_⟩
        · simp only [cast, hc, h1, Except.map]
        · simp only [fold, htk, hdr, h2, if_neg hcne, Except.map]
        · simp only [unfold, truncInt_natCast, pyIndex_natCast n _ hlt, h3, Except.map]
        · simp [mask, hcl, h4]
        · have hm : (mask n (Sampling.argmax c) : List K) = c ↔ ∃ j, j < n ∧ ∀ (i : ℕ) (v w : K), (r.take n)[i]? = some v → (r.take n)[j]? = some w → v ≤ w ∧ (v = w → i = j) := by
            have := C16_one_hot_iff_unique_max (r.take n) c hc
            rw [hbl] at this
            rw [← this]
            constructor
            · intro e; exact ⟨_, e ▸ mask_oneHot n _ hlt⟩
            · rintro ⟨j, hj⟩
              rw [argmax_oneHot n j c hj]
              exact oneHot_unique n j _ _ (mask_oneHot n j hj.2.1) hj
          constructor
          · intro e
            obtain ⟨e1, e2⟩ := List.append_inj e (by simp [mask, hcl])
            obtain ⟨j, hj, hu⟩ := hm.1 e1
            have := NoTie.enum ts (r.drop n) (r.take n) j (by rw [hbl]; exact hj) hu (h5.1 e2)
            rwa [hbl, List.take_append_drop] at this
          · intro hn
            generalize hq : XType.enum n :: ts = q at hn
            generalize hr : r = r' at hn
            cases hn with
            | nil => cases hq
            | float => cases hq
            | int => cases hq
            | enum ts' u0 b j hj hu hrest =>
              injection hq with q1 q2
              injection q1 with q1
              subst q2
              have hb : r.take n = b := by rw [hr, q1, List.take_left]
              have hd : r.drop n = u0 := by rw [hr, q1, List.drop_left]
              rw [hb] at hm
              rw [hd] at h5
              rw [hm.2 ⟨j, by rw [q1]; exact hj, hu⟩, h5.2 hrest]
  intro r h
  obtain ⟨u, f, u', h1, h2, h3, h4, h5⟩ := key ts hw r h
  exact ⟨f, u, u', by simp [sampleRow, h1, h2], by simp [sampleRow, h1], by simp [trainingRow, h3], by simp [trainingRow], h4, h5⟩

/-- A tie: the unfolded design has two marks, the folded one keeps the first level. -/
example : (sampling [.enum 3] false [[1 / 2, 1 / 2, 0]] : Except Err (List (List ℚ))) = .ok [[1, 1, 0]] ∧ (sampling [.enum 3] true [[1 / 2, 1 / 2, 0]] : Except Err (List (List ℚ))) = .ok [[0]] ∧
    (unfold [.enum 3] [0] : Except Err (List ℚ)) = .ok [1, 0, 0] := by
  refine ⟨?_, ?_, ?_⟩
  · norm_num [sampling, sampleRow, cast, castBlock, maxOf, Except.map]
  · norm_num [sampling, sampleRow, cast, castBlock, maxOf, Except.map, fold, Sampling.argmax, Sampling.argmaxGo]; rfl
  · norm_num [unfold, truncInt, pyIndex, mask, Except.map]; rfl

/-! ## Cases -/

/-- An inner surrogate for the examples: remembers the unnamed training data and returns the output of the first equal row. -/
def table : Inner ℚ (List (List ℚ × ℚ)) where
  trainDerivs := true
  derivs := true
  outDerivs := false
  vars := false
  varDerivs := false
  learn s _ := match s.tp none 0 with
    | none => ([], .error .key)
    | some (a, b) => ((rowsOf a).zip b.data, .ok ())
  value _ m a := .ok ((rowsOf a).map fun r => ((m.find? fun p => p.1 = r).map (·.2)).getD 0)
  variance _ _ a := .ok []

/-- The mixed space of the examples. -/
def spec : Spec := ⟨[.float, .enum 2, .int], true⟩

/-- Two training points. -/
def xs : PyObj ℚ := .nd (ofRows [[1 / 3, 1, 2], [5, 0, 7]] 3)
/-- Their outputs. -/
def ys : PyObj ℚ := .nd (ofRows [[4], [9]] 1)
/-- A fresh surrogate. -/
def fresh : Obj ℚ (List (List ℚ × ℚ)) := ⟨Store.init, []⟩

/-- What a prediction returned. -/
def got (o : Out ℚ) : Option (List ℕ × List ℚ) := match o with
  | .ok (some a) => some (a.shape, a.data)
  | _ => none

/-- Error of a call. -/
def err (o : Out ℚ) : Option Exc := match o with
  | .ok _ => none
  | .error e => some e

/-- Set, train, predict at the training points and at a point with a non-integer value of the integer variable. -/
example : got (call spec table (run spec table (wrap fresh) [.setValues xs ys none, .train]) (.values xs)).2 = some ([2, 1], [4, 9]) := by decide +kernel
example : got (call spec table (run spec table (wrap fresh) [.setValues xs ys none, .train]) (.values (.nd (ofRows [[5, 0, 34 / 5]] 3)))).2 = some ([1, 1], [9]) := by decide +kernel

/-- Hypotheses of `C93_transparent` on a history with derivatives. -/
example : fresh.data.tp none 0 = none ∧ ∀ k ∈ [Call.setValues xs ys none, .setDerivs xs ys (.int 0) none, .train], k.Unnamed ∧ k.ProperIndex := by
  refine ⟨rfl, ?_⟩
  intro k hk
  simp only [List.mem_cons, List.not_mem_nil, or_false] at hk
  rcases hk with rfl | rfl | rfl <;> simp [Call.Unnamed, Call.ProperIndex]

/-- Values set under a name cannot be updated. -/
example : err (call spec table (run spec table (wrap fresh) [.setValues xs ys (some "lf")]) (.updateValues ys (some "lf"))).2 = some .value := by decide +kernel

/-- `C93_update_after_named`: two unnamed points, one point under a name. -/
def xs' : PyObj ℚ := .nd (ofRows [[1, 1, 1]] 3)
def ys' : PyObj ℚ := .nd (ofRows [[8]] 1)
example : err (call spec table (run spec table (wrap fresh) [.setValues xs ys none, .setValues xs' ys' (some "lf")]) (.updateValues ys none)).2 = some .value := by decide +kernel
example : err (objCall table (run spec table (wrap fresh) [.setValues xs ys none, .setValues xs' ys' (some "lf")]).obj (.updateValues ys none)).2 = none := by decide +kernel

/-- Named values only. -/
example : err (objCall table (run spec table (wrap fresh) [.setValues xs' ys' (some "lf")]).obj .train).2 = some .key := by decide +kernel

/-- A trained surrogate, wrapped afterwards. -/
example : let o := objRun table fresh [.setValues (.nd (ofRows [[1 / 3, 0, 1, 2]] 4)) (.nd (ofRows [[6]] 1)) none, .train]
    got (call spec table (wrap o) (.values (.nd (ofRows [[1 / 3, 1, 2]] 3)))).2 = some ([1, 1], [6]) ∧ err (call spec table (wrap o) .train).2 = some .key := by decide +kernel

/-- Derivative predictions: `NotImplementedError` although the inner surrogate supports them. -/
example : err (wDerivatives table (run spec table (wrap fresh) [.setValues xs ys none, .train]) (.nd (ofRows [[1 / 3, 0, 1, 2]] 4))) = some .notImplemented := by decide +kernel

/-- Extra columns are ignored in folded mode. -/
example : got (call spec table (run spec table (wrap fresh) [.setValues xs ys none, .train]) (.values (.nd (ofRows [[5, 0, 7, 100]] 4)))).2 = some ([1, 1], [9]) := by decide +kernel
/-- A wrong number of columns raises in unfolded mode. -/
example : (err (call ⟨spec.xtypes, false⟩ table (run spec table (wrap fresh) [.setValues xs ys none, .train]) (.values (.nd (ofRows [[5, 1, 0, 7, 100]] 5)))).2).isSome = true := by decide +kernel
/-- A design in the folded space. -/
example : WellTyped spec.xtypes := by
  intro t ht
  simp only [spec, List.mem_cons, List.not_mem_nil, or_false] at ht
  rcases ht with rfl | rfl | rfl
  · exact Or.inl rfl
  · exact Or.inr (Or.inr ⟨2, by norm_num, rfl⟩)
  · exact Or.inr (Or.inl rfl)

end SMT.MixedInt.Wrap
