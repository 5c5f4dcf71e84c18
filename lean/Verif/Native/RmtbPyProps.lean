import Verif.Native.RmtbPy
import Verif.Native.RmtbProps2

set_option linter.unusedSectionVars false
set_option linter.unusedSimpArgs false
set_option linter.unusedVariables false

/-!
# When `RMTB` keeps its compiled object inside its arrays, and when it does not
-/
namespace SMT.Native.Rmtb
open SMT.Rmtb (Axis jacRow param)
open SMT.Native.Rmt

/-- The inputs as the compiled object sees them: the first `nx` entries of the lists of orders and numbers of control points, and the limits. -/
def axesOf (L : Arr) (qs ms : List ℕ) (nx : ℕ) : List (Axis ℝ) := (List.range nx).map fun k => ⟨qs.getD k 0, ms.getD k 0, L.f k 0, L.f k 1⟩

lemma axesOf_length (L : Arr) (qs ms : List ℕ) (nx : ℕ) : (axesOf L qs ms nx).length = nx := by simp [axesOf]

lemma range_getD (qs : List ℕ) (nx : ℕ) (h : nx ≤ qs.length) : (List.range nx).map (fun k => qs.getD k 0) = qs.take nx := by
  apply List.ext_getElem
  · simp [h]
  · intro k h1 h2
    simp at h1 h2
    simp [List.getD_eq_getElem?_getD, List.getElem?_eq_getElem h2.2]

lemma axesOf_orders (L : Arr) (qs ms : List ℕ) (nx : ℕ) (h : nx ≤ qs.length) : (axesOf L qs ms nx).map (·.order) = qs.take nx := by
  rw [← range_getD qs nx h]; simp [axesOf, Function.comp_def]

lemma axesOf_ncps (L : Arr) (qs ms : List ℕ) (nx : ℕ) (h : nx ≤ ms.length) : (axesOf L qs ms nx).map (·.ncp) = ms.take nx := by
  rw [← range_getD ms nx h]; simp [axesOf, Function.comp_def]

lemma bmod_nat {v : ℕ} (h : v < 2 ^ 31) : ((v : ℕ) : ℤ).bmod (2 ^ 32) = v := Int.bmod_eq_of_le (by omega) (by omega)

lemma int32_ints {qs : List ℕ} (h : ∀ v ∈ qs, v < 2 ^ 31) : Ints (int32 (qs.map Nat.cast)) qs := by
  refine ⟨by simp [int32, Buf.of], fun k hk => ?_⟩
  simp only [int32, Buf.of, List.getElem?_map, List.getElem?_eq_getElem hk, Option.map_some, getD_mem hk]
  rw [bmod_nat (h _ (List.getElem_mem hk))]

lemma int32_len (q : List ℤ) : (int32 q).len = q.length := by simp [int32, Buf.of]

lemma getD_take {l : List ℕ} {n k : ℕ} (h : k < n) : (l.take n).getD k 0 = l.getD k 0 := by
  simp [List.getD_eq_getElem?_getD, List.getElem?_take, h]

lemma column_vec (L : Arr) {nx : ℕ} (h : nx ≤ L.n) (j : ℕ) : Vec (column L j) nx fun k => L.f k j :=
  ⟨h, fun k hk => if_pos (by omega)⟩

lemma Ints.take {b : Buf ℤ} {l : List ℕ} (h : Ints b l) (n : ℕ) : Vec b (min n l.length) fun k => ((l.getD k 0 : ℕ) : ℤ) :=
  ⟨le_trans (min_le_right _ _) h.1, fun k hk => h.2 k (lt_of_lt_of_le hk (min_le_right _ _))⟩

/-! ## Training -/

/-- The state that a successful training leaves. -/
def ready (s : Sm) (nx : ℕ) (q m : List ℤ) (e : List ℤ) (o : Obj) : Sm :=
  { s with order := .arr q, ncp := .arr m, num := some ⟨nx, q.prod, e⟩, rmtsc := .ready o }

variable {s : Sm} {xt L x : Arr} {qs ms : List ℕ} {nx : ℕ}

/-- **C99** Training of an `RMTB`: with limits (an array of `double`s with two columns and a row for every input) and lists of orders and control points that are at least as long as there are inputs, the
compiled object is set up without undefined behaviour, for the first `nx` entries of the lists. -/
theorem C99_rmtb_train (hd : s.data = some xt) (hL : s.xlimits = some L) (hq : s.order.list xt.m = qs.map Nat.cast) (hm : s.ncp.list xt.m = ms.map Nat.cast) (hl : qs.length = ms.length)
    (hx : 1 ≤ xt.m) (hn : xt.m ≤ qs.length) (hi : xt.m < 2 ^ 31) (hdbl : L.dbl = true) (hL2 : 2 ≤ L.m) (hLn : xt.m ≤ L.n) (hqi : ∀ v ∈ qs, v < 2 ^ 31) (hmi : ∀ v ∈ ms, v < 2 ^ 31) :
    ∃ o, pyTrain s = (ready s xt.m (qs.map Nat.cast) (ms.map Nat.cast) (List.zipWith (fun m q : ℕ => (m : ℤ) - q + 1) ms qs) o, .ok ()) ∧ Ready o (axesOf L qs ms xt.m) ∧
      BaseReady o.base xt.m (fun k => L.f k 0) fun k => L.f k 1 := by
  obtain ⟨b, e1, h1⟩ := C99_rmts_setup (column_vec L hLn 0) (column_vec L hLn 1)
  have hq' := int32_ints hqi
  have hm' := int32_ints hmi
  have lq : (int32 (qs.map Nat.cast)).len = qs.length := by rw [int32_len]; simp
  have lm : (int32 (ms.map Nat.cast)).len = ms.length := by rw [int32_len]; simp
  set Q : Buf ℤ := ⟨xt.m, fun i => if i < xt.m then (int32 (qs.map Nat.cast)).cell i else none⟩ with hQ
  set M : Buf ℤ := ⟨xt.m, fun i => if i < xt.m then (int32 (ms.map Nat.cast)).cell i else none⟩ with hM
  have es : setup xt.m (column L 0) (column L 1) (int32 (qs.map Nat.cast)) (int32 (ms.map Nat.cast)) = .ok ⟨b, Q, M⟩ := by
    unfold setup memcpy
    rw [e1, ok_bind, if_pos ⟨le_rfl, by omega⟩, ok_bind, if_pos ⟨le_rfl, by omega⟩, ok_bind, pure_ok]; rfl
  have ep : pySetup xt.m L (qs.map Nat.cast) (ms.map Nat.cast) = .ok ⟨b, Q, M⟩ := by
    unfold pySetup intArg bufArg addr
    rw [if_neg (by omega), ok_bind, if_pos (isInt_nat hi), ok_bind, if_pos hdbl, ok_bind, if_neg (show ¬ (column L 0).len = 0 from fun e => by have : L.n = 0 := e; omega), ok_bind, if_neg (show ¬ (column L 1).len = 0 from fun e => by have : L.n = 0 := e; omega), ok_bind, if_neg (by omega), ok_bind,
      if_neg (by omega), ok_bind, es]; rfl
  have ee : elemList (ms.map Nat.cast) (qs.map Nat.cast) = some (List.zipWith (fun m q : ℕ => (m : ℤ) - q + 1) ms qs) := by
    unfold elemList
    rw [if_pos (by simp [hl]), List.zipWith_map]
  refine ⟨⟨b, Q, M⟩, ?_, ⟨by rw [axesOf_length]; exact h1.hnx, ?_, ?_⟩, h1⟩
  · unfold pyTrain
    rw [hd]
    dsimp only
    rw [hq, hm]
    unfold install
    rw [ee]
    dsimp only
    rw [hL]
    dsimp only
    rw [ep]
    unfold ready installed
    rw [hL, hd]
  · rw [axesOf_orders _ _ _ _ hn]
    refine ⟨by rw [List.length_take]; exact min_le_left _ _, fun k hk => ?_⟩
    rw [List.length_take] at hk
    rw [hQ]; dsimp only
    rw [if_pos (by omega), hq'.2 k (by omega), getD_take (by omega)]
  · rw [axesOf_ncps _ _ _ _ (by omega)]
    refine ⟨by rw [List.length_take]; exact min_le_left _ _, fun k hk => ?_⟩
    rw [List.length_take] at hk
    rw [hM]; dsimp only
    rw [if_pos (by omega), hm'.2 k (by omega), getD_take (by omega)]

lemma setup_short {nx : ℕ} {lo hi : Buf ℝ} {q m : Buf ℤ} (h : lo.len < nx ∨ hi.len < nx ∨ q.len < nx ∨ m.len < nx) : setup nx lo hi q m = .error .outside := by
  unfold setup
  by_cases hb : lo.len < nx ∨ hi.len < nx
  · rw [C99_rmts_setup_outside hb]; rfl
  · have hb' : nx ≤ lo.len ∧ nx ≤ hi.len := by omega
    unfold Rmt.setup memcpy
    rw [if_pos ⟨le_rfl, hb'.1⟩, ok_bind, if_pos ⟨le_rfl, hb'.2⟩, ok_bind, pure_ok, ok_bind]
    by_cases hq : nx ≤ q.len
    · rw [if_pos ⟨le_rfl, hq⟩, ok_bind, if_neg (by omega)]; rfl
    · rw [if_neg (by omega)]; rfl

/-- **C99** Training with a list (or a table of limits) that is shorter than the number of inputs: nothing checks it, and the compiled `setup` copies from behind the array. -/
theorem C99_rmtb_train_short (hd : s.data = some xt) (hL : s.xlimits = some L) (hi : xt.m < 2 ^ 31) (hdbl : L.dbl = true) (hL2 : 2 ≤ L.m) (hLn : 1 ≤ L.n) (hq : 1 ≤ (s.order.list xt.m).length)
    (hm : 1 ≤ (s.ncp.list xt.m).length) (he : (elemList (s.ncp.list xt.m) (s.order.list xt.m)).isSome) (h : (s.order.list xt.m).length < xt.m ∨ (s.ncp.list xt.m).length < xt.m ∨ L.n < xt.m) :
    (pyTrain s).2 = .error (.ub .outside) := by
  obtain ⟨e, he⟩ := Option.isSome_iff_exists.1 he
  have ep : pySetup xt.m L (s.order.list xt.m) (s.ncp.list xt.m) = .error (.ub .outside) := by
    unfold pySetup intArg bufArg addr
    rw [if_neg (by omega), ok_bind, if_pos (isInt_nat hi), ok_bind, if_pos hdbl, ok_bind, if_neg (show ¬ (column L 0).len = 0 from fun e => by have : L.n = 0 := e; omega), ok_bind, if_neg (show ¬ (column L 1).len = 0 from fun e => by have : L.n = 0 := e; omega), ok_bind,
      if_neg (by rw [int32_len]; omega), ok_bind, if_neg (by rw [int32_len]; omega), ok_bind, setup_short]
    · rfl
    · rw [int32_len, int32_len]
      have : (column L 0).len = L.n := rfl
      omega
  unfold pyTrain
  rw [hd]
  dsimp only
  unfold install
  rw [he]
  dsimp only
  rw [hL]
  dsimp only
  rw [ep]; rfl

/-- Every attempt to train replaces the two options by lists. -/
lemma train_options (s : Sm) (hd : s.data = some xt) : (after s .train).order = .arr (s.order.list xt.m) ∧ (after s .train).ncp = .arr (s.ncp.list xt.m) ∧ (after s .train).xlimits = s.xlimits := by
  unfold after pyTrain
  rw [hd]
  dsimp only
  unfold install
  split
  · exact ⟨rfl, rfl, rfl⟩
  · split
    · exact ⟨rfl, rfl, rfl⟩
    · unfold installed
      split <;> exact ⟨rfl, rfl, rfl⟩

/-- **C99** An object with one number for all inputs (such as the default) cannot be trained again with more inputs: the first training has replaced the number by a list. The second training reads outside
that list, whatever the new limits are. -/
theorem C99_rmtb_retrain {q m : ℤ} {xt' L' : Arr} (ho : s.order = .num q) (hc : s.ncp = .num m) (hd : s.data = some xt) (hx : 1 ≤ xt.m) (hmore : xt.m < xt'.m) (hi : xt'.m < 2 ^ 31) (hdbl : L'.dbl = true)
    (hL2 : 2 ≤ L'.m) (hLn : 1 ≤ L'.n) : (pyTrain (after (after (after s .train) (.set xt')) (.setLimits L'))).2 = .error (.ub .outside) := by
  obtain ⟨h1, h2, -⟩ := train_options s hd
  rw [ho] at h1
  rw [hc] at h2
  set s' := after (after (after s .train) (.set xt')) (.setLimits L') with hs'
  have e1 : s'.order.list xt'.m = List.replicate xt.m q := by
    rw [show s'.order = (after s .train).order from rfl, h1]; rfl
  have e2 : s'.ncp.list xt'.m = List.replicate xt.m m := by
    rw [show s'.ncp = (after s .train).ncp from rfl, h2]; rfl
  refine C99_rmtb_train_short (xt := xt') (L := L') rfl rfl hi hdbl hL2 hLn ?_ ?_ ?_ ?_
  · rw [e1, List.length_replicate]; exact hx
  · rw [e2, List.length_replicate]; exact hx
  · rw [e1, e2]; unfold elemList; rw [if_pos (by simp)]; rfl
  · rw [e1, List.length_replicate]; exact .inl hmore

/-- **C99** A numpy integer as the order passes the check of the option's type, but is not repeated for every input: training with two or more inputs reads outside. -/
theorem C99_rmtb_numpy_integer {q m : ℤ} (ho : s.order = .np q) (hc : s.ncp = .num m) (hd : s.data = some xt) (hL : s.xlimits = some L) (hx : 2 ≤ xt.m) (hi : xt.m < 2 ^ 31) (hdbl : L.dbl = true)
    (hL2 : 2 ≤ L.m) (hLn : 1 ≤ L.n) : (pyTrain s).2 = .error (.ub .outside) := by
  refine C99_rmtb_train_short hd hL hi hdbl hL2 hLn ?_ ?_ ?_ ?_
  · rw [ho]; exact le_rfl
  · rw [hc]; simp only [Opt.list, List.length_replicate]; omega
  · rw [ho, hc]; simp only [Opt.list, elemList, List.length_replicate, List.length_singleton]
    rw [if_neg (by omega)]; rfl
  · rw [ho]; exact .inl (show 1 < xt.m by omega)

/-! ## Evaluation -/

/-- Specification: an `RMTB` whose last training succeeded, for `nx` inputs with the given limits, orders and control points (which are what `C99_rmtb_train` leaves). -/
structure Trained (s : Sm) (L : Arr) (nx : ℕ) (qs ms : List ℕ) : Prop where
  hL : s.xlimits = some L
  hnum : ∃ e, s.num = some ⟨nx, (qs.prod : ℤ), e⟩
  hobj : ∃ o, s.rmtsc = .ready o ∧ Ready o (axesOf L qs ms nx) ∧ BaseReady o.base nx (fun k => L.f k 0) fun k => L.f k 1
  hn : nx ≤ qs.length
  hm : nx ≤ ms.length
  hLn : nx ≤ L.n
  hL2 : 2 ≤ L.m
  hx : 1 ≤ nx
  hf : Fits (axesOf L qs ms nx)

lemma eps_pos : 0 < eps := by unfold eps; positivity
lemma eps_lt : eps < 1 / 2 := by unfold eps; norm_num

lemma clamp_mem (v : ℝ) : 0 ≤ min (max v (0 + eps)) (1 - eps) ∧ min (max v (0 + eps)) (1 - eps) < 1 := by
  have h1 := eps_pos
  have h2 := eps_lt
  exact ⟨le_min (le_trans (by linarith) (le_max_right _ _)) (by linarith), lt_of_le_of_lt (min_le_right _ _) (by linarith)⟩

lemma params_mem (L : Arr) (nx : ℕ) (x : Arr) (i k : ℕ) : 0 ≤ (params L nx x).f i k ∧ (params L nx x).f i k < 1 := by
  unfold params
  dsimp only
  split <;> exact clamp_mem _

/-- The parameters of point `i` as the compiled object reads them, which has no column count of its own: entry `i * nx + k` of the flattened table. -/
def seen (t : Arr) (nx i k : ℕ) : ℝ := t.f ((i * nx + k) / t.m) ((i * nx + k) % t.m)

lemma seen_eq {t : Arr} {nx i k : ℕ} (h : t.m = nx) (hk : k < nx) : seen t nx i k = t.f i k := by
  unfold seen
  rw [h, mul_comm, Nat.mul_add_div (by omega), Nat.div_eq_of_lt hk, Nat.mul_add_mod, Nat.mod_eq_of_lt hk]; rfl

lemma flat_seen (t : Arr) {nx : ℕ} (h : nx ≤ t.m) : Holds t.flat t.n nx (seen t nx) := by
  have hle : t.n * nx ≤ t.n * t.m := Nat.mul_le_mul_left _ h
  refine ⟨hle, fun i hi k hk => ?_⟩
  have := flat_lt hi hk
  exact if_pos (show i * nx + k < t.n * t.m by omega)

/-- Specification: the entries of a sparse matrix with `n` rows are, row after row, `row i`; behind them are the cells of `c0`. -/
def Rows (c : Coo) (n len : ℕ) (row : ℕ → List (ℝ × ℕ)) : Prop :=
  ∀ i < n, (row i).length = len ∧ ∀ z (hz : z < (row i).length),
    c.data.cell (i * len + z) = some (row i)[z].1 ∧ c.rows.cell (i * len + z) = some (i : ℤ) ∧ c.cols.cell (i * len + z) = some ((row i)[z].2 : ℤ)

lemma take_prod_le {qs : List ℕ} (h : ∀ v ∈ qs, 0 < v) (nx : ℕ) : (qs.take nx).prod ≤ qs.prod := by
  have := take_drop_le qs h 0 nx
  simpa using this

/-- The compiled `compute_jac` called from Python. -/
lemma pyJac_ok (h : Trained s L nx qs ms) (hpos : ∀ v ∈ qs, 0 < v) {t : Arr} (ht : ∀ i k, 0 ≤ t.f i k ∧ t.f i k < 1) (hw : nx ≤ t.m) (hn : 1 ≤ t.n) (hbx : t.n * nx ≤ 2 ^ 31) (hb : t.n * (qs.take nx).prod ≤ 2 ^ 31)
    (hni : t.n < 2 ^ 31) {ix1 ix2 : ℤ} (h1 : isInt (ix1 - 1)) (h2 : isInt (ix2 - 1)) :
    ∃ (c : Coo) (row : ℕ → List (ℝ × ℕ)), pyJac s ix1 ix2 qs.prod t = .ok c ∧ c.data.len = t.n * qs.prod ∧ (∀ i < t.n, jacRow (ix1 - 1) (ix2 - 1) (axesOf L qs ms nx) ((List.range nx).map (seen t nx i)) = some (row i)) ∧
      Rows c t.n (qs.take nx).prod row ∧ ∀ a, t.n * (qs.take nx).prod ≤ a → c.data.cell a = none ∧ c.rows.cell a = none ∧ c.cols.cell a = none := by
  obtain ⟨o, ho, hr, -⟩ := h.hobj
  have hle := Nat.mul_le_mul_left t.n (take_prod_le hpos nx)
  have hlen := axesOf_length L qs ms nx
  have hord := axesOf_orders L qs ms nx h.hn
  have hp : 0 < qs.prod := SMT.Index.prod_pos_of hpos
  have hnq : 0 < t.n * qs.prod := Nat.mul_pos (by omega) hp
  have hnm : 0 < t.n * t.m := Nat.mul_pos (by omega) (by have := h.hx; omega)
  obtain ⟨c, e, l1, -, -, hrow, hback⟩ := C99_rmtb_kernel (n := t.n) (c0 := ⟨Buf.fresh (t.n * qs.prod), Buf.fresh (t.n * qs.prod), Buf.fresh (t.n * qs.prod)⟩) hr h.hf (T := seen t nx) (params := t.flat)
    (by rw [hlen]; exact flat_seen t hw) (fun i _ k _ => ht _ _) (by rw [hlen]; exact hbx) (by rw [hord]; exact hb) (by rw [hord]; exact ⟨hle, hle, hle⟩) (ix1 - 1) (ix2 - 1)
  rw [hord] at hrow hback
  have hex : ∀ i, ∃ row, i < t.n → jacRow (ix1 - 1) (ix2 - 1) (axesOf L qs ms nx) ((List.range nx).map (seen t nx i)) = some row ∧ row.length = (qs.take nx).prod ∧ ∀ z (hz : z < row.length),
        c.data.cell (i * row.length + z) = some row[z].1 ∧ c.rows.cell (i * row.length + z) = some (i : ℤ) ∧ c.cols.cell (i * row.length + z) = some (row[z].2 : ℤ) := fun i => by
    by_cases hi : i < t.n
    · obtain ⟨row, r1, r2⟩ := hrow i hi
      exact ⟨row, fun _ => ⟨by rw [← r1, prow, hlen], r2⟩⟩
    · exact ⟨[], fun h => absurd h hi⟩
  choose row hrows using hex
  refine ⟨c, row, ?_, l1, fun i hi => (hrows i hi).1, fun i hi => ⟨(hrows i hi).2.1, fun z hz => ?_⟩, hback⟩
  · unfold pyJac empty intArg addr
    have e0 : ((t.n : ℤ) * (qs.prod : ℤ)) = ((t.n * qs.prod : ℕ) : ℤ) := by push_cast; rfl
    rw [e0, if_pos (Int.natCast_nonneg _), if_pos (Int.natCast_nonneg _), Int.toNat_natCast, ok_bind, ok_bind, ho]
    dsimp only
    rw [if_pos h1, ok_bind, if_pos h2, ok_bind, if_pos (isInt_nat hni), ok_bind, if_neg (show ¬ t.flat.len = 0 from hnm.ne'), ok_bind,
      if_neg (show ¬ (Buf.fresh (t.n * qs.prod) : Buf ℝ).len = 0 from hnq.ne'), ok_bind, e]; rfl
  · have := (hrows i hi).2.2 z hz
    rwa [(hrows i hi).2.1] at this

/-- Specification: sizes of the evaluated table that an `int` can hold. -/
structure Size (x : Arr) (nx : ℕ) (qs : List ℕ) : Prop where
  hn : 1 ≤ x.n
  hni : x.n < 2 ^ 31
  hbx : x.n * nx ≤ 2 ^ 31
  hb : x.n * (qs.take nx).prod ≤ 2 ^ 31

lemma table_ok (h : Trained s L nx qs ms) {e : List ℤ} (hw : nx ≤ x.m) : table s ⟨nx, (qs.prod : ℤ), e⟩ x = .ok (L, params L nx x) := by
  unfold table
  rw [h.hL]
  dsimp only
  rw [if_neg (by have := h.hLn; have := h.hL2; omega)]

/-- Dividing the entries. -/
lemma Rows.divide {c : Coo} {n len : ℕ} {row : ℕ → List (ℝ × ℕ)} (h : Rows c n len row) (d : ℝ) : Rows { c with data := divide c.data d } n len fun i => (row i).map fun e => (e.1 / d, e.2) := by
  intro i hi
  obtain ⟨h1, h2⟩ := h i hi
  refine ⟨by rw [List.length_map, h1], fun z hz => ?_⟩
  rw [List.length_map] at hz
  obtain ⟨a, b, c'⟩ := h2 z hz
  refine ⟨?_, b, by rw [c', List.getElem_map]⟩
  simp only [Rmtb.divide, a, Option.map_some, List.getElem_map]

/-- The factor by which `_compute_jac_raw` divides for one index, with Python's rule for negative ones. -/
def factor (L : Arr) (ix : ℤ) : Option ℝ := if ix = 0 then some 1 else (pyRow L.n (ix - 1)).map fun r => L.f r 1 - L.f r 0

lemma scale_ok {c : Coo} {n len : ℕ} {row : ℕ → List (ℝ × ℕ)} (h : Rows c n len row) {L : Arr} {ix : ℤ} {d : ℝ} (hd : factor L ix = some d) :
    ∃ c', scale L ix c = .ok c' ∧ Rows c' n len (fun i => (row i).map fun e => (e.1 / d, e.2)) ∧ c'.data.len = c.data.len ∧
      ∀ a, c.data.cell a = none ∧ c.rows.cell a = none ∧ c.cols.cell a = none → c'.data.cell a = none ∧ c'.rows.cell a = none ∧ c'.cols.cell a = none := by
  unfold factor at hd
  unfold scale
  by_cases h0 : ix = 0
  · rw [if_pos h0] at hd ⊢
    obtain rfl := Option.some.inj hd
    refine ⟨c, rfl, ?_, rfl, fun _ h => h⟩
    simpa using h
  · rw [if_neg h0] at hd ⊢
    obtain ⟨r, e1, e2⟩ := Option.map_eq_some_iff.1 hd
    rw [e1]
    subst e2
    exact ⟨_, rfl, h.divide _, rfl, fun a ⟨q1, q2, q3⟩ => ⟨by simp [Rmtb.divide, q1], q2, q3⟩⟩

lemma scale_none {c : Coo} {L : Arr} {ix : ℤ} (hd : factor L ix = none) : scale L ix c = .error .index := by
  unfold factor at hd
  unfold scale
  by_cases h0 : ix = 0
  · rw [if_pos h0] at hd; cases hd
  · rw [if_neg h0] at hd ⊢
    rw [Option.map_eq_none_iff.1 hd]

/-- **C99** What `_compute_jac_raw` does with any pair of derivative indices that are `int`s and any table with enough columns: it never leaves its arrays. If both indices are rows of the limits in Python's
sense, the result has the rows of `jacRow` for the parameters `seen`, divided by the two ranges; the cells behind `n * prod(first nx orders)` were never written. -/
theorem C99_rmtb_jac_raw (h : Trained s L nx qs ms) (hpos : ∀ v ∈ qs, 0 < v) (hw : nx ≤ x.m) (hz : Size x nx qs) {ix1 ix2 : ℤ} (h1 : isInt (ix1 - 1)) (h2 : isInt (ix2 - 1)) :
    (∀ d1 d2, factor L ix1 = some d1 → factor L ix2 = some d2 → ∃ (c : Coo) (row : ℕ → List (ℝ × ℕ)), jacRaw s ix1 ix2 x = .ok c ∧ c.data.len = x.n * qs.prod ∧
      (∀ i < x.n, jacRow (ix1 - 1) (ix2 - 1) (axesOf L qs ms nx) ((List.range nx).map (seen (params L nx x) nx i)) = some (row i)) ∧
      Rows c x.n (qs.take nx).prod (fun i => (row i).map fun e => (e.1 / d1 / d2, e.2)) ∧
      ∀ a, x.n * (qs.take nx).prod ≤ a → c.data.cell a = none ∧ c.rows.cell a = none ∧ c.cols.cell a = none) ∧
    (factor L ix1 = none ∨ factor L ix2 = none → jacRaw s ix1 ix2 x = .error .index) := by
  obtain ⟨e, he⟩ := h.hnum
  obtain ⟨c, row, ec, lc, r1, r2, r3⟩ := pyJac_ok h hpos (t := params L nx x) (fun i k => params_mem L nx x i k) hw hz.hn hz.hbx hz.hb hz.hni h1 h2
  have hj : jacRaw s ix1 ix2 x = (scale L ix1 c >>= scale L ix2) := by
    unfold jacRaw
    rw [he]
    dsimp only
    rw [table_ok h hw, ok_bind, ec, ok_bind]
  constructor
  · intro d1 d2 f1 f2
    obtain ⟨c1, e1, q1, l1, n1⟩ := scale_ok r2 f1
    obtain ⟨c2, e2, q2, l2, n2⟩ := scale_ok q1 f2
    refine ⟨c2, row, by rw [hj, e1, ok_bind, e2], by rw [l2, l1, lc]; rfl, r1, ?_, fun a ha => n2 a (n1 a (r3 a ha))⟩
    have q3 : Rows c2 x.n (qs.take nx).prod fun i => ((row i).map fun e => (e.1 / d1, e.2)).map fun e => (e.1 / d2, e.2) := q2
    simpa [List.map_map, Function.comp_def] using q3
  · intro hn
    rw [hj]
    cases f1 : factor L ix1 with
    | none => rw [scale_none f1]; rfl
    | some d1 =>
      obtain ⟨c1, e1, -⟩ := scale_ok r2 f1
      rw [e1, ok_bind, scale_none (hn.resolve_left (by rw [f1]; simp))]

lemma factor_nat (L : Arr) {qs ms : List ℕ} {nx : ℕ} (hLn : nx ≤ L.n) {k : ℕ} (hk : k ≤ nx) : ∃ d, factor L k = some d ∧ ∀ v, SMT.Rmtb.unscale (axesOf L qs ms nx) k v = v / d := by
  unfold factor SMT.Rmtb.unscale
  rcases k with _ | k
  · exact ⟨1, if_pos rfl, fun v => by simp⟩
  · refine ⟨L.f k 1 - L.f k 0, ?_, fun v => ?_⟩
    · rw [if_neg (by omega)]
      unfold pyRow
      rw [if_pos (by push_cast; omega)]
      simp
    · rw [if_neg (by omega)]
      simp [axesOf, show k < nx by omega]

lemma params_row (L : Arr) (qs ms : List ℕ) {nx : ℕ} (hx : x.m = nx) (i : ℕ) :
    (List.range nx).map (seen (params L nx x) nx i) = List.zipWith (param eps) (axesOf L qs ms nx) ((List.range nx).map (x.f i)) := by
  apply List.ext_getElem
  · simp [axesOf]
  · intro k h1 h2
    have hk : k < nx := by simpa using h1
    simp only [List.getElem_map, List.getElem_range, List.getElem_zipWith, axesOf, param]
    rw [seen_eq (by exact hx) hk]
    simp [params, hk]

/-- **C99** Values and derivatives (first and mixed second, `ix` 1-based, 0 for none) of a trained `RMTB` with lists of `nx` entries: the compiled code has a result, every cell of the three arrays is written,
and the entries are the rows of C25 with the literal `1e-15`. -/
theorem C99_rmtb_predict (h : Trained s L nx qs ms) (hpos : ∀ v ∈ qs, 0 < v) (hq : qs.length = nx) (hx : x.m = nx) (hz : Size x nx qs) {k1 k2 : ℕ} (h1 : k1 ≤ nx) (h2 : k2 ≤ nx) (hni : nx < 2 ^ 31) :
    ∃ (c : Coo) (row : ℕ → List (ℝ × ℕ)), jacRaw s k1 k2 x = .ok c ∧ c.data.len = x.n * qs.prod ∧ Rows c x.n qs.prod row ∧
      ∀ i < x.n, SMT.Rmtb.jacRaw (1 / 10 ^ 15) (axesOf L qs ms nx) k1 k2 ((List.range nx).map (x.f i)) = some (row i) := by
  obtain ⟨d1, f1, u1⟩ := factor_nat L (qs := qs) (ms := ms) h.hLn h1
  obtain ⟨d2, f2, u2⟩ := factor_nat L (qs := qs) (ms := ms) h.hLn h2
  have i1 : isInt ((k1 : ℤ) - 1) := ⟨by omega, by omega⟩
  have i2 : isInt ((k2 : ℤ) - 1) := ⟨by omega, by omega⟩
  obtain ⟨c, row, e, l, r1, r2, -⟩ := (C99_rmtb_jac_raw h hpos (by omega) hz i1 i2).1 d1 d2 f1 f2
  refine ⟨c, _, e, l, by simpa [← hq] using r2, fun i hi => ?_⟩
  change SMT.Rmtb.jacRaw eps _ _ _ _ = _
  unfold SMT.Rmtb.jacRaw
  rw [← params_row L qs ms hx, r1 i hi, Option.map_some]
  simp only [u1, u2]

/-- Entries of `predict_values` of a trained `RMTB`. -/
theorem C99_rmtb_values (h : Trained s L nx qs ms) (hpos : ∀ v ∈ qs, 0 < v) (hq : qs.length = nx) (hd : s.data = some xt) (hxt : xt.m = nx) (hx : x.m = nx) (hz : Size x nx qs) (hni : nx < 2 ^ 31) :
    ∃ (c : Coo) (row : ℕ → List (ℝ × ℕ)), values s x = .ok c ∧ Rows c x.n qs.prod row ∧ ∀ i < x.n, SMT.Rmtb.jacRaw (1 / 10 ^ 15) (axesOf L qs ms nx) 0 0 ((List.range nx).map (x.f i)) = some (row i) := by
  obtain ⟨c, row, e, -, r⟩ := C99_rmtb_predict h hpos hq hx hz (k1 := 0) (k2 := 0) (by omega) (by omega) hni
  refine ⟨c, row, ?_, r⟩
  unfold values checkX
  rw [hd]
  dsimp only
  rw [if_pos (by omega), ok_bind]; exact e

/-- Entries of `predict_derivatives(x, kx)` for an input `kx`. -/
theorem C99_rmtb_derivs (h : Trained s L nx qs ms) (hpos : ∀ v ∈ qs, 0 < v) (hq : qs.length = nx) (hd : s.data = some xt) (hxt : xt.m = nx) (hx : x.m = nx) (hz : Size x nx qs) (hni : nx < 2 ^ 31) {kx : ℕ}
    (hk : kx < nx) :
    ∃ (c : Coo) (row : ℕ → List (ℝ × ℕ)), derivs s x kx = .ok c ∧ Rows c x.n qs.prod row ∧ ∀ i < x.n, SMT.Rmtb.jacRaw (1 / 10 ^ 15) (axesOf L qs ms nx) (kx + 1) 0 ((List.range nx).map (x.f i)) = some (row i) := by
  obtain ⟨c, row, e, -, r⟩ := C99_rmtb_predict h hpos hq hx hz (k1 := kx + 1) (k2 := 0) (by omega) (by omega) hni
  refine ⟨c, row, ?_, r⟩
  unfold derivs checkX
  rw [hd]
  dsimp only
  rw [if_pos (by omega), ok_bind]; exact_mod_cast e

/-- **C99** No value of `kx` makes `predict_derivatives` of a trained `RMTB` leave its arrays. -/
theorem C99_rmtb_derivs_safe (h : Trained s L nx qs ms) (hpos : ∀ v ∈ qs, 0 < v) (hd : s.data = some xt) (hxt : nx ≤ xt.m) (hz : Size x nx qs) (kx : ℤ) (u : UB) : derivs s x kx ≠ .error (.ub u) := by
  intro he
  unfold derivs checkX at he
  rw [hd] at he
  dsimp only at he
  by_cases hx : x.m = xt.m
  · rw [if_pos hx, ok_bind] at he
    by_cases hk : isInt (kx + 1 - 1)
    · have i2 : isInt ((0 : ℤ) - 1) := ⟨by omega, by omega⟩
      have := C99_rmtb_jac_raw (x := x) h hpos (by omega) hz hk i2
      cases f1 : factor L (kx + 1) with
      | none => rw [this.2 (.inl f1)] at he; cases he
      | some d1 =>
        obtain ⟨c, row, e, -⟩ := this.1 d1 1 f1 (if_pos rfl)
        rw [e] at he; cases he
    · obtain ⟨e, hnum⟩ := h.hnum
      obtain ⟨o, ho, -, -⟩ := h.hobj
      unfold jacRaw at he
      rw [hnum] at he
      dsimp only at he
      rw [table_ok h (by omega), ok_bind] at he
      unfold pyJac empty intArg at he
      have e0 : (((params L nx x).n : ℤ) * (qs.prod : ℤ)) = ((x.n * qs.prod : ℕ) : ℤ) := by push_cast; rfl
      dsimp only at he
      rw [e0, if_pos (Int.natCast_nonneg _), if_pos (Int.natCast_nonneg _), ok_bind, ok_bind, ho] at he
      dsimp only at he
      rw [if_neg hk] at he
      cases he
  · rw [if_neg hx] at he; cases he

/-- **C99** `predict_derivatives(x, -1)` is not refused: it returns the values. -/
theorem C99_rmtb_derivs_minus_one (s : Sm) (x : Arr) : derivs s x (-1) = values s x := rfl

/-- **C99** Other negative `kx` count the rows of the limits from the end: the result is the values (not a derivative) divided by the range of that input. -/
theorem C99_rmtb_derivs_negative (h : Trained s L nx qs ms) (hpos : ∀ v ∈ qs, 0 < v) (hq : qs.length = nx) (hd : s.data = some xt) (hxt : xt.m = nx) (hx : x.m = nx) (hz : Size x nx qs) (hni : L.n < 2 ^ 31) {kx : ℤ}
    (h1 : kx < -1) (h2 : -(L.n : ℤ) ≤ kx) :
    ∃ (c : Coo) (row : ℕ → List (ℝ × ℕ)), derivs s x kx = .ok c ∧ Rows c x.n qs.prod (fun i => (row i).map fun e => (e.1 / (L.f (L.n + kx).toNat 1 - L.f (L.n + kx).toNat 0), e.2)) ∧
      ∀ i < x.n, SMT.Rmtb.jacRaw (1 / 10 ^ 15) (axesOf L qs ms nx) 0 0 ((List.range nx).map (x.f i)) = some (row i) := by
  have i1 : isInt (kx + 1 - 1) := ⟨by omega, by omega⟩
  have i2 : isInt ((0 : ℤ) - 1) := ⟨by omega, by omega⟩
  have f1 : factor L (kx + 1) = some (L.f (L.n + kx).toNat 1 - L.f (L.n + kx).toNat 0) := by
    unfold factor pyRow
    rw [if_neg (by omega), if_neg (by omega), if_pos (by omega)]
    simp
  obtain ⟨c, row, e, l, r1, r2, -⟩ := (C99_rmtb_jac_raw (x := x) h hpos (by omega) hz i1 i2).1 _ 1 f1 (if_pos rfl)
  refine ⟨c, row, ?_, by simpa [← hq] using r2, fun i hi => ?_⟩
  · unfold derivs checkX
    rw [hd]
    dsimp only
    rw [if_pos (by omega), ok_bind]; exact e
  · unfold SMT.Rmtb.jacRaw
    have := r1 i hi
    rw [params_row L qs ms hx] at this
    have hneg : ∀ (axes : List (Axis ℝ)) (j : ℤ) (k : ℕ) (ts : List ℝ), j < 0 → SMT.Rmtb.bases j (0 - 1) k axes ts = SMT.Rmtb.bases (0 - 1) (0 - 1) k axes ts := by
      intro axes j
      induction axes with
      | nil => intro k ts hj; rfl
      | cons a as ih =>
        intro k ts hj
        rw [SMT.Rmtb.bases, SMT.Rmtb.bases, ih (k + 1) ts.tail hj]
        have : SMT.Rmtb.mode j (0 - 1) k = SMT.Rmtb.mode (0 - 1) (0 - 1) k := by
          unfold SMT.Rmtb.mode
          rw [if_pos (by omega), if_pos (by omega)]
        rw [this]
    unfold jacRow at this ⊢
    rw [hneg _ _ _ _ (by omega)] at this
    simp only [Nat.cast_zero]
    rw [show (1 / 10 ^ 15 : ℝ) = eps from rfl, this]
    simp [SMT.Rmtb.unscale]

/-- **C99** Predicting with an object that was never trained is an error of Python: `AttributeError`, or `ValueError` for a wrong number of columns. -/
theorem C99_rmtb_untrained (h : s.num = none) (x : Arr) (kx : ℤ) :
    ((∀ a, s.data = some a → x.m = a.m) → values s x = .error .attribute ∧ derivs s x kx = .error .attribute) ∧
    (∀ a, s.data = some a → x.m ≠ a.m → values s x = .error .value ∧ derivs s x kx = .error .value) := by
  refine ⟨fun hd => ?_, fun a ha hm => ?_⟩
  · unfold values derivs checkX jacRaw
    rw [h]
    cases ha : s.data with
    | none => exact ⟨rfl, rfl⟩
    | some a => dsimp only; rw [if_pos (hd a ha)]; exact ⟨rfl, rfl⟩
  · unfold values derivs checkX
    rw [ha]
    dsimp only
    rw [if_neg hm]; exact ⟨rfl, rfl⟩

/-- **C99** A training that failed in the compiled `setup`'s argument checks (or for missing limits) leaves an object whose members have no values; predicting with it uses them. -/
theorem C99_rmtb_failed_training (hd : s.data = some xt) (hL : s.xlimits = some L) (he : (elemList (s.ncp.list xt.m) (s.order.list xt.m)).isSome) (hdbl : L.dbl = false) (hL2 : 2 ≤ L.m) (hLn : xt.m ≤ L.n)
    (hi : xt.m < 2 ^ 31) (hp : 1 ≤ (s.order.list xt.m).prod) (hx : x.m = xt.m) (hn : 1 ≤ x.n) (hni : x.n < 2 ^ 31) (hm : 1 ≤ x.m) :
    (pyTrain s).2 = .error .buffer ∧ values (after s .train) x = .error (.ub .unset) := by
  obtain ⟨e, he⟩ := Option.isSome_iff_exists.1 he
  have ep : pySetup xt.m L (s.order.list xt.m) (s.ncp.list xt.m) = .error .buffer := by
    unfold pySetup intArg bufArg
    rw [if_neg (by omega), ok_bind, if_pos (isInt_nat hi), ok_bind, hdbl]; rfl
  have et : pyTrain s = ({ s with order := .arr (s.order.list xt.m), ncp := .arr (s.ncp.list xt.m), num := some ⟨xt.m, (s.order.list xt.m).prod, e⟩, rmtsc := .raw }, .error .buffer) := by
    unfold pyTrain
    rw [hd]
    dsimp only
    unfold install
    rw [he]
    dsimp only
    rw [hL]
    dsimp only
    rw [ep]
    rfl
  refine ⟨by rw [et], ?_⟩
  obtain ⟨p, hp'⟩ : ∃ p : ℕ, (s.order.list xt.m).prod = p := ⟨_, (Int.toNat_of_nonneg (by omega)).symm⟩
  have hpp : 1 ≤ p := by omega
  have hnp : 0 < x.n * p := Nat.mul_pos (by omega) (by omega)
  have hnm : 0 < x.n * x.m := Nat.mul_pos (by omega) (by omega)
  unfold values checkX after
  rw [et]
  dsimp only
  rw [hd]
  dsimp only
  rw [if_pos hx, ok_bind]
  unfold jacRaw table
  dsimp only
  rw [hL]
  dsimp only
  rw [if_neg (by omega), ok_bind]
  unfold pyJac empty intArg addr
  dsimp only
  have e0 : (((params L xt.m x).n : ℤ) * (s.order.list xt.m).prod) = ((x.n * p : ℕ) : ℤ) := by rw [hp']; push_cast; rfl
  have i0 : isInt ((0 : ℤ) - 1) := ⟨by omega, by omega⟩
  rw [e0, if_pos (Int.natCast_nonneg _), if_pos (Int.natCast_nonneg _), Int.toNat_natCast, ok_bind, ok_bind]
  rw [if_pos i0, ok_bind, if_pos (show isInt (((params L xt.m x).n : ℕ) : ℤ) from isInt_nat hni), ok_bind, if_neg (show ¬ (params L xt.m x).flat.len = 0 from hnm.ne'), ok_bind,
    if_neg (show ¬ (Buf.fresh (x.n * p) : Buf ℝ).len = 0 from hnp.ne')]
  rfl

/-- **C99** A `kx` behind the last row of the limits raises `IndexError`. -/
theorem C99_rmtb_derivs_too_large (h : Trained s L nx qs ms) (hpos : ∀ v ∈ qs, 0 < v) (hd : s.data = some xt) (hxt : xt.m = nx) (hx : x.m = nx) (hz : Size x nx qs) {kx : ℕ} (h1 : L.n ≤ kx) (hk : kx < 2 ^ 31) :
    derivs s x kx = .error .index := by
  have i1 : isInt ((kx : ℤ) + 1 - 1) := ⟨by omega, by omega⟩
  have i2 : isInt ((0 : ℤ) - 1) := ⟨by omega, by omega⟩
  have f1 : factor L ((kx : ℤ) + 1) = none := by
    unfold factor pyRow
    rw [if_neg (by omega), if_neg (by omega), if_neg (by omega)]; rfl
  unfold derivs checkX
  rw [hd]
  dsimp only
  rw [if_pos (by omega), ok_bind]
  exact (C99_rmtb_jac_raw (x := x) h hpos (by omega) hz i1 i2).2 (.inl f1)

/-- **C99** Limits replaced after training by an array with fewer rows than inputs, or with fewer than two columns: every prediction raises `IndexError`. -/
theorem C99_rmtb_limits_replaced (h : Trained s L nx qs ms) (hd : s.data = some xt) (hx : x.m = xt.m) (L' : Arr) (hL : L'.n < nx ∨ L'.m < 2) (kx : ℤ) :
    values (after s (.setLimits L')) x = .error .index ∧ derivs (after s (.setLimits L')) x kx = .error .index := by
  have key : ∀ i1 i2, jacRaw (after s (.setLimits L')) i1 i2 x = .error .index := by
    intro i1 i2
    obtain ⟨el, hn⟩ := h.hnum
    unfold jacRaw
    rw [show (after s (.setLimits L')).num = s.num from rfl, hn]
    dsimp only
    unfold table
    rw [show (after s (.setLimits L')).xlimits = some L' from rfl]
    dsimp only
    rw [if_pos (.inr hL)]
    rfl
  unfold values derivs checkX
  rw [show (after s (.setLimits L')).data = s.data from rfl, hd]
  dsimp only
  rw [if_pos hx, ok_bind, ok_bind]
  exact ⟨key _ _, key _ _⟩

/-- **C99** Lists longer than the number of inputs are not refused either: the arrays handed to scipy then have `n * prod(all orders)` cells, of which only the first `n * prod(first nx orders)` were written. -/
theorem C99_rmtb_longer_list (h : Trained s L nx qs ms) (hpos : ∀ v ∈ qs, 0 < v) (hd : s.data = some xt) (hxt : xt.m = nx) (hx : x.m = nx) (hz : Size x nx qs) (hmore : 2 ≤ (qs.drop nx).prod) :
    ∃ c, values s x = .ok c ∧ ∃ a < c.data.len, c.data.cell a = none ∧ c.rows.cell a = none ∧ c.cols.cell a = none := by
  have i0 : isInt ((0 : ℤ) - 1) := ⟨by omega, by omega⟩
  obtain ⟨c, row, e, l, -, -, hb⟩ := (C99_rmtb_jac_raw (x := x) h hpos (by omega) hz i0 i0).1 1 1 (if_pos rfl) (if_pos rfl)
  refine ⟨c, ?_, x.n * (qs.take nx).prod, ?_, hb _ le_rfl⟩
  · unfold values checkX
    rw [hd]
    dsimp only
    rw [if_pos (by omega), ok_bind]; exact e
  · rw [l, ← List.prod_take_mul_prod_drop qs nx]
    have hp : 0 < (qs.take nx).prod := SMT.Index.prod_pos_of fun v hv => hpos v (List.mem_of_mem_take hv)
    have hn := hz.hn
    have : 0 < x.n * (qs.take nx).prod := Nat.mul_pos (by omega) hp
    nlinarith

/-- **C99** Evaluating after `set_training_values` with more inputs, without training again: the check compares with the new data, the compiled object still reads rows of the old length, so point `i` is
evaluated at entries `i * nx, ..., i * nx + nx - 1` of the flattened parameters. -/
theorem C99_rmtb_stale (h : Trained s L nx qs ms) (hpos : ∀ v ∈ qs, 0 < v) (hq : qs.length = nx) (hxt : nx ≤ xt.m) (hx : x.m = xt.m) (hz : Size x nx qs) :
    ∃ (c : Coo) (row : ℕ → List (ℝ × ℕ)), values (after s (.set xt)) x = .ok c ∧ Rows c x.n qs.prod row ∧
      ∀ i < x.n, jacRow (-1) (-1) (axesOf L qs ms nx) ((List.range nx).map (seen (params L nx x) nx i)) = some (row i) := by
  have i0 : isInt ((0 : ℤ) - 1) := ⟨by omega, by omega⟩
  have h' : Trained (after s (.set xt)) L nx qs ms := ⟨h.hL, h.hnum, h.hobj, h.hn, h.hm, h.hLn, h.hL2, h.hx, h.hf⟩
  obtain ⟨c, row, e, l, r1, r2, -⟩ := (C99_rmtb_jac_raw (x := x) h' hpos (by omega) hz i0 i0).1 1 1 (if_pos rfl) (if_pos rfl)
  refine ⟨c, row, ?_, by simpa [← hq] using r2, r1⟩
  unfold values checkX after
  dsimp only
  rw [if_pos hx, ok_bind]; exact e

/-- **C99** Distances to the domain for a trained `RMTB`: written completely, inside the array. -/
theorem C99_rmtb_ext (h : Trained s L nx qs ms) (hpos : ∀ v ∈ qs, 0 < v) (hx : x.m = nx) (hdbl : x.dbl = true) (hn : 1 ≤ x.n) (hni : x.n < 2 ^ 31) (hp : qs.prod < 2 ^ 31) (hb : x.n * qs.prod * nx ≤ 2 ^ 31) :
    ∃ d, extDx s x = .ok d ∧ d.len = x.n * qs.prod * nx ∧ Holds d (x.n * qs.prod) nx fun q k => SMT.Rmts.extDist (L.f k 0) (L.f k 1) (x.f (q / qs.prod) k) := by
  obtain ⟨e, he⟩ := h.hnum
  obtain ⟨o, ho, -, hr⟩ := h.hobj
  have hpp : 0 < qs.prod := SMT.Index.prod_pos_of hpos
  have hnx := h.hx
  have hbx : x.n * nx ≤ x.n * qs.prod * nx := Nat.mul_le_mul_right _ (Nat.le_mul_of_pos_right _ hpp)
  have hpos' : 0 < x.n * qs.prod * nx := Nat.mul_pos (Nat.mul_pos (by omega) hpp) (by omega)
  have hnm : 0 < x.n * x.m := Nat.mul_pos (by omega) (by omega)
  obtain ⟨d, e1, e2, e3, -⟩ := C99_ext_dist hr (x := x.flat) (n := x.n) (X := x.f) (by rw [← hx]; exact flat_holds x) (by omega) (nterm := qs.prod) hb (dx := Buf.fresh (x.n * qs.prod * nx)) le_rfl
  refine ⟨d, ?_, e2, e3⟩
  unfold extDx
  rw [he]
  dsimp only
  unfold empty intArg bufArg addr
  have e0 : ((x.n : ℤ) * (qs.prod : ℤ) * (nx : ℤ)) = ((x.n * qs.prod * nx : ℕ) : ℤ) := by push_cast; rfl
  rw [e0, if_pos (Int.natCast_nonneg _), Int.toNat_natCast, ok_bind, ho]
  dsimp only
  rw [if_pos (isInt_nat hni), ok_bind, if_pos (isInt_nat hp), ok_bind, if_pos hdbl, ok_bind, if_neg (show ¬ x.flat.len = 0 from hnm.ne'), ok_bind,
    if_neg (show ¬ (Buf.fresh (x.n * qs.prod * nx) : Buf ℝ).len = 0 from hpos'.ne'), ok_bind, Int.toNat_natCast, e1]; rfl

/-- **C99** Quadrature points of a trained `RMTB` with lists of `nx` entries: the compiled code has a result, which is the points of C57 for `2 * (ncp - order + 1)` cells per input. -/
theorem C99_rmtb_quadrature (h : Trained s L nx qs ms) (he : s.num = some ⟨nx, (qs.prod : ℤ), List.zipWith (fun m q : ℕ => (m : ℤ) - q + 1) ms qs⟩) (hq : qs.length = nx) (hm : ms.length = nx)
    (hb : (List.zipWith (fun m q => 2 * (m - q + 1)) ms qs).prod * nx ≤ 2 ^ 31) (hb' : (List.zipWith (fun m q => 2 * (m - q + 1)) ms qs).prod < 2 ^ 31) :
    ∃ d, quad s = .ok d ∧ d.len = (List.zipWith (fun m q => 2 * (m - q + 1)) ms qs).prod * nx ∧ Holds d (List.zipWith (fun m q => 2 * (m - q + 1)) ms qs).prod nx fun i k =>
      (SMT.Rmts.quadPoint ((List.range nx).map fun k => (L.f k 0, L.f k 1)) (List.zipWith (fun m q => 2 * (m - q + 1)) ms qs) i).getD k 0 := by
  obtain ⟨o, ho, -, hr⟩ := h.hobj
  have hle : ∀ k (h1 : k < qs.length) (h2 : k < ms.length), qs[k] ≤ ms[k] := fun k h1 h2 => by
    have := (h.hf.ok ⟨qs.getD k 0, ms.getD k 0, L.f k 0, L.f k 1⟩ (List.mem_map.2 ⟨k, List.mem_range.2 (by omega), rfl⟩)).2.1
    rwa [getD_mem h1, getD_mem h2] at this
  set ns := List.zipWith (fun m q => 2 * (m - q + 1)) ms qs with hns
  have hl : ns.length = nx := by rw [hns, List.length_zipWith]; omega
  have hpos : ∀ v ∈ ns, 0 < v := fun v hv => by
    obtain ⟨k, hk, rfl⟩ := List.mem_iff_getElem.1 hv
    simp only [hns, List.getElem_zipWith]; omega
  have ens : (List.zipWith (fun m q : ℕ => (m : ℤ) - q + 1) ms qs).map (2 * ·) = ns.map Nat.cast := by
    apply List.ext_getElem
    · simp [hns]
    · intro k h1 h2
      have h3 : k < qs.length := by simp at h1; omega
      have h4 : k < ms.length := by simp at h1; omega
      simp only [hns, List.getElem_map, List.getElem_zipWith]
      have := hle k h3 h4
      push_cast [this]; ring
  have hpp : 0 < ns.prod := SMT.Index.prod_pos_of hpos
  have hsm : ∀ v ∈ ns, v < 2 ^ 31 := fun v hv => lt_of_le_of_lt (Nat.le_of_dvd hpp (List.dvd_prod hv)) hb'
  have hi := int32_ints hsm
  obtain ⟨d, e1, e2, e3, -⟩ := C99_quadrature hr (n := ns.prod) (x := Buf.fresh (ns.prod * nx)) hi hl hpos hb' le_rfl hb le_rfl
  refine ⟨d, ?_, e2, e3⟩
  have hnx := h.hx
  have hpos' : 0 < ns.prod * nx := Nat.mul_pos hpp (by omega)
  unfold quad
  rw [he]
  dsimp only
  rw [ens]
  unfold empty intArg addr
  have e0 : ((ns.map Nat.cast).prod * (nx : ℤ)) = ((ns.prod * nx : ℕ) : ℤ) := by push_cast; rfl
  have e0' : (ns.map (Nat.cast : ℕ → ℤ)).prod = ((ns.prod : ℕ) : ℤ) := by push_cast; rfl
  rw [e0, if_pos (Int.natCast_nonneg _), Int.toNat_natCast, ok_bind, ho, e0']
  dsimp only
  rw [if_pos (isInt_nat hb'), ok_bind, if_neg (show ¬ (int32 (ns.map Nat.cast)).len = 0 by rw [int32_len]; simp; intro h; simp [h] at hl; omega), ok_bind,
    if_neg (show ¬ (Buf.fresh (ns.prod * nx) : Buf ℝ).len = 0 from hpos'.ne'), ok_bind, Int.toNat_natCast, e1]; rfl

/-! ## Non-vacuity -/

/-- Limits `[0, 1] x [0, 2]`. -/
noncomputable def exL : Arr := ⟨true, 2, 2, fun k j => if j = 0 then 0 else k + 1⟩

/-- Three training points in the plane. -/
noncomputable def exX : Arr := ⟨true, 3, 2, fun i j => i * j / 4⟩

/-- Quadratic splines (order 3) with 4 and 5 control points. -/
noncomputable def exS : Sm := ⟨.num 3, .arr [4, 5], some exL, some exX, none, .missing⟩

lemma ex_fits : Fits (axesOf exL [3, 3] [4, 5] 2) := by
  refine ⟨fun a ha => ?_, by decide⟩
  simp only [axesOf, List.mem_map, List.mem_range] at ha
  obtain ⟨k, hk, rfl⟩ := ha
  rcases k with _ | _ | k
  · decide
  · decide
  · omega

lemma ex_trained : (pyTrain exS).2 = .ok () ∧ Trained (after exS .train) exL 2 [3, 3] [4, 5] ∧ (after exS .train).data = some exX := by
  obtain ⟨o, e, h1, h2⟩ := C99_rmtb_train (s := exS) (xt := exX) (L := exL) (qs := [3, 3]) (ms := [4, 5]) rfl rfl rfl rfl rfl (by decide) (by decide) (by decide) rfl (by decide) (by decide) (by decide) (by decide)
  unfold after
  rw [e]
  exact ⟨rfl, ⟨rfl, ⟨_, rfl⟩, ⟨o, rfl, h1, h2⟩, by decide, by decide, by decide, by decide, by decide, ex_fits⟩, rfl⟩

lemma ex_size : Size exX 2 [3, 3] := ⟨by decide, by decide, by decide, by decide⟩

/-- Values: 3 rows of 9 entries. Derivatives with respect to input 1; `kx = -2` gives something as well, `kx = 2` an error. -/
example : (∃ c row, values (after exS .train) exX = .ok c ∧ Rows c 3 9 row) ∧ (∃ c row, derivs (after exS .train) exX 1 = .ok c ∧ Rows c 3 9 row) ∧ (∃ c row, derivs (after exS .train) exX (-2) = .ok c ∧ Rows c 3 9 row) ∧
    derivs (after exS .train) exX 2 = .error .index := by
  obtain ⟨-, h, hd⟩ := ex_trained
  have hp : ∀ v ∈ [3, 3], 0 < v := by decide
  obtain ⟨c1, r1, e1, q1, -⟩ := C99_rmtb_values h hp rfl hd rfl (x := exX) rfl ex_size (by decide)
  obtain ⟨c2, r2, e2, q2, -⟩ := C99_rmtb_derivs h hp rfl hd rfl (x := exX) rfl ex_size (by decide) (kx := 1) (by decide)
  obtain ⟨c3, r3, e3, q3, -⟩ := C99_rmtb_derivs_negative h hp rfl hd rfl (x := exX) rfl ex_size (by decide) (kx := -2) (by decide) (by decide)
  exact ⟨⟨c1, r1, e1, q1⟩, ⟨c2, r2, e2, q2⟩, ⟨c3, _, e3, q3⟩, C99_rmtb_derivs_too_large h hp hd rfl (x := exX) rfl ex_size (kx := 2) (by decide) (by decide)⟩

/-- `sm.options["xlimits"]` replaced by one column. -/
example : values (after (after exS .train) (.setLimits ⟨true, 2, 1, fun _ _ => 0⟩)) exX = .error .index :=
  (C99_rmtb_limits_replaced ex_trained.2.1 ex_trained.2.2 rfl ⟨true, 2, 1, fun _ _ => 0⟩ (.inr (by decide)) 0).1

/-- Training the default options with one input and then with two reads outside. -/
example : (pyTrain (after (after (after { Sm.new with data := some ⟨true, 3, 1, fun i _ => i⟩ } .train) (.set exX)) (.setLimits exL))).2 = .error (.ub .outside) :=
  C99_rmtb_retrain (q := 3) (m := 15) rfl rfl rfl (by decide) (by decide) (by decide) rfl (by decide) (by decide)

/-- `RMTB(order=np.int64(3), xlimits=...)`. -/
example : (pyTrain ⟨.np 3, .num 15, some exL, some exX, none, .missing⟩).2 = .error (.ub .outside) :=
  C99_rmtb_numpy_integer (q := 3) (m := 15) rfl rfl rfl rfl (by decide) (by decide) rfl (by decide) (by decide)

/-- Lists of three entries for two inputs. -/
example : ∃ c, values (after ⟨.arr [3, 3, 2], .arr [4, 5, 6], some exL, some exX, none, .missing⟩ .train) exX = .ok c ∧ ∃ a < c.data.len, c.data.cell a = none := by
  obtain ⟨o, e, h1, h2⟩ := C99_rmtb_train (s := ⟨.arr [3, 3, 2], .arr [4, 5, 6], some exL, some exX, none, .missing⟩) (xt := exX) (L := exL) (qs := [3, 3, 2]) (ms := [4, 5, 6]) rfl rfl rfl rfl rfl (by decide) (by decide)
    (by decide) rfl (by decide) (by decide) (by decide) (by decide)
  have hf : Fits (axesOf exL [3, 3, 2] [4, 5, 6] 2) := ex_fits
  obtain ⟨c, e1, a, ha, h3, -⟩ := C99_rmtb_longer_list (s := after ⟨.arr [3, 3, 2], .arr [4, 5, 6], some exL, some exX, none, .missing⟩ .train) (L := exL) (nx := 2) (qs := [3, 3, 2]) (ms := [4, 5, 6]) (xt := exX) (x := exX)
    (by unfold after; rw [e]; exact ⟨rfl, ⟨_, rfl⟩, ⟨o, rfl, h1, h2⟩, by decide, by decide, by decide, by decide, by decide, hf⟩) (by decide) (by unfold after; rw [e]; rfl) rfl rfl
    ⟨by decide, by decide, by decide, by decide⟩ (by decide)
  exact ⟨c, e1, a, ha, h3⟩

/-- Limits that are integers: the training fails, and the object is unusable. -/
example : (pyTrain ⟨.num 3, .num 5, some ⟨false, 2, 2, fun k j => if j = 0 then 0 else k + 1⟩, some exX, none, .missing⟩).2 = .error .buffer ∧
    values (after ⟨.num 3, .num 5, some ⟨false, 2, 2, fun k j => if j = 0 then 0 else k + 1⟩, some exX, none, .missing⟩ .train) exX = .error (.ub .unset) :=
  C99_rmtb_failed_training rfl rfl rfl rfl (by decide) (by decide) (by decide) (by decide) rfl (by decide) (by decide) (by decide)

/-- At the right end of the parameter range the first derivative has no result (`C23_right_end_not_found`: no span contains 1). -/
example {k b : Buf ℝ} (h : Exact k (3 + 5) (SMT.BSpline.knotU 3 5)) (r : ℤ × Buf ℝ) : computeBasis1 3 5 1 k b ≠ .ok r :=
  C99_no_span (q := 3) (m := 5) (by decide) (by decide) h (SMT.BSpline.C23_right_end_not_found 3 5 (by decide) (by decide)) r

end SMT.Native.Rmtb
