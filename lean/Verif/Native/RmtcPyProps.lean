import Verif.Native.RmtcPy
import Verif.Native.RmtcProps3
import Verif.Native.RmtbPyProps

set_option linter.unusedSectionVars false
set_option linter.unusedSimpArgs false
set_option linter.unusedVariables false

/-!
# When `RMTC` keeps its compiled object inside its arrays, and when it does not
-/
namespace SMT.Native.Rmtc
open SMT.Index SMT.Native.Rmt SMT.Native.Rmtb
open SMT.Rmtc (Axis)

/-- The inputs as the compiled object sees them: the first `nx` entries of the list of numbers of elements, and the limits. -/
def axesOf (L : Arr) (es : List ℕ) (nx : ℕ) : List (Axis ℝ) := (List.range nx).map fun k => ⟨es.getD k 0, L.f k 0, L.f k 1⟩

lemma axesOf_length (L : Arr) (es : List ℕ) (nx : ℕ) : (axesOf L es nx).length = nx := by simp [axesOf]

lemma axesOf_elems (L : Arr) (es : List ℕ) (nx : ℕ) (h : nx ≤ es.length) : (axesOf L es nx).map (·.nelem) = es.take nx := by
  rw [← range_getD es nx h]; simp [axesOf, Function.comp_def]

lemma ax_axesOf (L : Arr) (es : List ℕ) {nx k : ℕ} (h : k < nx) : ax (axesOf L es nx) k = ⟨es.getD k 0, L.f k 0, L.f k 1⟩ := by
  rw [ax_get (by rw [axesOf_length]; exact h)]; simp [axesOf]

/-! ## Training -/

/-- The state that a successful training leaves. -/
def ready (s : Sm) (nx : ℕ) (es : List ℤ) (o : Obj) : Sm := { s with elements := .arr es, num := some ⟨nx, es, 4 ^ nx⟩, rmtsc := .ready o }

variable {s : Sm} {xt L x : Arr} {es : List ℕ} {nx : ℕ}

lemma terms_ints (nx : ℕ) : Ints (termList nx) (List.replicate nx 4) := by
  have := int32_ints (qs := List.replicate nx 4) fun v hv => by rw [List.eq_of_mem_replicate hv]; decide
  simpa [termList] using this

/-- **C100** Training of an `RMTC`: with limits (an array of `double`s with two columns and a row for every input) and a list of numbers of elements that is at least as long as there are inputs, the compiled
object is set up without undefined behaviour, for the first `nx` entries of the list, if the number of coefficients is an `int`. -/
theorem C100_rmtc_train (hd : s.data = some xt) (hL : s.xlimits = some L) (he : s.elements.list xt.m = es.map Nat.cast) (hx : 1 ≤ xt.m) (hn : xt.m ≤ es.length) (hi : xt.m < 2 ^ 31) (hdbl : L.dbl = true)
    (hL2 : 2 ≤ L.m) (hLn : xt.m ≤ L.n) (hpos : ∀ v ∈ es, 1 ≤ v) (hei : ∀ v ∈ es, v < 2 ^ 31) (hs : (es.take xt.m).prod * 4 ^ xt.m < 2 ^ 31) :
    ∃ o, pyTrain s = (ready s xt.m (es.map Nat.cast) o, .ok ()) ∧ Ready o (axesOf L es xt.m) := by
  have hlen := axesOf_length L es xt.m
  have hel := axesOf_elems L es xt.m hn
  have hie := int32_ints hei
  have le : (int32 (es.map Nat.cast)).len = es.length := by rw [int32_len]; simp
  have lt : (termList xt.m).len = xt.m := by unfold termList; rw [int32_len]; simp
  obtain ⟨o, e1, h1⟩ := C100_setup (axes := axesOf L es xt.m) (lower := column L 0) (upper := column L 1) (eb := int32 (es.map Nat.cast)) (tb := termList xt.m) (fun a ha => by
      obtain ⟨k, hk, rfl⟩ := List.mem_map.1 ha
      rw [List.mem_range] at hk
      show 1 ≤ es.getD k 0
      rw [getD_mem (by omega)]
      exact hpos _ (List.getElem_mem _)) (by rw [hel, hlen]; exact hs)
    (by
      rw [hlen]
      refine ⟨hLn, fun k hk => ?_⟩
      dsimp only
      rw [ax_axesOf L es hk]
      exact (column_vec L hLn 0).2 k hk)
    (by
      rw [hlen]
      refine ⟨hLn, fun k hk => ?_⟩
      dsimp only
      rw [ax_axesOf L es hk]
      exact (column_vec L hLn 1).2 k hk)
    (by
      rw [hel]
      refine ⟨by rw [le, List.length_take]; exact min_le_right _ _, fun k hk => ?_⟩
      rw [List.length_take] at hk
      rw [hie.2 k (by omega)]
      dsimp only
      rw [getD_take (by omega)])
    (by rw [hlen]; exact terms_ints _)
  rw [hlen] at e1
  refine ⟨o, ?_, h1⟩
  have ep : pySetup xt.m L (es.map Nat.cast) = .ok o := by
    unfold pySetup intArg bufArg addr
    rw [if_neg (by omega), ok_bind, if_pos (isInt_nat hi), ok_bind, if_pos hdbl, ok_bind, if_neg (show ¬ (column L 0).len = 0 from fun e => by have : L.n = 0 := e; omega), ok_bind, if_neg (show ¬ (column L 1).len = 0 from fun e => by have : L.n = 0 := e; omega), ok_bind, if_neg (by omega), ok_bind,
      if_neg (by omega), ok_bind, e1]; rfl
  unfold pyTrain
  rw [hd]
  dsimp only
  rw [he]
  unfold install
  rw [hL]
  dsimp only
  rw [ep]
  unfold ready installed
  rw [hL, hd]

lemma setup_short {lo hi : Buf ℝ} {e t : Buf ℤ} (h : lo.len < nx ∨ hi.len < nx ∨ e.len < nx) : setup nx lo hi e t = .error .outside := by
  unfold setup
  by_cases hb : lo.len < nx ∨ hi.len < nx
  · rw [C99_rmts_setup_outside hb]; rfl
  · have hb' : nx ≤ lo.len ∧ nx ≤ hi.len := by omega
    unfold Rmt.setup memcpy
    rw [if_pos ⟨le_rfl, hb'.1⟩, ok_bind, if_pos ⟨le_rfl, hb'.2⟩, ok_bind, pure_ok, ok_bind, if_neg (by omega)]; rfl

/-- **C100** Training with a list (or a table of limits) that is shorter than the number of inputs: nothing checks it, and the compiled `setup` copies from behind the array. -/
theorem C100_rmtc_train_short (hd : s.data = some xt) (hL : s.xlimits = some L) (hi : xt.m < 2 ^ 31) (hdbl : L.dbl = true) (hL2 : 2 ≤ L.m) (hLn : 1 ≤ L.n) (he : 1 ≤ (s.elements.list xt.m).length)
    (h : (s.elements.list xt.m).length < xt.m ∨ L.n < xt.m) : (pyTrain s).2 = .error (.ub .outside) := by
  have ep : pySetup xt.m L (s.elements.list xt.m) = .error (.ub .outside) := by
    unfold pySetup intArg bufArg addr
    have lt : (termList xt.m).len = xt.m := by unfold termList; rw [int32_len]; simp
    rw [if_neg (by omega), ok_bind, if_pos (isInt_nat hi), ok_bind, if_pos hdbl, ok_bind, if_neg (show ¬ (column L 0).len = 0 from fun e => by have : L.n = 0 := e; omega), ok_bind, if_neg (show ¬ (column L 1).len = 0 from fun e => by have : L.n = 0 := e; omega), ok_bind,
      if_neg (by rw [int32_len]; omega), ok_bind, if_neg (by omega), ok_bind, setup_short]
    · rfl
    · rw [int32_len]
      have : (column L 0).len = L.n := rfl
      omega
  unfold pyTrain
  rw [hd]
  dsimp only
  unfold install
  dsimp only
  rw [hL]
  dsimp only
  rw [ep]; rfl

/-- Every attempt to train replaces the option by a list. -/
lemma train_options (s : Sm) (hd : s.data = some xt) : (after s .train).elements = .arr (s.elements.list xt.m) ∧ (after s .train).xlimits = s.xlimits := by
  unfold after pyTrain
  rw [hd]
  dsimp only
  unfold install
  split
  · exact ⟨rfl, rfl⟩
  · unfold installed
    split <;> exact ⟨rfl, rfl⟩

/-- **C100** An object with one number for all inputs (such as the default) cannot be trained again with more inputs: the first training has replaced the number by a list. The second training reads outside
that list, whatever the new limits are. -/
theorem C100_rmtc_retrain {v : ℤ} {xt' L' : Arr} (ho : s.elements = .num v) (hd : s.data = some xt) (hx : 1 ≤ xt.m) (hmore : xt.m < xt'.m) (hi : xt'.m < 2 ^ 31) (hdbl : L'.dbl = true) (hL2 : 2 ≤ L'.m)
    (hLn : 1 ≤ L'.n) : (pyTrain (after (after (after s .train) (.set xt')) (.setLimits L'))).2 = .error (.ub .outside) := by
  obtain ⟨h1, -⟩ := train_options s hd
  rw [ho] at h1
  set s' := after (after (after s .train) (.set xt')) (.setLimits L') with hs'
  have e1 : s'.elements.list xt'.m = List.replicate xt.m v := by
    rw [show s'.elements = (after s .train).elements from rfl, h1]; rfl
  refine C100_rmtc_train_short (xt := xt') (L := L') rfl rfl hi hdbl hL2 hLn ?_ ?_
  · rw [e1, List.length_replicate]; exact hx
  · rw [e1, List.length_replicate]; exact .inl hmore

/-- **C100** A numpy integer passes the check of the option's type, but is not repeated for every input: training with two or more inputs reads outside. -/
theorem C100_rmtc_numpy_integer {v : ℤ} (ho : s.elements = .np v) (hd : s.data = some xt) (hL : s.xlimits = some L) (hx : 2 ≤ xt.m) (hi : xt.m < 2 ^ 31) (hdbl : L.dbl = true) (hL2 : 2 ≤ L.m)
    (hLn : 1 ≤ L.n) : (pyTrain s).2 = .error (.ub .outside) := by
  refine C100_rmtc_train_short hd hL hi hdbl hL2 hLn ?_ ?_
  · rw [ho]; exact le_rfl
  · rw [ho]; exact .inl (show 1 < xt.m by omega)

/-! ## Evaluation -/

/-- Specification: an `RMTC` whose last training succeeded, for `nx` inputs with the given limits and numbers of elements (which is what `C100_rmtc_train` leaves). -/
structure Trained (s : Sm) (L : Arr) (nx : ℕ) (es : List ℕ) : Prop where
  hnum : s.num = some ⟨nx, es.map Nat.cast, 4 ^ nx⟩
  hobj : ∃ o, s.rmtsc = .ready o ∧ Ready o (axesOf L es nx)
  hn : nx ≤ es.length
  hx : 1 ≤ nx

/-- Specification: sizes of the evaluated table that an `int` can hold. -/
structure Size (x : Arr) (nx : ℕ) : Prop where
  hn : 1 ≤ x.n
  hm : 1 ≤ x.m
  hbx : x.n * nx ≤ 2 ^ 31
  hb : x.n * 4 ^ nx < 2 ^ 31

lemma Size.hni (h : Size x nx) : x.n < 2 ^ 31 := lt_of_le_of_lt (Nat.le_mul_of_pos_right _ (by positivity)) h.hb

lemma call_ready {α : Type} (o : Obj) (f : Obj → C α) : call (.ready o) f = native (f o) := rfl

lemma native_bad {α : Type} {f : C α} (h : ∀ r, f ≠ .ok r) : ∃ u, native f = .error (.ub u) := by
  cases e : f with
  | ok a => exact absurd e (h a)
  | error u => exact ⟨u, rfl⟩

/-- The three arrays of `compute_jac`. -/
def outs (N : ℕ) : Coo := ⟨Buf.fresh N, Buf.fresh N, Buf.fresh N⟩

lemma blank_ok (N : ℕ) : blank ((N : ℕ) : ℤ) = .ok (outs N) := by
  unfold blank empty
  rw [if_pos (Int.natCast_nonneg _), if_pos (Int.natCast_nonneg _), Int.toNat_natCast]; rfl

/-- What remains of `_compute_jac_raw` once the arguments are accepted. -/
lemma jacRaw_eq (h : Trained s L nx es) (hz : Size x nx) (hdbl : x.dbl = true) {ix1 ix2 : ℤ} (h1 : isInt (ix1 - 1)) (h2 : isInt (ix2 - 1)) :
    ∃ o, Ready o (axesOf L es nx) ∧ jacRaw s ix1 ix2 x = (native (computeJac o (ix1 - 1) (ix2 - 1) x.n x.flat (outs (x.n * 4 ^ nx))) >>= fun r => .ok r.2) := by
  obtain ⟨o, ho, hr⟩ := h.hobj
  have hnq : 0 < x.n * 4 ^ nx := Nat.mul_pos (by have := hz.hn; omega) (by positivity)
  have hnm : 0 < x.n * x.m := Nat.mul_pos (by have := hz.hn; omega) (by have := hz.hm; omega)
  refine ⟨o, hr, ?_⟩
  unfold jacRaw
  rw [h.hnum]
  dsimp only
  rw [← Nat.cast_mul, blank_ok, ok_bind, ho]
  unfold present intArg bufArg addr
  dsimp only
  rw [ok_bind, if_pos h1, ok_bind, if_pos h2, ok_bind, if_pos (isInt_nat hz.hni), ok_bind, if_pos hdbl, ok_bind, if_neg (show ¬ x.flat.len = 0 from hnm.ne'), ok_bind,
    if_neg (show ¬ (outs (x.n * 4 ^ nx)).data.len = 0 from hnq.ne'), ok_bind, call_ready]; rfl

/-- **C100** What `_compute_jac_raw` does with any pair of derivative indices that are `int`s and any table with enough columns: if the coordinates that the compiled code reads (`seen`) are not too far from the
limits, it stays inside its arrays, writes every cell, and the entries are the rows of C26. -/
theorem C100_rmtc_jac_raw (h : Trained s L nx es) (hf : Fits (axesOf L es nx)) (hw : nx ≤ x.m) (hz : Size x nx) (hdbl : x.dbl = true) (hnear : ∀ i < x.n, ∀ k < nx, Near (ax (axesOf L es nx) k) (seen x nx i k))
    {ix1 ix2 : ℤ} (h1 : isInt (ix1 - 1)) (h2 : isInt (ix2 - 1)) :
    ∃ c, jacRaw s ix1 ix2 x = .ok c ∧ c.data.len = x.n * 4 ^ nx ∧ Rows c x.n (4 ^ nx) fun i => SMT.Rmtc.jacRow (ix1 - 1) (ix2 - 1) (axesOf L es nx) ((List.range nx).map (seen x nx i)) := by
  obtain ⟨o, hr, e⟩ := jacRaw_eq h hz hdbl h1 h2
  have hlen := axesOf_length L es nx
  obtain ⟨r, er, hE⟩ := C100_rmtc_kernel (n := x.n) (X := seen x nx) (x := x.flat) (c0 := outs (x.n * 4 ^ nx)) hr hf (by rw [hlen]; exact flat_seen x hw) (by rw [hlen]; exact hz.hbx) (by rw [hlen]; exact hnear)
    (by rw [hlen]; exact ⟨le_rfl, le_rfl, le_rfl⟩) (by rw [hlen]; exact hz.hb) (ix1 - 1) (ix2 - 1)
  refine ⟨r.2, by rw [e, er]; rfl, hE.hd, fun i hi => ?_⟩
  have hl : (SMT.Rmtc.jacRow (ix1 - 1) (ix2 - 1) (axesOf L es nx) ((List.range nx).map (seen x nx i))).length = 4 ^ nx := by simp [SMT.Rmtc.jacRow, hlen]
  refine ⟨hl, fun z hz' => ?_⟩
  have hzT : z < 4 ^ nx := by rw [← hl]; exact hz'
  have hc := hE.cells (i * 4 ^ nx + z) (by rw [hlen]; exact flat_lt hi hzT)
  have q1 : (i * 4 ^ nx + z) / 4 ^ nx = i := by rw [mul_comm, Nat.mul_add_div (by positivity), Nat.div_eq_of_lt hzT]; rfl
  have q2 : (i * 4 ^ nx + z) % 4 ^ nx = z := by rw [mul_comm, Nat.mul_add_mod, Nat.mod_eq_of_lt hzT]
  unfold jacF at hc
  rw [hlen] at hc
  dsimp only at hc
  rw [q1, q2, List.getD_eq_getElem?_getD, List.getElem?_eq_getElem hz', Option.getD_some] at hc
  exact hc

lemma seen_row (hx : x.m = nx) (i : ℕ) : (List.range nx).map (seen x nx i) = (List.range nx).map (x.f i) :=
  List.map_congr_left fun k hk => seen_eq hx (List.mem_range.1 hk)

lemma near_seen (hx : x.m = nx) (hnear : ∀ i < x.n, ∀ k < nx, Near ⟨es.getD k 0, L.f k 0, L.f k 1⟩ (x.f i k)) : ∀ i < x.n, ∀ k < nx, Near (ax (axesOf L es nx) k) (seen x nx i k) := fun i hi k hk => by
  rw [ax_axesOf L es hk, seen_eq hx hk]; exact hnear i hi k hk

/-- **C100** Entries of `predict_values` of a trained `RMTC`: one row of `4 ** nx` entries for each point, which is that of C26. -/
theorem C100_rmtc_values (h : Trained s L nx es) (hf : Fits (axesOf L es nx)) (hd : s.data = some xt) (hxt : xt.m = nx) (hx : x.m = nx) (hz : Size x nx) (hdbl : x.dbl = true)
    (hnear : ∀ i < x.n, ∀ k < nx, Near ⟨es.getD k 0, L.f k 0, L.f k 1⟩ (x.f i k)) :
    ∃ c, values s x = .ok c ∧ c.data.len = x.n * 4 ^ nx ∧ Rows c x.n (4 ^ nx) fun i => SMT.Rmtc.jacRow (-1) (-1) (axesOf L es nx) ((List.range nx).map (x.f i)) := by
  have i0 : isInt ((0 : ℤ) - 1) := ⟨by omega, by omega⟩
  obtain ⟨c, e, l, r⟩ := C100_rmtc_jac_raw h hf (by omega) hz hdbl (near_seen hx hnear) i0 i0
  simp only [seen_row hx] at r
  refine ⟨c, ?_, l, r⟩
  unfold values checkX
  rw [hd]
  dsimp only
  rw [if_pos (by omega), ok_bind]; exact e

/-- **C100** Entries of `predict_derivatives(x, kx)` of a trained `RMTC`, for any `kx` that is an `int`: the compiled code stays inside its arrays, and the entries are those of `jacRow` for this number. -/
theorem C100_rmtc_derivs (h : Trained s L nx es) (hf : Fits (axesOf L es nx)) (hd : s.data = some xt) (hxt : xt.m = nx) (hx : x.m = nx) (hz : Size x nx) (hdbl : x.dbl = true)
    (hnear : ∀ i < x.n, ∀ k < nx, Near ⟨es.getD k 0, L.f k 0, L.f k 1⟩ (x.f i k)) {kx : ℤ} (hk : isInt kx) :
    ∃ c, derivs s x kx = .ok c ∧ c.data.len = x.n * 4 ^ nx ∧ Rows c x.n (4 ^ nx) fun i => SMT.Rmtc.jacRow kx (-1) (axesOf L es nx) ((List.range nx).map (x.f i)) := by
  have i0 : isInt ((0 : ℤ) - 1) := ⟨by omega, by omega⟩
  have i1 : isInt (kx + 1 - 1) := by simpa using hk
  obtain ⟨c, e, l, r⟩ := C100_rmtc_jac_raw h hf (by omega) hz hdbl (near_seen hx hnear) i1 i0
  simp only [seen_row hx, add_sub_cancel_right] at r
  refine ⟨c, ?_, l, r⟩
  unfold derivs checkX
  rw [hd]
  dsimp only
  rw [if_pos (by omega), ok_bind]; exact e

/-- Numbers that are no input are numbers for no derivative. -/
lemma jacRow_no_input (axes : List (Axis ℝ)) {kx : ℤ} (h : kx < 0 ∨ (axes.length : ℤ) ≤ kx) (p : List ℝ) : SMT.Rmtc.jacRow kx (-1) axes p = SMT.Rmtc.jacRow (-1) (-1) axes p := by
  have key : ∀ (as : List (Axis ℝ)) (ix : ℕ) (xbs : List ℝ) (ps : List ℕ) (prod : ℝ), (kx < 0 ∨ ((ix + as.length : ℕ) : ℤ) ≤ kx) →
      SMT.Rmtc.jacLoop kx (-1) ix as xbs ps prod = SMT.Rmtc.jacLoop (-1) (-1) ix as xbs ps prod := by
    intro as
    induction as with
    | nil => intro ix xbs ps prod _; simp [SMT.Rmtc.jacLoop]
    | cons a as ih =>
      intro ix xbs ps prod hk
      rcases xbs with _ | ⟨xb, xbs⟩
      · simp [SMT.Rmtc.jacLoop]
      · rcases ps with _ | ⟨p, ps⟩
        · simp [SMT.Rmtc.jacLoop]
        · rw [List.length_cons] at hk
          have e : SMT.Rmtc.jacStep kx (-1) ix xb (SMT.Rmtc.dxb a) prod p = SMT.Rmtc.jacStep (-1) (-1) ix xb (SMT.Rmtc.dxb a) prod p := by
            unfold SMT.Rmtc.jacStep
            rw [if_pos ⟨by omega, by omega⟩, if_pos ⟨by omega, by omega⟩]
          rw [SMT.Rmtc.jacLoop, SMT.Rmtc.jacLoop, e, ih _ _ _ _ (by omega)]
  unfold SMT.Rmtc.jacRow
  dsimp only
  refine List.map_congr_left fun t _ => ?_
  rw [key axes 0 _ _ _ (by omega)]

/-- **C100** ... in particular a `kx` that is no input (negative, or behind the last one) is not refused: the result is the values. -/
theorem C100_rmtc_derivs_no_input (h : Trained s L nx es) (hf : Fits (axesOf L es nx)) (hd : s.data = some xt) (hxt : xt.m = nx) (hx : x.m = nx) (hz : Size x nx) (hdbl : x.dbl = true)
    (hnear : ∀ i < x.n, ∀ k < nx, Near ⟨es.getD k 0, L.f k 0, L.f k 1⟩ (x.f i k)) {kx : ℤ} (hk : isInt kx) (hno : kx < 0 ∨ (nx : ℤ) ≤ kx) :
    ∃ c, derivs s x kx = .ok c ∧ Rows c x.n (4 ^ nx) fun i => SMT.Rmtc.jacRow (-1) (-1) (axesOf L es nx) ((List.range nx).map (x.f i)) := by
  obtain ⟨c, e, -, r⟩ := C100_rmtc_derivs h hf hd hxt hx hz hdbl hnear hk
  refine ⟨c, e, ?_⟩
  simpa only [jacRow_no_input (axesOf L es nx) (kx := kx) (by rw [axesOf_length]; exact hno)] using r

lemma jacRaw_bad (h : Trained s L nx es) (hz : Size x nx) (hdbl : x.dbl = true) {ix1 ix2 : ℤ} (h1 : isInt (ix1 - 1)) (h2 : isInt (ix2 - 1))
    (hbad : ∀ (o : Obj) (r : ℤ × Coo), Ready o (axesOf L es nx) → computeJac o (ix1 - 1) (ix2 - 1) x.n x.flat (outs (x.n * 4 ^ nx)) ≠ .ok r) : ∃ u, jacRaw s ix1 ix2 x = .error (.ub u) := by
  obtain ⟨o, hr, e⟩ := jacRaw_eq h hz hdbl h1 h2
  obtain ⟨u, hu⟩ := native_bad fun r => hbad o r hr
  exact ⟨u, by rw [e, hu]; rfl⟩

/-- **C100** A point outside the domain by more than about `2 ** 31` elements in one coordinate: the conversion to `int` in the compiled code is undefined. Nothing checks the points before. -/
theorem C100_rmtc_values_far (h : Trained s L nx es) (hd : s.data = some xt) (hxt : xt.m = nx) (hx : x.m = nx) (hz : Size x nx) (hdbl : x.dbl = true) {i k : ℕ} (hi : i < x.n) (hk : k < nx)
    (hfar : ¬ Near ⟨es.getD k 0, L.f k 0, L.f k 1⟩ (x.f i k)) : ∃ u, values s x = .error (.ub u) := by
  have i0 : isInt ((0 : ℤ) - 1) := ⟨by omega, by omega⟩
  have hlen := axesOf_length L es nx
  have := jacRaw_bad (ix1 := 0) (ix2 := 0) h hz hdbl i0 i0 fun o r hr => C100_rmtc_far (n := x.n) (X := seen x nx) hr (by rw [hlen]; exact flat_seen x (by omega)) (by rw [hlen]; exact hz.hbx) hi (by rw [hlen]; exact hk)
    (by rw [ax_axesOf L es hk, seen_eq hx hk]; exact hfar) _ _ r
  unfold values checkX
  rw [hd]
  dsimp only
  rw [if_pos (by omega), ok_bind]; exact this

/-- The compiled code with an interval of length 0. -/
lemma flat_bad {o : Obj} {axes : List (Axis ℝ)} {n : ℕ} {X : ℕ → ℕ → ℝ} {b : Buf ℝ} {c0 : Coo} (h : Ready o axes) (hx : Holds b n axes.length X) (hbx : n * axes.length ≤ 2 ^ 31) {k : ℕ} (hn : 0 < n) (hk : k < axes.length)
    (he : (ax axes k).hi = (ax axes k).lo) (ix1 ix2 : ℤ) (r : ℤ × Coo) : computeJac o ix1 ix2 n b c0 ≠ .ok r := by
  intro he'
  unfold computeJac at he'
  obtain ⟨dx, -, he'⟩ := bind_eq_ok.1 he'
  obtain ⟨-, h2⟩ := loop_inv (fun _ => True) trivial (fun _ _ _ _ _ _ => trivial) he'
  obtain ⟨s, s', -, h3⟩ := h2 0 hn
  unfold jacPoint at h3
  obtain ⟨l, h3, -⟩ := bind_eq_ok.1 h3
  unfold locate at h3
  rw [h.base.hnx] at h3
  obtain ⟨-, h4⟩ := loop_inv (fun _ => True) trivial (fun _ _ _ _ _ _ => trivial) h3
  obtain ⟨u, u', -, h5⟩ := h4 k hk
  rw [h.elems.read (by simpa using hk), ok_bind, hx.read' hbx hn hk, ok_bind, (C100_find_interval_overflow (x := X 0 k) h hk).2 he] at h5
  cases h5

/-- **C100** Limits that are equal for one input are accepted by training; evaluating divides by 0 and converts the result to `int`, which is undefined. -/
theorem C100_rmtc_values_flat (h : Trained s L nx es) (hd : s.data = some xt) (hxt : xt.m = nx) (hx : x.m = nx) (hz : Size x nx) (hdbl : x.dbl = true) {k : ℕ} (hk : k < nx) (he : L.f k 1 = L.f k 0) :
    ∃ u, values s x = .error (.ub u) := by
  have i0 : isInt ((0 : ℤ) - 1) := ⟨by omega, by omega⟩
  have hlen := axesOf_length L es nx
  have := jacRaw_bad (ix1 := 0) (ix2 := 0) h hz hdbl i0 i0 fun o r hr => flat_bad (n := x.n) (X := seen x nx) hr (by rw [hlen]; exact flat_seen x (by omega)) (by rw [hlen]; exact hz.hbx) (by have := hz.hn; omega)
    (by rw [hlen]; exact hk) (by rw [ax_axesOf L es hk]; exact he) _ _ r
  unfold values checkX
  rw [hd]
  dsimp only
  rw [if_pos (by omega), ok_bind]; exact this

/-- The compiled code with a table that is too short. -/
lemma short_bad {o : Obj} {axes : List (Axis ℝ)} {n : ℕ} {b : Buf ℝ} {c0 : Coo} (h : Ready o axes) (hn : 0 < n) (hk : 0 < axes.length) (hs : b.len < n * axes.length) (ix1 ix2 : ℤ) (r : ℤ × Coo) :
    computeJac o ix1 ix2 n b c0 ≠ .ok r := by
  intro he'
  unfold computeJac at he'
  obtain ⟨dx, -, he'⟩ := bind_eq_ok.1 he'
  obtain ⟨-, h2⟩ := loop_inv (fun _ => True) trivial (fun _ _ _ _ _ _ => trivial) he'
  obtain ⟨s, s', -, h3⟩ := h2 (n - 1) (by omega)
  unfold jacPoint at h3
  obtain ⟨l, h3, -⟩ := bind_eq_ok.1 h3
  unfold locate at h3
  rw [h.base.hnx] at h3
  obtain ⟨-, h4⟩ := loop_inv (fun _ => True) trivial (fun _ _ _ _ _ _ => trivial) h3
  obtain ⟨u, u', -, h5⟩ := h4 (axes.length - 1) (by omega)
  obtain ⟨num, -, h5⟩ := bind_eq_ok.1 h5
  obtain ⟨v, h5, -⟩ := bind_eq_ok.1 h5
  obtain ⟨z, hz, h5⟩ := bind_eq_ok.1 h5
  obtain ⟨hz, -⟩ := lin_eq_ok hz
  obtain ⟨-, h6, -⟩ := read_eq_ok h5
  rw [hz] at h6
  have e : (n - 1) * axes.length + (axes.length - 1) + 1 = n * axes.length := by
    obtain ⟨m, rfl⟩ : ∃ m, n = m + 1 := ⟨n - 1, by omega⟩
    rw [Nat.add_sub_cancel, add_mul]; omega
  have h7 : (n - 1) * axes.length + (axes.length - 1) < b.len := by exact_mod_cast h6
  omega

/-- **C100** Evaluating after `set_training_values` with fewer inputs, without training again: the check compares with the new data, the compiled object still reads rows of the old length, and leaves the table. -/
theorem C100_rmtc_stale_fewer (h : Trained s L nx es) (hxt : xt.m < nx) (hx : x.m = xt.m) (hz : Size x nx) (hdbl : x.dbl = true) : ∃ u, values (after s (.set xt)) x = .error (.ub u) := by
  have i0 : isInt ((0 : ℤ) - 1) := ⟨by omega, by omega⟩
  have hlen := axesOf_length L es nx
  have h' : Trained (after s (.set xt)) L nx es := ⟨h.hnum, h.hobj, h.hn, h.hx⟩
  have hn := hz.hn
  have := jacRaw_bad (ix1 := 0) (ix2 := 0) h' hz hdbl i0 i0 fun o r hr => short_bad (n := x.n) hr hn (by rw [hlen]; exact h.hx) (by
    rw [hlen]
    show x.n * x.m < x.n * nx
    exact Nat.mul_lt_mul_of_pos_left (by omega) hn) _ _ r
  unfold values checkX after
  dsimp only
  rw [if_pos hx, ok_bind]; exact this

/-- **C100** ... with more inputs it stays inside, but point `i` is evaluated at entries `i * nx, ..., i * nx + nx - 1` of the flattened table. -/
theorem C100_rmtc_stale_more (h : Trained s L nx es) (hf : Fits (axesOf L es nx)) (hxt : nx ≤ xt.m) (hx : x.m = xt.m) (hz : Size x nx) (hdbl : x.dbl = true)
    (hnear : ∀ i < x.n, ∀ k < nx, Near (ax (axesOf L es nx) k) (seen x nx i k)) :
    ∃ c, values (after s (.set xt)) x = .ok c ∧ Rows c x.n (4 ^ nx) fun i => SMT.Rmtc.jacRow (-1) (-1) (axesOf L es nx) ((List.range nx).map (seen x nx i)) := by
  have i0 : isInt ((0 : ℤ) - 1) := ⟨by omega, by omega⟩
  have h' : Trained (after s (.set xt)) L nx es := ⟨h.hnum, h.hobj, h.hn, h.hx⟩
  obtain ⟨c, e, l, r⟩ := C100_rmtc_jac_raw h' hf (by omega) hz hdbl hnear i0 i0
  refine ⟨c, ?_, r⟩
  unfold values checkX after
  dsimp only
  rw [if_pos hx, ok_bind]; exact e

/-- **C100** Points that are no `double`s are refused, and so are numbers of inputs; an object never trained raises `AttributeError`. -/
theorem C100_rmtc_refused (s : Sm) (x : Arr) (kx : ℤ) :
    (∀ a, s.data = some a → x.m ≠ a.m → values s x = .error .value ∧ derivs s x kx = .error .value) ∧
    (s.data = none → values s x = .error .attribute ∧ derivs s x kx = .error .attribute) ∧
    (s.num = none → (∀ a, s.data = some a → x.m = a.m) → values s x = .error .attribute ∧ derivs s x kx = .error .attribute) ∧
    (∀ L nx es, Trained s L nx es → (∀ a, s.data = some a → x.m = a.m) → s.data ≠ none → x.n < 2 ^ 31 → x.dbl = false → values s x = .error .buffer) := by
  refine ⟨fun a ha hm => ?_, fun hn => ?_, fun h hd => ?_, fun L nx es h hd hn hni hb => ?_⟩
  · unfold values derivs checkX
    rw [ha]
    dsimp only
    rw [if_neg hm]; exact ⟨rfl, rfl⟩
  · unfold values derivs checkX
    rw [hn]; exact ⟨rfl, rfl⟩
  · unfold values derivs checkX jacRaw
    rw [h]
    cases ha : s.data with
    | none => exact ⟨rfl, rfl⟩
    | some a => dsimp only; rw [if_pos (hd a ha)]; exact ⟨rfl, rfl⟩
  · have i0 : isInt ((0 : ℤ) - 1) := ⟨by omega, by omega⟩
    obtain ⟨o, ho, hr⟩ := h.hobj
    obtain ⟨a, ha⟩ := Option.ne_none_iff_exists'.1 hn
    unfold values checkX
    rw [ha]
    dsimp only
    rw [if_pos (hd a ha), ok_bind]
    unfold jacRaw
    rw [h.hnum]
    dsimp only
    rw [← Nat.cast_mul, blank_ok, ok_bind, ho]
    unfold present intArg bufArg
    dsimp only
    rw [ok_bind, if_pos i0, ok_bind, ok_bind, if_pos (isInt_nat hni), ok_bind, hb]; rfl

/-! ## The matrices of `_compute_dof2coeff` -/

/-- **C100** With 8 or more inputs `_compute_dof2coeff` has undefined behaviour, whatever the other options are: the positions in `elem_coeff2nodal` are no `int`s. -/
theorem C100_rmtc_eight_inputs (h : Trained s L nx es) (h8 : 8 ≤ nx) (inv : Buf ℝ → Except Exc (Buf ℝ)) : ∃ u, dof2coeff s inv = .error (.ub u) := by
  obtain ⟨o, ho, hr⟩ := h.hobj
  have hlen := axesOf_length L es nx
  have hT : 0 < 4 ^ nx * 4 ^ nx := Nat.mul_pos (by positivity) (by positivity)
  obtain ⟨u, hu⟩ := native_bad fun r => C100_coeff2nodal_overflow (o := o) h8 (by rw [hr.base.hnx, hlen]) (by rw [hr.nterm, hlen]) (zeros (4 ^ nx * 4 ^ nx)) r
  refine ⟨u, ?_⟩
  unfold dof2coeff
  rw [h.hnum]
  dsimp only
  unfold c2n present addr
  rw [ho]
  dsimp only
  rw [ok_bind, if_neg (show ¬ (zeros (4 ^ nx * 4 ^ nx)).len = 0 from hT.ne'), ok_bind, call_ready, hu]; rfl

/-- **C100** With up to 7 inputs (as far as the numbers of entries are `int`s) all three compiled functions of `_compute_dof2coeff` stay inside their arrays. The inverse gets the matrix of C26; the first sparse matrix
is that of C26, the second has equal blocks, which are what the inverse returned. If the list of numbers of elements is longer than the number of inputs, the arrays are longer than what was written. -/
theorem C100_rmtc_dof2coeff (h : Trained s L nx es) (hf : Fits (axesOf L es nx)) (hpos : ∀ v ∈ es, 1 ≤ v) (hb : 4 ^ nx * 4 ^ nx ≤ 2 ^ 31) (hb' : (es.take nx).prod * (4 ^ nx * 4 ^ nx) < 2 ^ 31) {B : ℕ → ℕ → ℝ}
    {inv : Buf ℝ → Except Exc (Buf ℝ)} {b : Buf ℝ} (hB : Holds b (4 ^ nx) (4 ^ nx) B) (hinv : ∀ m, m.len = 4 ^ nx * 4 ^ nx → Holds m (4 ^ nx) (4 ^ nx) (SMT.Rmtc.coeff2nodal nx) → inv m = .ok b) :
    ∃ u f, dof2coeff s inv = .ok (u, f) ∧ Emitted (outs (es.prod * 4 ^ nx)) u ((es.take nx).prod * 4 ^ nx) (uniqF (es.take nx)) ∧
      Emitted (outs ((4 ^ nx) ^ 2 * es.prod)) f ((es.take nx).prod * (4 ^ nx * 4 ^ nx)) (blockF B (4 ^ nx)) := by
  obtain ⟨o, ho, hr⟩ := h.hobj
  have hlen := axesOf_length L es nx
  have hel := axesOf_elems L es nx h.hn
  have hT : 0 < 4 ^ nx * 4 ^ nx := Nat.mul_pos (by positivity) (by positivity)
  have hp : 0 < es.prod := prod_pos_of fun v hv => hpos v hv
  have hle : (es.take nx).prod ≤ es.prod := take_prod_le (fun v hv => hpos v hv) nx
  have hx := h.hx
  obtain ⟨m, e1, m1, m2, -⟩ := C100_coeff2nodal hr hf (by rw [hlen]; exact hx) (m := zeros (4 ^ nx * 4 ^ nx)) (by rw [hlen]; exact le_rfl) (by rw [hlen]; exact hb)
  rw [hlen] at m2
  have l1 : (es.take nx).prod * 4 ^ nx ≤ es.prod * 4 ^ nx := Nat.mul_le_mul_right _ hle
  have l2 : (es.take nx).prod * (4 ^ nx * 4 ^ nx) ≤ (4 ^ nx) ^ 2 * es.prod := by
    rw [pow_two, mul_comm _ es.prod]; exact Nat.mul_le_mul_right _ hle
  obtain ⟨u, e2, hu⟩ := C100_uniq2elem (c0 := outs (es.prod * 4 ^ nx)) hr hf (by rw [hlen, hel]; exact ⟨l1, l1, l1⟩)
  obtain ⟨f, e3, hf'⟩ := C100_full_from_block (c0 := outs ((4 ^ nx) ^ 2 * es.prod)) hr hf (B := B) (mtx := b) (by rw [hlen]; exact hB) (by rw [hlen, hel]; exact ⟨l2, l2, l2⟩) (by rw [hlen, hel]; exact hb')
  rw [hlen, hel] at hu hf'
  have p1 : 0 < es.prod * 4 ^ nx := Nat.mul_pos hp (by positivity)
  have p2 : 0 < (4 ^ nx) ^ 2 * es.prod := Nat.mul_pos (by positivity) hp
  have hbl : 0 < b.len := lt_of_lt_of_le hT hB.1
  have q0 : (es.map (Nat.cast : ℕ → ℤ)).prod = ((es.prod : ℕ) : ℤ) := by push_cast; rfl
  refine ⟨u.2, f.2, ?_, hu, hf'⟩
  unfold dof2coeff
  rw [h.hnum]
  dsimp only
  have s1 : c2n s ⟨nx, es.map Nat.cast, 4 ^ nx⟩ = .ok m := by
    unfold c2n present addr
    rw [ho]
    dsimp only
    rw [ok_bind, if_neg (show ¬ (zeros (4 ^ nx * 4 ^ nx)).len = 0 from hT.ne'), ok_bind, call_ready, e1]; rfl
  have s2 : u2e s ⟨nx, es.map Nat.cast, 4 ^ nx⟩ = .ok u.2 := by
    unfold u2e present addr
    rw [ho]
    dsimp only
    rw [q0, ← Nat.cast_mul, blank_ok, ok_bind, ok_bind, if_neg (show ¬ (outs (es.prod * 4 ^ nx)).data.len = 0 from p1.ne'), ok_bind, call_ready, e2]; rfl
  have s3 : ffb s ⟨nx, es.map Nat.cast, 4 ^ nx⟩ b = .ok f.2 := by
    unfold ffb present addr
    rw [ho]
    dsimp only
    rw [q0, ← Nat.cast_pow, ← Nat.cast_mul, blank_ok, ok_bind, ok_bind, if_neg (by omega), ok_bind, if_neg (show ¬ (outs ((4 ^ nx) ^ 2 * es.prod)).data.len = 0 from p2.ne'), ok_bind, call_ready, e3]; rfl
  rw [s1, ok_bind, hinv m m1 m2, ok_bind, s2, ok_bind, s3]; rfl

/-- **C100** A list of numbers of elements that is longer than the number of inputs, with an entry of at least 2 behind them, is accepted; then cells that were never written reach scipy. -/
theorem C100_rmtc_longer_list (h : Trained s L nx es) (hf : Fits (axesOf L es nx)) (hpos : ∀ v ∈ es, 1 ≤ v) (hb : 4 ^ nx * 4 ^ nx ≤ 2 ^ 31) (hb' : (es.take nx).prod * (4 ^ nx * 4 ^ nx) < 2 ^ 31) {B : ℕ → ℕ → ℝ}
    {inv : Buf ℝ → Except Exc (Buf ℝ)} {b : Buf ℝ} (hB : Holds b (4 ^ nx) (4 ^ nx) B) (hinv : ∀ m, m.len = 4 ^ nx * 4 ^ nx → Holds m (4 ^ nx) (4 ^ nx) (SMT.Rmtc.coeff2nodal nx) → inv m = .ok b)
    (hmore : 2 ≤ (es.drop nx).prod) :
    ∃ u f, dof2coeff s inv = .ok (u, f) ∧ (∃ a < u.data.len, u.data.cell a = none ∧ u.rows.cell a = none ∧ u.cols.cell a = none) ∧ ∃ a < f.data.len, f.data.cell a = none ∧ f.rows.cell a = none ∧ f.cols.cell a = none := by
  obtain ⟨u, f, e, hu, hf'⟩ := C100_rmtc_dof2coeff h hf hpos hb hb' hB hinv
  have hp : 0 < (es.take nx).prod := prod_pos_of fun v hv => hpos v (List.mem_of_mem_take hv)
  have hlt : (es.take nx).prod < es.prod := by
    rw [← List.prod_take_mul_prod_drop es nx]; nlinarith
  refine ⟨u, f, e, ⟨(es.take nx).prod * 4 ^ nx, ?_, hu.back _ le_rfl⟩, ⟨(es.take nx).prod * (4 ^ nx * 4 ^ nx), ?_, hf'.back _ le_rfl⟩⟩
  · rw [hu.hd]
    show _ < es.prod * 4 ^ nx
    exact Nat.mul_lt_mul_of_pos_right hlt (by positivity)
  · rw [hf'.hd]
    show _ < (4 ^ nx) ^ 2 * es.prod
    rw [pow_two, mul_comm _ es.prod]
    exact Nat.mul_lt_mul_of_pos_right hlt (by positivity)

/-! ## Non-vacuity -/

/-- Two by three elements on `[0, 1] x [0, 2]`. -/
noncomputable def exS : Sm := ⟨.arr [2, 3], some exL, some exX, none, .missing⟩

lemma ex_fits : Fits (axesOf exL [2, 3] 2) := by
  refine ⟨fun a ha => ?_, by decide⟩
  simp only [axesOf, List.mem_map, List.mem_range] at ha
  obtain ⟨k, hk, rfl⟩ := ha
  rcases k with _ | _ | k
  · exact ⟨by decide, by simp [exL]⟩
  · exact ⟨by decide, by norm_num [exL]⟩
  · omega

lemma ex_trained : (pyTrain exS).2 = .ok () ∧ Trained (after exS .train) exL 2 [2, 3] ∧ (after exS .train).data = some exX := by
  obtain ⟨o, e, h1⟩ := C100_rmtc_train (s := exS) (xt := exX) (L := exL) (es := [2, 3]) rfl rfl rfl (by decide) (by decide) (by decide) rfl (by decide) (by decide) (by decide) (by decide) (by decide)
  unfold after
  rw [e]
  exact ⟨rfl, ⟨rfl, ⟨o, rfl, h1⟩, by decide, by decide⟩, rfl⟩

lemma ex_size : Size exX 2 := ⟨by decide, by decide, by decide, by decide⟩

/-- A coordinate within a thousand lengths of the interval is near, if there are at most a thousand elements. -/
lemma near_of {e : ℕ} {lo hi v : ℝ} (he : e ≤ 1000) (hlt : lo < hi) (hv : |v - lo| ≤ 1000 * (hi - lo)) : Near ⟨e, lo, hi⟩ v := by
  have hp : 0 < hi - lo := by linarith
  have he' : (e : ℝ) ≤ 1000 := by exact_mod_cast he
  have h0 : (0 : ℝ) ≤ e := Nat.cast_nonneg _
  have hq : |(v - lo) / (hi - lo)| ≤ 1000 := by
    rw [abs_div, abs_of_pos hp, div_le_iff₀ hp]; exact hv
  have hq' : |(v - lo) / (hi - lo) * (e : ℝ)| ≤ 1000000 := by
    rw [abs_mul, abs_of_nonneg h0]
    nlinarith [abs_nonneg ((v - lo) / (hi - lo))]
  obtain ⟨q1, q2⟩ := abs_le.1 hq'
  unfold Near
  dsimp only
  have c1 : ⌈(v - lo) / (hi - lo) * (e : ℝ)⌉ ≤ 1000000 := Int.ceil_le.2 (by push_cast; exact q2)
  have c2 : (-1000001 : ℤ) < ⌈(v - lo) / (hi - lo) * (e : ℝ)⌉ := Int.lt_ceil.2 (by push_cast; linarith)
  exact ⟨by omega, by omega⟩

lemma ex_near : ∀ i < exX.n, ∀ k < 2, Near ⟨[2, 3].getD k 0, exL.f k 0, exL.f k 1⟩ (exX.f i k) := by
  intro i hi k hk
  have hi' : i < 3 := hi
  have h1 : (i : ℝ) ≤ 3 := by exact_mod_cast hi'.le
  have h0 : (0 : ℝ) ≤ i := Nat.cast_nonneg _
  refine near_of ?_ ?_ ?_
  · rcases k with _ | _ | k
    · decide
    · decide
    · omega
  · rcases k with _ | _ | k
    · norm_num [exL]
    · norm_num [exL]
    · omega
  · rcases k with _ | _ | k
    · norm_num [exL, exX]
    · rw [abs_le]
      simp only [exL, exX]
      norm_num
      exact ⟨by linarith, by linarith⟩
    · omega

/-- Values: 3 rows of 16 entries. Derivatives with respect to input 1; `kx = 7` gives the values. -/
example : (∃ c row, values (after exS .train) exX = .ok c ∧ Rows c 3 16 row) ∧ (∃ c row, derivs (after exS .train) exX 1 = .ok c ∧ Rows c 3 16 row) ∧ ∃ c row, derivs (after exS .train) exX 7 = .ok c ∧ Rows c 3 16 row := by
  obtain ⟨-, h, hd⟩ := ex_trained
  obtain ⟨c1, e1, -, q1⟩ := C100_rmtc_values h ex_fits hd rfl (x := exX) rfl ex_size rfl ex_near
  obtain ⟨c2, e2, -, q2⟩ := C100_rmtc_derivs h ex_fits hd rfl (x := exX) rfl ex_size rfl ex_near (kx := 1) ⟨by decide, by decide⟩
  obtain ⟨c3, e3, q3⟩ := C100_rmtc_derivs_no_input h ex_fits hd rfl (x := exX) rfl ex_size rfl ex_near (kx := 7) ⟨by decide, by decide⟩ (.inr (by decide))
  exact ⟨⟨c1, _, e1, q1⟩, ⟨c2, _, e2, q2⟩, ⟨c3, _, e3, q3⟩⟩

/-- `predict_values(np.array([[1e10, 0.]]))`. -/
example : ∃ u, values (after exS .train) ⟨true, 1, 2, fun _ k => if k = 0 then 10000000000 else 0⟩ = .error (.ub u) := by
  obtain ⟨-, h, hd⟩ := ex_trained
  refine C100_rmtc_values_far h hd rfl (x := ⟨true, 1, 2, fun _ k => if k = 0 then 10000000000 else 0⟩) rfl ⟨by decide, by decide, by decide, by decide⟩ rfl (i := 0) (k := 0) (by decide) (by decide) ?_
  intro hn
  unfold Near isInt at hn
  have h2 : ⌈((10000000000 : ℝ) - 0) / ((((0 : ℕ) : ℝ) + 1) - 0) * ((2 : ℕ) : ℝ)⌉ < 2 ^ 31 := hn.2
  have e : ((10000000000 : ℝ) - 0) / ((((0 : ℕ) : ℝ) + 1) - 0) * ((2 : ℕ) : ℝ) = ((20000000000 : ℤ) : ℝ) := by norm_num
  rw [e, Int.ceil_intCast] at h2
  norm_num at h2

/-- Trained with two inputs, then given data with one input, then asked for a value. -/
example : ∃ u, values (after (after exS .train) (.set ⟨true, 3, 1, fun i _ => i⟩)) ⟨true, 1, 1, fun _ _ => 0⟩ = .error (.ub u) := by
  obtain ⟨-, h, hd⟩ := ex_trained
  exact C100_rmtc_stale_fewer h (by decide) rfl ⟨by decide, by decide, by decide, by decide⟩ rfl

/-- Training the default options with one input and then with two reads outside. -/
example : (pyTrain (after (after (after { Sm.new with data := some ⟨true, 3, 1, fun i _ => i⟩ } .train) (.set exX)) (.setLimits exL))).2 = .error (.ub .outside) :=
  C100_rmtc_retrain (v := 4) rfl rfl (by decide) (by decide) (by decide) rfl (by decide) (by decide)

/-- `RMTC(num_elements=np.int64(4), xlimits=...)`. -/
example : (pyTrain ⟨.np 4, some exL, some exX, none, .missing⟩).2 = .error (.ub .outside) :=
  C100_rmtc_numpy_integer (v := 4) rfl rfl rfl (by decide) (by decide) rfl (by decide) (by decide)

/-- Limits `[0, 1] x [5, 5]`: training succeeds, evaluating is undefined. -/
example : ∃ u, values (after ⟨.num 4, some ⟨true, 2, 2, fun k j => if k = 1 then 5 else j⟩, some exX, none, .missing⟩ .train) exX = .error (.ub u) := by
  obtain ⟨o, e, h1⟩ := C100_rmtc_train (s := ⟨.num 4, some ⟨true, 2, 2, fun k j => if k = 1 then 5 else j⟩, some exX, none, .missing⟩) (xt := exX) (es := [4, 4]) rfl rfl rfl (by decide) (by decide) (by decide) rfl
    (by decide) (by decide) (by decide) (by decide) (by decide)
  unfold after
  rw [e]
  exact C100_rmtc_values_flat (nx := 2) (es := [4, 4]) (xt := exX) (L := ⟨true, 2, 2, fun k j => if k = 1 then 5 else j⟩) ⟨rfl, ⟨o, rfl, h1⟩, by decide, by decide⟩ rfl rfl rfl ex_size rfl (k := 1) (by decide) rfl

/-- The matrices for two by three elements, and for a list of three entries. -/
example {b : Buf ℝ} {B : ℕ → ℕ → ℝ} (hB : Holds b 16 16 B) : ∃ u f, dof2coeff (after exS .train) (fun _ => .ok b) = .ok (u, f) ∧ (∀ a < 6 * 16, u.data.cell a = some 1) ∧ u.data.len = 6 * 16 ∧ f.data.len = 6 * 256 := by
  obtain ⟨-, h, hd⟩ := ex_trained
  obtain ⟨u, f, e, hu, hf⟩ := C100_rmtc_dof2coeff h ex_fits (by decide) (by decide) (by decide) (B := B) (inv := fun _ => .ok b) hB (fun _ _ _ => rfl)
  exact ⟨u, f, e, fun a ha => (hu.cells a ha).1, hu.hd, hf.hd⟩

example {b : Buf ℝ} {B : ℕ → ℕ → ℝ} (hB : Holds b 16 16 B) : ∃ u f, dof2coeff (after { exS with elements := .arr [2, 3, 5] } .train) (fun _ => .ok b) = .ok (u, f) ∧ ∃ a < u.data.len, u.data.cell a = none := by
  obtain ⟨o, e, h1⟩ := C100_rmtc_train (s := { exS with elements := .arr [2, 3, 5] }) (xt := exX) (L := exL) (es := [2, 3, 5]) rfl rfl rfl (by decide) (by decide) (by decide) rfl (by decide) (by decide) (by decide)
    (by decide) (by decide)
  have hf : Fits (axesOf exL [2, 3, 5] 2) := ex_fits
  unfold after
  rw [e]
  obtain ⟨u, f, e', ⟨a, ha, ha', -⟩, -⟩ := C100_rmtc_longer_list (nx := 2) (es := [2, 3, 5]) (L := exL) (s := ready { exS with elements := .arr [2, 3, 5] } 2 [2, 3, 5] o) ⟨rfl, ⟨o, rfl, h1⟩, by decide, by decide⟩ hf (by decide)
    (by decide) (by decide) (B := B) (inv := fun _ => .ok b) hB (fun _ _ _ => rfl) (by decide)
  exact ⟨u, f, e', a, ha, ha'⟩

end SMT.Native.Rmtc
