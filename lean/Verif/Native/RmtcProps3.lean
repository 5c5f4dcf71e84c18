import Verif.Native.RmtcProps2

set_option linter.unusedSectionVars false
set_option linter.unusedSimpArgs false
set_option linter.unusedVariables false

/-!
# `RMTC::compute_jac`
-/
namespace SMT.Native.Rmtc
open SMT.Index SMT.Native.Rmt SMT.Native.Rmtb
open SMT.Rmtc (Axis)

variable {o : Obj} {axes : List (Axis ℝ)} {c0 : Coo} {st : ℤ × Coo}

/-- Specification: the number of the element in which `find_interval` looks for the coordinate, before it is cut off, is an `int`. -/
def Near (a : Axis ℝ) (x : ℝ) : Prop := isInt ⌈(x - a.lo) / (a.hi - a.lo) * a.nelem⌉

lemma find_ok (h : Ready o axes) (hf : Fits axes) {ix : ℕ} (hix : ix < axes.length) {x : ℝ} (hx : Near (ax axes ix) x) :
    findInterval o ix ((ax axes ix).nelem : ℕ) x = .ok (((SMT.Rmtc.findInterval (ax axes ix) x).1 : ℤ), (SMT.Rmtc.findInterval (ax axes ix) x).2) := by
  have hm : ax axes ix ∈ axes := by rw [ax_get hix]; exact List.getElem_mem _
  obtain ⟨h1, h2⟩ := hf.ok _ hm
  have hEs := elems_small hf
  have hle : (ax axes ix).nelem < 2 ^ 31 := lt_of_le_of_lt (Nat.le_of_dvd (prod_pos_of (elems_pos hf)) (List.dvd_prod (List.mem_map.2 ⟨_, hm, rfl⟩))) hEs
  unfold findInterval
  rw [h.base.hlo.read hix, ok_bind, h.base.hhi.read hix, ok_bind, if_neg (ne_of_gt h2)]
  unfold Near at hx
  rw [show (((ax axes ix).nelem : ℕ) : ℤ) = (((ax axes ix).nelem : ℕ) : ℤ) from rfl, Int.cast_natCast, chk_ok hx, ok_bind]
  set c := ⌈(x - (ax axes ix).lo) / ((ax axes ix).hi - (ax axes ix).lo) * ((ax axes ix).nelem : ℝ)⌉ with hc
  have hi : isInt (min (((ax axes ix).nelem : ℕ) : ℤ) (max 1 c) - 1) := ⟨by omega, by omega⟩
  dsimp only
  rw [chk_ok hi, ok_bind, pure_ok]
  unfold SMT.Rmtc.findInterval local1
  simp only [← hc, Int.cast_natCast]
  rw [Int.toNat_of_nonneg (by omega)]

/-- **C100** `find_interval` has no result if the element number before the cut-off is no `int` (a point far outside the domain), or if the interval has length 0. -/
theorem C100_find_interval_overflow (h : Ready o axes) {ix : ℕ} (hix : ix < axes.length) {x : ℝ} :
    (¬ Near (ax axes ix) x → findInterval o ix ((ax axes ix).nelem : ℕ) x = .error .overflow) ∧ ((ax axes ix).hi = (ax axes ix).lo → ∀ num, findInterval o ix num x = .error .overflow) := by
  unfold findInterval
  rw [h.base.hlo.read hix, ok_bind, h.base.hhi.read hix, ok_bind]
  refine ⟨fun hn => ?_, fun he num => ?_⟩
  · split
    · rfl
    · unfold Near at hn
      rw [Int.cast_natCast, chk, if_neg hn]; rfl
  · rw [ok_bind, ok_bind, if_pos he]; rfl

lemma slopes_ok (h : Ready o axes) : ∃ d, slopes o = .ok d ∧ Vec d axes.length fun k => SMT.Rmtc.dxb (ax axes k) := by
  unfold slopes
  rw [h.base.hnx]
  obtain ⟨d, e, h1, h2⟩ := loop_ok (n := axes.length) (s := Buf.fresh axes.length) (body := fun ix d => do
    let u ← read o.base.upper ix
    let l ← read o.base.lower ix
    let n ← read o.elems ix
    write d ix (1 / ((u - l) / (n : ℝ) / 2))) (fun k d => d.len = axes.length ∧ ∀ j < k, d.cell j = some (SMT.Rmtc.dxb (ax axes j))) ⟨rfl, fun j hj => by omega⟩ (fun k hk d ⟨h1, h2⟩ => by
      rw [h.base.hhi.read hk, ok_bind, h.base.hlo.read hk, ok_bind, h.elems.read (by simpa using hk), ok_bind, write_ok _ (by omega)]
      refine ⟨_, rfl, h1, fun j hj => ?_⟩
      dsimp only
      by_cases e : j = k
      · subst e
        rw [Function.update_self, SMT.Rmtc.dxb]
        have : (axes.map (·.nelem)).getD j 0 = (ax axes j).nelem := by simp [ax, List.getD_eq_getElem?_getD, hk]
        rw [this, Int.cast_natCast]
      · rw [Function.update_of_ne e]; exact h2 j (by omega))
  exact ⟨d, e, by omega, h2⟩

variable {n : ℕ} {X : ℕ → ℕ → ℝ} {x : Buf ℝ}

lemma elem_get {k : ℕ} (hk : k < axes.length) : (axes.map (·.nelem)).getD k 0 = (ax axes k).nelem := by simp [ax, List.getD_eq_getElem?_getD, hk]

lemma locate_ok (h : Ready o axes) (hf : Fits axes) (hx : Holds x n axes.length X) (hb : n * axes.length ≤ 2 ^ 31) {i : ℕ} (hi : i < n) (hnear : ∀ k < axes.length, Near (ax axes k) (X i k)) :
    ∃ l, locate o x i = .ok l ∧ Vec l.1 axes.length (fun k => ((SMT.Rmtc.findInterval (ax axes k) (X i k)).1 : ℤ)) ∧ Vec l.2 axes.length (fun k => (SMT.Rmtc.findInterval (ax axes k) (X i k)).2) := by
  unfold locate
  rw [h.base.hnx]
  obtain ⟨l, e, h1, h2, h3, h4⟩ := loop_ok (n := axes.length) (s := ((Buf.fresh axes.length, Buf.fresh axes.length) : Buf ℤ × Buf ℝ)) (body := fun ix s => do
    let num ← read o.elems ix
    let v ← lin i axes.length ix >>= read x
    let r ← findInterval o ix num v
    let e ← write s.1 ix r.1
    let b ← write s.2 ix r.2
    pure (e, b)) (fun k s => s.1.len = axes.length ∧ s.2.len = axes.length ∧ (∀ j < k, s.1.cell j = some ((SMT.Rmtc.findInterval (ax axes j) (X i j)).1 : ℤ)) ∧
      ∀ j < k, s.2.cell j = some (SMT.Rmtc.findInterval (ax axes j) (X i j)).2) ⟨rfl, rfl, fun j hj => by omega, fun j hj => by omega⟩ (fun k hk s ⟨h1, h2, h3, h4⟩ => by
      rw [h.elems.read (by simpa using hk), ok_bind, elem_get hk, hx.read' hb hi hk, ok_bind, find_ok h hf hk (hnear k hk), ok_bind, write_ok _ (by omega), ok_bind, write_ok _ (by omega), ok_bind, pure_ok]
      refine ⟨_, rfl, h1, h2, fun j hj => ?_, fun j hj => ?_⟩
      · dsimp only
        by_cases e : j = k
        · subst e; rw [Function.update_self]
        · rw [Function.update_of_ne e]; exact h3 j (by omega)
      · dsimp only
        by_cases e : j = k
        · subst e; rw [Function.update_self]
        · rw [Function.update_of_ne e]; exact h4 j (by omega))
  exact ⟨l, e, ⟨by omega, h3⟩, by omega, h4⟩

lemma jacDim_ok {ix1 ix2 : ℤ} {tl : Buf ℤ} {dx xb : Buf ℝ} {nx : ℕ} {P : ℕ → ℕ} {D B : ℕ → ℝ} (ht : Vec tl nx fun k => ((P k : ℕ) : ℤ)) (hd : Vec dx nx D) (hb : Vec xb nx B) {ix : ℕ} (hix : ix < nx) (hp : P ix < 4) (prod : ℝ) :
    jacDim ix1 ix2 tl dx xb ix prod = .ok (SMT.Rmtc.jacStep ix1 ix2 ix (B ix) (D ix) prod (P ix)) := by
  unfold jacDim SMT.Rmtc.jacStep
  rw [ht.read hix, ok_bind]
  by_cases h1 : (ix : ℤ) ≠ ix1 ∧ (ix : ℤ) ≠ ix2
  · rw [if_pos h1, if_pos h1, hb.read hix, ok_bind, pure_ok, Int.toNat_natCast]
  · rw [if_neg h1, if_neg h1]
    by_cases h2 : (ix : ℤ) = ix1 ∧ (ix : ℤ) = ix2
    · rw [if_pos h2, if_pos h2]
      by_cases h3 : 2 ≤ P ix
      · have h3' : (2 : ℤ) ≤ ((P ix : ℕ) : ℤ) := by exact_mod_cast h3
        have hq : isInt (((P ix : ℕ) : ℤ) * (((P ix : ℕ) : ℤ) - 1)) := by
          have : P ix = 2 ∨ P ix = 3 := by omega
          rcases this with e | e <;> rw [e] <;> exact ⟨by norm_num, by norm_num⟩
        rw [if_pos h3', if_pos h3, hb.read hix, ok_bind, hd.read hix, ok_bind, chk_ok hq, ok_bind, pure_ok, show (((P ix : ℕ) : ℤ) - 2).toNat = P ix - 2 by omega]
        push_cast; rfl
      · rw [if_neg (by exact_mod_cast h3), if_neg h3]; rfl
    · rw [if_neg h2, if_neg h2]
      by_cases h3 : 1 ≤ P ix
      · have h3' : (1 : ℤ) ≤ ((P ix : ℕ) : ℤ) := by exact_mod_cast h3
        rw [if_pos h3', if_pos h3, hb.read hix, ok_bind, hd.read hix, ok_bind, pure_ok, show (((P ix : ℕ) : ℤ) - 1).toNat = P ix - 1 by omega, Int.cast_natCast]
      · rw [if_neg (by exact_mod_cast h3), if_neg h3]; rfl

/-- `jacLoop` by positions. -/
lemma jacLoop_fold (ix1 ix2 : ℤ) : ∀ (axes : List (Axis ℝ)) (xbs : List ℝ) (ps : List ℕ) (ix : ℕ) (prod : ℝ), xbs.length = axes.length → ps.length = axes.length →
    SMT.Rmtc.jacLoop ix1 ix2 ix axes xbs ps prod = (List.range' 0 axes.length).foldl (fun p k => SMT.Rmtc.jacStep ix1 ix2 (ix + k) (xbs.getD k 0) (SMT.Rmtc.dxb (ax axes k)) p (ps.getD k 0)) prod
  | [], _, _, _, _, _, _ => by simp [SMT.Rmtc.jacLoop]
  | a :: as, [], _, _, _, h, _ => by simp at h
  | a :: as, _ :: _, [], _, _, _, h => by simp at h
  | a :: as, xb :: xbs, p :: ps, ix, prod, h1, h2 => by
    rw [SMT.Rmtc.jacLoop, jacLoop_fold ix1 ix2 as xbs ps (ix + 1) _ (by simpa using h1) (by simpa using h2), List.length_cons, List.range'_succ, List.foldl_cons, zero_add, List.range'_eq_map_range,
      List.range'_eq_map_range, List.foldl_map, List.foldl_map]
    congr 1
    · funext q k
      simp only [ax, List.getD_cons_succ, zero_add, show 1 + k = k + 1 by omega, show ix + 1 + k = ix + (k + 1) by omega]

/-- Entry number `a` of the matrix of `compute_jac`. -/
noncomputable def jacF (ix1 ix2 : ℤ) (axes : List (Axis ℝ)) (X : ℕ → ℕ → ℝ) (a : ℕ) : ℝ × ℕ × ℕ :=
  let e := (SMT.Rmtc.jacRow ix1 ix2 axes ((List.range axes.length).map (X (a / 4 ^ axes.length)))).getD (a % 4 ^ axes.length) (0, 0)
  (e.1, a / 4 ^ axes.length, e.2)

/-- **C100** `RMTC::compute_jac` on memory: for points whose element numbers are `int`s (`Near`), an array with `n` rows and output arrays with room for `n * nterm` entries, whose number is an `int`, it has a
result; the entries are, point after point, the rows of C26. -/
theorem C100_rmtc_kernel (h : Ready o axes) (hf : Fits axes) (hx : Holds x n axes.length X) (hbx : n * axes.length ≤ 2 ^ 31) (hnear : ∀ i < n, ∀ k < axes.length, Near (ax axes k) (X i k))
    (hroom : Room c0 (n * 4 ^ axes.length)) (hb : n * 4 ^ axes.length < 2 ^ 31) (ix1 ix2 : ℤ) :
    ∃ r, computeJac o ix1 ix2 n x c0 = .ok r ∧ Emitted c0 r.2 (n * 4 ^ axes.length) (jacF ix1 ix2 axes X) := by
  obtain ⟨dx, ed, hd⟩ := slopes_ok h
  set T := 4 ^ axes.length with hT
  have hnt : o.nterm = ((T : ℕ) : ℤ) := h.nterm
  have hs : (axes.map (·.nelem)).prod * T < 2 ^ 31 := hf.small
  unfold computeJac
  rw [ed, ok_bind]
  obtain ⟨r, e, -, hr⟩ := emit_loop (n := n) (k := T) (N0 := 0) (start c0 (jacF ix1 ix2 axes X)) (body := jacPoint o ix1 ix2 dx x) (fun i hi st hst => by
    obtain ⟨l, e1, v1, v2⟩ := locate_ok h hf hx hbx hi (hnear i hi)
    set iv := List.zipWith SMT.Rmtc.findInterval axes ((List.range axes.length).map (X i)) with hiv
    have liv : iv.length = axes.length := by simp [hiv]
    have giv : ∀ k (hk : k < axes.length), iv[k]'(by omega) = SMT.Rmtc.findInterval (ax axes k) (X i k) := fun k hk => by simp [hiv, ax_get hk]
    have w1 : Ints l.1 (iv.map (·.1)) := ⟨by rw [List.length_map, liv]; exact v1.1, fun k hk => by
      have hk' : k < axes.length := by simpa [liv] using hk
      rw [v1.2 k hk']
      dsimp only
      rw [getD_mem hk, List.getElem_map, giv k hk']⟩
    have shp : InShape (axes.map (·.nelem)) (iv.map (·.1)) := inShape_of (by simp [liv]) fun k h1 h2 => by
      have hk : k < axes.length := by simpa using h1
      rw [List.getElem_map, List.getElem_map, giv k hk, ax_get hk]
      exact SMT.Rmtc.findInterval_lt _ (hf.ok _ (List.getElem_mem hk)).1 _
    have hcon := C99_contract_index h.elems w1 shp (elems_small hf)
    rw [List.length_map] at hcon
    have hlt := contract_lt shp
    unfold jacPoint
    rw [e1, ok_bind, h.base.hnx, hcon, ok_bind, hnt, Int.toNat_natCast]
    dsimp only
    rw [zero_add] at hst
    obtain ⟨st', e', h'⟩ := emit_loop (n := T) (k := 1) (N0 := i * T) hst (body := jacTerm o ix1 ix2 dx l.2 (contract (axes.map (·.nelem)) (iv.map (·.1)) : ℕ) i) (fun it hit st hst => by
      rw [mul_one] at hst ⊢
      obtain ⟨tl, e2, v3⟩ := expand_terms h hf hit
      set TS := expand (List.replicate axes.length 4) it with hTS
      have lT : TS.length = axes.length := by rw [hTS, expand_length]; simp
      have f1 := flat_lt hi hit
      have f2 := flat_lt hlt hit
      obtain ⟨p, e3, hp⟩ := loop_foldl (fun (s t : ℝ) => s = t) (body := jacDim ix1 ix2 tl.2 dx l.2)
        (step := fun p k => SMT.Rmtc.jacStep ix1 ix2 (0 + k) ((iv.map (·.2)).getD k 0) (SMT.Rmtc.dxb (ax axes k)) p (TS.getD k 0)) (a := 0) (m := axes.length) (s := 1) (t := 1) rfl
        (fun k hk s t hst => by
          subst hst
          refine ⟨_, jacDim_ok v3 hd v2 hk (digits hit hk) s, ?_⟩
          rw [zero_add, zero_add]
          congr 1
          rw [List.getD_eq_getElem?_getD, List.getElem?_map, List.getElem?_eq_getElem (by omega), Option.map_some, giv k hk]; rfl)
      unfold jacTerm
      rw [e2, ok_bind, h.base.hnx, e3, ok_bind, hnt, lin_ok (by omega), ok_bind, ← add_assoc]
      refine emit_ok hst hroom f1 hb ?_
      unfold jacF
      rw [← hT, show (i * T + it) / T = i by rw [mul_comm, Nat.mul_add_div (by omega), Nat.div_eq_of_lt hit]; rfl, show (i * T + it) % T = it by rw [mul_comm, Nat.mul_add_mod, Nat.mod_eq_of_lt hit]]
      unfold SMT.Rmtc.jacRow
      dsimp only
      rw [← hT, ← hiv, List.getD_eq_getElem?_getD, List.getElem?_map, List.getElem?_range hit, Option.map_some, Option.getD_some, ← hTS, jacLoop_fold _ _ _ _ _ _ _ (by simp [liv]) lT, hp])
    refine ⟨st', e', ?_⟩
    rw [mul_one] at h'
    rw [zero_add, add_mul, one_mul]; exact h')
  rw [zero_add] at hr
  exact ⟨r, e, hr⟩

/-- **C100** ... and it has none if one of the points is too far away. -/
theorem C100_rmtc_far (h : Ready o axes) (hx : Holds x n axes.length X) (hbx : n * axes.length ≤ 2 ^ 31) {i k : ℕ} (hi : i < n) (hk : k < axes.length) (hfar : ¬ Near (ax axes k) (X i k)) (ix1 ix2 : ℤ) (r : ℤ × Coo) :
    computeJac o ix1 ix2 n x c0 ≠ .ok r := by
  intro he
  unfold computeJac at he
  obtain ⟨dx, -, he⟩ := bind_eq_ok.1 he
  obtain ⟨-, h2⟩ := loop_inv (fun _ => True) trivial (fun _ _ _ _ _ _ => trivial) he
  obtain ⟨s, s', -, h3⟩ := h2 i hi
  unfold jacPoint at h3
  obtain ⟨l, h3, -⟩ := bind_eq_ok.1 h3
  unfold locate at h3
  rw [h.base.hnx] at h3
  obtain ⟨-, h4⟩ := loop_inv (fun _ => True) trivial (fun _ _ _ _ _ _ => trivial) h3
  obtain ⟨u, u', -, h5⟩ := h4 k hk
  rw [h.elems.read (by simpa using hk), ok_bind, elem_get hk, hx.read' hbx hi hk, ok_bind, (C100_find_interval_overflow h hk).1 hfar] at h5
  cases h5

end SMT.Native.Rmtc
