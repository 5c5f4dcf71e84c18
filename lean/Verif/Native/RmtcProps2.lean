import Verif.Native.RmtcProps

set_option linter.unusedSectionVars false
set_option linter.unusedSimpArgs false
set_option linter.unusedVariables false

/-!
# The sparse matrices of `rmtc.cpp`
-/
namespace SMT.Native.Rmtc
open SMT.Index SMT.Native.Rmt SMT.Native.Rmtb
open SMT.Rmtc (Axis)

/-- Specification: the first `N` entries of the three arrays are `F 0, ..., F (N - 1)` (value, row, column); the cells behind are those of `c0`. -/
structure Emitted (c0 c : Coo) (N : ℕ) (F : ℕ → ℝ × ℕ × ℕ) : Prop where
  hd : c.data.len = c0.data.len
  hr : c.rows.len = c0.rows.len
  hc : c.cols.len = c0.cols.len
  cells : ∀ a < N, c.data.cell a = some (F a).1 ∧ c.rows.cell a = some ((F a).2.1 : ℤ) ∧ c.cols.cell a = some ((F a).2.2 : ℤ)
  back : ∀ a, N ≤ a → c.data.cell a = c0.data.cell a ∧ c.rows.cell a = c0.rows.cell a ∧ c.cols.cell a = c0.cols.cell a

/-- The three arrays have room for `N` entries. -/
structure Room (c0 : Coo) (N : ℕ) : Prop where
  data : N ≤ c0.data.len
  rows : N ≤ c0.rows.len
  cols : N ≤ c0.cols.len

variable {c0 : Coo} {F : ℕ → ℝ × ℕ × ℕ} {st : ℤ × Coo} {N M : ℕ}

/-- State of the loops: the counter is the number of entries written. -/
def Done (c0 : Coo) (F : ℕ → ℝ × ℕ × ℕ) (N : ℕ) (st : ℤ × Coo) : Prop := st.1 = N ∧ Emitted c0 st.2 N F

lemma emit_ok (h : Done c0 F N st) (hM : Room c0 M) (hN : N < M) (hb : M < 2 ^ 31) {v : ℝ} {r c : ℕ} (e : (v, r, c) = F N) : ∃ st', emit v r c st = .ok st' ∧ Done c0 F (N + 1) st' := by
  obtain ⟨h1, h2⟩ := h
  have l1 := hM.data
  have l2 := hM.rows
  have l3 := hM.cols
  unfold emit
  rw [h1, write_ok _ (by rw [h2.hd]; omega), ok_bind, write_ok _ (by rw [h2.hr]; omega), ok_bind, write_ok _ (by rw [h2.hc]; omega), ok_bind, ← Nat.cast_succ, chk_nat (by omega), ok_bind, pure_ok]
  refine ⟨_, rfl, rfl, h2.hd, h2.hr, h2.hc, fun a ha => ?_, fun a ha => ?_⟩
  · dsimp only
    by_cases ea : a = N
    · subst ea
      rw [Function.update_self, Function.update_self, Function.update_self, ← e]; exact ⟨rfl, rfl, rfl⟩
    · rw [Function.update_of_ne ea, Function.update_of_ne ea, Function.update_of_ne ea]; exact h2.cells a (by omega)
  · dsimp only
    rw [Function.update_of_ne (by omega), Function.update_of_ne (by omega), Function.update_of_ne (by omega)]; exact h2.back a (by omega)

/-- A loop each turn of which writes `k` entries. -/
lemma emit_loop {n k N0 : ℕ} {body : ℕ → ℤ × Coo → C (ℤ × Coo)} (h : Done c0 F N0 st) (hb : ∀ i < n, ∀ st, Done c0 F (N0 + i * k) st → ∃ st', body i st = .ok st' ∧ Done c0 F (N0 + (i + 1) * k) st') :
    ∃ st', loop n st body = .ok st' ∧ Done c0 F (N0 + n * k) st' :=
  loop_ok (fun i st => Done c0 F (N0 + i * k) st) (by simpa using h) hb

variable {o : Obj} {axes : List (Axis ℝ)}

lemma start (c0 : Coo) (F : ℕ → ℝ × ℕ × ℕ) : Done c0 F 0 (0, c0) := ⟨rfl, rfl, rfl, rfl, fun a ha => by omega, fun _ _ => ⟨rfl, rfl, rfl⟩⟩

/-! ## `compute_full_from_block` -/

/-- Entry number `a` of the matrix with `nelem` equal blocks. -/
noncomputable def blockF (B : ℕ → ℕ → ℝ) (T : ℕ) (a : ℕ) : ℝ × ℕ × ℕ := (B (a / T % T) (a % T), a / (T * T) * T + a / T % T, a / (T * T) * T + a % T)

lemma blockF_at {B : ℕ → ℕ → ℝ} {T e i1 i2 : ℕ} (h1 : i1 < T) (h2 : i2 < T) : blockF B T (e * (T * T) + (i1 * T + i2)) = (B i1 i2, e * T + i1, e * T + i2) := by
  have hT : 0 < T := by omega
  have hTT : 0 < T * T := Nat.mul_pos hT hT
  have hlt := flat_lt h1 h2
  have q1 : (e * (T * T) + (i1 * T + i2)) / (T * T) = e := by rw [mul_comm, Nat.mul_add_div hTT, Nat.div_eq_of_lt hlt]; rfl
  have q2 : e * (T * T) + (i1 * T + i2) = T * (e * T + i1) + i2 := by ring
  have q3 : (e * (T * T) + (i1 * T + i2)) / T = e * T + i1 := by rw [q2, Nat.mul_add_div hT, Nat.div_eq_of_lt h2]; rfl
  have q4 : (e * (T * T) + (i1 * T + i2)) % T = i2 := by rw [q2, Nat.mul_add_mod, Nat.mod_eq_of_lt h2]
  have q5 : (e * T + i1) % T = i1 := by rw [mul_comm, Nat.mul_add_mod, Nat.mod_eq_of_lt h1]
  unfold blockF
  rw [q1, q3, q4, q5]

/-- **C100** `compute_full_from_block` on memory: a block of `nterm * nterm` numbers and arrays with room for `nelem` copies, whose number is an `int`; entry `(ielem, i, j)` goes to row `ielem * nterm + i` and
column `ielem * nterm + j`. -/
theorem C100_full_from_block (h : Ready o axes) (hf : Fits axes) {B : ℕ → ℕ → ℝ} {mtx : Buf ℝ} (hm : Holds mtx (4 ^ axes.length) (4 ^ axes.length) B)
    (hroom : Room c0 ((axes.map (·.nelem)).prod * (4 ^ axes.length * 4 ^ axes.length))) (hb : (axes.map (·.nelem)).prod * (4 ^ axes.length * 4 ^ axes.length) < 2 ^ 31) :
    ∃ r, fullFromBlock o mtx c0 = .ok r ∧ Emitted c0 r.2 ((axes.map (·.nelem)).prod * (4 ^ axes.length * 4 ^ axes.length)) (blockF B (4 ^ axes.length)) := by
  set T := 4 ^ axes.length with hT
  set E := (axes.map (·.nelem)).prod with hE
  have hnt : o.nterm = ((T : ℕ) : ℤ) := h.nterm
  have hs : E * T < 2 ^ 31 := hf.small
  unfold fullFromBlock
  rw [hnt, h.nelem, Int.toNat_natCast, Int.toNat_natCast]
  have hE0 : 0 < E := prod_pos_of (elems_pos hf)
  have hTT : T * T ≤ E * (T * T) := Nat.le_mul_of_pos_left _ hE0
  obtain ⟨r, e, -, hr⟩ := emit_loop (n := E) (k := T * T) (N0 := 0) (start c0 (blockF B T)) (body := fun ielem st => loop T st fun i1 st => loop T st (blockEntry o mtx ielem i1)) (fun ie hie st hst => by
    rw [zero_add] at hst
    obtain ⟨st', e', h'⟩ := emit_loop (n := T) (k := T) (N0 := ie * (T * T)) hst (body := fun i1 st => loop T st (blockEntry o mtx ie i1)) (fun i1 hi1 st hst => by
      obtain ⟨st', e', h'⟩ := emit_loop (n := T) (k := 1) (N0 := ie * (T * T) + i1 * T) hst (body := blockEntry o mtx ie i1) (fun i2 hi2 st hst => by
        have f1 := flat_lt hi1 hi2
        have f2 := flat_lt hie f1
        have f3 := flat_lt hie hi1
        have f4 := flat_lt hie hi2
        rw [mul_one] at hst
        unfold blockEntry
        rw [hnt]
        rw [hm.read' (by omega) hi1 hi2, ok_bind, lin_ok (by omega), ok_bind, lin_ok (by omega), ok_bind]
        rw [mul_one, ← add_assoc]
        refine emit_ok hst hroom (by rw [add_assoc]; exact f2) hb ?_
        rw [add_assoc, blockF_at hi1 hi2])
      refine ⟨st', e', ?_⟩
      rw [mul_one] at h'
      rw [add_mul, one_mul, ← add_assoc]; exact h')
    refine ⟨st', e', ?_⟩
    rw [zero_add, add_mul, one_mul]; exact h')
  rw [zero_add] at hr
  exact ⟨r, e, hr⟩

/-! ## `compute_uniq2elem` -/

lemma uniq_le (axes : List (Axis ℝ)) (hf : ∀ a ∈ axes, 1 ≤ a.nelem) : (axes.map fun a => 1 + a.nelem).prod * 2 ^ axes.length ≤ (axes.map (·.nelem)).prod * 4 ^ axes.length := by
  induction axes with
  | nil => simp
  | cons a as ih =>
    have h1 := hf a (by simp)
    have := ih fun b hb => hf b (by simp [hb])
    simp only [List.map_cons, List.prod_cons, List.length_cons, pow_succ]
    calc (1 + a.nelem) * (as.map fun a => 1 + a.nelem).prod * (2 ^ as.length * 2) = ((1 + a.nelem) * 2) * ((as.map fun a => 1 + a.nelem).prod * 2 ^ as.length) := by ring
      _ ≤ (a.nelem * 4) * ((as.map (·.nelem)).prod * 4 ^ as.length) := Nat.mul_le_mul (by omega) this
      _ = _ := by ring

/-- Sizes of the lists of degrees of freedom, one per input. -/
lemma shapes_ok (h : Ready o axes) (hf : Fits axes) :
    ∃ sh, shapes o = .ok sh ∧ Ints sh.dl (axes.map fun _ => 2) ∧ Ints sh.ul (axes.map fun a => 1 + a.nelem) ∧ sh.u = ((axes.map fun a => 1 + a.nelem).prod : ℕ) := by
  have hu := uniq_le axes fun a ha => (hf.ok a ha).1
  have hs := hf.small
  have p2 : ∀ v ∈ axes.map (fun _ => 2), 0 < v := fun v hv => by obtain ⟨a, -, rfl⟩ := List.mem_map.1 hv; decide
  have p1 : ∀ v ∈ axes.map (fun a => 1 + a.nelem), 0 < v := fun v hv => by obtain ⟨a, -, rfl⟩ := List.mem_map.1 hv; omega
  have hpp := prod_pos_of p1
  have h2p : (axes.map (fun _ => 2)).prod = 2 ^ axes.length := by simp
  have b2 : (axes.map (fun _ => 2)).prod < 2 ^ 31 := by rw [h2p]; exact lt_of_le_of_lt (Nat.le_mul_of_pos_left _ hpp) (lt_of_le_of_lt hu hs)
  have b1 : (axes.map fun a => 1 + a.nelem).prod < 2 ^ 31 := lt_of_le_of_lt (Nat.le_mul_of_pos_right _ (by positivity)) (lt_of_le_of_lt hu hs)
  unfold shapes
  rw [h.base.hnx]
  set UL := axes.map fun a => 1 + a.nelem with hUL
  set DL := axes.map (fun _ => 2) with hDL
  have lu : UL.length = axes.length := by simp [hUL]
  have ld : DL.length = axes.length := by simp [hDL]
  obtain ⟨sh, e, h1, h2, h3, h4, h5, h6⟩ := loop_ok (n := axes.length) (s := (⟨Buf.fresh axes.length, Buf.fresh axes.length, 1, 1⟩ : Shape)) (body := fun ix s => do
    let dl ← write s.dl ix 2
    let n ← chk (1 + (← read o.elems ix))
    let ul ← write s.ul ix n
    let d ← chk (s.d * (← read dl ix))
    let u ← chk (s.u * (← read ul ix))
    pure ⟨dl, ul, d, u⟩)
    (fun k sh => sh.dl.len = axes.length ∧ sh.ul.len = axes.length ∧ (∀ j < k, sh.dl.cell j = some ((DL.getD j 0 : ℕ) : ℤ)) ∧ (∀ j < k, sh.ul.cell j = some ((UL.getD j 0 : ℕ) : ℤ)) ∧
      sh.d = (((DL.take k).prod : ℕ) : ℤ) ∧ sh.u = (((UL.take k).prod : ℕ) : ℤ)) ⟨rfl, rfl, fun j hj => by omega, fun j hj => by omega, by simp, by simp⟩ (fun k hk sh ⟨h1, h2, h3, h4, h5, h6⟩ => by
      have c1 : (DL.take (k + 1)).prod ≤ DL.prod := by simpa using take_drop_le DL p2 0 (k + 1)
      have c2 : (UL.take (k + 1)).prod ≤ UL.prod := by simpa using take_drop_le UL p1 0 (k + 1)
      rw [take_succ_prod _ (by omega)] at c1 c2
      have eD : DL[k]'(by omega) = 2 := by simp [hDL]
      have eU : UL[k]'(by omega) = 1 + (axes.map (·.nelem)).getD k 0 := by simp [hUL, List.getD_eq_getElem?_getD, hk]
      have hU : UL[k]'(by omega) ≤ UL.prod := Nat.le_of_dvd hpp (List.dvd_prod (List.getElem_mem _))
      rw [write_ok _ (by omega), ok_bind, h.elems.read (by simpa using hk), ok_bind]
      rw [show (1 : ℤ) + (((axes.map (·.nelem)).getD k 0 : ℕ) : ℤ) = ((UL[k]'(by omega) : ℕ) : ℤ) by rw [eU]; push_cast; rfl, chk_nat (by omega), ok_bind, write_ok _ (by omega), ok_bind]
      rw [read_ok (v := (2 : ℤ)) (by dsimp only; omega) (by dsimp only; rw [Function.update_self]), ok_bind, h5, show (2 : ℤ) = ((2 : ℕ) : ℤ) from rfl, ← Nat.cast_mul, chk_nat (by rw [eD] at c1; omega), ok_bind]
      rw [read_ok (v := ((UL[k]'(by omega) : ℕ) : ℤ)) (by dsimp only; omega) (by dsimp only; rw [Function.update_self]), ok_bind, h6, ← Nat.cast_mul, chk_nat (by omega), ok_bind, pure_ok]
      refine ⟨_, rfl, h1, h2, fun j hj => ?_, fun j hj => ?_, by dsimp only; rw [take_succ_prod _ (by omega), eD], by dsimp only; rw [take_succ_prod _ (by omega)]⟩
      · dsimp only
        by_cases ej : j = k
        · subst ej; rw [Function.update_self, getD_mem (by omega), eD]
        · rw [Function.update_of_ne ej]; exact h3 j (by omega)
      · dsimp only
        by_cases ej : j = k
        · subst ej; rw [Function.update_self, getD_mem (by omega)]
        · rw [Function.update_of_ne ej]; exact h4 j (by omega))
  refine ⟨sh, e, ⟨by omega, fun k hk => h3 k (by omega)⟩, ⟨by omega, fun k hk => h4 k (by omega)⟩, ?_⟩
  rw [h6, ← lu, List.take_length]

lemma map_read {t : ℕ} (ht : t < 4) : read dervMap (t : ℤ) = .ok ((SMT.Rmtc.dervMap t : ℕ) : ℤ) ∧ read sideMap (t : ℤ) = .ok ((SMT.Rmtc.sideMap t : ℕ) : ℤ) := by
  rcases t with _ | _ | _ | _ | t
  · exact ⟨rfl, rfl⟩
  · exact ⟨rfl, rfl⟩
  · exact ⟨rfl, rfl⟩
  · exact ⟨rfl, rfl⟩
  · omega

lemma dofLists_ok {nx : ℕ} {el tl : Buf ℤ} {es ts : List ℕ} (le : es.length = nx) (lt : ts.length = nx) (he : Vec el nx fun k => ((es.getD k 0 : ℕ) : ℤ)) (ht : Vec tl nx fun k => ((ts.getD k 0 : ℕ) : ℤ))
    (h4 : ∀ k < nx, ts.getD k 0 < 4) (hs : ∀ k < nx, es.getD k 0 + 1 < 2 ^ 31) :
    ∃ l, dofLists nx el tl = .ok l ∧ Ints l.1 (ts.map SMT.Rmtc.dervMap) ∧ Ints l.2 (List.zipWith (fun e t => e + SMT.Rmtc.sideMap t) es ts) := by
  unfold dofLists
  have l1 : (ts.map SMT.Rmtc.dervMap).length = nx := by simp [lt]
  have l2 : (List.zipWith (fun e t => e + SMT.Rmtc.sideMap t) es ts).length = nx := by simp [lt, le]
  have side : ∀ t, SMT.Rmtc.sideMap t ≤ 1 := fun t => by unfold SMT.Rmtc.sideMap; split_ifs <;> omega
  obtain ⟨l, e, h1, h2, h3, h5⟩ := loop_ok (n := nx) (s := ((Buf.fresh nx, Buf.fresh nx) : Buf ℤ × Buf ℤ)) (body := fun ix s => do
    let t ← read tl ix
    let d ← read dervMap t
    let dl ← write s.1 ix d
    let side ← read sideMap t
    let e ← read el ix
    let u ← chk (e + side)
    let ul ← write s.2 ix u
    pure (dl, ul)) (fun k s => s.1.len = nx ∧ s.2.len = nx ∧ (∀ j < k, s.1.cell j = some (((ts.map SMT.Rmtc.dervMap).getD j 0 : ℕ) : ℤ)) ∧
      ∀ j < k, s.2.cell j = some (((List.zipWith (fun e t => e + SMT.Rmtc.sideMap t) es ts).getD j 0 : ℕ) : ℤ)) ⟨rfl, rfl, fun j hj => by omega, fun j hj => by omega⟩ (fun k hk s ⟨h1, h2, h3, h5⟩ => by
      obtain ⟨m1, m2⟩ := map_read (h4 k hk)
      have := hs k hk
      have := side (ts.getD k 0)
      rw [ht.read hk, ok_bind, m1, ok_bind, write_ok _ (by omega), ok_bind, m2, ok_bind, he.read hk, ok_bind, ← Nat.cast_add, chk_nat (by omega), ok_bind, write_ok _ (by omega), ok_bind, pure_ok]
      refine ⟨_, rfl, h1, h2, fun j hj => ?_, fun j hj => ?_⟩
      · dsimp only
        by_cases ej : j = k
        · subst ej; rw [Function.update_self, getD_mem (show j < (ts.map _).length by omega), List.getElem_map, getD_mem (show j < ts.length by omega)]
        · rw [Function.update_of_ne ej]; exact h3 j (by omega)
      · dsimp only
        by_cases ej : j = k
        · subst ej; rw [Function.update_self, getD_mem (show j < (List.zipWith _ es ts).length by omega), List.getElem_zipWith, getD_mem (show j < ts.length by omega), getD_mem (show j < es.length by omega)]
        · rw [Function.update_of_ne ej]; exact h5 j (by omega))
  exact ⟨l, e, ⟨by omega, fun k hk => h3 k (by omega)⟩, ⟨by omega, fun k hk => h5 k (by omega)⟩⟩

/-- Entry number `a` of the matrix from degrees of freedom to values at the nodes of every element. -/
noncomputable def uniqF (nelems : List ℕ) (a : ℕ) : ℝ × ℕ × ℕ := (1, a, SMT.Rmtc.uniqCol nelems (a / 4 ^ nelems.length) (a % 4 ^ nelems.length))

lemma inShape_of {ns is : List ℕ} (hl : ns.length = is.length) (h : ∀ k (h1 : k < ns.length) (h2 : k < is.length), is[k] < ns[k]) : InShape ns is :=
  List.forall₂_iff_get.2 ⟨hl, fun k h1 h2 => h k h1 h2⟩

/-- **C100** `compute_uniq2elem` on memory: arrays with room for `nelem * nterm` entries; entry `(ielem, iterm)` is a 1 in row `ielem * nterm + iterm` and the column of C26. -/
theorem C100_uniq2elem (h : Ready o axes) (hf : Fits axes) (hroom : Room c0 ((axes.map (·.nelem)).prod * 4 ^ axes.length)) :
    ∃ r, uniq2elem o c0 = .ok r ∧ Emitted c0 r.2 ((axes.map (·.nelem)).prod * 4 ^ axes.length) (uniqF (axes.map (·.nelem))) := by
  obtain ⟨sh, es, s1, s2, s3⟩ := shapes_ok h hf
  have hs := hf.small
  have hlt := uniq_le axes fun a ha => (hf.ok a ha).1
  set T := 4 ^ axes.length with hT
  set E := (axes.map (·.nelem)).prod with hE
  have hnt : o.nterm = ((T : ℕ) : ℤ) := h.nterm
  unfold uniq2elem
  rw [es, ok_bind, hnt, h.nelem, Int.toNat_natCast, Int.toNat_natCast]
  obtain ⟨r, e, -, hr⟩ := emit_loop (n := E) (k := T) (N0 := 0) (start c0 (uniqF (axes.map (·.nelem)))) (body := fun ielem st => do
      let el ← expandIndex o.base.nx o.elems ielem (Buf.fresh o.base.nx)
      loop T st (uniqTerm o sh el.2 ielem)) (fun ie hie st hst => by
    obtain ⟨el, e1, v1⟩ := expand_elems h hf hie
    rw [e1, ok_bind]
    rw [zero_add] at hst
    obtain ⟨st', e', h'⟩ := emit_loop (n := T) (k := 1) (N0 := ie * T) hst (body := uniqTerm o sh el.2 ie) (fun it hit st hst => by
      obtain ⟨tl, e2, v2⟩ := expand_terms h hf hit
      rw [mul_one] at hst ⊢
      have f1 := flat_lt hie hit
      set ES := expand (axes.map (·.nelem)) ie with hES
      set TS := expand (List.replicate axes.length 4) it with hTS
      have lE : ES.length = axes.length := by rw [hES, expand_length]; simp
      have lT : TS.length = axes.length := by rw [hTS, expand_length]; simp
      have hsh := List.forall₂_iff_get.1 (C22_expand_in_shape _ (elems_pos hf) ie hie)
      have hES' : ∀ k (h1 : k < axes.length), ES.getD k 0 < (axes.map (·.nelem))[k]'(by simpa using h1) := fun k h1 => by
        have := hsh.2 k (by simpa using h1) (by rw [← hES]; omega)
        rw [getD_mem (by omega)]; exact this
      have hpE := prod_pos_of (elems_pos hf)
      have hEs := elems_small hf
      have hEk : ∀ k (h1 : k < axes.length), (axes.map (·.nelem))[k]'(by simpa using h1) < 2 ^ 31 := fun k h1 =>
        lt_of_le_of_lt (Nat.le_of_dvd hpE (List.dvd_prod (List.getElem_mem _))) hEs
      obtain ⟨l, e3, w1, w2⟩ := dofLists_ok lE lT v1 v2 (fun k hk => digits hit hk) (fun k hk => by have := hES' k hk; have := hEk k hk; omega)
      have side : ∀ t, SMT.Rmtc.sideMap t ≤ 1 := fun t => by unfold SMT.Rmtc.sideMap; split_ifs <;> omega
      have derv : ∀ t, SMT.Rmtc.dervMap t ≤ 1 := fun t => by unfold SMT.Rmtc.dervMap; split_ifs <;> omega
      have sh1 : InShape (axes.map fun _ => 2) (TS.map SMT.Rmtc.dervMap) := inShape_of (by simp [lT]) fun k h1 h2 => by
        simp only [List.getElem_map]; have := derv (TS[k]'(by simpa using h2)); omega
      have sh2 : InShape (axes.map fun a => 1 + a.nelem) (List.zipWith (fun e t => e + SMT.Rmtc.sideMap t) ES TS) := inShape_of (by simp [lT, lE]) fun k h1 h2 => by
        have hk : k < axes.length := by simpa using h1
        simp only [List.getElem_map, List.getElem_zipWith]
        have a1 := side (TS[k]'(by omega))
        have a2 := hES' k hk
        rw [getD_mem (by omega)] at a2
        simp only [List.getElem_map] at a2
        omega
      have hd2 : (axes.map (fun _ => 2)).prod = 2 ^ axes.length := by simp
      have hpu : 0 < (axes.map fun a => 1 + a.nelem).prod := prod_pos_of fun v hv => by obtain ⟨a, -, rfl⟩ := List.mem_map.1 hv; omega
      have b1 : (axes.map (fun _ => 2)).prod < 2 ^ 31 := by rw [hd2]; exact lt_of_le_of_lt (Nat.le_mul_of_pos_left _ hpu) (lt_of_le_of_lt hlt hs)
      have b2 : (axes.map fun a => 1 + a.nelem).prod < 2 ^ 31 := lt_of_le_of_lt (Nat.le_mul_of_pos_right _ (by positivity)) (lt_of_le_of_lt hlt hs)
      have k1 := C99_contract_index s1 w1 sh1 b1
      have k2 := C99_contract_index s2 w2 sh2 b2
      rw [List.length_map] at k1 k2
      have q1 := contract_lt sh1
      have q2 := contract_lt sh2
      rw [hd2] at q1
      have f2 := flat_lt q1 q2
      unfold uniqTerm
      rw [e2, ok_bind, h.base.hnx, e3, ok_bind, k1, ok_bind, k2, ok_bind, hnt, lin_ok (by omega), ok_bind, s3]
      dsimp only
      rw [lin_ok (by rw [mul_comm (2 ^ axes.length)] at f2; omega), ok_bind]
      rw [← add_assoc]
      refine emit_ok hst hroom f1 hs ?_
      unfold uniqF
      rw [List.length_map, ← hT, show (ie * T + it) / T = ie by rw [mul_comm, Nat.mul_add_div (by omega), Nat.div_eq_of_lt hit]; rfl,
        show (ie * T + it) % T = it by rw [mul_comm, Nat.mul_add_mod, Nat.mod_eq_of_lt hit]]
      unfold SMT.Rmtc.uniqCol
      simp only [List.map_map, Function.comp_def, List.length_map]
      rw [← hES, ← hTS])
    refine ⟨st', e', ?_⟩
    rw [mul_one] at h'
    rw [zero_add, add_mul, one_mul]; exact h')
  rw [zero_add] at hr
  exact ⟨r, e, hr⟩

end SMT.Native.Rmtc
