import Verif.Native.RmtbProps

set_option linter.unusedSectionVars false
set_option linter.unusedSimpArgs false
set_option linter.unusedVariables false

/-!
# `RMTB::compute_jac` stays inside its arrays and computes the rows of `Verif/Rmtb/Model.lean`
-/
namespace SMT.Native.Rmtb
open SMT.Rmtb (Axis tailProd bases mode entry jacRow)
open SMT.BSpline (knotU)
open SMT.Native.Rmt

/-- Specification: an `RMTB` object set up for the given inputs. -/
structure Ready (o : Obj) (axes : List (Axis ℝ)) : Prop where
  hnx : o.base.nx = axes.length
  hq : Ints o.order (axes.map (·.order))
  hm : Ints o.ncp (axes.map (·.ncp))

/-- Specification: orders at least 1, at least as many control points, and numbers that an `int` can hold. -/
structure Fits (axes : List (Axis ℝ)) : Prop where
  ok : ∀ a ∈ axes, 1 ≤ a.order ∧ a.order ≤ a.ncp ∧ a.order + a.ncp + 1 < 2 ^ 31
  small : (axes.map (·.ncp)).prod < 2 ^ 31

lemma orders_le {axes : List (Axis ℝ)} (h : ∀ a ∈ axes, a.order ≤ a.ncp) : (axes.map (·.order)).prod ≤ (axes.map (·.ncp)).prod := by
  induction axes with
  | nil => simp
  | cons a as ih =>
    rw [List.map_cons, List.map_cons, List.prod_cons, List.prod_cons]
    exact Nat.mul_le_mul (h a (by simp)) (ih fun b hb => h b (by simp [hb]))

lemma digit_expand : ∀ (os : List ℕ) (z ix : ℕ), ix < os.length → SMT.Rmtb.digit os z ix = (SMT.Index.expand os z).getD ix 0
  | [], _, _, h => by simp at h
  | o :: os, z, 0, _ => by rw [SMT.Rmtb.digit_zero]; rfl
  | o :: os, z, ix + 1, h => by
    rw [SMT.Rmtb.digit_succ, digit_expand os _ ix (by simpa using h)]
    simp only [SMT.Index.expand, List.getD_cons_succ]
    congr 2
    rw [Nat.mod_eq_sub_mul_div, mul_comm]

lemma digit_lt {os : List ℕ} (hp : ∀ v ∈ os, 0 < v) {z ix : ℕ} (hz : z < os.prod) (hix : ix < os.length) : SMT.Rmtb.digit os z ix < os[ix] := by
  have hs := List.forall₂_iff_get.1 (SMT.Index.C22_expand_in_shape os hp z hz)
  rw [digit_expand os z ix hix]
  have := hs.2 ix hix (by rw [SMT.Index.expand_length]; exact hix)
  rw [getD_mem (by rw [SMT.Index.expand_length]; exact hix)]
  exact this

lemma bases_get (ix1 ix2 : ℤ) : ∀ (axes : List (Axis ℝ)) (k : ℕ) (ts : List ℝ) (bas : List (ℕ × (ℕ → ℝ))), bases ix1 ix2 k axes ts = some bas →
    ∀ ix (h : ix < axes.length), SMT.Rmtb.computeBasis (mode ix1 ix2 (k + ix)) axes[ix].order axes[ix].ncp (ts.getD ix 0) (knotU axes[ix].order axes[ix].ncp) = some (bas.getD ix (0, fun _ => 0))
  | [], _, _, _, _, ix, h => by simp at h
  | a :: as, k, ts, bas, e, ix, h => by
    rw [bases] at e
    cases hc : SMT.Rmtb.computeBasis (mode ix1 ix2 k) a.order a.ncp (ts.headD 0) (knotU a.order a.ncp) with
    | none => rw [hc] at e; simp at e
    | some sb =>
      rw [hc] at e
      simp only [Option.map_eq_some_iff] at e
      obtain ⟨bas', e1, rfl⟩ := e
      cases ix with
      | zero =>
        simp only [List.getElem_cons_zero, add_zero, List.getD_cons_zero]
        rw [← hc]
        cases ts <;> rfl
      | succ ix =>
        have := bases_get ix1 ix2 as (k + 1) ts.tail bas' e1 ix (by simpa using h)
        simp only [List.getElem_cons_succ, List.getD_cons_succ]
        rw [← this, show k + (ix + 1) = k + 1 + ix by omega]
        cases ts <;> rfl

lemma basis_ok {q m : ℕ} (hq : 1 ≤ q) (hqm : q ≤ m) {t : ℝ} (h0 : 0 ≤ t) (h1 : t < 1) {k b : Buf ℝ} (h : Exact k (q + m) (knotU q m)) (hb : b.len = q) {md : ℕ} {sb : ℕ × (ℕ → ℝ)}
    (hsb : SMT.Rmtb.computeBasis md q m t (knotU q m) = some sb) : ∃ b', basis md q m t k b = .ok ((sb.1 : ℤ), b') ∧ Exact b' q sb.2 ∧ sb.1 + q ≤ m := by
  obtain ⟨s, hs, h2, -, -⟩ := SMT.BSpline.C23_span_search q m hq hqm t h0 h1
  unfold SMT.Rmtb.computeBasis SMT.BSpline.computeBasis0 SMT.BSpline.computeBasis1 SMT.BSpline.computeBasis2 at hsb
  unfold basis
  rw [hs] at hsb
  by_cases m0 : md = 0
  · rw [if_pos m0] at hsb ⊢
    obtain rfl := Option.some.inj hsb
    obtain ⟨b', e, hb'⟩ := C99_basis0 hq hqm h hs h2 hb
    exact ⟨b', e, hb', h2⟩
  · rw [if_neg m0] at hsb ⊢
    by_cases m1 : md = 1
    · rw [if_pos m1] at hsb ⊢
      obtain rfl := Option.some.inj hsb
      obtain ⟨b', e, hb'⟩ := C99_basis1 hq hqm h hs h2 hb
      exact ⟨b', e, hb', h2⟩
    · rw [if_neg m1] at hsb ⊢
      obtain rfl := Option.some.inj hsb
      obtain ⟨b', e, hb'⟩ := C99_basis2 hq hqm h hs h2 hb
      exact ⟨b', e, hb', h2⟩

variable {o : Obj} {axes : List (Axis ℝ)}

lemma orders_pos (hf : Fits axes) : ∀ v ∈ axes.map (·.order), 0 < v := fun v hv => by
  obtain ⟨a, ha, rfl⟩ := List.mem_map.1 hv
  exact (hf.ok a ha).1

lemma ncps_pos (hf : Fits axes) : ∀ v ∈ axes.map (·.ncp), 0 < v := fun v hv => by
  obtain ⟨a, ha, rfl⟩ := List.mem_map.1 hv
  have := hf.ok a ha
  show 0 < a.ncp
  omega

lemma orders_small (hf : Fits axes) : (axes.map (·.order)).prod < 2 ^ 31 := lt_of_le_of_lt (orders_le fun a ha => (hf.ok a ha).2.1) hf.small

lemma digit_ok (h : Ready o axes) (hf : Fits axes) {ix z : ℕ} (hix : ix < axes.length) (hz : z < 2 ^ 31) :
    ∃ r, digit o ix z = .ok (r, ((SMT.Rmtb.digit (axes.map (·.order)) z ix : ℕ) : ℤ)) := by
  unfold digit SMT.Rmtb.digit
  rw [h.hnx, List.range_eq_range']
  obtain ⟨r, e, h1, h2⟩ := loop_foldl (fun (st : ℤ × ℤ) (p : ℕ × ℕ) => st = ((p.1 : ℤ), (p.2 : ℤ)) ∧ p.1 ≤ z) (body := fun jx st => do
      let prod ← prodFrom axes.length o.order (jx + 1)
      let d ← cdiv st.1 prod
      let m ← chk (d * prod)
      let r ← chk (st.1 - m)
      pure (r, d)) (step := fun (st : ℕ × ℕ) jx =>
      let prod := tailProd (axes.map (·.order)) jx
      let d := st.1 / prod
      (st.1 - d * prod, d)) (a := 0) (m := ix + 1) (s := ((z : ℤ), 0)) (t := (z, 0)) ⟨rfl, le_rfl⟩ (fun jx hjx st p ⟨hp, hle⟩ => by
        have hl : axes.length = (axes.map (·.order)).length := by simp
        have hpos := drop_pos _ (orders_pos hf) (jx + 1)
        rw [hl, prodFrom_ok h.hq (orders_pos hf) (orders_small hf), ok_bind, hp]
        have hq : p.1 / ((axes.map (·.order)).drop (jx + 1)).prod * ((axes.map (·.order)).drop (jx + 1)).prod ≤ p.1 := Nat.div_mul_le_self _ _
        dsimp only
        rw [cdiv_nat hpos (by omega), ok_bind, ← Nat.cast_mul, chk_nat (by omega), ok_bind, ← Nat.cast_sub hq, chk_nat (by omega), ok_bind, pure_ok]
        exact ⟨_, rfl, by simp only [tailProd, zero_add], by simp only [tailProd, zero_add]; omega⟩)
  exact ⟨r.1, by rw [e, h1]⟩

/-- Specification: rows, columns and values of the first `n * nnz` cells; the cells behind are those of `c0`. -/
structure St (c0 c : Coo) (n nnz : ℕ) (F : ℕ → ℕ → ℝ × ℕ) : Prop where
  hd : c.data.len = c0.data.len
  hr : c.rows.len = c0.rows.len
  hc : c.cols.len = c0.cols.len
  data : ∀ i < n, ∀ z < nnz, c.data.cell (i * nnz + z) = some (F i z).1
  rows : ∀ i < n, ∀ z < nnz, c.rows.cell (i * nnz + z) = some (i : ℤ)
  cols : ∀ i < n, ∀ z < nnz, c.cols.cell (i * nnz + z) = some ((F i z).2 : ℤ)
  back : ∀ a, n * nnz ≤ a → c.data.cell a = c0.data.cell a ∧ c.rows.cell a = c0.rows.cell a ∧ c.cols.cell a = c0.cols.cell a

variable {n nnz : ℕ} {c0 c : Coo} {F : ℕ → ℕ → ℝ × ℕ}

/-- The three arrays have room for `n * nnz` entries. -/
structure Room (c0 : Coo) (n nnz : ℕ) : Prop where
  data : n * nnz ≤ c0.data.len
  rows : n * nnz ≤ c0.rows.len
  cols : n * nnz ≤ c0.cols.len

lemma initCoo_ok (hroom : Room c0 n nnz) (hb : n * nnz ≤ 2 ^ 31) : ∃ c, initCoo n nnz c0 = .ok c ∧ St c0 c n nnz fun _ _ => (1, 0) := by
  unfold initCoo
  rw [Int.toNat_natCast]
  set R : ℕ → ℤ := fun a => ((a / nnz : ℕ) : ℤ) with hR
  set P : (ℕ → Prop) → Coo → Prop := fun vis c => Vis c0.data c.data (n * nnz) (fun _ => 1) vis ∧ Vis c0.rows c.rows (n * nnz) R vis ∧ Vis c0.cols c.cols (n * nnz) (fun _ => 0) vis with hP
  have key : ∃ c, loop n c0 (fun i c => loop nnz c fun z c => do
      let d ← write c.data (← lin i nnz z) 1
      let r ← write c.rows (← lin i nnz z) i
      let k ← write c.cols (← lin i nnz z) 0
      pure (⟨d, r, k⟩ : Coo)) = .ok c ∧ P (fun a => ∃ i < n, ∃ z < nnz, a = i * nnz + z) c := by
    refine loop_ok (fun j c => P (fun a => ∃ i < j, ∃ z < nnz, a = i * nnz + z) c) ⟨?_, ?_, ?_⟩ fun i hi c hc => ?_
    · exact (Vis.start _ _ _).mono fun a ⟨i, hi, _⟩ => by omega
    · exact (Vis.start _ _ _).mono fun a ⟨i, hi, _⟩ => by omega
    · exact (Vis.start _ _ _).mono fun a ⟨i, hi, _⟩ => by omega
    · have : ∃ c', loop nnz c (fun z c => do
          let d ← write c.data (← lin i nnz z) 1
          let r ← write c.rows (← lin i nnz z) i
          let k ← write c.cols (← lin i nnz z) 0
          pure (⟨d, r, k⟩ : Coo)) = .ok c' ∧ P (fun a => (∃ i' < i, ∃ z < nnz, a = i' * nnz + z) ∨ ∃ z < nnz, a = i * nnz + z) c' := by
        refine loop_ok (fun j c => P (fun a => (∃ i' < i, ∃ z < nnz, a = i' * nnz + z) ∨ ∃ z < j, a = i * nnz + z) c) ⟨?_, ?_, ?_⟩ fun z hz c hc => ?_
        · exact hc.1.mono fun a ha => ha.elim id fun ⟨z, hz, _⟩ => by omega
        · exact hc.2.1.mono fun a ha => ha.elim id fun ⟨z, hz, _⟩ => by omega
        · exact hc.2.2.mono fun a ha => ha.elim id fun ⟨z, hz, _⟩ => by omega
        · have hlt := flat_lt hi hz
          have hdiv : (i * nnz + z) / nnz = i := by rw [mul_comm, Nat.mul_add_div (by omega), Nat.div_eq_of_lt hz]; rfl
          obtain ⟨d1, e1, g1⟩ := hc.1.write hroom.data hlt (v := 1) rfl
          obtain ⟨d2, e2, g2⟩ := hc.2.1.write hroom.rows hlt (v := (i : ℤ)) (by rw [hR]; dsimp only; rw [hdiv])
          obtain ⟨d3, e3, g3⟩ := hc.2.2.write hroom.cols hlt (v := (0 : ℤ)) rfl
          have hsub : ∀ a, ((∃ i' < i, ∃ z < nnz, a = i' * nnz + z) ∨ ∃ z' < z + 1, a = i * nnz + z') → ((∃ i' < i, ∃ z < nnz, a = i' * nnz + z) ∨ ∃ z' < z, a = i * nnz + z') ∨ a = i * nnz + z := by
            rintro a (ha | ⟨z', hz', rfl⟩)
            · exact .inl (.inl ha)
            · rcases Nat.lt_succ_iff_lt_or_eq.1 hz' with hz' | rfl
              · exact .inl (.inr ⟨z', hz', rfl⟩)
              · exact .inr rfl
          rw [lin_ok (by omega), ok_bind, e1, ok_bind, ok_bind, e2, ok_bind, ok_bind, e3, ok_bind, pure_ok]
          exact ⟨_, rfl, g1.mono hsub, g2.mono hsub, g3.mono hsub⟩
      obtain ⟨c', e, g⟩ := this
      have hsub : ∀ a, (∃ i' < i + 1, ∃ z < nnz, a = i' * nnz + z) → (∃ i' < i, ∃ z < nnz, a = i' * nnz + z) ∨ ∃ z < nnz, a = i * nnz + z := by
        rintro a ⟨i', hi', z, hz, rfl⟩
        rcases Nat.lt_succ_iff_lt_or_eq.1 hi' with hi' | rfl
        · exact .inl ⟨i', hi', z, hz, rfl⟩
        · exact .inr ⟨z, hz, rfl⟩
      exact ⟨c', e, g.1.mono hsub, g.2.1.mono hsub, g.2.2.mono hsub⟩
  obtain ⟨c, e, h1, h2, h3⟩ := key
  refine ⟨c, e, h1.1, h2.1, h3.1, fun i hi z hz => h1.2.1 _ ⟨i, hi, z, hz, rfl⟩, fun i hi z hz => ?_, fun i hi z hz => h3.2.1 _ ⟨i, hi, z, hz, rfl⟩,
    fun a ha => ⟨h1.2.2 a ha, h2.2.2 a ha, h3.2.2 a ha⟩⟩
  rw [h2.2.1 _ ⟨i, hi, z, hz, rfl⟩, hR]
  dsimp only
  rw [mul_comm, Nat.mul_add_div (by omega), Nat.div_eq_of_lt hz]; rfl

/-- What one turn of the innermost loop does to an entry. -/
def stepE (orders ncps : List ℕ) (sb : ℕ × (ℕ → ℝ)) (ix z : ℕ) (e : ℝ × ℕ) : ℝ × ℕ :=
  (e.1 * sb.2 (SMT.Rmtb.digit orders z ix), e.2 + (SMT.Rmtb.digit orders z ix + sb.1) * tailProd ncps ix)

lemma accum_ok (h : Ready o axes) (hf : Fits axes) (hnnz : nnz = (axes.map (·.order)).prod) (hb : n * nnz ≤ 2 ^ 31) (hroom : Room c0 n nnz) (hst : St c0 c n nnz F) {ix i z : ℕ} (hix : ix < axes.length)
    (hi : i < n) (hz : z < nnz) {sb : ℕ × (ℕ → ℝ)} {b : Buf ℝ} (hbv : Exact b axes[ix].order sb.2) (hs : sb.1 + axes[ix].order ≤ axes[ix].ncp)
    (hcol : (stepE (axes.map (·.order)) (axes.map (·.ncp)) sb ix z (F i z)).2 < 2 ^ 31) :
    ∃ c', accum o nnz ix i z sb.1 b c = .ok c' ∧
      St c0 c' n nnz fun i' z' => if i' = i ∧ z' = z then stepE (axes.map (·.order)) (axes.map (·.ncp)) sb ix z (F i z) else F i' z' := by
  have hsm := orders_small hf
  have hax := hf.ok axes[ix] (List.getElem_mem hix)
  have hdl := digit_lt (orders_pos hf) (hnnz ▸ hz) (show ix < (axes.map (·.order)).length by simpa using hix)
  rw [List.getElem_map] at hdl
  obtain ⟨r, e1⟩ := digit_ok h hf hix (show z < 2 ^ 31 by omega)
  set d := SMT.Rmtb.digit (axes.map (·.order)) z ix with hd
  have hlt := flat_lt hi hz
  unfold accum
  have hcol' : (F i z).2 + (d + sb.1) * tailProd (axes.map (·.ncp)) ix < 2 ^ 31 := hcol
  have hp : prodFrom o.base.nx o.ncp (ix + 1) = .ok ((tailProd (axes.map (·.ncp)) ix : ℕ) : ℤ) := by
    rw [h.hnx, show axes.length = (axes.map (·.ncp)).length by simp, prodFrom_ok h.hm (ncps_pos hf) hf.small]; rfl
  have hld : i * nnz + z < c.data.len := by rw [hst.hd]; exact lt_of_lt_of_le hlt hroom.data
  have hlc : i * nnz + z < c.cols.len := by rw [hst.hc]; exact lt_of_lt_of_le hlt hroom.cols
  rw [e1, ok_bind, lin_ok (by omega), ok_bind, hp, ok_bind, read_ok hld (hst.data i hi z hz), ok_bind]
  dsimp only
  rw [hbv.readZ d hdl rfl, ok_bind, write_ok _ hld, ok_bind, read_ok hlc (hst.cols i hi z hz), ok_bind, ← Nat.cast_add, chk_nat (by omega), ok_bind, ← Nat.cast_mul, chk_nat (by omega), ok_bind,
    ← Nat.cast_add, chk_nat hcol', ok_bind, write_ok _ hlc, ok_bind, pure_ok]
  have hne : ∀ i' z', z' < nnz → ¬ (i' = i ∧ z' = z) → i' * nnz + z' ≠ i * nnz + z := fun i' z' hz' hn hc => hn (flat_inj hz' hz hc)
  refine ⟨_, rfl, hst.hd, hst.hr, hst.hc, fun i' hi' z' hz' => ?_, fun i' hi' z' hz' => hst.rows i' hi' z' hz', fun i' hi' z' hz' => ?_, fun a ha => ⟨?_, (hst.back a ha).2.1, ?_⟩⟩
  · dsimp only
    by_cases e : i' = i ∧ z' = z
    · rw [if_pos e, e.1, e.2, Function.update_self]; rfl
    · rw [if_neg e, Function.update_of_ne (hne i' z' hz' e)]; exact hst.data i' hi' z' hz'
  · dsimp only
    by_cases e : i' = i ∧ z' = z
    · rw [if_pos e, e.1, e.2, Function.update_self]; rfl
    · rw [if_neg e, Function.update_of_ne (hne i' z' hz' e)]; exact hst.cols i' hi' z' hz'
  · dsimp only
    rw [Function.update_of_ne (by omega)]; exact (hst.back a ha).1
  · dsimp only
    rw [Function.update_of_ne (by omega)]; exact (hst.back a ha).2.2

lemma St.congr {G : ℕ → ℕ → ℝ × ℕ} (h : St c0 c n nnz F) (e : ∀ i < n, ∀ z < nnz, F i z = G i z) : St c0 c n nnz G :=
  ⟨h.hd, h.hr, h.hc, fun i hi z hz => by rw [h.data i hi z hz, e i hi z hz], h.rows, fun i hi z hz => by rw [h.cols i hi z hz, e i hi z hz], h.back⟩

lemma point_ok (h : Ready o axes) (hf : Fits axes) (hnnz : nnz = (axes.map (·.order)).prod) (hb : n * nnz ≤ 2 ^ 31) (hroom : Room c0 n nnz) (hst : St c0 c n nnz F) {ix i : ℕ} (hix : ix < axes.length)
    (hi : i < n) {T : ℕ → ℕ → ℝ} {params : Buf ℝ} (hT : Holds params n axes.length T) (hbx : n * axes.length ≤ 2 ^ 31) (ht : 0 ≤ T i ix ∧ T i ix < 1) {ix1 ix2 : ℤ} {sb : ℕ × (ℕ → ℝ)}
    (hsb : SMT.Rmtb.computeBasis (mode ix1 ix2 ix) axes[ix].order axes[ix].ncp (T i ix) (knotU axes[ix].order axes[ix].ncp) = some sb)
    {kn b : Buf ℝ} (hk : Exact kn (axes[ix].order + axes[ix].ncp) (knotU axes[ix].order axes[ix].ncp)) (hbv : b.len = axes[ix].order)
    (hcol : ∀ z < nnz, (stepE (axes.map (·.order)) (axes.map (·.ncp)) sb ix z (F i z)).2 < 2 ^ 31) :
    ∃ r, point o ix1 ix2 nnz params ix axes[ix].order axes[ix].ncp kn i (b, c) = .ok r ∧ r.1.len = axes[ix].order ∧
      St c0 r.2 n nnz fun i' z' => if i' = i then stepE (axes.map (·.order)) (axes.map (·.ncp)) sb ix z' (F i z') else F i' z' := by
  have hax := hf.ok axes[ix] (List.getElem_mem hix)
  obtain ⟨b', e1, hb', hs⟩ := basis_ok hax.1 hax.2.1 ht.1 ht.2 hk hbv hsb
  unfold point
  rw [h.hnx, hT.read' hbx hi hix, ok_bind, e1, ok_bind, Int.toNat_natCast]
  have key : ∃ c', loop nnz c (fun z c => accum o nnz ix i z sb.1 b' c) = .ok c' ∧
      St c0 c' n nnz fun i' z' => if i' = i ∧ z' < nnz then stepE (axes.map (·.order)) (axes.map (·.ncp)) sb ix z' (F i z') else F i' z' := by
    refine loop_ok (fun j c => St c0 c n nnz fun i' z' => if i' = i ∧ z' < j then stepE (axes.map (·.order)) (axes.map (·.ncp)) sb ix z' (F i z') else F i' z')
      (hst.congr fun i' _ z' _ => by rw [if_neg (by omega)]) fun z hz c hc => ?_
    obtain ⟨c', e, hc'⟩ := accum_ok h hf hnnz hb hroom hc hix hi hz hb' hs (by rw [if_neg (by omega)]; exact hcol z hz)
    refine ⟨c', e, hc'.congr fun i' hi' z' hz' => ?_⟩
    rw [if_neg (show ¬ (i = i ∧ z < z) by omega)]
    by_cases e : i' = i ∧ z' = z
    · rw [if_pos e, if_pos ⟨e.1, by omega⟩, e.2]
    · rw [if_neg e]
      by_cases e2 : i' = i ∧ z' < z
      · rw [if_pos e2, if_pos ⟨e2.1, by omega⟩]
      · rw [if_neg e2, if_neg (by omega)]
  obtain ⟨c', e, hc'⟩ := key
  dsimp only
  rw [e, ok_bind, pure_ok]
  refine ⟨_, rfl, hb'.1, hc'.congr fun i' hi' z' hz' => ?_⟩
  by_cases e : i' = i
  · rw [if_pos ⟨e, hz'⟩, if_pos e]
  · rw [if_neg (fun hh => e hh.1), if_neg e]

lemma dim_ok (h : Ready o axes) (hf : Fits axes) (hnnz : nnz = (axes.map (·.order)).prod) (hb : n * nnz ≤ 2 ^ 31) (hroom : Room c0 n nnz) (hst : St c0 c n nnz F) {ix : ℕ} (hix : ix < axes.length)
    {T : ℕ → ℕ → ℝ} {params : Buf ℝ} (hT : Holds params n axes.length T) (hbx : n * axes.length ≤ 2 ^ 31) (ht : ∀ i < n, 0 ≤ T i ix ∧ T i ix < 1) {ix1 ix2 : ℤ} {sb : ℕ → ℕ × (ℕ → ℝ)}
    (hsb : ∀ i < n, SMT.Rmtb.computeBasis (mode ix1 ix2 ix) axes[ix].order axes[ix].ncp (T i ix) (knotU axes[ix].order axes[ix].ncp) = some (sb i))
    (hcol : ∀ i < n, ∀ z < nnz, (stepE (axes.map (·.order)) (axes.map (·.ncp)) (sb i) ix z (F i z)).2 < 2 ^ 31) :
    ∃ r, dim o ix1 ix2 n nnz params ix c = .ok r ∧ St c0 r n nnz fun i z => stepE (axes.map (·.order)) (axes.map (·.ncp)) (sb i) ix z (F i z) := by
  have hax := hf.ok axes[ix] (List.getElem_mem hix)
  have hq := h.hq.read (k := ix) (by simpa using hix)
  have hm := h.hm.read (k := ix) (by simpa using hix)
  rw [getD_mem (by simpa using hix), List.getElem_map] at hq hm
  unfold dim
  obtain ⟨kn, e1, hk⟩ := knotVector_ok (q := axes[ix].order) (m := axes[ix].ncp) hax.2.2 (k := Buf.fresh (axes[ix].order + axes[ix].ncp)) rfl
  rw [hq, ok_bind, hm, ok_bind, ← Nat.cast_add, chk_nat (by omega), ok_bind, alloc, if_pos (by omega), ok_bind, alloc, if_pos (by omega), ok_bind, Int.toNat_natCast, Int.toNat_natCast, e1, ok_bind]
  have key : ∃ r, loop n (Buf.fresh axes[ix].order, c) (point o ix1 ix2 nnz params ix axes[ix].order axes[ix].ncp kn) = .ok r ∧ (r.1.len = axes[ix].order ∧
      St c0 r.2 n nnz fun i z => if i < n then stepE (axes.map (·.order)) (axes.map (·.ncp)) (sb i) ix z (F i z) else F i z) := by
    refine loop_ok (s := (Buf.fresh axes[ix].order, c)) (fun j (r : Buf ℝ × Coo) => r.1.len = axes[ix].order ∧ St c0 r.2 n nnz fun i z => if i < j then stepE (axes.map (·.order)) (axes.map (·.ncp)) (sb i) ix z (F i z) else F i z)
      ⟨rfl, hst.congr fun i _ z _ => by rw [if_neg (by omega)]⟩ fun i hi r ⟨h1, h2⟩ => ?_
    obtain ⟨r', e, h3, h4⟩ := point_ok h hf hnnz hb hroom h2 hix hi hT hbx (ht i hi) (hsb i hi) hk h1 (fun z hz => by rw [if_neg (by omega)]; exact hcol i hi z hz)
    refine ⟨r', e, h3, h4.congr fun i' hi' z' hz' => ?_⟩
    rw [if_neg (show ¬ i < i by omega)]
    by_cases e : i' = i
    · rw [if_pos e, if_pos (by omega), e]
    · rw [if_neg e]
      by_cases e2 : i' < i
      · rw [if_pos e2, if_pos (by omega)]
      · rw [if_neg e2, if_neg (by omega)]
  obtain ⟨r, e, h1, h2⟩ := key
  rw [e, ok_bind, pure_ok]
  exact ⟨_, rfl, h2.congr fun i hi z hz => by rw [if_pos hi]⟩

/-- Parameters of point `i` as a list. -/
def prow (axes : List (Axis ℝ)) (T : ℕ → ℕ → ℝ) (i : ℕ) : List ℝ := (List.range axes.length).map (T i)

/-- An entry after the first `k` inputs. -/
def partE (orders ncps : List ℕ) (bas : List (ℕ × (ℕ → ℝ))) (k z : ℕ) : ℝ × ℕ :=
  (List.range k).foldl (fun st ix => stepE orders ncps (bas.getD ix (0, fun _ => 0)) ix z st) (1, 0)

lemma partE_succ (orders ncps : List ℕ) (bas : List (ℕ × (ℕ → ℝ))) (k z : ℕ) :
    partE orders ncps bas (k + 1) z = stepE orders ncps (bas.getD k (0, fun _ => 0)) k z (partE orders ncps bas k z) := by
  unfold partE; rw [List.range_succ, List.foldl_append]; rfl

lemma partE_mono (orders ncps : List ℕ) (bas : List (ℕ × (ℕ → ℝ))) (z : ℕ) {k l : ℕ} (h : k ≤ l) : (partE orders ncps bas k z).2 ≤ (partE orders ncps bas l z).2 := by
  induction l, h using Nat.le_induction with
  | base => exact le_rfl
  | succ l hl ih => rw [partE_succ]; exact ih.trans (Nat.le_add_right _ _)

lemma partE_entry (orders ncps : List ℕ) (bas : List (ℕ × (ℕ → ℝ))) (z : ℕ) : partE orders ncps bas orders.length z = entry orders ncps bas z := rfl

/-- **C99** `RMTB::compute_jac` on memory: for orders and numbers of control points that fit (`Fits`), parameters in `[0, 1)` and output arrays with room for `n * prod(order)` entries, it has a result (no
access outside an array, no cell without a value, no overflow), and the entries it writes are, point after point, the rows of C25; the memory behind them is left alone. -/
theorem C99_rmtb_kernel (h : Ready o axes) (hf : Fits axes) {T : ℕ → ℕ → ℝ} {params : Buf ℝ} (hT : Holds params n axes.length T) (ht : ∀ i < n, ∀ k < axes.length, 0 ≤ T i k ∧ T i k < 1)
    (hbx : n * axes.length ≤ 2 ^ 31) (hb : n * (axes.map (·.order)).prod ≤ 2 ^ 31) (hroom : Room c0 n (axes.map (·.order)).prod) (ix1 ix2 : ℤ) :
    ∃ r, computeJac o ix1 ix2 n params c0 = .ok r ∧ r.data.len = c0.data.len ∧ r.rows.len = c0.rows.len ∧ r.cols.len = c0.cols.len ∧
      (∀ i < n, ∃ row, jacRow ix1 ix2 axes (prow axes T i) = some row ∧ row.length = (axes.map (·.order)).prod ∧ ∀ z (hz : z < row.length),
        r.data.cell (i * row.length + z) = some row[z].1 ∧ r.rows.cell (i * row.length + z) = some (i : ℤ) ∧ r.cols.cell (i * row.length + z) = some (row[z].2 : ℤ)) ∧
      ∀ a, n * (axes.map (·.order)).prod ≤ a → r.data.cell a = c0.data.cell a ∧ r.rows.cell a = c0.rows.cell a ∧ r.cols.cell a = c0.cols.cell a := by
  set nnz := (axes.map (·.order)).prod with hnnz
  have hex : ∀ i, ∃ bas, i < n → bases ix1 ix2 0 axes (prow axes T i) = some bas ∧ ∀ z < nnz, (entry (axes.map (·.order)) (axes.map (·.ncp)) bas z).2 < 2 ^ 31 := by
    intro i
    by_cases hi : i < n
    · obtain ⟨axs, f1, f2, f3, f4, -, -⟩ := SMT.Rmtb.bases_ok ix1 ix2 axes 0 (prow axes T i) (fun a ha => ⟨(hf.ok a ha).1, (hf.ok a ha).2.1⟩) (by simp [prow])
        (fun t ht' => by
          obtain ⟨k, hk, rfl⟩ := List.mem_map.1 ht'
          exact ht i hi k (List.mem_range.1 hk))
      refine ⟨_, fun _ => ⟨f1, fun z hz => ?_⟩⟩
      rw [← f2, ← f3, SMT.Rmtb.entry_eq]
      refine lt_trans (SMT.Rmtb.recE_lt axs f4 z (by rw [f2]; exact hz)) ?_
      rw [f3]; exact hf.small
    · exact ⟨[], fun h => absurd h hi⟩
  choose bas hbas using hex
  obtain ⟨c1, e1, h1⟩ := initCoo_ok (n := n) hroom hb
  have key : ∃ r, loop axes.length c1 (dim o ix1 ix2 n nnz params) = .ok r ∧ St c0 r n nnz fun i z => partE (axes.map (·.order)) (axes.map (·.ncp)) (bas i) axes.length z := by
    refine loop_ok (fun k c => St c0 c n nnz fun i z => partE (axes.map (·.order)) (axes.map (·.ncp)) (bas i) k z) h1 fun ix hix c hc => ?_
    obtain ⟨r, e, hr⟩ := dim_ok h hf hnnz hb hroom hc hix hT hbx (fun i hi => ht i hi ix hix) (ix1 := ix1) (ix2 := ix2) (sb := fun i => (bas i).getD ix (0, fun _ => 0)) (fun i hi => by
        have := bases_get ix1 ix2 axes 0 _ _ (hbas i hi).1 ix hix
        rw [← this, zero_add]
        congr 1
        simp [prow, List.getD_eq_getElem?_getD, hix])
      (fun i hi z hz => by
        rw [← partE_succ]
        refine lt_of_le_of_lt (partE_mono _ _ _ z (show ix + 1 ≤ (axes.map (·.order)).length by simpa using hix)) ?_
        rw [partE_entry]; exact (hbas i hi).2 z hz)
    exact ⟨r, e, hr.congr fun i hi z hz => by rw [partE_succ]⟩
  obtain ⟨r, e, hr⟩ := key
  refine ⟨r, ?_, hr.hd, hr.hr, hr.hc, fun i hi => ?_, hr.back⟩
  · unfold computeJac
    have hp : prodFrom o.base.nx o.order 0 = .ok (nnz : ℤ) := by
      rw [h.hnx, show axes.length = (axes.map (·.order)).length by simp, prodFrom_ok h.hq (orders_pos hf) (orders_small hf)]; rfl
    rw [hp, ok_bind, e1, ok_bind, h.hnx, e]
  · refine ⟨(List.range nnz).map (entry (axes.map (·.order)) (axes.map (·.ncp)) (bas i)), by rw [jacRow, (hbas i hi).1]; rfl, by simp, fun z hz => ?_⟩
    have hz' : z < nnz := by simpa using hz
    rw [List.length_map, List.length_range, List.getElem_map, List.getElem_range, ← partE_entry, List.length_map]
    exact ⟨hr.data i hi z hz', hr.rows i hi z hz', hr.cols i hi z hz'⟩

/-- **C99** `compute_basis_1` without a span (`istart` is -1: the parameter is outside `[0, 1)`, or, in floating point, not a number) has no result for orders from 2 on: it reads `knots[-1]`. -/
theorem C99_no_span {q m : ℕ} (hq : 2 ≤ q) (hqm : q ≤ m) {t : ℝ} {f : ℕ → ℝ} {k b : Buf ℝ} (h : Exact k (q + m) f) (hs : SMT.BSpline.iStart q m t f = none) (r : ℤ × Buf ℝ) :
    computeBasis1 q m t k b ≠ .ok r := by
  intro he
  unfold computeBasis1 at he
  rw [iStart_ok (by omega) hqm h, hs, ok_bind] at he
  obtain ⟨b0, -, he⟩ := bind_eq_ok.1 he
  obtain ⟨b1, -, he⟩ := bind_eq_ok.1 he
  obtain ⟨b2, -, he⟩ := bind_eq_ok.1 he
  obtain ⟨b3, -, he⟩ := bind_eq_ok.1 he
  obtain ⟨c, he, -⟩ := bind_eq_ok.1 he
  obtain ⟨-, h2⟩ := loop_inv (fun _ => True) trivial (fun _ _ _ _ _ _ => trivial) he
  obtain ⟨s, s', -, hd⟩ := h2 (q - 2) (by omega)
  unfold deg1 at hd
  obtain ⟨-, h3⟩ := loop_inv (fun _ => True) trivial (fun _ _ _ _ _ _ => trivial) hd
  obtain ⟨u, u', -, hm⟩ := h3 0 (by omega)
  unfold mid1 at hm
  obtain ⟨l, hl, -⟩ := bind_eq_ok.1 hm
  unfold left1 at hl
  obtain ⟨a, -, hl⟩ := bind_eq_ok.1 hl
  obtain ⟨c', hl, -⟩ := bind_eq_ok.1 hl
  have := (read_eq_ok hl).1
  simp only [span, Option.elim] at this
  omega

end SMT.Native.Rmtb
