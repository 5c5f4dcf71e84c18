import Verif.Native.Rmtc
import Verif.Native.RmtProps
import Verif.Rmtc.Props

set_option linter.unusedSectionVars false
set_option linter.unusedSimpArgs false
set_option linter.unusedVariables false

/-!
# The functions of `rmtc.cpp` stay inside their arrays and compute what `Verif/Rmtc/Model.lean` says
-/
namespace SMT.Native.Rmtc
open SMT.Index SMT.Native.Rmt SMT.Native.Rmtb
open SMT.Rmtc (Axis)

/-- Input number `k`. -/
def ax (axes : List (Axis ℝ)) (k : ℕ) : Axis ℝ := axes.getD k ⟨0, 0, 0⟩

lemma ax_get {axes : List (Axis ℝ)} {k : ℕ} (h : k < axes.length) : ax axes k = axes[k] := by
  unfold ax; rw [List.getD_eq_getElem?_getD, List.getElem?_eq_getElem h]; rfl

/-- Specification: an `RMTC` object set up for the given inputs. -/
structure Ready (o : Obj) (axes : List (Axis ℝ)) : Prop where
  base : BaseReady o.base axes.length (fun k => (ax axes k).lo) fun k => (ax axes k).hi
  elems : Ints o.elems (axes.map (·.nelem))
  terms : Ints o.terms (List.replicate axes.length 4)
  nelem : o.nelem = ((axes.map (·.nelem)).prod : ℕ)
  nterm : o.nterm = (4 ^ axes.length : ℕ)

/-- Specification: every input has at least one element and an interval of positive length, and the number of coefficients is an `int`. -/
structure Fits (axes : List (Axis ℝ)) : Prop where
  ok : ∀ a ∈ axes, 1 ≤ a.nelem ∧ a.lo < a.hi
  small : (axes.map (·.nelem)).prod * 4 ^ axes.length < 2 ^ 31

lemma replicate_prod (n : ℕ) : (List.replicate n 4).prod = 4 ^ n := by simp

lemma elems_pos {axes : List (Axis ℝ)} (hf : Fits axes) : ∀ v ∈ axes.map (·.nelem), 0 < v := fun v hv => by
  obtain ⟨a, ha, rfl⟩ := List.mem_map.1 hv
  exact (hf.ok a ha).1

lemma terms_pos (n : ℕ) : ∀ v ∈ List.replicate n 4, 0 < v := fun v hv => by rw [List.eq_of_mem_replicate hv]; decide

lemma elems_small {axes : List (Axis ℝ)} (hf : Fits axes) : (axes.map (·.nelem)).prod < 2 ^ 31 :=
  lt_of_le_of_lt (Nat.le_mul_of_pos_right _ (by positivity)) hf.small

lemma terms_small {axes : List (Axis ℝ)} (hf : Fits axes) : 4 ^ axes.length < 2 ^ 31 :=
  lt_of_le_of_lt (Nat.le_mul_of_pos_left _ (prod_pos_of (elems_pos hf))) hf.small

lemma terms_small' {axes : List (Axis ℝ)} (hf : Fits axes) : (List.replicate axes.length 4).prod < 2 ^ 31 := by rw [replicate_prod]; exact terms_small hf

lemma counts_ok {es ts : List ℕ} {eb tb : Buf ℤ} (he : Ints eb es) (ht : Ints tb ts) (hl : ts.length = es.length) (pe : ∀ v ∈ es, 0 < v) (pt : ∀ v ∈ ts, 0 < v) (se : es.prod < 2 ^ 31) (st : ts.prod < 2 ^ 31) :
    counts es.length eb tb = .ok ((es.prod : ℤ), (ts.prod : ℤ)) := by
  unfold counts
  obtain ⟨r, e1, e2⟩ := loop_ok (n := es.length) (s := ((1, 1) : ℤ × ℤ)) (body := fun ix s => do
      let e ← chk (s.1 * (← read eb ix))
      let t ← chk (s.2 * (← read tb ix))
      pure (e, t)) (fun k r => r = ((((es.take k).prod : ℕ) : ℤ), (((ts.take k).prod : ℕ) : ℤ))) (by simp) (fun k hk r hr => by
    have hk' : k < ts.length := by omega
    refine ⟨_, ?_, rfl⟩
    have b1 : (es.take (k + 1)).prod ≤ es.prod := by simpa using take_drop_le es pe 0 (k + 1)
    have b2 : (ts.take (k + 1)).prod ≤ ts.prod := by simpa using take_drop_le ts pt 0 (k + 1)
    rw [take_succ_prod _ hk] at b1 ⊢
    rw [take_succ_prod _ hk'] at b2 ⊢
    rw [hr]
    dsimp only
    rw [he.read hk, ok_bind, getD_mem hk, ← Nat.cast_mul, chk_nat (by omega), ok_bind, ht.read hk', ok_bind, getD_mem hk', ← Nat.cast_mul, chk_nat (by omega), ok_bind, pure_ok])
  rw [e1, e2, List.take_length, ← hl, List.take_length]

/-- **C100** `RMTC::setup` on memory: arrays that start with the limits, the numbers of elements and a 4 for every input. -/
theorem C100_setup {axes : List (Axis ℝ)} (hp : ∀ a ∈ axes, 1 ≤ a.nelem) (hs : (axes.map (·.nelem)).prod * 4 ^ axes.length < 2 ^ 31) {lower upper : Buf ℝ} {eb tb : Buf ℤ} (hl : Vec lower axes.length fun k => (ax axes k).lo) (hu : Vec upper axes.length fun k => (ax axes k).hi)
    (he : Ints eb (axes.map (·.nelem))) (ht : Ints tb (List.replicate axes.length 4)) : ∃ o, setup axes.length lower upper eb tb = .ok o ∧ Ready o axes := by
  obtain ⟨b, e1, h1⟩ := C99_rmts_setup hl hu
  have le : axes.length ≤ eb.len := by simpa using he.1
  have lt : axes.length ≤ tb.len := by simpa using ht.1
  have hc : counts axes.length eb tb = .ok ((((axes.map (·.nelem)).prod : ℕ) : ℤ), (((List.replicate axes.length 4).prod : ℕ) : ℤ)) := by
    have pos : ∀ v ∈ axes.map (·.nelem), 0 < v := fun v hv => by
      obtain ⟨a, ha, rfl⟩ := List.mem_map.1 hv
      exact hp a ha
    have := counts_ok he ht (by simp) pos (terms_pos _) (lt_of_le_of_lt (Nat.le_mul_of_pos_right _ (by positivity)) hs)
      (by rw [replicate_prod]; exact lt_of_le_of_lt (Nat.le_mul_of_pos_left _ (prod_pos_of pos)) hs)
    rwa [List.length_map] at this
  unfold setup memcpy
  rw [e1, ok_bind, if_pos ⟨le_rfl, le⟩, ok_bind, if_pos ⟨le_rfl, lt⟩, ok_bind, hc, ok_bind, pure_ok]
  refine ⟨_, rfl, h1, ⟨by simp [Buf.fresh], fun k hk => ?_⟩, ⟨by simp [Buf.fresh], fun k hk => ?_⟩, rfl, by simp⟩
  · dsimp only; rw [if_pos (by simpa using hk)]; exact he.2 k hk
  · dsimp only; rw [if_pos (by simpa using hk)]; exact ht.2 k hk

/-! ## `compute_coeff2nodal` -/

lemma digits {nx i : ℕ} (hi : i < 4 ^ nx) {k : ℕ} (hk : k < nx) : (expand (List.replicate nx 4) i).getD k 0 < 4 := by
  have hs := List.forall₂_iff_get.1 (C22_expand_in_shape _ (terms_pos nx) i (by rw [replicate_prod]; exact hi))
  have hl : k < (expand (List.replicate nx 4) i).length := by rw [expand_length]; simpa using hk
  have := hs.2 k (by simpa using hk) hl
  rw [getD_mem hl]
  simpa using this

lemma expand_terms {o : Obj} {axes : List (Axis ℝ)} (h : Ready o axes) (hf : Fits axes) {i : ℕ} (hi : i < 4 ^ axes.length) :
    ∃ r, expandIndex o.base.nx o.terms i (Buf.fresh o.base.nx) = .ok r ∧ Vec r.2 axes.length fun k => (((expand (List.replicate axes.length 4) i).getD k 0 : ℕ) : ℤ) := by
  have hs := terms_small hf
  obtain ⟨r, e, -, e2, -⟩ := C99_expand_index (il := Buf.fresh axes.length) h.terms (terms_pos _) (terms_small' hf) (index := i) (by omega) (by simp [Buf.fresh])
  refine ⟨r, ?_, ?_⟩
  · rw [h.base.hnx]; simpa using e
  · unfold Ints at e2; rw [expand_length] at e2; simpa using e2

lemma expand_elems {o : Obj} {axes : List (Axis ℝ)} (h : Ready o axes) (hf : Fits axes) {i : ℕ} (hi : i < (axes.map (·.nelem)).prod) :
    ∃ r, expandIndex o.base.nx o.elems i (Buf.fresh o.base.nx) = .ok r ∧ Vec r.2 axes.length fun k => (((expand (axes.map (·.nelem)) i).getD k 0 : ℕ) : ℤ) := by
  have hs := elems_small hf
  obtain ⟨r, e, -, e2, -⟩ := C99_expand_index (il := Buf.fresh axes.length) h.elems (elems_pos hf) hs (index := i) (by omega) (by simp [Buf.fresh])
  refine ⟨r, ?_, ?_⟩
  · rw [h.base.hnx]; simpa using e
  · unfold Ints at e2; rw [expand_length] at e2; simpa using e2

/-- One factor of `compute_coeff2nodal`, for digits below 4 and a product that fits. -/
lemma c2nStep_ok {p : ℤ} {t q : ℕ} (ht : t < 4) (hq : q < 4) {B : ℕ} (hp : |p| ≤ B) (hB : B * 4 < 2 ^ 31) :
    ∃ p', c2nStep p t q = .ok p' ∧ |p'| ≤ (B * 4 : ℕ) ∧ ((p' : ℤ) : ℝ) = SMT.Rmtc.c2nStep (p : ℝ) t q := by
  have key : ∀ f : ℤ, |f| ≤ 4 → chk (p * f) = .ok (p * f) ∧ |p * f| ≤ (B * 4 : ℕ) := fun f hf => by
    have h1 : |p * f| ≤ (B * 4 : ℕ) := by
      rw [abs_mul]; push_cast
      exact mul_le_mul hp hf (abs_nonneg _) (by positivity)
    have h2 := abs_le.1 h1
    exact ⟨chk_ok ⟨by omega, by omega⟩, h1⟩
  have rd : ∀ (b : Buf Bool) (v : Bool), b.cell t = some v → t < b.len → read b (t : ℤ) = .ok v := fun b v hv hl => read_ok hl hv
  unfold c2nStep
  rcases t with _ | _ | _ | _ | t
  · rw [show read derivList ((0 : ℕ) : ℤ) = .ok false from rfl, show read xvalList ((0 : ℕ) : ℤ) = .ok (-1) from rfl, ok_bind, ok_bind]
    obtain ⟨e1, e2⟩ := key ((-1) ^ q) (by rw [abs_pow]; simp)
    refine ⟨p * (-1) ^ q, ?_, e2, ?_⟩
    · simpa using e1
    · simp [SMT.Rmtc.c2nStep, SMT.Rmtc.derivL, SMT.Rmtc.xvalL]
  · rw [show read derivList ((0 + 1 : ℕ) : ℤ) = .ok false from rfl, show read xvalList ((0 + 1 : ℕ) : ℤ) = .ok 1 from rfl, ok_bind, ok_bind]
    obtain ⟨e1, e2⟩ := key (1 ^ q) (by simp)
    refine ⟨p * 1 ^ q, ?_, e2, ?_⟩
    · simpa using e1
    · simp [SMT.Rmtc.c2nStep, SMT.Rmtc.derivL, SMT.Rmtc.xvalL]
  · rw [show read derivList ((0 + 1 + 1 : ℕ) : ℤ) = .ok true from rfl, show read xvalList ((0 + 1 + 1 : ℕ) : ℤ) = .ok (-1) from rfl, ok_bind, ok_bind, if_pos rfl]
    rcases q with _ | q
    · exact ⟨0, rfl, by simp, by simp [SMT.Rmtc.c2nStep, SMT.Rmtc.derivL, SMT.Rmtc.xvalL]⟩
    · obtain ⟨e1, e2⟩ := key (((q + 1 : ℕ) : ℤ) * (-1) ^ q) (by rw [abs_mul, abs_pow, abs_neg, abs_one, one_pow, mul_one, Nat.abs_cast]; exact_mod_cast hq.le)
      refine ⟨p * (((q + 1 : ℕ) : ℤ) * (-1) ^ q), ?_, e2, ?_⟩
      · rw [if_pos (by omega), show (((q + 1 : ℕ) : ℤ) - 1).toNat = q by omega]; exact e1
      · simp [SMT.Rmtc.c2nStep, SMT.Rmtc.derivL, SMT.Rmtc.xvalL]
  · rw [show read derivList ((0 + 1 + 1 + 1 : ℕ) : ℤ) = .ok true from rfl, show read xvalList ((0 + 1 + 1 + 1 : ℕ) : ℤ) = .ok 1 from rfl, ok_bind, ok_bind, if_pos rfl]
    rcases q with _ | q
    · exact ⟨0, rfl, by simp, by simp [SMT.Rmtc.c2nStep, SMT.Rmtc.derivL, SMT.Rmtc.xvalL]⟩
    · obtain ⟨e1, e2⟩ := key (((q + 1 : ℕ) : ℤ) * 1 ^ q) (by rw [one_pow, mul_one, Nat.abs_cast]; exact_mod_cast hq.le)
      refine ⟨p * (((q + 1 : ℕ) : ℤ) * 1 ^ q), ?_, e2, ?_⟩
      · rw [if_pos (by omega), show (((q + 1 : ℕ) : ℤ) - 1).toNat = q by omega]; exact e1
      · simp [SMT.Rmtc.c2nStep, SMT.Rmtc.derivL, SMT.Rmtc.xvalL]
  · omega

/-- The entry after the first `k` inputs. -/
noncomputable def c2nPart (l1 l2 : List ℕ) (k : ℕ) : ℝ := ((List.zip l1 l2).take k).foldl (fun prod ij => SMT.Rmtc.c2nStep prod ij.1 ij.2) 1

lemma c2nPart_succ {l1 l2 : List ℕ} {k : ℕ} (h1 : k < l1.length) (h2 : k < l2.length) : c2nPart l1 l2 (k + 1) = SMT.Rmtc.c2nStep (c2nPart l1 l2 k) (l1.getD k 0) (l2.getD k 0) := by
  unfold c2nPart
  rw [List.take_succ_eq_append_getElem (by simp; omega), List.foldl_append]
  simp [List.getD_eq_getElem?_getD, List.getElem?_eq_getElem h1, List.getElem?_eq_getElem h2]

/-- A single cell gets its final value. -/
lemma vis_set {α : Type} {d0 d d' : Buf α} {N : ℕ} {V : ℕ → α} {vis : ℕ → Prop} (h : Vis d0 d N V vis) {a : ℕ} (ha : a < N) (hl : d'.len = d.len) (hv : d'.cell a = some (V a)) (ho : ∀ c, c ≠ a → d'.cell c = d.cell c) :
    Vis d0 d' N V fun c => vis c ∨ c = a := by
  obtain ⟨h1, h2, h3⟩ := h
  refine ⟨hl.trans h1, fun c hc => ?_, fun c hc => ?_⟩
  · by_cases e : c = a
    · subst e; exact hv
    · rw [ho c e]; exact h2 c (hc.resolve_right e)
  · rw [ho c (by omega)]; exact h3 c hc

/-- **C100** `compute_coeff2nodal` on memory: for at least one input and an array of `nterm * nterm` cells with `nterm * nterm` at most 2^31 (at most 7 inputs), it has a result, which is the matrix of C26. -/
theorem C100_coeff2nodal {o : Obj} {axes : List (Axis ℝ)} (h : Ready o axes) (hf : Fits axes) (hn : 1 ≤ axes.length) {m : Buf ℝ} (hm : 4 ^ axes.length * 4 ^ axes.length ≤ m.len)
    (hb : 4 ^ axes.length * 4 ^ axes.length ≤ 2 ^ 31) :
    ∃ r, coeff2nodal o m = .ok r ∧ r.len = m.len ∧ Holds r (4 ^ axes.length) (4 ^ axes.length) (SMT.Rmtc.coeff2nodal axes.length) ∧ ∀ c, 4 ^ axes.length * 4 ^ axes.length ≤ c → r.cell c = m.cell c := by
  set T := 4 ^ axes.length with hT
  have hTs := terms_small hf
  set V : ℕ → ℝ := fun c => SMT.Rmtc.coeff2nodal axes.length (c / T) (c % T) with hV
  have dec : ∀ q ix, ix < T → (q * T + ix) / T = q ∧ (q * T + ix) % T = ix := fun q ix hix => by
    have hm : 0 < T := by omega
    exact ⟨by rw [mul_comm, Nat.mul_add_div hm, Nat.div_eq_of_lt hix]; rfl, by rw [mul_comm, Nat.mul_add_mod, Nat.mod_eq_of_lt hix]⟩
  unfold coeff2nodal
  rw [h.nterm, Int.toNat_natCast]
  have key := (Vis.start m (T * T) V).loop (m := T) (body := fun i1 m => do
    let l1 ← expandIndex o.base.nx o.terms i1 (Buf.fresh o.base.nx)
    loop T m fun i2 m => do
      let l2 ← expandIndex o.base.nx o.terms i2 (Buf.fresh o.base.nx)
      let r ← loop o.base.nx (1, m) (c2nDim l1.2 l2.2 (T : ℕ) i1 i2)
      pure r.2) (fun i1 c => ∃ i2 < T, c = i1 * T + i2) fun i1 hi1 d vis hvis => by
    obtain ⟨l1, e1, v1⟩ := expand_terms h hf hi1
    rw [e1, ok_bind]
    refine hvis.loop (fun i2 c => c = i1 * T + i2) fun i2 hi2 d vis hvis => ?_
    obtain ⟨l2, e2, v2⟩ := expand_terms h hf hi2
    rw [e2, ok_bind, h.base.hnx]
    have hf2 := flat_lt hi1 hi2
    set E1 := expand (List.replicate axes.length 4) i1 with hE1
    set E2 := expand (List.replicate axes.length 4) i2 with hE2
    have len1 : E1.length = axes.length := by rw [hE1, expand_length]; simp
    have len2 : E2.length = axes.length := by rw [hE2, expand_length]; simp
    obtain ⟨r, e3, r1, r2, r3, r4, r5⟩ := loop_ok (n := axes.length) (s := ((1, d) : ℤ × Buf ℝ)) (body := c2nDim l1.2 l2.2 (T : ℕ) i1 i2)
      (fun k (r : ℤ × Buf ℝ) => |r.1| ≤ (4 ^ k : ℕ) ∧ ((r.1 : ℤ) : ℝ) = c2nPart E1 E2 k ∧ r.2.len = d.len ∧ (1 ≤ k → r.2.cell (i1 * T + i2) = some ((r.1 : ℤ) : ℝ)) ∧ ∀ c, c ≠ i1 * T + i2 → r.2.cell c = d.cell c)
      ⟨by simp, by simp [c2nPart], rfl, fun h => by omega, fun _ _ => rfl⟩ (fun k hk r ⟨r1, r2, r3, r4, r5⟩ => by
        have hpw : 4 ^ k * 4 ≤ T := by rw [← pow_succ, hT]; exact Nat.pow_le_pow_right (by decide) hk
        obtain ⟨p', c1, c2, c3⟩ := c2nStep_ok (p := r.1) (digits hi1 hk) (digits hi2 hk) r1 (by omega)
        unfold c2nDim
        rw [v1.read hk, ok_bind, v2.read hk, ok_bind, c1, ok_bind, lin_ok (by omega), ok_bind, write_ok _ (by have := hvis.1; omega), ok_bind, pure_ok]
        refine ⟨_, rfl, by rw [pow_succ]; exact c2, ?_, r3, fun _ => ?_, fun c hc => ?_⟩
        · dsimp only; rw [c3, c2nPart_succ (by omega) (by omega), r2]
        · dsimp only; rw [Function.update_self]
        · dsimp only; rw [Function.update_of_ne hc]; exact r5 c hc)
    rw [e3, ok_bind, pure_ok]
    refine ⟨_, rfl, vis_set hvis hf2 r3 ?_ r5⟩
    rw [r4 hn, r2, hV]
    dsimp only
    rw [(dec i1 i2 hi2).1, (dec i1 i2 hi2).2, c2nPart, List.take_of_length_le (by simp [len1, len2])]; rfl
  obtain ⟨r, e, h1, h2, h3⟩ := key
  refine ⟨r, e, h1, ⟨by omega, fun i1 hi1 i2 hi2 => ?_⟩, h3⟩
  rw [h2 (i1 * T + i2) (.inr ⟨i1, hi1, i2, hi2, rfl⟩), hV]
  dsimp only
  rw [(dec i1 i2 hi2).1, (dec i1 i2 hi2).2]

/-- **C100** With 8 or more inputs there is no result: the position of row 32768 is no `int`. -/
theorem C100_coeff2nodal_overflow {o : Obj} {nx : ℕ} (hx : 8 ≤ nx) (hb : o.base.nx = nx) (ht : o.nterm = (4 ^ nx : ℕ)) (m r : Buf ℝ) : coeff2nodal o m ≠ .ok r := by
  intro he
  unfold coeff2nodal at he
  rw [ht, Int.toNat_natCast] at he
  have h8 : 4 ^ 8 ≤ 4 ^ nx := Nat.pow_le_pow_right (by decide) hx
  obtain ⟨-, h2⟩ := loop_inv (fun _ => True) trivial (fun _ _ _ _ _ _ => trivial) he
  obtain ⟨s, s', -, h3⟩ := h2 32768 (by omega)
  obtain ⟨l1, -, h3⟩ := bind_eq_ok.1 h3
  obtain ⟨-, h4⟩ := loop_inv (fun _ => True) trivial (fun _ _ _ _ _ _ => trivial) h3
  obtain ⟨u, u', -, h5⟩ := h4 0 (by omega)
  obtain ⟨l2, -, h5⟩ := bind_eq_ok.1 h5
  obtain ⟨q, h5, -⟩ := bind_eq_ok.1 h5
  rw [hb] at h5
  obtain ⟨-, h6⟩ := loop_inv (fun _ => True) trivial (fun _ _ _ _ _ _ => trivial) h5
  obtain ⟨w, w', -, h7⟩ := h6 0 (by omega)
  unfold c2nDim at h7
  obtain ⟨b1, -, h7⟩ := bind_eq_ok.1 h7
  obtain ⟨b2, -, h7⟩ := bind_eq_ok.1 h7
  obtain ⟨b3, -, h7⟩ := bind_eq_ok.1 h7
  obtain ⟨z, h7, -⟩ := bind_eq_ok.1 h7
  obtain ⟨hz, hi⟩ := lin_eq_ok h7
  have := hi.2
  have h9 : ((4 ^ 8 : ℕ) : ℤ) ≤ ((4 ^ nx : ℕ) : ℤ) := by exact_mod_cast h8
  rw [hz] at this
  push_cast at this h9
  omega

end SMT.Native.Rmtc
