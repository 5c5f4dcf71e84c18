import Verif.Native.Rmt
import Verif.Native.Fill
import Verif.Index.Props
import Verif.Rmts.Model
import Mathlib.Algebra.BigOperators.Group.List.Basic
import Mathlib.Algebra.Order.BigOperators.Group.List
import Mathlib.Data.Nat.Lattice

set_option linter.unusedSectionVars false
set_option linter.unusedSimpArgs false
set_option linter.unusedVariables false

/-!
# The index functions and the functions of `rmts.cpp` stay inside their arrays
-/
namespace SMT.Native

lemma isInt_nat {n : ℕ} (h : n < 2 ^ 31) : isInt (n : ℤ) := ⟨le_trans (by norm_num) (Int.natCast_nonneg n), by exact_mod_cast h⟩

lemma chk_nat {n : ℕ} (h : n < 2 ^ 31) : chk (n : ℤ) = .ok (n : ℤ) := chk_ok (isInt_nat h)

lemma cdiv_nat {a b : ℕ} (hb : 0 < b) (ha : a < 2 ^ 31) : cdiv (a : ℤ) (b : ℤ) = .ok ((a / b : ℕ) : ℤ) := by
  unfold cdiv
  rw [if_neg (by exact_mod_cast hb.ne'), show ((a : ℤ).tdiv b) = ((a / b : ℕ) : ℤ) from rfl]
  exact chk_nat (lt_of_le_of_lt (Nat.div_le_self a b) ha)

/-- Specification: a buffer starts with the cells `f 0, ..., f (n - 1)`. -/
def Vec {α : Type} (b : Buf α) (n : ℕ) (f : ℕ → α) : Prop := n ≤ b.len ∧ ∀ k < n, b.cell k = some (f k)

lemma Vec.read {α : Type} {b : Buf α} {n : ℕ} {f : ℕ → α} (h : Vec b n f) {k : ℕ} (hk : k < n) : Native.read b (k : ℤ) = .ok (f k) :=
  read_ok (lt_of_lt_of_le hk h.1) (h.2 k hk)

/-- A loop that follows a `foldl` over `a, ..., a + m - 1`. -/
lemma loop_foldl {σ τ : Type} (R : σ → τ → Prop) {body : ℕ → σ → C σ} {step : τ → ℕ → τ} {a m : ℕ} {s : σ} {t : τ} (h0 : R s t)
    (hs : ∀ i < m, ∀ s t, R s t → ∃ s', body i s = .ok s' ∧ R s' (step t (a + i))) :
    ∃ s', loop m s body = .ok s' ∧ R s' ((List.range' a m).foldl step t) := by
  refine loop_ok (fun k s => R s ((List.range' a k).foldl step t)) h0 fun i hi s h => ?_
  obtain ⟨s', e, h'⟩ := hs i hi s _ h
  refine ⟨s', e, ?_⟩
  rw [List.range'_concat, List.foldl_append]
  simpa using h'

/-- Specification: a buffer of `int`s starts with the given list. -/
def Ints (b : Buf ℤ) (ns : List ℕ) : Prop := Vec b ns.length fun k => ((ns.getD k 0 : ℕ) : ℤ)

end SMT.Native

namespace SMT.Native.Rmt
open SMT.Index

lemma getD_mem {ns : List ℕ} {k : ℕ} (h : k < ns.length) : ns.getD k 0 = ns[k] := by rw [List.getD_eq_getElem?_getD, List.getElem?_eq_getElem h]; rfl

lemma take_drop_le (ns : List ℕ) (hp : ∀ v ∈ ns, 0 < v) (k j : ℕ) : ((ns.drop k).take j).prod ≤ ns.prod := by
  have h1 := List.prod_take_mul_prod_drop ns k
  have h2 := List.prod_take_mul_prod_drop (ns.drop k) j
  exact Nat.le_of_dvd (prod_pos_of hp) ⟨(ns.take k).prod * ((ns.drop k).drop j).prod, by rw [← h1, ← h2]; ring⟩

lemma drop_le (ns : List ℕ) (hp : ∀ v ∈ ns, 0 < v) (k : ℕ) : (ns.drop k).prod ≤ ns.prod := by
  have := take_drop_le ns hp k (ns.drop k).length
  rwa [List.take_length] at this

lemma drop_pos (ns : List ℕ) (hp : ∀ v ∈ ns, 0 < v) (k : ℕ) : 0 < (ns.drop k).prod := prod_pos_of fun v hv => hp v (List.mem_of_mem_drop hv)

lemma take_succ_prod (l : List ℕ) {j : ℕ} (h : j < l.length) : (l.take (j + 1)).prod = (l.take j).prod * l[j] := by
  rw [List.take_succ_eq_append_getElem h, List.prod_append, List.prod_singleton]

lemma prodFrom_ok {nl : Buf ℤ} {ns : List ℕ} (h : Ints nl ns) (hp : ∀ v ∈ ns, 0 < v) (hs : ns.prod < 2 ^ 31) (k : ℕ) :
    prodFrom ns.length nl k = .ok (((ns.drop k).prod : ℕ) : ℤ) := by
  unfold prodFrom
  obtain ⟨p, e1, e2⟩ := loop_ok (n := ns.length - k) (s := (1 : ℤ)) (body := fun j p => do
    let v ← read nl ((k + j : ℕ) : ℤ)
    chk (p * v)) (fun j p => p = ((((ns.drop k).take j).prod : ℕ) : ℤ)) (by simp) (fun j hj p hpj => by
      have hk : k + j < ns.length := by omega
      refine ⟨((((ns.drop k).take (j + 1)).prod : ℕ) : ℤ), ?_, rfl⟩
      rw [h.read hk, ok_bind, hpj, take_succ_prod _ (by simp; omega), List.getElem_drop, getD_mem hk, ← Nat.cast_mul]
      apply chk_nat
      have := take_drop_le ns hp k (j + 1)
      rw [take_succ_prod _ (by simp; omega), List.getElem_drop] at this
      omega)
  rw [e1, e2, show ns.length - k = (ns.drop k).length by simp, List.take_length]

lemma expand_drop (ns : List ℕ) (r : ℕ) {ix : ℕ} (h : ix < ns.length) : expand (ns.drop ix) r = r / (ns.drop (ix + 1)).prod :: expand (ns.drop (ix + 1)) (r - r / (ns.drop (ix + 1)).prod * (ns.drop (ix + 1)).prod) := by
  rw [List.drop_eq_getElem_cons h]; rfl

/-- **C99** `expand_index` on memory: for a list of positive sizes whose product is an `int` and an index that is one, it writes exactly the digits of C22 into the first cells of `ilist`. -/
theorem C99_expand_index {nl il : Buf ℤ} {ns : List ℕ} (h : Ints nl ns) (hp : ∀ v ∈ ns, 0 < v) (hs : ns.prod < 2 ^ 31) {index : ℕ} (hi : index < 2 ^ 31) (hl : ns.length ≤ il.len) :
    ∃ r, expandIndex ns.length nl index il = .ok r ∧ r.2.len = il.len ∧ Ints r.2 (expand ns index) ∧ ∀ c, ns.length ≤ c → r.2.cell c = il.cell c := by
  unfold expandIndex
  have key : ∃ r, loop ns.length ((index : ℤ), il) (fun ix s => do
      let prod ← prodFrom ns.length nl (ix + 1)
      let q ← cdiv s.1 prod
      let il ← write s.2 ix q
      let m ← chk (q * prod)
      let rem ← chk (s.1 - m)
      pure (rem, il)) = .ok r ∧ ∃ rem : ℕ, r.1 = rem ∧ rem ≤ index ∧ r.2.len = il.len ∧ (expand ns index).drop ns.length = expand (ns.drop ns.length) rem ∧
        (∀ j < ns.length, r.2.cell j = some (((expand ns index).getD j 0 : ℕ) : ℤ)) ∧ ∀ c, ns.length ≤ c → r.2.cell c = il.cell c := by
    refine loop_ok (fun ix (r : ℤ × Buf ℤ) => ∃ rem : ℕ, r.1 = rem ∧ rem ≤ index ∧ r.2.len = il.len ∧ (expand ns index).drop ix = expand (ns.drop ix) rem ∧
        (∀ j < ix, r.2.cell j = some (((expand ns index).getD j 0 : ℕ) : ℤ)) ∧ ∀ c, ns.length ≤ c → r.2.cell c = il.cell c)
      ⟨index, rfl, le_rfl, rfl, rfl, fun j hj => by omega, fun _ _ => rfl⟩ fun ix hix r ⟨rem, h1, h2, h3, h4, h5, h6⟩ => ?_
    have hpos := drop_pos ns hp (ix + 1)
    have hq : rem / (ns.drop (ix + 1)).prod * (ns.drop (ix + 1)).prod ≤ rem := Nat.div_mul_le_self _ _
    rw [expand_drop ns rem hix] at h4
    have e0 : (expand ns index).getD ix 0 = rem / (ns.drop (ix + 1)).prod := by
      have := congrArg (fun l => l.getD 0 0) h4
      simpa [List.getD_eq_getElem?_getD, List.getElem?_drop] using this
    rw [prodFrom_ok h hp hs, ok_bind, h1, cdiv_nat hpos (by omega), ok_bind, write_ok _ (by omega), ok_bind, ← Nat.cast_mul, chk_nat (by omega), ok_bind,
      ← Nat.cast_sub hq, chk_nat (by omega), ok_bind, pure_ok]
    refine ⟨_, rfl, rem - rem / (ns.drop (ix + 1)).prod * (ns.drop (ix + 1)).prod, rfl, by omega, h3, ?_, fun j hj => ?_, fun c hc => ?_⟩
    · have := congrArg List.tail h4
      rwa [List.tail_drop, List.tail_cons] at this
    · dsimp only
      by_cases e : j = ix
      · subst e; rw [Function.update_self, e0]
      · rw [Function.update_of_ne e]; exact h5 j (by omega)
    · dsimp only
      rw [Function.update_of_ne (by omega)]; exact h6 c hc
  obtain ⟨r, e, rem, h1, h2, h3, h4, h5, h6⟩ := key
  exact ⟨r, e, h3, ⟨by rw [expand_length]; omega, fun k hk => h5 k (by rwa [expand_length] at hk)⟩, h6⟩

/-- **C99** `contract_index` on memory: for an index list inside the shape, it returns the number of C22. -/
theorem C99_contract_index {nl il : Buf ℤ} {ns is : List ℕ} (h : Ints nl ns) (hi : Ints il is) (hsh : InShape ns is) (hs : ns.prod < 2 ^ 31) :
    contractIndex ns.length nl il = .ok ((contract ns is : ℤ), (ns.prod : ℤ)) := by
  have hlen := hsh.length
  have hp : ∀ v ∈ ns, 0 < v := fun v hv => by
    obtain ⟨k, hk, rfl⟩ := List.mem_iff_getElem.1 hv
    have := (List.forall₂_iff_get.1 hsh).2 k hk (by omega)
    simp at this; omega
  unfold contractIndex
  obtain ⟨r, e1, e2⟩ := loop_ok (n := ns.length) (s := ((0, 1) : ℤ × ℤ)) (body := fun k s => do
    let i ← read il ((ns.length - 1 - k : ℕ) : ℤ)
    let m ← chk (i * s.2)
    let index ← chk (s.1 + m)
    let v ← read nl ((ns.length - 1 - k : ℕ) : ℤ)
    let prod ← chk (s.2 * v)
    pure (index, prod)) (fun k r => r = (((contractLoop (ns.drop (ns.length - k)) (is.drop (ns.length - k))).1 : ℤ), (((ns.drop (ns.length - k)).prod : ℕ) : ℤ)))
    (by simp [contractLoop]) (fun k hk r hr => by
      have ek : ns.length - k = (ns.length - 1 - k) + 1 := by omega
      have hq : ns.length - 1 - k < ns.length := by omega
      have eq' : ns.length - (k + 1) = ns.length - 1 - k := by omega
      rw [eq']
      set q := ns.length - 1 - k with hqd
      rw [ek] at hr
      have hqi : q < is.length := by omega
      have hsub : InShape (ns.drop q) (is.drop q) := List.forall₂_drop q hsh
      rw [List.drop_eq_getElem_cons hq, List.drop_eq_getElem_cons hqi] at hsub
      have hlt := contract_lt hsub
      have e := contract_cons ns[q] (ns.drop (q + 1)) is[q] (is.drop (q + 1)) (by simp; omega)
      have hle := drop_le ns hp q
      rw [List.drop_eq_getElem_cons hq, List.prod_cons] at hle
      rw [List.prod_cons] at hlt
      have hpp := contractLoop_prod (ns.drop (q + 1)) (is.drop (q + 1)) (by simp; omega)
      refine ⟨_, ?_, rfl⟩
      rw [hi.read hqi, ok_bind, getD_mem hqi, hr]
      dsimp only
      have c1 : contract (ns[q] :: ns.drop (q + 1)) (is[q] :: is.drop (q + 1)) = (contractLoop (ns.drop (q + 1)) (is.drop (q + 1))).1 + is[q] * (ns.drop (q + 1)).prod := by
        simp only [contract, contractLoop]; rw [hpp]
      rw [← Nat.cast_mul, chk_nat (by omega), ok_bind, ← Nat.cast_add, chk_nat (by omega), ok_bind, h.read hq, ok_bind, getD_mem hq, ← Nat.cast_mul,
        chk_nat (by rw [mul_comm]; omega), ok_bind, pure_ok]
      rw [List.drop_eq_getElem_cons hq, List.drop_eq_getElem_cons hqi, List.prod_cons]
      simp only [contractLoop]
      rw [hpp, mul_comm ns[q]])
  rw [e1, e2]
  simp [contract]

/-- Specification: an `RMTS` object set up with `nx` inputs and the limits `lo`, `hi`. -/
structure BaseReady (o : Base) (nx : ℕ) (lo hi : ℕ → ℝ) : Prop where
  hnx : o.nx = nx
  hlo : Vec o.lower nx lo
  hhi : Vec o.upper nx hi

/-- **C99** `RMTS::setup`: with arrays of at least `nx` entries it copies the first `nx`. -/
theorem C99_rmts_setup {nx : ℕ} {lower upper : Buf ℝ} {lo hi : ℕ → ℝ} (hl : Vec lower nx lo) (hu : Vec upper nx hi) :
    ∃ o, setup nx lower upper = .ok o ∧ BaseReady o nx lo hi := by
  unfold setup memcpy
  rw [if_pos ⟨le_rfl, hl.1⟩, ok_bind, if_pos ⟨le_rfl, hu.1⟩, ok_bind, pure_ok]
  refine ⟨_, rfl, rfl, ⟨le_rfl, fun k hk => ?_⟩, ⟨le_rfl, fun k hk => ?_⟩⟩
  · dsimp only; rw [if_pos hk]; exact hl.2 k hk
  · dsimp only; rw [if_pos hk]; exact hu.2 k hk

/-- **C99** ... and reads outside an array that is shorter. -/
theorem C99_rmts_setup_outside {nx : ℕ} {lower upper : Buf ℝ} (h : lower.len < nx ∨ upper.len < nx) : setup nx lower upper = .error .outside := by
  unfold setup memcpy
  by_cases hl : nx ≤ lower.len
  · rw [if_pos ⟨le_rfl, hl⟩, ok_bind, if_neg (by omega)]; rfl
  · rw [if_neg (by omega)]; rfl

variable {o : Base} {nx n : ℕ} {lo hi : ℕ → ℝ} {X : ℕ → ℕ → ℝ} {x : Buf ℝ}

lemma extWork_ok (h : BaseReady o nx lo hi) (hx : Holds x n nx X) (hb : n * nx ≤ 2 ^ 31) {i ix : ℕ} (hi' : i < n) (hix : ix < nx) :
    extWork o x i ix = .ok (SMT.Rmts.extDist (lo ix) (hi ix) (X i ix)) := by
  unfold extWork
  rw [h.hnx, hx.read' hb hi' hix, ok_bind, h.hlo.read hix, ok_bind, h.hhi.read hix, ok_bind, ok_bind, pure_ok]; rfl

lemma extIdx_ok (h : o.nx = nx) {nterm i iterm ix : ℕ} (hb : n * nterm * nx ≤ 2 ^ 31) (hi' : i < n) (hit : iterm < nterm) (hix : ix < nx) :
    extIdx o nterm i iterm ix = .ok (((i * nterm + iterm) * nx + ix : ℕ) : ℤ) := by
  have h1 := flat_lt hi' hit
  have h2 := flat_lt h1 hix
  have h3 : (i * nterm + iterm) * nx + ix = i * nterm * nx + iterm * nx + ix := by ring
  have h4 : i * nterm ≤ i * nterm * nx := Nat.le_mul_of_pos_right _ (by omega)
  unfold extIdx
  rw [h, ← Nat.cast_mul, chk_nat (by omega), ok_bind, ← Nat.cast_mul, chk_nat (by omega), ok_bind, ← Nat.cast_mul, chk_nat (by omega), ok_bind, ← Nat.cast_add, chk_nat (by omega), ok_bind,
    ← Nat.cast_add, chk_nat (by omega), h3]

/-- **C99** `compute_ext_dist`: with arrays of the right size, and sizes of at most 2^31, it has a result; row `i * nterm + iterm` is, for every `iterm`, the vector from the nearest point of the domain to
point `i` (C55). -/
theorem C99_ext_dist (h : BaseReady o nx lo hi) (hx : Holds x n nx X) (hb : n * nx ≤ 2 ^ 31) {nterm : ℕ} (hb' : n * nterm * nx ≤ 2 ^ 31) {dx : Buf ℝ} (hd : n * nterm * nx ≤ dx.len) :
    ∃ r, computeExtDist o n nterm x dx = .ok r ∧ r.len = dx.len ∧ Holds r (n * nterm) nx (fun q ix => SMT.Rmts.extDist (lo ix) (hi ix) (X (q / nterm) ix)) ∧
      ∀ c, n * nterm * nx ≤ c → r.cell c = dx.cell c := by
  unfold computeExtDist
  rw [h.hnx]
  set V : ℕ → ℝ := fun c => SMT.Rmts.extDist (lo (c % nx)) (hi (c % nx)) (X (c / nx / nterm) (c % nx)) with hV
  have dec : ∀ q ix, ix < nx → (q * nx + ix) / nx = q ∧ (q * nx + ix) % nx = ix := fun q ix hix => by
    have hm : 0 < nx := by omega
    exact ⟨by rw [mul_comm, Nat.mul_add_div hm, Nat.div_eq_of_lt hix]; rfl, by rw [mul_comm, Nat.mul_add_mod, Nat.mod_eq_of_lt hix]⟩
  have key := (Vis.start dx (n * nterm * nx) V).loop (m := n) (body := fun i d => loop nx d fun ix d => do
      let w ← extWork o x i ix
      loop nterm d fun iterm d => do write d (← extIdx o nterm i iterm ix) w) (fun i c => ∃ ix < nx, ∃ iterm < nterm, c = (i * nterm + iterm) * nx + ix)
    fun i hi' d vis hvis => hvis.loop (fun ix c => ∃ iterm < nterm, c = (i * nterm + iterm) * nx + ix) fun ix hix d vis hvis => by
      rw [extWork_ok h hx hb hi' hix, ok_bind]
      refine hvis.loop (fun iterm c => c = (i * nterm + iterm) * nx + ix) fun iterm hit d vis hvis => ?_
      rw [extIdx_ok h.hnx hb' hi' hit hix, ok_bind]
      refine hvis.write hd (flat_lt (flat_lt hi' hit) hix) ?_
      rw [hV]
      dsimp only
      rw [(dec (i * nterm + iterm) ix hix).1, (dec (i * nterm + iterm) ix hix).2, mul_comm i, Nat.mul_add_div (by omega), Nat.div_eq_of_lt hit, add_zero]
  obtain ⟨r, e, h1, h2, h3⟩ := key
  refine ⟨r, e, h1, ⟨by omega, fun q hq ix hix => ?_⟩, h3⟩
  have hn : 0 < nterm := Nat.pos_of_ne_zero fun e => by rw [e] at hq; omega
  rw [h2 (q * nx + ix) (.inr ⟨q / nterm, (Nat.div_lt_iff_lt_mul hn).2 hq, ix, hix, q % nterm, Nat.mod_lt _ hn, by rw [Nat.div_add_mod' q nterm]⟩)]
  rw [hV]
  dsimp only
  rw [(dec q ix hix).1, (dec q ix hix).2]

/-- **C99** `compute_quadrature_points`: for positive numbers of cells whose product is an `int`, and that many points, it has a result, which is the points of C57. -/
theorem C99_quadrature (h : BaseReady o nx lo hi) {nl : Buf ℤ} {ns : List ℕ} (hn : Ints nl ns) (hl : ns.length = nx) (hp : ∀ v ∈ ns, 0 < v) (hs : ns.prod < 2 ^ 31) (hns : n ≤ ns.prod)
    (hb : n * nx ≤ 2 ^ 31) (hx : n * nx ≤ x.len) :
    ∃ r, computeQuadraturePoints o n nl x = .ok r ∧ r.len = x.len ∧
      Holds r n nx (fun i ix => (SMT.Rmts.quadPoint ((List.range nx).map fun ix => (lo ix, hi ix)) ns i).getD ix 0) ∧ ∀ c, n * nx ≤ c → r.cell c = x.cell c := by
  subst hl
  unfold computeQuadraturePoints
  rw [h.hnx]
  set V : ℕ → ℝ := fun c => (SMT.Rmts.quadPoint ((List.range ns.length).map fun ix => (lo ix, hi ix)) ns (c / ns.length)).getD (c % ns.length) 0 with hV
  have dec : ∀ q ix, ix < ns.length → (q * ns.length + ix) / ns.length = q ∧ (q * ns.length + ix) % ns.length = ix := fun q ix hix => by
    have hm : 0 < ns.length := by omega
    exact ⟨by rw [mul_comm, Nat.mul_add_div hm, Nat.div_eq_of_lt hix]; rfl, by rw [mul_comm, Nat.mul_add_mod, Nat.mod_eq_of_lt hix]⟩
  have key := (Vis.start x (n * ns.length) V).loop (m := n) (body := fun i x => do
      let il ← expandIndex ns.length nl i (Buf.fresh ns.length)
      loop ns.length x fun ix x => do
        let e ← read il.2 ix
        let m ← read nl ix
        let lo ← read o.lower ix
        let hi ← read o.upper ix
        let t : ℝ := (1 + 2 * (e : ℝ)) / 2 / (m : ℝ)
        write x (← lin i ns.length ix) (lo + t * (hi - lo))) (fun i c => ∃ ix < ns.length, c = i * ns.length + ix)
    fun i hi' d vis hvis => by
      obtain ⟨il, e1, -, e2, -⟩ := C99_expand_index (il := Buf.fresh ns.length) hn hp hs (index := i) (by omega) le_rfl
      dsimp only
      rw [e1, ok_bind]
      refine hvis.loop (fun ix c => c = i * ns.length + ix) fun ix hix d vis hvis => ?_
      have hf := flat_lt hi' hix
      rw [e2.read (by rwa [expand_length]), ok_bind, hn.read hix, ok_bind, h.hlo.read hix, ok_bind, h.hhi.read hix, ok_bind, lin_ok (by omega), ok_bind]
      refine hvis.write hx hf ?_
      rw [hV]
      dsimp only
      rw [(dec i ix hix).1, (dec i ix hix).2]
      have hex : ix < (expand ns i).length := by rwa [expand_length]
      simp [SMT.Rmts.quadPoint, List.getD_eq_getElem?_getD, List.getElem?_zipWith, List.getElem?_zip_eq_some, hix, hex, List.zip, List.getElem?_eq_getElem]
  obtain ⟨r, e, h1, h2, h3⟩ := key
  refine ⟨r, e, h1, ⟨by omega, fun q hq ix hix => ?_⟩, h3⟩
  rw [h2 (q * ns.length + ix) (.inr ⟨q, hq, ix, hix, rfl⟩), hV]
  dsimp only
  rw [(dec q ix hix).1, (dec q ix hix).2]

/-- Non-vacuity: `nlist = {2, 3}`, number 5 is `(1, 2)`. -/
example : ∃ r, expandIndex 2 (Buf.of [2, 3]) ((5 : ℕ) : ℤ) (Buf.fresh 2) = .ok r ∧ r.2.cell 0 = some 1 ∧ r.2.cell 1 = some 2 := by
  have h : Ints (Buf.of [2, 3]) [2, 3] := ⟨le_rfl, fun k hk => by
    simp at hk
    rcases k with _ | _ | k
    · rfl
    · rfl
    · omega⟩
  obtain ⟨r, e, -, h2, -⟩ := C99_expand_index (il := Buf.fresh 2) h (by decide) (by decide) (index := 5) (by decide) le_rfl
  exact ⟨r, e, h2.2 0 (by decide), h2.2 1 (by decide)⟩

end SMT.Native.Rmt
