import Verif.Rmts.Instances

/-!
# Properties C56, C57: quadrature points and the energy-term cache of RMTS

`_compute_energy_terms` stores `sq_mtx` on disk keyed by the number of inputs, the element list and (RMTB) the control
points and orders, but not by `xlimits` (`rmts.py` 183-189). C56: the stored matrices do not depend on `xlimits`.
-/
namespace SMT.Rmts
set_option linter.unusedSectionVars false
set_option linter.unusedSimpArgs false
set_option linter.unusedVariables false
open SMT.Index

variable {K : Type} [Field K] [LinearOrder K] [IsStrictOrderedRing K]

/-! ## Quadrature points -/

/-- Relative position (0 to 1) of the centre of cell `e` of `n` equal cells. -/
def centre (e n : ℕ) : K := (2 * (e : K) + 1) / (2 * n)

theorem quadPoint_getElem? (limits : List (K × K)) (ne : List ℕ) (q k : ℕ) (l : K × K) (hl : limits[k]? = some l)
    (n : ℕ) (hn : ne[k]? = some n) : ∃ e, (expand ne q)[k]? = some e ∧
    (quadPoint limits ne q)[k]? = some (l.1 + centre e n * (l.2 - l.1)) := by
  have hk : k < (expand ne q).length := by rw [expand_length]; exact (List.getElem?_eq_some_iff.1 hn).1
  refine ⟨_, List.getElem?_eq_getElem hk, ?_⟩
  unfold quadPoint
  have hz : ((expand ne q).zip ne)[k]? = some ((expand ne q)[k], n) := by
    rw [List.getElem?_zip_eq_some]; exact ⟨List.getElem?_eq_getElem hk, hn⟩
  rw [List.getElem?_zipWith, hl, hz]
  simp only [centre, Option.some.injEq]
  rw [div_div, add_comm (1 : K)]

theorem quadPoint_length (limits : List (K × K)) (ne : List ℕ) (q : ℕ) (h : limits.length = ne.length) :
    (quadPoint limits ne q).length = limits.length := by
  simp [quadPoint, expand_length, h]

/-- **C57** Quadrature points: point `q` is the centre of the cell with row-major number `q`. -/
theorem C57_quadrature_points (limits : List (K × K)) (ne : List ℕ) (hlen : limits.length = ne.length)
    (hpos : ∀ n ∈ ne, 0 < n) (cell : List ℕ) (hcell : InShape ne cell) :
    ∃ q, q < ne.prod ∧ ∀ (k : ℕ) (l : K × K) (n e : ℕ), limits[k]? = some l → ne[k]? = some n → cell[k]? = some e →
      (quadPoint limits ne q)[k]? = some ((l.1 + (e : K) * (l.2 - l.1) / n + (l.1 + ((e : K) + 1) * (l.2 - l.1) / n)) / 2) := by
  obtain ⟨h1, h2⟩ := C22_expand_contract ne cell hcell
  refine ⟨contract ne cell, h1, ?_⟩
  intro k l n e hl hn he
  obtain ⟨e', a, b⟩ := quadPoint_getElem? limits ne (contract ne cell) k l hl n hn
  rw [h2, he] at a
  obtain rfl := Option.some.inj a
  rw [b]
  have : (n : K) ≠ 0 := by
    have := hpos n (List.mem_of_getElem? hn)
    exact_mod_cast this.ne'
  simp only [centre, Option.some.injEq]
  field_simp
  ring

/-- **C57** Every quadrature point is strictly inside the limits. -/
theorem C57_strictly_inside (limits : List (K × K)) (ne : List ℕ) (hlim : ∀ l ∈ limits, l.1 < l.2)
    (hpos : ∀ n ∈ ne, 0 < n) (q : ℕ) (hq : q < ne.prod) (k : ℕ) (l : K × K) (hl : limits[k]? = some l) (n : ℕ)
    (hn : ne[k]? = some n) : ∃ v, (quadPoint limits ne q)[k]? = some v ∧ l.1 < v ∧ v < l.2 := by
  obtain ⟨e, a, b⟩ := quadPoint_getElem? limits ne q k l hl n hn
  refine ⟨_, b, ?_⟩
  have hd : 0 < l.2 - l.1 := by linarith [hlim l (List.mem_of_getElem? hl)]
  have hnpos : (0 : K) < n := by exact_mod_cast hpos n (List.mem_of_getElem? hn)
  have he : e < n := by
    have hs := C22_expand_in_shape ne hpos q hq
    have := List.forall₂_iff_get.1 hs
    obtain ⟨h1, h1'⟩ := List.getElem?_eq_some_iff.1 hn
    obtain ⟨h2, h2'⟩ := List.getElem?_eq_some_iff.1 a
    have := this.2 k h1 h2
    simp only [List.get_eq_getElem] at this
    rw [h1', h2'] at this
    exact this
  have he' : (e : K) + 1 ≤ n := by exact_mod_cast he
  have hc0 : 0 < (centre e n : K) := by unfold centre; positivity
  have hc1 : (centre e n : K) < 1 := by unfold centre; rw [div_lt_one (by positivity)]; linarith
  constructor
  · nlinarith [mul_pos hc0 hd]
  · nlinarith [mul_lt_mul_of_pos_right hc1 hd]

/-! ## RMTB cache -/
section rmtb
open SMT.Rmtb

/-- The data in the cache key (RMTB): orders and control points. -/
def SameKeyB (a a' : Rmtb.Axis K) : Prop := a.order = a'.order ∧ a.ncp = a'.ncp

def elemsB (axes : List (Rmtb.Axis K)) : List ℕ := axes.map fun a => a.ncp - a.order + 1

theorem bases_congr (i1 i2 : ℤ) : ∀ (axes axes' : List (Rmtb.Axis K)), List.Forall₂ SameKeyB axes axes' →
    ∀ (ix : ℕ) (ts : List K), Rmtb.bases i1 i2 ix axes ts = Rmtb.bases i1 i2 ix axes' ts := by
  intro axes axes' h
  induction h with
  | nil => intro ix ts; rfl
  | cons h _ ih => intro ix ts; simp only [Rmtb.bases, h.1, h.2, ih]

theorem map_order {axes axes' : List (Rmtb.Axis K)} (h : List.Forall₂ SameKeyB axes axes') :
    axes.map (·.order) = axes'.map (·.order) ∧ axes.map (·.ncp) = axes'.map (·.ncp) ∧ elemsB axes = elemsB axes' := by
  induction h with
  | nil => simp [elemsB]
  | cons h _ ih =>
    unfold elemsB at ih ⊢
    simp only [List.map_cons, h.1, h.2, ih.1, ih.2.1, ih.2.2, and_self]

theorem param_rel (eps : K) (a : Rmtb.Axis K) (ha : a.lo < a.hi) (c : K) :
    param eps a (a.lo + c * (a.hi - a.lo)) = min (max c (0 + eps)) (1 - eps) := by
  have : a.hi - a.lo ≠ 0 := ne_of_gt (by linarith)
  unfold param
  rw [add_sub_cancel_left, mul_div_cancel_right₀ _ this]

theorem params_quad (eps : K) (axes axes' : List (Rmtb.Axis K)) (h : List.Forall₂ SameKeyB axes axes')
    (hv : Rmtb.Valid axes) (hv' : Rmtb.Valid axes') (ne : List ℕ) (q : ℕ) :
    List.zipWith (param eps) axes (quadPoint (limB axes) ne q) = List.zipWith (param eps) axes' (quadPoint (limB axes') ne q) := by
  unfold quadPoint limB
  generalize List.zip (expand ne q) ne = z
  induction h generalizing z with
  | nil => simp
  | @cons a a' as as' h _ ih =>
    cases z with
    | nil => simp
    | cons z zs =>
      simp only [List.map_cons, List.zipWith_cons_cons, List.cons.injEq]
      refine ⟨?_, ih (fun b hb => hv b (by simp [hb])) (fun b hb => hv' b (by simp [hb])) zs⟩
      rw [param_rel eps a (hv a (by simp)).2.2, param_rel eps a' (hv' a' (by simp)).2.2]

theorem dot_scale (row : List (K × ℕ)) (c : K) (f : ℕ → K) : dot (row.map fun e => (e.1 / c, e.2)) f = dot row f / c := by
  unfold dot
  induction row with
  | nil => simp
  | cons r rs ih => simp only [List.map_cons, List.sum_cons] at ih ⊢; rw [ih]; ring

/-- **C56** RMTB: two models whose axes agree in order and number of control points but have arbitrary different limits
store exactly the same matrices, so a cache hit from another `xlimits` is correct. -/
theorem C56_rmtb_cache_independent_of_limits (eps : K) (axes axes' : List (Rmtb.Axis K))
    (hkey : List.Forall₂ SameKeyB axes axes') (hv : Rmtb.Valid axes) (hv' : Rmtb.Valid axes') (kx : ℕ) (a a' : Rmtb.Axis K)
    (ha : axes[kx]? = some a) (ha' : axes'[kx]? = some a') (D : ℕ → ℕ → K) (i j : ℕ) :
    sqEntry (rawB eps axes) (limB axes) (elemsB axes) D kx (a.hi - a.lo) i j =
      sqEntry (rawB eps axes') (limB axes') (elemsB axes') D kx (a'.hi - a'.lo) i j := by
  obtain ⟨e1, e2, e3⟩ := map_order hkey
  have key : ∀ (axes : List (Rmtb.Axis K)) (a : Rmtb.Axis K) (hv : Rmtb.Valid axes) (ha : axes[kx]? = some a) (q : ℕ)
      (f : ℕ → K) (ne : List ℕ), dot (rawB eps axes (kx + 1) (kx + 1) (quadPoint (limB axes) ne q)) f =
        dot ((jacRow (kx : ℤ) kx axes (List.zipWith (param eps) axes (quadPoint (limB axes) ne q))).getD []) f /
          (a.hi - a.lo) / (a.hi - a.lo) := by
    intro axes a hv ha q f ne
    unfold rawB Rmtb.jacRaw
    have hr : rangeOf axes (kx + 1) = a.hi - a.lo := by simp [rangeOf, ha]
    simp only [unscale_eq, hr]
    simp only [Nat.cast_add, Nat.cast_one, add_sub_cancel_right]
    cases jacRow (kx : ℤ) kx axes (List.zipWith (param eps) axes (quadPoint (limB axes) ne q)) with
    | none => simp [dot]
    | some row =>
      simp only [Option.map_some, Option.getD_some]
      have : (row.map fun e => (e.1 / (a.hi - a.lo) / (a.hi - a.lo), e.2)) =
          (row.map fun e => (e.1 / (a.hi - a.lo), e.2)).map fun e => (e.1 / (a.hi - a.lo), e.2) := by
        rw [List.map_map]; rfl
      rw [this, dot_scale, dot_scale]
  have hrow : ∀ q ne, jacRow (kx : ℤ) kx axes (List.zipWith (param eps) axes (quadPoint (limB axes) ne q)) =
      jacRow (kx : ℤ) kx axes' (List.zipWith (param eps) axes' (quadPoint (limB axes') ne q)) := by
    intro q ne
    unfold jacRow
    rw [params_quad eps axes axes' hkey hv hv', e1, e2, bases_congr _ _ axes axes' hkey]
  have hne : a.hi - a.lo ≠ 0 := ne_of_gt (by linarith [(hv a (List.mem_of_getElem? ha)).2.2])
  have hne' : a'.hi - a'.lo ≠ 0 := ne_of_gt (by linarith [(hv' a' (List.mem_of_getElem? ha')).2.2])
  unfold sqEntry
  simp only [key axes a hv ha, key axes' a' hv' ha', hrow, e3, Finset.sum_mul]
  refine Finset.sum_congr rfl fun q _ => ?_
  field_simp

end rmtb

/-! ## RMTC cache -/
section rmtc
open SMT.Rmtc
variable [FloorRing K]

/-- The data in the cache key (RMTC): elements. -/
def SameKeyC (a a' : Rmtc.Axis K) : Prop := a.nelem = a'.nelem

theorem findInterval_rel (a a' : Rmtc.Axis K) (hk : SameKeyC a a') (ha : a.lo < a.hi) (ha' : a'.lo < a'.hi) (hn : 1 ≤ a.nelem)
    (c : K) : findInterval a (a.lo + c * (a.hi - a.lo)) = findInterval a' (a'.lo + c * (a'.hi - a'.lo)) := by
  have h1 : a.hi - a.lo ≠ 0 := ne_of_gt (by linarith)
  have h2 : a'.hi - a'.lo ≠ 0 := ne_of_gt (by linarith)
  have hN : (a.nelem : K) ≠ 0 := by exact_mod_cast (by omega : a.nelem ≠ 0)
  have hx : ∀ (lo hi r N : K), hi - lo ≠ 0 → N ≠ 0 →
      (lo + c * (hi - lo) - (lo + (hi - lo) * (r - 1) / N + (lo + (hi - lo) * r / N)) / 2) /
        ((lo + (hi - lo) * r / N - (lo + (hi - lo) * (r - 1) / N)) / 2) = 2 * c * N - 2 * r + 1 := by
    intro lo hi r N h hN
    have : (lo + (hi - lo) * r / N - (lo + (hi - lo) * (r - 1) / N)) / 2 = (hi - lo) / (2 * N) := by
      field_simp; ring
    rw [this]
    field_simp
    ring
  unfold findInterval
  simp only [add_sub_cancel_left, mul_div_cancel_right₀ _ h1, mul_div_cancel_right₀ _ h2]
  unfold SameKeyC at hk
  rw [← hk]
  simp only [hx _ _ _ _ h1 hN, hx _ _ _ _ h2 hN]

theorem intervals_quad (axes axes' : List (Rmtc.Axis K)) (h : List.Forall₂ SameKeyC axes axes')
    (hv : Rmtc.Valid axes) (hv' : Rmtc.Valid axes') (ne : List ℕ) (q : ℕ) :
    List.zipWith findInterval axes (quadPoint (limC axes) ne q) = List.zipWith findInterval axes' (quadPoint (limC axes') ne q) := by
  unfold quadPoint limC
  generalize List.zip (expand ne q) ne = z
  induction h generalizing z with
  | nil => simp
  | @cons a a' as as' h _ ih =>
    cases z with
    | nil => simp
    | cons z zs =>
      simp only [List.map_cons, List.zipWith_cons_cons, List.cons.injEq]
      exact ⟨findInterval_rel a a' h (hv a (by simp)).2 (hv' a' (by simp)).2 (hv a (by simp)).1 _,
        ih (fun b hb => hv b (by simp [hb])) (fun b hb => hv' b (by simp [hb])) zs⟩

theorem jacStep_mul (i1 i2 : ℤ) (ix : ℕ) (xb d c prod : K) (p : ℕ) :
    jacStep i1 i2 ix xb d (c * prod) p = c * jacStep i1 i2 ix xb d prod p := by
  unfold jacStep; split_ifs <;> ring

theorem jacLoop_mul (i1 i2 : ℤ) (c : K) : ∀ (axes : List (Rmtc.Axis K)) (ix : ℕ) (xb : List K) (p : List ℕ) (prod : K),
    jacLoop i1 i2 ix axes xb p (c * prod) = c * jacLoop i1 i2 ix axes xb p prod := by
  intro axes
  induction axes with
  | nil => intro ix xb p prod; simp [jacLoop]
  | cons a as ih =>
    intro ix xb p prod
    cases xb with
    | nil => simp [jacLoop]
    | cons xb xbs =>
      cases p with
      | nil => simp [jacLoop]
      | cons p ps => simp only [jacLoop]; rw [jacStep_mul, ih]

theorem jacLoop_after (k : ℕ) : ∀ (axes axes' : List (Rmtc.Axis K)), axes.length = axes'.length → ∀ (ix : ℕ) (xb : List K)
    (p : List ℕ) (prod : K), k < ix → jacLoop k k ix axes xb p prod = jacLoop k k ix axes' xb p prod := by
  intro axes
  induction axes with
  | nil => intro axes' h; cases axes' with
    | nil => intros; rfl
    | cons => simp at h
  | cons a as ih =>
    intro axes' h
    cases axes' with
    | nil => simp at h
    | cons a' as' =>
      intro ix xb p prod hk
      cases xb with
      | nil => simp [jacLoop]
      | cons xb xbs =>
        cases p with
        | nil => simp [jacLoop]
        | cons p ps =>
          simp only [jacLoop]
          rw [ih as' (by simpa using h) (ix + 1) xbs ps _ (by omega)]
          unfold jacStep
          rw [if_pos (by omega), if_pos (by omega)]

theorem jacLoop_scale (k : ℕ) : ∀ (axes axes' : List (Rmtc.Axis K)), List.Forall₂ SameKeyC axes axes' → ∀ (ix : ℕ)
    (a a' : Rmtc.Axis K), ix ≤ k → axes[k - ix]? = some a → axes'[k - ix]? = some a' → a.lo < a.hi → a'.lo < a'.hi → 1 ≤ a.nelem →
    ∀ (xb : List K) (p : List ℕ) (prod : K), xb.length = axes.length → p.length = axes.length →
    jacLoop k k ix axes xb p prod * (a.hi - a.lo) ^ 2 = jacLoop k k ix axes' xb p prod * (a'.hi - a'.lo) ^ 2 := by
  intro axes axes' h
  induction h with
  | nil => intro ix a a' _ h; simp at h
  | @cons b b' bs bs' hb hbs ih =>
    intro ix a a' hix ha ha' hl hl' hn xb p prod hxb hp
    cases xb with
    | nil => simp at hxb
    | cons xb xbs =>
      cases p with
      | nil => simp at hp
      | cons p ps =>
        simp only [jacLoop]
        by_cases hk : k = ix
        · subst hk
          simp only [Nat.sub_self, List.getElem?_cons_zero, Option.some.injEq] at ha ha'
          subst ha ha'
          rw [jacLoop_after k bs bs' hbs.length_eq (k + 1) xbs ps _ (by omega)]
          unfold jacStep
          simp only [ne_eq, not_true_eq_false, false_and, if_false, and_self, if_true]
          split_ifs with h2
          · have h1 : b.hi - b.lo ≠ 0 := ne_of_gt (by linarith)
            have h1' : b'.hi - b'.lo ≠ 0 := ne_of_gt (by linarith)
            have hN : (b.nelem : K) ≠ 0 := by exact_mod_cast (by omega : b.nelem ≠ 0)
            have e : ∀ u v : K, u * (v * dxb b * dxb b) = (dxb b * dxb b) * (u * v) := by intro u v; ring
            have e' : ∀ u v : K, u * (v * dxb b' * dxb b') = (dxb b' * dxb b') * (u * v) := by intro u v; ring
            rw [e, e', jacLoop_mul _ _ (dxb b * dxb b), jacLoop_mul _ _ (dxb b' * dxb b')]
            have hd : dxb b * dxb b * (b.hi - b.lo) ^ 2 = dxb b' * dxb b' * (b'.hi - b'.lo) ^ 2 := by
              unfold SameKeyC at hb
              unfold dxb
              rw [← hb]
              field_simp
            generalize jacLoop (k : ℤ) k (k + 1) bs' xbs ps (prod * ((p : K) * ((p : K) - 1) * xb ^ (p - 2))) = w
            linear_combination w * hd
          · have e0 : ∀ as : List (Rmtc.Axis K), jacLoop (k : ℤ) k (k + 1) as xbs ps (0 : K) = 0 := by
              intro as
              have := jacLoop_mul (k : ℤ) k (0 : K) as (k + 1) xbs ps 0
              simpa using this
            rw [e0]; simp
        · have hs : k - ix = (k - (ix + 1)) + 1 := by omega
          rw [hs, List.getElem?_cons_succ] at ha ha'
          have hst : ∀ d d' : K, jacStep (k : ℤ) k ix xb d prod p = jacStep (k : ℤ) k ix xb d' prod p := by
            intro d d'; unfold jacStep; rw [if_pos (by omega), if_pos (by omega)]
          rw [hst (dxb b) (dxb b')]
          exact ih (ix + 1) a a' (by omega) ha ha' hl hl' hn xbs ps _ (by simpa using hxb) (by simpa using hp)

/-- **C56** RMTC: the cached matrices do not depend on the limits. `D` is any `dof2coeff` matrix: the code's depends
only on the element counts. -/
theorem C56_rmtc_cache_independent_of_limits (axes axes' : List (Rmtc.Axis K)) (hkey : List.Forall₂ SameKeyC axes axes')
    (hv : Rmtc.Valid axes) (hv' : Rmtc.Valid axes') (kx : ℕ) (a a' : Rmtc.Axis K) (ha : axes[kx]? = some a)
    (ha' : axes'[kx]? = some a') (D : ℕ → ℕ → K) (i j : ℕ) :
    sqEntry (rawC axes) (limC axes) (axes.map (·.nelem)) D kx (a.hi - a.lo) i j =
      sqEntry (rawC axes') (limC axes') (axes'.map (·.nelem)) D kx (a'.hi - a'.lo) i j := by
  have hel : axes.map (·.nelem) = axes'.map (·.nelem) := by
    clear ha ha' hv hv'
    induction hkey with
    | nil => rfl
    | cons h _ ih => simp only [List.map_cons, ih]; rw [h]
  have hlen := hkey.length_eq
  have hva := hv a (List.mem_of_getElem? ha)
  have hva' := hv' a' (List.mem_of_getElem? ha')
  have key : ∀ (f : ℕ → K) (q : ℕ),
      dot (rawC axes (kx + 1) (kx + 1) (quadPoint (limC axes) ((axes.map (·.nelem)).map (2 * ·)) q)) f * (a.hi - a.lo) ^ 2 =
      dot (rawC axes' (kx + 1) (kx + 1) (quadPoint (limC axes') ((axes.map (·.nelem)).map (2 * ·)) q)) f * (a'.hi - a'.lo) ^ 2 := by
    intro f q
    have hql : (quadPoint (limC axes) ((axes.map (·.nelem)).map (2 * ·)) q).length = axes.length := by
      rw [quadPoint_length _ _ _ (by simp [limC])]; simp [limC]
    unfold rawC Rmtc.jacRow dot
    rw [intervals_quad axes axes' hkey hv hv', ← hel, ← hlen] 
    simp only [Nat.cast_add, Nat.cast_one, add_sub_cancel_right, List.map_map, Function.comp_def]
    have hiv : (List.zipWith findInterval axes' (quadPoint (limC axes') ((axes.map (·.nelem)).map (2 * ·)) q)).length = axes.length := by
      rw [← intervals_quad axes axes' hkey hv hv', List.length_zipWith, hql, Nat.min_self]
    rw [← List.sum_map_mul_right, ← List.sum_map_mul_right]
    congr 1
    refine List.map_congr_left fun it _ => ?_
    have := jacLoop_scale kx axes axes' hkey 0 a a' (Nat.zero_le _) (by simpa using ha) (by simpa using ha') hva.2 hva'.2 hva.1
      ((List.zipWith findInterval axes' (quadPoint (limC axes') ((axes.map (·.nelem)).map (2 * ·)) q)).map (·.2))
      (expand (List.replicate axes.length 4) it) 1 (by simpa using hiv) (by simp [expand_length])
    simp only [List.map_map, Function.comp_def] at this ⊢
    linear_combination f (contract (axes.map (·.nelem)) ((List.zipWith findInterval axes'
      (quadPoint (limC axes') (axes.map (fun x => 2 * x.nelem)) q)).map (·.1)) * 4 ^ axes.length + it) * this
  unfold sqEntry
  rw [← hel]
  simp only [Finset.sum_mul]
  refine Finset.sum_congr rfl fun q _ => ?_
  have k1 := key (D i) q
  have k2 := key (D j) q
  calc _ = (dot (rawC axes (kx + 1) (kx + 1) (quadPoint (limC axes) ((axes.map (·.nelem)).map (2 * ·)) q)) (D i) * (a.hi - a.lo) ^ 2) *
        (dot (rawC axes (kx + 1) (kx + 1) (quadPoint (limC axes) ((axes.map (·.nelem)).map (2 * ·)) q)) (D j) * (a.hi - a.lo) ^ 2) := by ring
    _ = _ := by rw [k1, k2]; ring

end rmtc

/-! ## The assembled energy Hessian -/

/-- **C56** The assembled energy Hessian is `1 / (number of quadrature points) * ∑_k smoothness_k * ∑_q s_k(q, i) s_k(q, j)`:
the scaling by `range ** 4` cancels. -/
theorem C56_energy_is_mean_square (raw : ℕ → ℕ → List K → List (K × ℕ)) (limits : List (K × K)) (elems : List ℕ)
    (D : ℕ → ℕ → K) (smooth : List K) (hlen : limits.length = elems.length) (hlim : ∀ l ∈ limits, l.1 < l.2)
    (hpos : ∀ n ∈ elems, 0 < n) (i j : ℕ) :
    energyEntry (fun kx => sqEntry raw limits elems D kx ((limits.getD kx (0, 0)).2 - (limits.getD kx (0, 0)).1)) limits elems smooth i j =
      (1 / (((elems.map (2 * ·)).prod : ℕ) : K)) * ∑ kx ∈ Finset.range limits.length, smooth.getD kx 0 *
        ∑ q ∈ Finset.range (elems.map (2 * ·)).prod,
          dot (raw (kx + 1) (kx + 1) (quadPoint limits (elems.map (2 * ·)) q)) (D i) *
          dot (raw (kx + 1) (kx + 1) (quadPoint limits (elems.map (2 * ·)) q)) (D j) := by
  have hvol : volRatio limits elems = 1 / (((elems.map (2 * ·)).prod : ℕ) : K) := by
    unfold volRatio
    have : ∀ (limits : List (K × K)) (elems : List ℕ), limits.length = elems.length → (∀ l ∈ limits, l.1 < l.2) →
        (∀ n ∈ elems, 0 < n) →
        (List.zipWith (fun (l : K × K) (e : ℕ) => (l.2 - l.1) / (2 * (e : K))) limits elems).prod * (((elems.map (2 * ·)).prod : ℕ) : K) =
          (limits.map fun l => l.2 - l.1).prod ∧ (((elems.map (2 * ·)).prod : ℕ) : K) ≠ 0 ∧ (limits.map fun l => l.2 - l.1).prod ≠ 0 := by
      intro limits
      induction limits with
      | nil => intro elems h _ _; cases elems with
        | nil => simp
        | cons => simp at h
      | cons l ls ih =>
        intro elems h h1 h2
        cases elems with
        | nil => simp at h
        | cons e es =>
          obtain ⟨a, b, c⟩ := ih es (by simpa using h) (fun l hl => h1 l (by simp [hl])) (fun n hn => h2 n (by simp [hn]))
          have he : (e : K) ≠ 0 := by exact_mod_cast (h2 e (by simp)).ne'
          have hl : l.2 - l.1 ≠ 0 := ne_of_gt (by linarith [h1 l (by simp)])
          simp only [List.map_cons, List.zipWith_cons_cons, List.prod_cons, Nat.cast_mul, Nat.cast_ofNat]
          refine ⟨?_, mul_ne_zero (mul_ne_zero two_ne_zero he) b, mul_ne_zero hl c⟩
          rw [← a]; field_simp
    obtain ⟨a, b, c⟩ := this limits elems hlen hlim hpos
    rw [div_eq_div_iff c b, a, one_mul]
  unfold energyEntry
  rw [hvol, Rmtb.list_sum_range, Finset.mul_sum]
  refine Finset.sum_congr rfl fun kx hk => ?_
  have hk : kx < limits.length := Finset.mem_range.1 hk
  have hg : limits.getD kx (0, 0) = limits[kx] := by simp [List.getD_eq_getElem?_getD, hk]
  have hne : (limits.getD kx (0, 0)).2 - (limits.getD kx (0, 0)).1 ≠ 0 := by
    rw [hg]; exact ne_of_gt (by linarith [hlim _ (List.getElem_mem hk)])
  unfold sqEntry
  dsimp only
  generalize (limits.getD kx (0, 0)).2 - (limits.getD kx (0, 0)).1 = r at *
  field_simp

example : InShape [2, 3] [1, 2] ∧ quadPoint [((0 : ℚ), 2), (-1, 1)] [2, 3] 5 = [3/2, 2/3] := by
  refine ⟨?_, by decide +kernel⟩
  exact List.Forall₂.cons (by norm_num) (List.Forall₂.cons (by norm_num) List.Forall₂.nil)

/-- Second-derivative rows at the first quadrature point under two different limits: different and not zero. -/
example : let axes : List (Rmtb.Axis ℚ) := [⟨3, 4, 0, 2⟩]
    let axes' : List (Rmtb.Axis ℚ) := [⟨3, 4, 5, 6⟩]
    dot (rawB (1/1000) axes 1 1 (quadPoint (limB axes) [4] 0)) (fun q => if q = 0 then 1 else 0) = 1 ∧
    dot (rawB (1/1000) axes' 1 1 (quadPoint (limB axes') [4] 0)) (fun q => if q = 0 then 1 else 0) = 4 := by
  decide +kernel

end SMT.Rmts
