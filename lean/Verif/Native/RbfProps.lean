import Verif.Native.Fill
import Verif.Native.Rbf

set_option linter.unusedSectionVars false
set_option linter.unusedSimpArgs false
set_option linter.unusedVariables false

/-!
# C98: the RBF kernels stay inside their arrays and compute the rows of `Verif/Rbf/Model.lean`
-/
namespace SMT.Native.Rbf

open SMT.Rbf (r2 row drow numPoly)

/-- Specification: a C++ object that was set up with `nt` training points `T` in `nx` dimensions, scalings `D` and `np` trend terms. -/
structure Ready (o : Obj) (nt nx np : ℕ) (deg : ℤ) (D : ℕ → ℝ) (T : ℕ → ℕ → ℝ) : Prop where
  hnx : o.nx = nx
  hnt : o.nt = nt
  hdeg : o.deg = deg
  hnp : numPoly deg nx = some np
  hdof : o.numDof = nt + np
  hxt : Holds o.xt nt nx T
  hd0 : nx ≤ o.d0.len ∧ ∀ ix < nx, o.d0.cell ix = some (D ix)
  small : nt * nx ≤ 2 ^ 31

variable {o : Obj} {nt nx np n : ℕ} {deg : ℤ} {D : ℕ → ℝ} {T X : ℕ → ℕ → ℝ} {x : Buf ℝ}

/-- Specification: scaled squared distance. -/
noncomputable def sdist (nx : ℕ) (D x t : ℕ → ℝ) : ℝ := ∑ k ∈ Finset.range nx, ((x k - t k) / D k) ^ 2

lemma r2_eq (D x t : ℕ → ℝ) : r2 (fun k : Fin nx => D k) (fun k => x k) (fun k => t k) = sdist nx D x t := by
  unfold r2 sdist
  rw [← Fin.sum_univ_eq_sum_range (fun k => ((x k - t k) / D k) ^ 2) nx, ← List.sum_ofFn, List.ofFn_eq_map, List.sum_eq_foldl, List.foldl_map]

lemma dist2_ok (h : Ready o nt nx np deg D T) (hx : Holds x n nx X) (hb : n * nx ≤ 2 ^ 31) {i it : ℕ} (hi : i < n) (hit : it < nt) :
    dist2 o x i it = .ok (sdist nx D (X i) (T it)) := by
  unfold dist2
  rw [h.hnx]
  obtain ⟨s, e1, e2⟩ := loop_ok (n := nx) (s := (0 : ℝ)) (body := fun (ix : ℕ) r2 => do
    let a ← lin i nx ix >>= read x
    let b ← lin it nx ix >>= read o.xt
    let c ← read o.d0 ix
    pure (r2 + ((a - b) / c) ^ 2)) (fun k s => s = sdist k D (X i) (T it)) (by simp [sdist]) (fun k hk s hs => by
      refine ⟨s + ((X i k - T it k) / D k) ^ 2, ?_, ?_⟩
      · rw [hx.read' hb hi hk, ok_bind, h.hxt.read' h.small hit hk, ok_bind, read_ok (lt_of_lt_of_le hk h.hd0.1) (h.hd0.2 k hk), ok_bind, pure_ok]
      · rw [hs, sdist, sdist, Finset.sum_range_succ])
  rw [e1, e2]

lemma numPoly_cases {deg : ℤ} {nx np : ℕ} (h : numPoly deg nx = some np) : (deg = -1 ∧ np = 0) ∨ (deg = 0 ∧ np = 1) ∨ (deg = 1 ∧ np = 1 + nx) := by
  unfold numPoly at h
  split at h
  · next hd => cases h; exact .inl ⟨hd, rfl⟩
  · split at h
    · next hd => cases h; exact .inr (.inl ⟨hd, rfl⟩)
    · split at h
      · next hd => cases h; exact .inr (.inr ⟨hd, rfl⟩)
      · cases h

lemma trendIdx_ok (h : Ready o nt nx np deg D T) (hd : deg = 1) (hb : n * (nt + np) ≤ 2 ^ 31) {i q : ℕ} (hi : i < n) (hq : q < nx) :
    trendIdx o i q = .ok ((i * (nt + np) + ((nt + 1) + q) : ℕ) : ℤ) := by
  have hp : np = 1 + nx := by rcases numPoly_cases h.hnp with h | h | h <;> omega
  have h3 := flat_lt hi (show nt + 1 + q < nt + np by omega)
  unfold trendIdx
  rw [h.hdof, h.hnt, lin_ok (by omega), ok_bind]
  have c1 : ((i * (nt + np) + nt : ℕ) : ℤ) + 1 = ((i * (nt + np) + nt + 1 : ℕ) : ℤ) := by push_cast; ring
  have c2 : ((i * (nt + np) + nt + 1 : ℕ) : ℤ) + q = ((i * (nt + np) + ((nt + 1) + q) : ℕ) : ℤ) := by push_cast; ring
  have isI : ∀ k : ℕ, k < 2 ^ 31 → isInt (k : ℤ) := fun k hk => ⟨le_trans (by norm_num) (Int.natCast_nonneg k), by exact_mod_cast hk⟩
  rw [c1, chk_ok (isI _ (by omega)), ok_bind, c2, chk_ok (isI _ (by omega))]

/-- Column `nt`. -/
lemma constant_ok (h : Ready o nt nx np deg D T) (hb : n * (nt + np) ≤ 2 ^ 31) (v : ℝ) {j : Buf ℝ} (hj : n * (nt + np) ≤ j.len) :
    ∃ j', constant o n v j = .ok j' ∧ Filled j j' n (nt + np) nt (if 0 ≤ deg then 1 else 0) fun _ _ => v := by
  unfold constant
  rw [h.hdeg]
  by_cases hd : 0 ≤ deg
  · have hp : 1 ≤ np := by rcases numPoly_cases h.hnp with h | h | h <;> omega
    rw [if_pos hd, if_pos hd, h.hdof, h.hnt]
    refine fill_rows (by omega) _ hj fun i hi j1 h1 => ?_
    have := flat_lt hi (show nt < nt + np by omega)
    rw [lin_ok (by omega), ok_bind, write_ok _ (by omega)]
    refine ⟨_, rfl, rfl, fun q hq => ?_, fun c hc => ?_⟩
    · rw [show q = 0 by omega]; exact Function.update_self ..
    · exact Function.update_of_ne (hc 0 (by omega)) ..
  · rw [if_neg hd, if_neg hd]
    exact ⟨j, rfl, Filled.refl ..⟩

/-- What the three parts of a kernel make of a table. -/
lemma combine (hnp : numPoly deg nx = some np) {j0 j1 j2 j3 : Buf ℝ} {f g k : ℕ → ℕ → ℝ} (hj : n * (nt + np) ≤ j0.len) (h1 : Filled j0 j1 n (nt + np) 0 nt f)
    (h2 : Filled j1 j2 n (nt + np) nt (if 0 ≤ deg then 1 else 0) g) (h3 : Filled j2 j3 n (nt + np) (nt + 1) (if deg = 1 then nx else 0) k)
    (r : ℕ → ℕ → ℝ) (hr1 : ∀ i < n, ∀ q < nt, r i q = f i q) (hr2 : 0 ≤ deg → ∀ i < n, r i nt = g i 0) (hr3 : deg = 1 → ∀ i < n, ∀ q < nx, r i (nt + 1 + q) = k i q) :
    j3.len = j0.len ∧ Holds j3 n (nt + np) r ∧ ∀ c, n * (nt + np) ≤ c → j3.cell c = j0.cell c := by
  have hl : j3.len = j0.len := h3.1.trans (h2.1.trans h1.1)
  have cs := numPoly_cases hnp
  have k1 : 0 + nt ≤ nt + np := by omega
  have k2 : nt + (if 0 ≤ deg then 1 else 0) ≤ nt + np := by split <;> omega
  rcases cs with ⟨hd, hp⟩ | ⟨hd, hp⟩ | ⟨hd, hp⟩
  all_goals subst hd hp
  · have e3 : j3.cell = j2.cell := by funext c; exact h3.2.2 c fun i hi q hq => by simp at hq
    have e2 : j2.cell = j1.cell := by funext c; exact h2.2.2 c fun i hi q hq => by simp at hq
    refine ⟨hl, ⟨by omega, fun i hi q hq => ?_⟩, fun c hc => ?_⟩
    · rw [e3, e2, hr1 i hi q hq]
      have := h1.2.1 i hi q hq
      rwa [Nat.zero_add] at this
    · rw [e3, e2]; exact h1.behind k1 hc
  · have e3 : j3.cell = j2.cell := by funext c; exact h3.2.2 c fun i hi q hq => by simp at hq
    refine ⟨hl, ⟨by omega, fun i hi q hq => ?_⟩, fun c hc => ?_⟩
    · rw [e3]
      by_cases e : q = nt
      · subst e
        rw [hr2 (by norm_num) i hi]; exact h2.2.1 i hi 0 (by simp)
      · rw [h2.other k2 hq (.inl (by omega)), hr1 i hi q (by omega)]
        have := h1.2.1 i hi q (by omega)
        rwa [Nat.zero_add] at this
    · rw [e3, h2.behind k2 hc]; exact h1.behind k1 hc
  · have k3 : nt + 1 + (if (1 : ℤ) = 1 then nx else 0) ≤ nt + (1 + nx) := by rw [if_pos rfl]; omega
    refine ⟨hl, ⟨by omega, fun i hi q hq => ?_⟩, fun c hc => ?_⟩
    · by_cases h' : nt + 1 ≤ q
      · obtain ⟨m, rfl⟩ := Nat.exists_eq_add_of_le h'
        rw [hr3 rfl i hi m (by omega)]; exact h3.2.1 i hi m (by rw [if_pos rfl]; omega)
      · rw [h3.other k3 hq (.inl (by omega))]
        by_cases e : q = nt
        · subst e
          rw [hr2 (by norm_num) i hi]; exact h2.2.1 i hi 0 (by simp)
        · rw [h2.other k2 hq (.inl (by omega)), hr1 i hi q (by omega)]
          have := h1.2.1 i hi q (by omega)
          rwa [Nat.zero_add] at this
    · rw [h3.behind k3 hc, h2.behind k2 hc]; exact h1.behind k1 hc

/-- **C98** `compute_jac`: with the arrays it is meant for and sizes of at most 2^31 it has a result (no undefined behaviour), and that result is, row after row, the row of C31; memory behind it is
left alone. -/
theorem C98_rbf_kernel (h : Ready o nt nx np deg D T) (hx : Holds x n nx X) (hb : n * nx ≤ 2 ^ 31) (hb' : n * (nt + np) ≤ 2 ^ 31) {j : Buf ℝ} (hj : n * (nt + np) ≤ j.len) :
    ∃ r, computeJac o n x j = .ok r ∧ r.len = j.len ∧
      Holds r n (nt + np) (fun i => row deg (fun k : Fin nx => D k) (fun it : Fin nt => fun k => T it k) fun k => X i k) ∧
      ∀ c, n * (nt + np) ≤ c → r.cell c = j.cell c := by
  obtain ⟨j1, e1, f1⟩ := fill_table (n := n) (D := nt + np) (o := 0) (k := nt) (by omega) (fun i it => Real.exp (-sdist nx D (X i) (T it))) hj
    (body := fun i it j => dist2 o x i it >>= fun r2 => lin i (nt + np) it >>= fun c => write j c (Real.exp (-r2))) (fun i hi q hq j => by
      have := flat_lt hi (show q < nt + np by omega)
      rw [dist2_ok h hx hb hi hq, ok_bind]
      have e := lin_ok (a := i) (b := nt + np) (c := q) (by omega)
      push_cast at e
      rw [e, ok_bind, Nat.zero_add]
      push_cast; rfl)
  obtain ⟨j2, e2, f2⟩ := constant_ok h hb' 1 (j := j1) (by rw [f1.1]; exact hj)
  have hl2 : j2.len = j.len := f2.1.trans f1.1
  have h3 : ∃ j3, linear o n x j2 = .ok j3 ∧ Filled j2 j3 n (nt + np) (nt + 1) (if deg = 1 then nx else 0) X := by
    unfold linear
    rw [h.hdeg]
    by_cases hd : deg = 1
    · rw [if_pos hd, if_pos hd, h.hnx]
      have hp : np = 1 + nx := by rcases numPoly_cases h.hnp with h | h | h <;> omega
      exact fill_table (by omega) X (by omega) fun i hi q hq j => by
        rw [hx.read' hb hi hq, ok_bind, trendIdx_ok h hd hb' hi hq, ok_bind]
    · rw [if_neg hd, if_neg hd]
      exact ⟨j2, rfl, Filled.refl ..⟩
  obtain ⟨j3, e3, f3⟩ := h3
  have hr : radial o n x j = .ok j1 := by unfold radial; rw [h.hnt, h.hdof, ← e1]; push_cast; rfl
  refine ⟨j3, ?_, combine h.hnp hj f1 f2 f3 _ (fun i hi q hq => ?_) (fun hd i hi => ?_) fun hd i hi q hq => ?_⟩
  · unfold computeJac
    rw [hr, ok_bind, e2, ok_bind, e3]
  · unfold row; rw [dif_pos hq, r2_eq D (X i) (T q)]
  · unfold row; rw [dif_neg (by omega), if_pos ⟨hd, rfl⟩]
  · have h1 : nt + 1 + q - (nt + 1) = q := by omega
    unfold row; rw [dif_neg (by omega), if_neg (by omega), dif_pos ⟨hd, by omega, by omega⟩]
    simp only [h1]

/-- **C98** `compute_jac_derivs` for an input that exists. -/
theorem C98_rbf_derivative_kernel (h : Ready o nt nx np deg D T) (hx : Holds x n nx X) (hb : n * nx ≤ 2 ^ 31) (hb' : n * (nt + np) ≤ 2 ^ 31) (kx : Fin nx) {j : Buf ℝ} (hj : n * (nt + np) ≤ j.len) :
    ∃ r, computeDerivs o n (kx : ℕ) x j = .ok r ∧ r.len = j.len ∧
      Holds r n (nt + np) (fun i => drow deg (fun k : Fin nx => D k) (fun it : Fin nt => fun k => T it k) kx fun k => X i k) ∧
      ∀ c, n * (nt + np) ≤ c → r.cell c = j.cell c := by
  obtain ⟨kx, hkx⟩ := kx
  obtain ⟨j1, e1, f1⟩ := fill_table (n := n) (D := nt + np) (o := 0) (k := nt) (by omega)
    (fun i it => -Real.exp (-sdist nx D (X i) (T it)) * (2 * (X i kx - T it kx) / D kx ^ 2)) hj
    (body := fun i it j => dist2 o x i it >>= fun r2 => (lin i nx kx >>= read x) >>= fun a => (lin it nx kx >>= read o.xt) >>= fun b => read o.d0 kx >>= fun c =>
      lin i (nt + np) it >>= fun k => write j k (-Real.exp (-r2) * (2 * (a - b) / c ^ 2))) (fun i hi q hq j => by
      have := flat_lt hi (show q < nt + np by omega)
      rw [dist2_ok h hx hb hi hq, ok_bind, hx.read' hb hi hkx, ok_bind, h.hxt.read' h.small hq hkx, ok_bind, read_ok (lt_of_lt_of_le hkx h.hd0.1) (h.hd0.2 kx hkx), ok_bind]
      have e := lin_ok (a := i) (b := nt + np) (c := q) (by omega)
      push_cast at e
      rw [e, ok_bind, Nat.zero_add]
      push_cast; rfl)
  obtain ⟨j2, e2, f2⟩ := constant_ok h hb' 0 (j := j1) (by rw [f1.1]; exact hj)
  have hl2 : j2.len = j.len := f2.1.trans f1.1
  have h3 : ∃ j3, linearD o n kx j2 = .ok j3 ∧ Filled j2 j3 n (nt + np) (nt + 1) (if deg = 1 then nx else 0) fun _ q => if q = kx then 1 else 0 := by
    unfold linearD
    rw [h.hdeg]
    by_cases hd : deg = 1
    · rw [if_pos hd, if_pos hd, h.hnx]
      have hp : np = 1 + nx := by rcases numPoly_cases h.hnp with h | h | h <;> omega
      refine fill_rows (by omega) _ (by omega) fun i hi ja hja => ?_
      obtain ⟨jb, eb, b1, b2, b3⟩ := rowFill_ok (α := ℝ) (n := n) (D := nt + np) (o := nt + 1) (k := nx) hi (by omega) (fun _ => 0) (j0 := ja) (by omega)
        (body := fun q j => trendIdx o i q >>= fun k => write j k 0) (fun q hq j => by rw [trendIdx_ok h hd hb' hi hq, ok_bind])
      have := flat_lt hi (show nt + 1 + kx < nt + np by omega)
      rw [eb, ok_bind, trendIdx_ok h hd hb' hi hkx, ok_bind, write_ok _ (by omega)]
      refine ⟨_, rfl, b1, fun q hq => ?_, fun c hc => ?_⟩
      · dsimp only
        by_cases e : q = kx
        · rw [e, Function.update_self, if_pos rfl]
        · rw [Function.update_of_ne (by omega), b2 q hq, if_neg e]
      · dsimp only
        rw [Function.update_of_ne (hc kx hkx)]; exact b3 c hc
    · rw [if_neg hd, if_neg hd]
      exact ⟨j2, rfl, Filled.refl ..⟩
  obtain ⟨j3, e3, f3⟩ := h3
  have hr : radialD o n kx x j = .ok j1 := by unfold radialD; rw [h.hnt, h.hdof, h.hnx, ← e1]; push_cast; rfl
  refine ⟨j3, ?_, combine h.hnp hj f1 f2 f3 _ (fun i hi q hq => ?_) (fun hd i hi => ?_) fun hd i hi q hq => ?_⟩
  · unfold computeDerivs
    rw [hr, ok_bind, e2, ok_bind, e3]
  · unfold drow; rw [dif_pos hq, r2_eq D (X i) (T q)]
  · unfold drow; rw [dif_neg (by omega), if_pos ⟨hd, rfl⟩]
  · unfold drow; rw [dif_neg (by omega), if_neg (by omega)]
    by_cases e : q = kx
    · rw [if_pos ⟨hd, by dsimp only; omega⟩, if_pos e]
    · rw [if_neg (fun h => e (by have := h.2; dsimp only at this; omega)), if_neg e]

end SMT.Native.Rbf
