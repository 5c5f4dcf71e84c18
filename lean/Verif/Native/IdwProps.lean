import Verif.Native.Idw
import Verif.Idw.Props

set_option linter.unusedSectionVars false
set_option linter.unusedSimpArgs false
set_option linter.unusedVariables false

/-!
# The IDW kernels stay inside their arrays and compute the rows of `Verif/Idw/Model.lean`
-/
namespace SMT.Native.Idw

open SMT.Idw (r2 minSearch weight jac dweight jacDerivs)

/-- Specification: training points `0..nt-1` as vectors. -/
def rows (nt nx : ℕ) (T : ℕ → ℕ → ℝ) : List (Fin nx → ℝ) := (List.range nt).map fun it ix => T it ix

lemma rows_succ (nt nx : ℕ) (T : ℕ → ℕ → ℝ) : rows (nt + 1) nx T = rows nt nx T ++ [fun ix : Fin nx => T nt ix] := by simp [rows, List.range_succ]

lemma rows_length (nt nx : ℕ) (T : ℕ → ℕ → ℝ) : (rows nt nx T).length = nt := by simp [rows]

lemma minSearch_append {nx : ℕ} (x : Fin nx → ℝ) (l : List (Fin nx → ℝ)) (t : Fin nx → ℝ) (it : ℕ) (st : ℝ × ℕ) :
    minSearch x (l ++ [t]) it st = if r2 x t < (minSearch x l it st).1 then (r2 x t, it + l.length) else minSearch x l it st := by
  induction l generalizing it st with
  | nil => simp [minSearch]
  | cons a l ih => simp only [List.cons_append, minSearch, ih, List.length_cons]; rw [show it + 1 + l.length = it + (l.length + 1) by omega]; congr

/-- Specification: a C++ object that was set up with `nt` training points `T` in `nx` dimensions. -/
structure Ready (o : Obj) (nt nx : ℕ) (p : ℝ) (T : ℕ → ℕ → ℝ) : Prop where
  hnx : o.nx = nx
  hnt : o.nt = nt
  hp : o.p = p
  hxt : Holds o.xt nt nx T
  hw : o.w.len = nt
  hdw : o.dw.len = nt
  small : nt * nx ≤ 2 ^ 31

variable {o : Obj} {nt nx n : ℕ} {p : ℝ} {T X : ℕ → ℕ → ℝ} {x : Buf ℝ}

lemma dist2_ok (h : Ready o nt nx p T) (hx : Holds x n nx X) (hb : n * nx ≤ 2 ^ 31) {i it : ℕ} (hi : i < n) (hit : it < nt) :
    dist2 o x i it = .ok (r2 (fun k : Fin nx => X i k) fun k => T it k) := by
  have e : r2 (fun k : Fin nx => X i k) (fun k => T it k) = ∑ k ∈ Finset.range nx, (X i k - T it k) ^ 2 := by
    rw [SMT.Idw.r2_eq, SMT.Idw.dist2]
    exact Fin.sum_univ_eq_sum_range (fun k => (X i k - T it k) ^ 2) nx
  unfold dist2
  rw [h.hnx]
  obtain ⟨s, e1, e2⟩ := loop_ok (n := nx) (s := (0 : ℝ)) (body := fun ix r2 => do
    let a ← lin i nx ix >>= read x
    let b ← lin it nx ix >>= read o.xt
    pure (r2 + (a - b) ^ 2)) (fun k s => s = ∑ j ∈ Finset.range k, (X i j - T it j) ^ 2) (by simp) (fun k hk s hs => by
      refine ⟨s + (X i k - T it k) ^ 2, ?_, ?_⟩
      · rw [hx.read' hb hi hk, ok_bind, h.hxt.read' h.small hit hk, ok_bind, pure_ok]
      · rw [hs, Finset.sum_range_succ])
  rw [e1, e2, e]

lemma scan_ok (h : Ready o nt nx p T) (hx : Holds x n nx X) (hb : n * nx ≤ 2 ^ 31) {i : ℕ} (hi : i < n) {w : Buf ℝ} (hw : w.len = nt) :
    ∃ s, scan o x i w = .ok s ∧ (s.minVal, s.minLoc) = minSearch (fun k : Fin nx => X i k) (rows nt nx T) 0 (1, 0) ∧
      (s.minVal = 1 ∨ s.minLoc < nt) ∧ s.w.len = nt ∧ ∀ it < nt, s.w.cell it = some (weight p (fun k : Fin nx => X i k) fun k => T it k) := by
  unfold scan
  rw [h.hnt]
  refine loop_ok (fun k (s : Scan) => (s.minVal, s.minLoc) = minSearch (fun k : Fin nx => X i k) (rows k nx T) 0 (1, 0) ∧
      (s.minVal = 1 ∨ s.minLoc < k) ∧ s.w.len = nt ∧ ∀ it < k, s.w.cell it = some (weight p (fun k : Fin nx => X i k) fun k => T it k))
    ⟨rfl, .inl rfl, hw, fun it hit => by omega⟩ fun k hk s ⟨h1, h2, h3, h4⟩ => ?_
  rw [dist2_ok h hx hb hi hk, ok_bind, write_ok _ (by rw [h3]; exact hk), ok_bind, pure_ok, h.hp]
  refine ⟨_, rfl, ?_⟩
  rw [rows_succ, minSearch_append, ← h1, rows_length]
  have hc : ∀ it < k + 1, Function.update s.w.cell k (some (r2 (fun k : Fin nx => X i k) (fun ix => T k ix) ^ (-p / 2))) it = some (weight p (fun k : Fin nx => X i k) fun k => T it k) := by
    intro it hit
    by_cases e : it = k
    · subst e; rw [Function.update_self]; rfl
    · rw [Function.update_of_ne e]; exact h4 it (by omega)
  dsimp only
  by_cases hlt : r2 (fun k : Fin nx => X i k) (fun ix => T k ix) < s.minVal
  · rw [if_pos hlt, if_pos hlt]
    exact ⟨by simp, .inr (by simp), h3, hc⟩
  · rw [if_neg hlt, if_neg hlt]
    exact ⟨rfl, h2.imp id (fun h' => Nat.lt_succ_of_lt h'), h3, hc⟩

/-- Entries of a row are written one after the other, the other cells stay. -/
lemma fill_ok {α : Type} {nt n i : ℕ} (hi : i < n) (hb : n * nt ≤ 2 ^ 31) (f : ℕ → α) {j0 : Buf α} (hj : n * nt ≤ j0.len) {body : ℕ → Buf α → C (Buf α)}
    (hbody : ∀ it < nt, ∀ j, body it j = (lin i nt it >>= fun k => write j k (f it))) :
    ∃ j, loop nt j0 body = .ok j ∧ j.len = j0.len ∧ (∀ it < nt, j.cell (i * nt + it) = some (f it)) ∧ ∀ c, (∀ it < nt, c ≠ i * nt + it) → j.cell c = j0.cell c := by
  refine loop_ok (fun k (j : Buf α) => j.len = j0.len ∧ (∀ it < k, j.cell (i * nt + it) = some (f it)) ∧ ∀ c, (∀ it < nt, c ≠ i * nt + it) → j.cell c = j0.cell c)
    ⟨rfl, fun it hit => by omega, fun _ _ => rfl⟩ fun k hk j ⟨h1, h2, h3⟩ => ?_
  have hl := flat_lt hi hk
  rw [hbody k hk, lin_ok (by omega), ok_bind, write_ok _ (by omega)]
  refine ⟨_, rfl, h1, fun it hit => ?_, fun c hc => ?_⟩
  · dsimp only
    by_cases e : it = k
    · subst e; rw [Function.update_self]
    · rw [Function.update_of_ne (by omega)]; exact h2 it (by omega)
  · dsimp only
    rw [Function.update_of_ne (hc k hk)]; exact h3 c hc

lemma total_ok (hnt : o.nt = nt) {w : Buf ℝ} {f : ℕ → ℝ} (hw : w.len = nt) (hc : ∀ it < nt, w.cell it = some (f it)) :
    total o w = .ok (((List.range nt).map f).foldl (· + ·) 0) := by
  unfold total
  rw [hnt]
  obtain ⟨s, e1, e2⟩ := loop_ok (n := nt) (s := (0 : ℝ)) (body := fun (it : ℕ) s => do pure (s + (← read w it))) (fun k s => s = ((List.range k).map f).foldl (· + ·) 0) rfl (fun k hk s hs => by
      refine ⟨s + f k, ?_, ?_⟩
      · rw [read_ok (by omega) (hc k hk), ok_bind, pure_ok]
      · rw [List.range_succ, List.map_append, List.foldl_append, hs]; rfl)
  rw [e1, e2]

/-- One row of the result. -/
lemma jacRow_ok (h : Ready o nt nx p T) (hx : Holds x n nx X) (hb : n * nx ≤ 2 ^ 31) (hb' : n * nt ≤ 2 ^ 31) {i : ℕ} (hi : i < n) {st : Buf ℝ × Buf ℝ} (hw : st.1.len = nt) (hj : n * nt ≤ st.2.len) :
    ∃ r, jacRow o x i st = .ok r ∧ r.1.len = nt ∧ r.2.len = st.2.len ∧
      (∀ it < nt, r.2.cell (i * nt + it) = (jac p (rows nt nx T) fun k : Fin nx => X i k)[it]?) ∧ ∀ c, (∀ it < nt, c ≠ i * nt + it) → r.2.cell c = st.2.cell c := by
  obtain ⟨s, e1, h1, h2, h3, h4⟩ := scan_ok h hx hb hi hw
  unfold jacRow
  rw [e1, ok_bind]
  have hm : minSearch (fun k : Fin nx => X i k) (rows nt nx T) 0 (1, 0) = (s.minVal, s.minLoc) := h1.symm
  by_cases h0 : s.minVal = 0
  · rw [if_pos h0]
    have hl : s.minLoc < nt := h2.resolve_left (by rw [h0]; norm_num)
    obtain ⟨j, f1, f2, f3, f4⟩ := fill_ok (α := ℝ) hi hb' (fun _ => 0) hj (body := fun it j => do write j (← lin i o.nt it) 0) (fun it hit j => by rw [h.hnt])
    unfold zeroRow
    rw [h.hnt] at f1 ⊢
    have hlt := flat_lt hi hl
    rw [f1, ok_bind, lin_ok (by omega), ok_bind, write_ok _ (by omega), ok_bind, pure_ok]
    refine ⟨_, rfl, h3, f2, fun it hit => ?_, fun c hc => ?_⟩
    · simp only [jac, hm]
      rw [if_pos h0]
      by_cases e : it = s.minLoc
      · rw [e, Function.update_self, List.getElem?_set_self (by simpa [rows] using hl)]
      · rw [Function.update_of_ne (by omega), f3 it hit, List.getElem?_set_ne (by omega)]
        simp [rows, hit]
    · show Function.update j.cell _ _ c = _
      rw [Function.update_of_ne (hc _ hl)]; exact f4 c hc
  · rw [if_neg h0, total_ok h.hnt h3 h4, ok_bind]
    have hwt : (List.range nt).map (fun it => weight p (fun k : Fin nx => X i k) fun k => T it k) = (rows nt nx T).map (weight p fun k : Fin nx => X i k) := by
      simp [rows, Function.comp_def]
    rw [hwt]
    obtain ⟨j, f1, f2, f3, f4⟩ := fill_ok (α := ℝ) hi hb' (fun it => weight p (fun k : Fin nx => X i k) (fun k => T it k) / ((rows nt nx T).map (weight p fun k : Fin nx => X i k)).foldl (· + ·) 0) hj
      (body := fun it j => do
        let v ← read s.w it
        write j (← lin i o.nt it) (v / ((rows nt nx T).map (weight p fun k : Fin nx => X i k)).foldl (· + ·) 0))
      (fun it hit j => by rw [read_ok (by omega) (h4 it hit), ok_bind, h.hnt])
    rw [h.hnt] at f1 ⊢
    rw [f1, ok_bind, pure_ok]
    refine ⟨_, rfl, h3, f2, fun it hit => ?_, f4⟩
    rw [f3 it hit]
    simp only [jac, hm]
    rw [if_neg h0]
    simp [rows, hit]

/-- **C98** `compute_jac`: with the arrays it is meant for, and sizes of at most 2^31, it has a result (no undefined behaviour), and that result is, row after row, the weights of C29; memory behind them is
left alone. -/
theorem C98_idw_kernel (h : Ready o nt nx p T) (hx : Holds x n nx X) (hb : n * nx ≤ 2 ^ 31) (hb' : n * nt ≤ 2 ^ 31) {j : Buf ℝ} (hj : n * nt ≤ j.len) :
    ∃ r, computeJac o n x j = .ok r ∧ r.1.len = nt ∧ r.2.len = j.len ∧ Holds r.2 n nt (fun i it => (jac p (rows nt nx T) fun k : Fin nx => X i k).getD it 0) ∧
      ∀ c, n * nt ≤ c → r.2.cell c = j.cell c := by
  have key : ∃ r, computeJac o n x j = .ok r ∧ r.1.len = nt ∧ r.2.len = j.len ∧ (∀ i < n, ∀ it < nt, r.2.cell (i * nt + it) = (jac p (rows nt nx T) fun k : Fin nx => X i k)[it]?) ∧
      ∀ c, n * nt ≤ c → r.2.cell c = j.cell c := by
    refine loop_ok (fun m (r : Buf ℝ × Buf ℝ) => r.1.len = nt ∧ r.2.len = j.len ∧ (∀ i < m, ∀ it < nt, r.2.cell (i * nt + it) = (jac p (rows nt nx T) fun k : Fin nx => X i k)[it]?) ∧
        ∀ c, n * nt ≤ c → r.2.cell c = j.cell c)
      ⟨h.hw, rfl, fun i hi => by omega, fun _ _ => rfl⟩ fun i hi st ⟨h1, h2, h3, h4⟩ => ?_
    obtain ⟨r, e, r1, r2, r3, r4⟩ := jacRow_ok h hx hb hb' hi h1 (by omega)
    refine ⟨r, e, r1, r2.trans h2, fun i' hi' it hit => ?_, fun c hc => ?_⟩
    · by_cases e : i' = i
      · subst e; exact r3 it hit
      · rw [r4 _ fun it' hit' hc => e (flat_inj hit hit' hc).1]; exact h3 i' (by omega) it hit
    · rw [r4 c fun it hit => by have := flat_lt hi hit; omega]; exact h4 c hc
  obtain ⟨r, e, r1, r2, r3, r4⟩ := key
  refine ⟨r, e, r1, r2, ⟨by omega, fun i hi it hit => ?_⟩, r4⟩
  have hl : it < (jac p (rows nt nx T) fun k : Fin nx => X i k).length := by rw [SMT.Idw.jac_length, rows_length]; exact hit
  dsimp only
  rw [r3 i hi it hit, List.getD_eq_getElem?_getD, List.getElem?_eq_getElem hl]; rfl

end SMT.Native.Idw
