import Verif.Native.IdwProps

set_option linter.unusedSectionVars false
set_option linter.unusedSimpArgs false
set_option linter.unusedVariables false

/-!
# IDW: derivative kernel, exact conditions, histories of calls
-/
namespace SMT.Native.Idw

open SMT.Idw (r2 minSearch weight jac dweight jacDerivs)

variable {o : Obj} {nt nx n : ℕ} {p : ℝ} {T X : ℕ → ℕ → ℝ} {x : Buf ℝ}

/-! ## The derivative kernel -/

lemma scanD_ok (h : Ready o nt nx p T) (hx : Holds x n nx X) (hb : n * nx ≤ 2 ^ 31) (kx : Fin nx) {i : ℕ} (hi : i < n) {w dw : Buf ℝ} (hw : w.len = nt) (hdw : dw.len = nt) :
    ∃ s, scanD o (kx : ℕ) x i w dw = .ok s ∧ (s.minVal, s.minLoc) = minSearch (fun k : Fin nx => X i k) (rows nt nx T) 0 (1, 0) ∧
      s.w.len = nt ∧ s.dw.len = nt ∧ (∀ it < nt, s.w.cell it = some (weight p (fun k : Fin nx => X i k) fun k => T it k)) ∧
      ∀ it < nt, s.dw.cell it = some (dweight p kx (fun k : Fin nx => X i k) fun k => T it k) := by
  unfold scanD
  rw [h.hnt]
  refine loop_ok (fun k (s : Scan) => (s.minVal, s.minLoc) = minSearch (fun k : Fin nx => X i k) (rows k nx T) 0 (1, 0) ∧
      s.w.len = nt ∧ s.dw.len = nt ∧ (∀ it < k, s.w.cell it = some (weight p (fun k : Fin nx => X i k) fun k => T it k)) ∧
      ∀ it < k, s.dw.cell it = some (dweight p kx (fun k : Fin nx => X i k) fun k => T it k))
    ⟨rfl, hw, hdw, fun it hit => by omega, fun it hit => by omega⟩ fun k hk s ⟨h1, h3, h3', h4, h5⟩ => ?_
  rw [dist2_ok h hx hb hi hk, ok_bind, h.hnx, hx.read' hb hi kx.2, ok_bind, h.hxt.read' h.small hk kx.2, ok_bind]
  dsimp only
  rw [write_ok _ (by rw [h3]; exact hk), ok_bind, write_ok _ (by rw [h3']; exact hk), ok_bind, pure_ok, h.hp]
  refine ⟨_, rfl, ?_⟩
  rw [rows_succ, minSearch_append, ← h1, rows_length]
  have hc : ∀ it < k + 1, Function.update s.w.cell k (some (r2 (fun k : Fin nx => X i k) (fun ix => T k ix) ^ (-p / 2))) it = some (weight p (fun k : Fin nx => X i k) fun k => T it k) := by
    intro it hit
    by_cases e : it = k
    · subst e; rw [Function.update_self]; rfl
    · rw [Function.update_of_ne e]; exact h4 it (by omega)
  have hd : ∀ it < k + 1, Function.update s.dw.cell k (some (-p / 2 * r2 (fun k : Fin nx => X i k) (fun ix => T k ix) ^ (-p / 2 - 1) * (2 * (X i kx - T k kx)))) it =
      some (dweight p kx (fun k : Fin nx => X i k) fun k => T it k) := by
    intro it hit
    by_cases e : it = k
    · subst e; rw [Function.update_self]; rfl
    · rw [Function.update_of_ne e]; exact h5 it (by omega)
  dsimp only
  by_cases hlt : r2 (fun k : Fin nx => X i k) (fun ix => T k ix) < s.minVal
  · rw [if_pos hlt, if_pos hlt]
    exact ⟨by simp, h3, h3', hc, hd⟩
  · rw [if_neg hlt, if_neg hlt]
    exact ⟨rfl, h3, h3', hc, hd⟩

lemma jacDerivs_length {nx : ℕ} (p : ℝ) (xt : List (Fin nx → ℝ)) (kx : Fin nx) (x : Fin nx → ℝ) : (jacDerivs p xt kx x).length = xt.length := by
  unfold jacDerivs; dsimp only; split <;> simp

lemma derivRow_ok (h : Ready o nt nx p T) (hx : Holds x n nx X) (hb : n * nx ≤ 2 ^ 31) (hb' : n * nt ≤ 2 ^ 31) (kx : Fin nx) {i : ℕ} (hi : i < n) {st : Buf ℝ × Buf ℝ × Buf ℝ}
    (hw : st.1.len = nt) (hdw : st.2.1.len = nt) (hj : n * nt ≤ st.2.2.len) :
    ∃ r, derivRow o (kx : ℕ) x i st = .ok r ∧ r.1.len = nt ∧ r.2.1.len = nt ∧ r.2.2.len = st.2.2.len ∧
      (∀ it < nt, r.2.2.cell (i * nt + it) = (jacDerivs p (rows nt nx T) kx fun k : Fin nx => X i k)[it]?) ∧ ∀ c, (∀ it < nt, c ≠ i * nt + it) → r.2.2.cell c = st.2.2.cell c := by
  obtain ⟨s, e1, h1, h3, h3', h4, h5⟩ := scanD_ok h hx hb kx hi hw hdw
  unfold derivRow
  rw [e1, ok_bind]
  have hm : minSearch (fun k : Fin nx => X i k) (rows nt nx T) 0 (1, 0) = (s.minVal, s.minLoc) := h1.symm
  by_cases h0 : s.minVal = 0
  · rw [if_pos h0]
    obtain ⟨j, f1, f2, f3, f4⟩ := fill_ok (α := ℝ) hi hb' (fun _ => 0) hj (body := fun it j => do write j (← lin i o.nt it) 0) (fun it hit j => by rw [h.hnt])
    unfold zeroRow
    rw [h.hnt] at f1 ⊢
    rw [f1, ok_bind, pure_ok]
    refine ⟨_, rfl, h3, h3', f2, fun it hit => ?_, f4⟩
    rw [f3 it hit]
    simp only [jacDerivs, hm]
    rw [if_pos h0]
    simp [rows, hit]
  · rw [if_neg h0, total_ok h.hnt h3 h4, ok_bind, total_ok h.hnt h3' h5, ok_bind]
    have hwt : (List.range nt).map (fun it => weight p (fun k : Fin nx => X i k) fun k => T it k) = (rows nt nx T).map (weight p fun k : Fin nx => X i k) := by
      simp [rows, Function.comp_def]
    have hdt : (List.range nt).map (fun it => dweight p kx (fun k : Fin nx => X i k) fun k => T it k) = (rows nt nx T).map (dweight p kx fun k : Fin nx => X i k) := by
      simp [rows, Function.comp_def]
    rw [hwt, hdt]
    generalize hS : ((rows nt nx T).map (weight p fun k : Fin nx => X i k)).foldl (· + ·) 0 = S
    generalize hD : ((rows nt nx T).map (dweight p kx fun k : Fin nx => X i k)).foldl (· + ·) 0 = D
    obtain ⟨j, f1, f2, f3, f4⟩ := fill_ok (α := ℝ) hi hb' (fun it => (dweight p kx (fun k : Fin nx => X i k) (fun k => T it k) * S - weight p (fun k : Fin nx => X i k) (fun k => T it k) * D) / S ^ 2) hj
      (body := fun it j => do
        let dv ← read s.dw it
        let v ← read s.w it
        write j (← lin i o.nt it) ((dv * S - v * D) / S ^ 2))
      (fun it hit j => by rw [read_ok (by omega) (h5 it hit), ok_bind, read_ok (by omega) (h4 it hit), ok_bind, h.hnt])
    rw [h.hnt] at f1 ⊢
    rw [f1, ok_bind, pure_ok]
    refine ⟨_, rfl, h3, h3', f2, fun it hit => ?_, f4⟩
    rw [f3 it hit]
    simp only [jacDerivs, hm]
    rw [if_neg h0, hS, hD]
    simp [rows, hit]

/-- **C98** `compute_jac_derivs`, for an input that exists: no undefined behaviour, and the rows are those of C30. -/
theorem C98_idw_derivative_kernel (h : Ready o nt nx p T) (hx : Holds x n nx X) (hb : n * nx ≤ 2 ^ 31) (hb' : n * nt ≤ 2 ^ 31) (kx : Fin nx) {j : Buf ℝ} (hj : n * nt ≤ j.len) :
    ∃ r, computeDerivs o n (kx : ℕ) x j = .ok r ∧ r.1.len = nt ∧ r.2.1.len = nt ∧ r.2.2.len = j.len ∧
      Holds r.2.2 n nt fun i it => (jacDerivs p (rows nt nx T) kx fun k : Fin nx => X i k).getD it 0 := by
  have key : ∃ r, computeDerivs o n (kx : ℕ) x j = .ok r ∧ r.1.len = nt ∧ r.2.1.len = nt ∧ r.2.2.len = j.len ∧
      ∀ i < n, ∀ it < nt, r.2.2.cell (i * nt + it) = (jacDerivs p (rows nt nx T) kx fun k : Fin nx => X i k)[it]? := by
    refine loop_ok (fun m (r : Buf ℝ × Buf ℝ × Buf ℝ) => r.1.len = nt ∧ r.2.1.len = nt ∧ r.2.2.len = j.len ∧
        ∀ i < m, ∀ it < nt, r.2.2.cell (i * nt + it) = (jacDerivs p (rows nt nx T) kx fun k : Fin nx => X i k)[it]?)
      ⟨h.hw, h.hdw, rfl, fun i hi => by omega⟩ fun i hi st ⟨h1, h1', h2, h3⟩ => ?_
    obtain ⟨r, e, r1, r1', r2, r3, r4⟩ := derivRow_ok h hx hb hb' kx hi h1 h1' (by omega)
    refine ⟨r, e, r1, r1', r2.trans h2, fun i' hi' it hit => ?_⟩
    by_cases e : i' = i
    · subst e; exact r3 it hit
    · rw [r4 _ fun it' hit' hc => e (flat_inj hit hit' hc).1]; exact h3 i' (by omega) it hit
  obtain ⟨r, e, r1, r1', r2, r3⟩ := key
  refine ⟨r, e, r1, r1', r2, by omega, fun i hi it hit => ?_⟩
  have hl : it < (jacDerivs p (rows nt nx T) kx fun k : Fin nx => X i k).length := by rw [jacDerivs_length, rows_length]; exact hit
  dsimp only
  rw [r3 i hi it hit, List.getD_eq_getElem?_getD, List.getElem?_eq_getElem hl]; rfl

/-! ## What a result implies -/

lemma dist2_reads {i it : ℕ} {r : ℝ} (h : dist2 o x i it = .ok r) (hn : 0 < o.nx) : i * o.nx + o.nx ≤ x.len ∧ it * o.nx + o.nx ≤ o.xt.len := by
  obtain ⟨-, hl⟩ := loop_inv (fun _ => True) trivial (fun _ _ _ _ _ _ => trivial) h
  obtain ⟨s, s', -, e⟩ := hl (o.nx - 1) (by omega)
  obtain ⟨a, ea, e⟩ := bind_eq_ok.1 e
  obtain ⟨b, eb, e⟩ := bind_eq_ok.1 e
  obtain ⟨k, ek, er⟩ := bind_eq_ok.1 ea
  obtain ⟨rfl, -⟩ := lin_eq_ok ek
  obtain ⟨k', ek', er'⟩ := bind_eq_ok.1 eb
  obtain ⟨rfl, -⟩ := lin_eq_ok ek'
  have h1 := (read_eq_ok er).2.1
  have h2 := (read_eq_ok er').2.1
  have c : ((o.nx - 1 : ℕ) : ℤ) = (o.nx : ℤ) - 1 := by omega
  rw [c] at h1 h2
  constructor
  · have : ((i * o.nx + o.nx : ℕ) : ℤ) ≤ x.len := by push_cast; omega
    exact_mod_cast this
  · have : ((it * o.nx + o.nx : ℕ) : ℤ) ≤ o.xt.len := by push_cast; omega
    exact_mod_cast this

lemma zeroRow_writes {i : ℕ} {j j' : Buf ℝ} (h : zeroRow o i j = .ok j') (hn : 0 < o.nt) : j'.len = j.len ∧ i * o.nt + o.nt ≤ j.len := by
  obtain ⟨h1, hl⟩ := loop_inv (fun b : Buf ℝ => b.len = j.len) rfl (fun it _ s s' hs e => by
    obtain ⟨k, ek, e⟩ := bind_eq_ok.1 e
    rw [(write_eq_ok e).2.2, hs]) h
  refine ⟨h1, ?_⟩
  obtain ⟨s, s', hs, e⟩ := hl (o.nt - 1) (by omega)
  obtain ⟨k, ek, e⟩ := bind_eq_ok.1 e
  obtain ⟨rfl, -⟩ := lin_eq_ok ek
  have h2 := (write_eq_ok e).2.1
  have c : ((o.nt - 1 : ℕ) : ℤ) = (o.nt : ℤ) - 1 := by omega
  rw [c, hs] at h2
  have : ((i * o.nt + o.nt : ℕ) : ℤ) ≤ j.len := by push_cast; omega
  exact_mod_cast this

/-- A row that is written entry by entry. -/
lemma fill_writes {α : Type} {nt i : ℕ} {j j' : Buf α} {body : ℕ → Buf α → C (Buf α)}
    (hbody : ∀ it j j', body it j = .ok j' → ∃ k v, lin i nt it = .ok k ∧ write j k v = .ok j') (h : loop nt j body = .ok j') (hn : 0 < nt) :
    j'.len = j.len ∧ i * nt + nt ≤ j.len := by
  obtain ⟨h1, hl⟩ := loop_inv (fun b : Buf α => b.len = j.len) rfl (fun it _ s s' hs e => by
    obtain ⟨k, v, ek, e⟩ := hbody _ _ _ e
    rw [(write_eq_ok e).2.2, hs]) h
  refine ⟨h1, ?_⟩
  obtain ⟨s, s', hs, e⟩ := hl (nt - 1) (by omega)
  obtain ⟨k, v, ek, e⟩ := hbody _ _ _ e
  obtain ⟨rfl, -⟩ := lin_eq_ok ek
  have h2 := (write_eq_ok e).2.1
  have c : ((nt - 1 : ℕ) : ℤ) = (nt : ℤ) - 1 := by omega
  rw [c, hs] at h2
  have : ((i * nt + nt : ℕ) : ℤ) ≤ j.len := by push_cast; omega
  exact_mod_cast this

lemma jacRow_needs {i : ℕ} {st r : Buf ℝ × Buf ℝ} (h : jacRow o x i st = .ok r) (hx : 0 < o.nx) (ht : 0 < o.nt) :
    r.2.len = st.2.len ∧ i * o.nx + o.nx ≤ x.len ∧ i * o.nt + o.nt ≤ st.2.len := by
  unfold jacRow at h
  obtain ⟨s, es, h⟩ := bind_eq_ok.1 h
  obtain ⟨-, hl⟩ := loop_inv (fun _ => True) trivial (fun _ _ _ _ _ _ => trivial) es
  obtain ⟨s0, s0', -, e0⟩ := hl 0 ht
  obtain ⟨d, ed, -⟩ := bind_eq_ok.1 e0
  have hd := (dist2_reads ed hx).1
  by_cases h0 : s.minVal = 0
  · rw [if_pos h0] at h
    obtain ⟨j, ej, h⟩ := bind_eq_ok.1 h
    obtain ⟨k, ek, h⟩ := bind_eq_ok.1 h
    obtain ⟨j', ej', h⟩ := bind_eq_ok.1 h
    cases h
    obtain ⟨z1, z2⟩ := zeroRow_writes ej ht
    exact ⟨(write_eq_ok ej').2.2.trans z1, hd, z2⟩
  · rw [if_neg h0] at h
    obtain ⟨S, eS, h⟩ := bind_eq_ok.1 h
    obtain ⟨j, ej, h⟩ := bind_eq_ok.1 h
    cases h
    obtain ⟨z1, z2⟩ := fill_writes (fun it j j' e => by
      obtain ⟨v, -, e⟩ := bind_eq_ok.1 e
      obtain ⟨k, ek, e⟩ := bind_eq_ok.1 e
      exact ⟨k, _, ek, e⟩) ej ht
    exact ⟨z1, hd, z2⟩

lemma computeJac_needs {j : Buf ℝ} {r : Buf ℝ × Buf ℝ} (h : computeJac o n x j = .ok r) (hn : 0 < n) (hx : 0 < o.nx) (ht : 0 < o.nt) : n * o.nx ≤ x.len ∧ n * o.nt ≤ j.len := by
  obtain ⟨-, hl⟩ := loop_inv (fun s : Buf ℝ × Buf ℝ => s.2.len = j.len) rfl (fun i _ s s' hs e => (jacRow_needs e hx ht).1.trans hs) h
  obtain ⟨s, s', hs, e⟩ := hl (n - 1) (by omega)
  obtain ⟨-, h1, h2⟩ := jacRow_needs e hx ht
  obtain ⟨m, rfl⟩ : ∃ m, n = m + 1 := ⟨n - 1, by omega⟩
  simp only [Nat.add_sub_cancel] at h1 h2
  rw [hs] at h2
  exact ⟨by linarith, by linarith⟩

lemma derivRow_needs {kx : ℤ} (hx : 0 < o.nx) (ht : 0 < o.nt) (i : ℕ) (st r : Buf ℝ × Buf ℝ × Buf ℝ) (h : derivRow o kx x i st = .ok r) : r.2.2.len = st.2.2.len ∧ i * o.nx + o.nx ≤ x.len ∧ i * o.nt + o.nt ≤ st.2.2.len ∧
      0 ≤ (i : ℤ) * o.nx + kx ∧ (i : ℤ) * o.nx + kx < x.len ∧ ((o.nt - 1 : ℕ) : ℤ) * o.nx + kx < o.xt.len := by
  unfold derivRow at h
  obtain ⟨s, es, h⟩ := bind_eq_ok.1 h
  obtain ⟨-, hl⟩ := loop_inv (fun _ => True) trivial (fun _ _ _ _ _ _ => trivial) es
  obtain ⟨s0, s0', -, e0⟩ := hl (o.nt - 1) (by omega)
  obtain ⟨d, ed, e0⟩ := bind_eq_ok.1 e0
  obtain ⟨a, ea, e0⟩ := bind_eq_ok.1 e0
  obtain ⟨b, eb, e0⟩ := bind_eq_ok.1 e0
  obtain ⟨k, ek, er⟩ := bind_eq_ok.1 ea
  obtain ⟨rfl, -⟩ := lin_eq_ok ek
  obtain ⟨k', ek', er'⟩ := bind_eq_ok.1 eb
  obtain ⟨rfl, -⟩ := lin_eq_ok ek'
  have hd := (dist2_reads ed hx).1
  have hk := read_eq_ok er
  have hk' := read_eq_ok er'
  by_cases h0 : s.minVal = 0
  · rw [if_pos h0] at h
    obtain ⟨j, ej, h⟩ := bind_eq_ok.1 h
    cases h
    obtain ⟨z1, z2⟩ := zeroRow_writes ej ht
    exact ⟨z1, hd, z2, hk.1, hk.2.1, hk'.2.1⟩
  · rw [if_neg h0] at h
    obtain ⟨S, eS, h⟩ := bind_eq_ok.1 h
    obtain ⟨D, eD, h⟩ := bind_eq_ok.1 h
    obtain ⟨j, ej, h⟩ := bind_eq_ok.1 h
    cases h
    obtain ⟨z1, z2⟩ := fill_writes (fun it j j' e => by
      obtain ⟨v, -, e⟩ := bind_eq_ok.1 e
      obtain ⟨v', -, e⟩ := bind_eq_ok.1 e
      obtain ⟨k, ek, e⟩ := bind_eq_ok.1 e
      exact ⟨k, _, ek, e⟩) ej ht
    exact ⟨z1, hd, z2, hk.1, hk.2.1, hk'.2.1⟩

lemma computeDerivs_needs {j : Buf ℝ} {kx : ℤ} {r : Buf ℝ × Buf ℝ × Buf ℝ} (h : computeDerivs o n kx x j = .ok r) (hn : 0 < n) (hx : 0 < o.nx) (ht : 0 < o.nt) :
    0 ≤ kx ∧ ((n - 1 : ℕ) : ℤ) * o.nx + kx < x.len ∧ ((o.nt - 1 : ℕ) : ℤ) * o.nx + kx < o.xt.len ∧ n * o.nx ≤ x.len ∧ n * o.nt ≤ j.len := by
  have row := derivRow_needs (o := o) (x := x) (kx := kx) hx ht
  obtain ⟨-, hl⟩ := loop_inv (fun s : Buf ℝ × Buf ℝ × Buf ℝ => s.2.2.len = j.len) rfl (fun i _ s s' hs e => (row _ _ _ e).1.trans hs) h
  obtain ⟨s, s', hs, e⟩ := hl (n - 1) (by omega)
  obtain ⟨s2, s2', hs2, e2⟩ := hl 0 hn
  obtain ⟨-, h1, h2, -, h4, h5⟩ := row _ _ _ e
  have h6 := (row _ _ _ e2).2.2.2.1
  obtain ⟨m, rfl⟩ : ∃ m, n = m + 1 := ⟨n - 1, by omega⟩
  simp only [Nat.add_sub_cancel] at h1 h2
  rw [hs] at h2
  exact ⟨by simpa using h6, h4, h5, by linarith, by linarith⟩

end SMT.Native.Idw
