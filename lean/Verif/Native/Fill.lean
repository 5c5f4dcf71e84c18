import Verif.Native.C

set_option linter.unusedSectionVars false
set_option linter.unusedSimpArgs false
set_option linter.unusedVariables false

/-!
# Tables written entry by entry
-/
namespace SMT.Native

variable {α : Type}

/-- Specification: `j` is `j0` with columns `o..o+k-1` of the rows `0..n-1` of a table with `D` columns replaced by `f`. -/
def Filled (j0 j : Buf α) (n D o k : ℕ) (f : ℕ → ℕ → α) : Prop :=
  j.len = j0.len ∧ (∀ i < n, ∀ q < k, j.cell (i * D + (o + q)) = some (f i q)) ∧ ∀ c, (∀ i < n, ∀ q < k, c ≠ i * D + (o + q)) → j.cell c = j0.cell c

/-- One row. -/
lemma rowFill_ok {n D o k i : ℕ} (hi : i < n) (hk : o + k ≤ D) (f : ℕ → α) {j0 : Buf α} (hj : n * D ≤ j0.len) {body : ℕ → Buf α → C (Buf α)}
    (hbody : ∀ q < k, ∀ j, body q j = write j ((i * D + (o + q) : ℕ) : ℤ) (f q)) :
    ∃ j, loop k j0 body = .ok j ∧ j.len = j0.len ∧ (∀ q < k, j.cell (i * D + (o + q)) = some (f q)) ∧ ∀ c, (∀ q < k, c ≠ i * D + (o + q)) → j.cell c = j0.cell c := by
  refine loop_ok (fun m (j : Buf α) => j.len = j0.len ∧ (∀ q < m, j.cell (i * D + (o + q)) = some (f q)) ∧ ∀ c, (∀ q < k, c ≠ i * D + (o + q)) → j.cell c = j0.cell c)
    ⟨rfl, fun q hq => by omega, fun _ _ => rfl⟩ fun m hm j ⟨h1, h2, h3⟩ => ?_
  have hl := flat_lt hi (show o + m < D by omega)
  rw [hbody m hm, write_ok _ (by omega)]
  refine ⟨_, rfl, h1, fun q hq => ?_, fun c hc => ?_⟩
  · dsimp only
    by_cases e : q = m
    · subst e; rw [Function.update_self]
    · rw [Function.update_of_ne (by omega)]; exact h2 q (by omega)
  · dsimp only
    rw [Function.update_of_ne (hc m hm)]; exact h3 c hc

/-- All rows. -/
lemma fill_rows {n D o k : ℕ} (hk : o + k ≤ D) (f : ℕ → ℕ → α) {j0 : Buf α} (hj : n * D ≤ j0.len) {body : ℕ → Buf α → C (Buf α)}
    (hbody : ∀ i < n, ∀ j : Buf α, j.len = j0.len → ∃ j', body i j = .ok j' ∧ j'.len = j.len ∧ (∀ q < k, j'.cell (i * D + (o + q)) = some (f i q)) ∧
      ∀ c, (∀ q < k, c ≠ i * D + (o + q)) → j'.cell c = j.cell c) :
    ∃ j, loop n j0 body = .ok j ∧ Filled j0 j n D o k f := by
  refine loop_ok (fun m (j : Buf α) => j.len = j0.len ∧ (∀ i < m, ∀ q < k, j.cell (i * D + (o + q)) = some (f i q)) ∧
      ∀ c, (∀ i < n, ∀ q < k, c ≠ i * D + (o + q)) → j.cell c = j0.cell c)
    ⟨rfl, fun i hi => by omega, fun _ _ => rfl⟩ fun i hi j ⟨h1, h2, h3⟩ => ?_
  obtain ⟨j', e, r1, r2, r3⟩ := hbody i hi j h1
  refine ⟨j', e, r1.trans h1, fun i' hi' q hq => ?_, fun c hc => ?_⟩
  · by_cases e : i' = i
    · subst e; exact r2 q hq
    · rw [r3 _ fun q' hq' hc => e (flat_inj (by omega) (by omega) hc).1]; exact h2 i' (by omega) q hq
  · rw [r3 c (hc i hi)]; exact h3 c hc

/-- All entries, one by one. -/
lemma fill_table {n D o k : ℕ} (hk : o + k ≤ D) (f : ℕ → ℕ → α) {j0 : Buf α} (hj : n * D ≤ j0.len) {body : ℕ → ℕ → Buf α → C (Buf α)}
    (hbody : ∀ i < n, ∀ q < k, ∀ j, body i q j = write j ((i * D + (o + q) : ℕ) : ℤ) (f i q)) :
    ∃ j, loop n j0 (fun i j => loop k j (body i)) = .ok j ∧ Filled j0 j n D o k f :=
  fill_rows hk f hj fun i hi j h => rowFill_ok hi hk (f i) (by omega) (hbody i hi)

lemma Filled.refl (j : Buf α) (n D o : ℕ) (f : ℕ → ℕ → α) : Filled j j n D o 0 f := ⟨rfl, fun _ _ q hq => by omega, fun _ _ => rfl⟩

/-- Entries that were not written. -/
lemma Filled.other {j0 j : Buf α} {n D o k : ℕ} {f : ℕ → ℕ → α} (h : Filled j0 j n D o k f) (hk : o + k ≤ D) {i q : ℕ} (hq : q < D) (ho : q < o ∨ o + k ≤ q) :
    j.cell (i * D + q) = j0.cell (i * D + q) :=
  h.2.2 _ fun i' hi' q' hq' hc => by have := (flat_inj hq (by omega) hc).2; omega

/-- Cells behind the table. -/
lemma Filled.behind {j0 j : Buf α} {n D o k : ℕ} {f : ℕ → ℕ → α} (h : Filled j0 j n D o k f) (hk : o + k ≤ D) {c : ℕ} (hc : n * D ≤ c) : j.cell c = j0.cell c :=
  h.2.2 _ fun i hi q hq e => by have := flat_lt hi (show o + q < D by omega); omega

/-! ## Cells that get a value depending only on their position, in any order -/

/-- Specification: `d` is `d0` after writes below `N`, all of them of `V c` to cell `c`; the cells in `vis` were written. -/
def Vis (d0 d : Buf α) (N : ℕ) (V : ℕ → α) (vis : ℕ → Prop) : Prop := d.len = d0.len ∧ (∀ c, vis c → d.cell c = some (V c)) ∧ ∀ c, N ≤ c → d.cell c = d0.cell c

lemma Vis.start (d0 : Buf α) (N : ℕ) (V : ℕ → α) : Vis d0 d0 N V fun _ => False := ⟨rfl, fun _ h => h.elim, fun _ _ => rfl⟩

lemma Vis.mono {d0 d : Buf α} {N : ℕ} {V : ℕ → α} {vis vis' : ℕ → Prop} (h : Vis d0 d N V vis) (hv : ∀ c, vis' c → vis c) : Vis d0 d N V vis' :=
  ⟨h.1, fun c hc => h.2.1 c (hv c hc), h.2.2⟩

lemma Vis.write {d0 d : Buf α} {N : ℕ} {V : ℕ → α} {vis : ℕ → Prop} (h : Vis d0 d N V vis) (hN : N ≤ d0.len) {a : ℕ} (ha : a < N) {v : α} (hv : v = V a) :
    ∃ d', Native.write d (a : ℤ) v = .ok d' ∧ Vis d0 d' N V fun c => vis c ∨ c = a := by
  obtain ⟨h1, h2, h3⟩ := h
  rw [write_ok _ (by omega)]
  refine ⟨_, rfl, h1, fun c hc => ?_, fun c hc => ?_⟩
  · dsimp only
    by_cases e : c = a
    · subst e; rw [Function.update_self, hv]
    · rw [Function.update_of_ne e]; exact h2 c (hc.resolve_right e)
  · dsimp only
    rw [Function.update_of_ne (by omega)]; exact h3 c hc

lemma Vis.loop {d0 d : Buf α} {N : ℕ} {V : ℕ → α} {vis : ℕ → Prop} (h : Vis d0 d N V vis) {m : ℕ} {body : ℕ → Buf α → C (Buf α)} (w : ℕ → ℕ → Prop)
    (hb : ∀ i < m, ∀ d vis, Vis d0 d N V vis → ∃ d', body i d = .ok d' ∧ Vis d0 d' N V fun c => vis c ∨ w i c) :
    ∃ d', Native.loop m d body = .ok d' ∧ Vis d0 d' N V fun c => vis c ∨ ∃ i < m, w i c := by
  refine loop_ok (fun k d => Vis d0 d N V fun c => vis c ∨ ∃ i < k, w i c) (h.mono fun c hc => hc.elim id (fun ⟨i, hi, _⟩ => by omega)) fun i hi d hd => ?_
  obtain ⟨d', e, hd'⟩ := hb i hi d _ hd
  refine ⟨d', e, hd'.mono fun c hc => ?_⟩
  rcases hc with hc | ⟨k, hk, hw⟩
  · exact .inl (.inl hc)
  · rcases Nat.lt_succ_iff_lt_or_eq.1 hk with hk | rfl
    · exact .inl (.inr ⟨k, hk, hw⟩)
    · exact .inr hw

end SMT.Native
