import Verif.Native.Rmtb
import Verif.Native.RmtProps
import Verif.Rmtb.Props

set_option linter.unusedSectionVars false
set_option linter.unusedSimpArgs false
set_option linter.unusedVariables false

/-!
# The B-spline kernels stay inside their arrays and compute the numbers of `Verif/BSpline/Model.lean`
-/
namespace SMT.Native

lemma Vec.readZ {α : Type} {b : Buf α} {n : ℕ} {f : ℕ → α} (h : Vec b n f) {z : ℤ} (k : ℕ) (hk : k < n) (e : z = k) : Native.read b z = .ok (f k) := by
  rw [e]; exact h.read hk

/-- Specification: a buffer consists of the cells `f 0, ..., f (n - 1)`. -/
def Exact {α : Type} (b : Buf α) (n : ℕ) (f : ℕ → α) : Prop := b.len = n ∧ ∀ k < n, b.cell k = some (f k)

lemma Exact.vec {α : Type} {b : Buf α} {n : ℕ} {f : ℕ → α} (h : Exact b n f) : Vec b n f := ⟨h.1.ge, h.2⟩

lemma Exact.readZ {α : Type} {b : Buf α} {n : ℕ} {f : ℕ → α} (h : Exact b n f) {z : ℤ} (k : ℕ) (hk : k < n) (e : z = k) : Native.read b z = .ok (f k) := h.vec.readZ k hk e

lemma Exact.writeZ {α : Type} {b : Buf α} {n : ℕ} {f : ℕ → α} (h : Exact b n f) {z : ℤ} (k : ℕ) (hk : k < n) (e : z = k) (v : α) :
    ∃ b', write b z v = .ok b' ∧ Exact b' n (Function.update f k v) := by
  rw [e, write_ok _ (by rw [h.1]; exact hk)]
  refine ⟨_, rfl, h.1, fun j hj => ?_⟩
  dsimp only
  by_cases e : j = k
  · subst e; rw [Function.update_self, Function.update_self]
  · rw [Function.update_of_ne e, Function.update_of_ne e]; exact h.2 j hj

end SMT.Native

namespace SMT.Native.Rmtb
open SMT.BSpline (knotU)

/-- `compute_i_start` returns -1 where the model has no span. -/
def span (o : Option ℕ) : ℤ := o.elim (-1) fun s => s

lemma knotVector_ok {q m : ℕ} (h : q + m + 1 < 2 ^ 31) {k : Buf ℝ} (hk : k.len = q + m) : ∃ k', knotVector q m k = .ok k' ∧ Exact k' (q + m) (knotU q m) := by
  unfold knotVector
  rw [← Nat.cast_add, chk_nat (by omega), ok_bind, Int.toNat_natCast]
  obtain ⟨k', e, h1, h2⟩ := loop_ok (n := q + m) (s := k) (body := fun i k => do
    let a ← chk ((i : ℤ) - q)
    let a ← chk (a + 1)
    let b ← chk ((m : ℤ) - q)
    let b ← chk (b + 1)
    write k i ((a : ℝ) / (b : ℝ))) (fun i k => k.len = q + m ∧ ∀ j < i, k.cell j = some (knotU q m j)) ⟨hk, fun j hj => by omega⟩ (fun i hi k ⟨h1, h2⟩ => by
      have c1 : isInt ((i : ℤ) - q) := by constructor <;> [skip; skip] <;> push_cast <;> omega
      have c2 : isInt ((i : ℤ) - q + 1) := by constructor <;> omega
      have c3 : isInt ((m : ℤ) - q) := by constructor <;> omega
      have c4 : isInt ((m : ℤ) - q + 1) := by constructor <;> omega
      rw [chk_ok c1, ok_bind, chk_ok c2, ok_bind, chk_ok c3, ok_bind, chk_ok c4, ok_bind, write_ok _ (by omega)]
      refine ⟨_, rfl, h1, fun j hj => ?_⟩
      dsimp only
      by_cases e : j = i
      · subst e; rw [Function.update_self]; rfl
      · rw [Function.update_of_ne e]; exact h2 j (by omega))
  exact ⟨k', e, h1, h2⟩

variable {q m : ℕ} {t : ℝ} {k : Buf ℝ} {f : ℕ → ℝ}

lemma iStart_ok (hq : 1 ≤ q) (hqm : q ≤ m) (h : Exact k (q + m) f) : iStart q m t k = .ok (span (SMT.BSpline.iStart q m t f)) := by
  unfold iStart SMT.BSpline.iStart
  obtain ⟨s, e1, e2⟩ := loop_foldl (fun (s : ℤ) acc => s = span acc) (body := spanStep q t k)
    (step := fun acc i => if f i ≤ t ∧ t < f (i + 1) then some (i - (q - 1)) else acc) (a := q - 1) (m := m - (q - 1)) (s := (-1 : ℤ)) (t := none) rfl (fun j hj s acc hs => by
      unfold spanStep
      rw [h.readZ (q - 1 + j) (by omega) (by omega), ok_bind]
      by_cases h1 : f (q - 1 + j) ≤ t
      · rw [if_pos h1, h.readZ (q - 1 + j + 1) (by omega) (by omega), ok_bind, pure_ok]
        refine ⟨_, rfl, ?_⟩
        by_cases h2 : t < f (q - 1 + j + 1)
        · rw [if_pos h2, if_pos ⟨h1, h2⟩]; simp only [span, Option.elim]; omega
        · rw [if_neg h2, if_neg (fun hh => h2 hh.2), hs]
      · rw [if_neg h1, if_neg (fun hh => h1 hh.1)]
        exact ⟨_, rfl, hs⟩)
  rw [show ((m : ℤ) - (q - 1)).toNat = m - (q - 1) by omega, e1, ok_bind, h.readZ (q + m - 1) (by omega) (by omega), ok_bind, pure_ok, e2]
  by_cases ht : t = f (q + m - 1)
  · rw [if_pos ht, if_pos ht]; simp only [span, Option.elim]; congr 1; omega
  · rw [if_neg ht, if_neg ht]

lemma zeros_ok {b : Buf ℝ} (hb : b.len = q) : ∃ b', zeros q b = .ok b' ∧ Exact b' q fun _ => 0 := by
  unfold zeros
  rw [Int.toNat_natCast]
  exact loop_ok (fun i (b : Buf ℝ) => b.len = q ∧ ∀ j < i, b.cell j = some 0) ⟨hb, fun j hj => by omega⟩ fun i hi b ⟨h1, h2⟩ => by
    rw [write_ok _ (by omega)]
    refine ⟨_, rfl, h1, fun j hj => ?_⟩
    dsimp only
    by_cases e : j = i
    · subst e; rw [Function.update_self]
    · rw [Function.update_of_ne e]; exact h2 j (by omega)

/-! ## `compute_basis_0` -/

variable {s i : ℕ} {b : Buf ℝ} {g : ℕ → ℝ}

lemma last0_ok (h : Exact k (q + m) f) (hs : s + q ≤ m) (hiq : i < q) (hb : Exact b q g) {z : ℕ} (hz : z < q) :
    ∃ b', last0 s t k i z b = .ok b' ∧ Exact b' q (Function.update g z (if f (s + z + i) ≠ f (s + z) then (t - f (s + z)) / (f (s + z + i) - f (s + z)) * g z else 0)) := by
  unfold last0
  rw [h.readZ (s + z + i) (by omega) (by omega), ok_bind, h.readZ (s + z) (by omega) (by omega), ok_bind]
  by_cases hne : f (s + z + i) ≠ f (s + z)
  · rw [if_pos hne, if_pos hne, hb.readZ z (by omega) rfl, ok_bind]
    exact hb.writeZ _ (by omega) rfl _
  · rw [if_neg hne, if_neg hne]
    exact hb.writeZ _ (by omega) rfl _

lemma mid0_ok (h : Exact k (q + m) f) (hs : s + q ≤ m) (hiq : i < q) (hb : Exact b q g) {z : ℕ} (hz : z + 1 < q) :
    ∃ b', mid0 s t k i z b = .ok b' ∧ Exact b' q (Function.update g z (SMT.BSpline.mid0 f t s i z (g z) (g (z + 1)))) := by
  unfold mid0 SMT.BSpline.mid0
  obtain ⟨b', w1, w2⟩ := last0_ok (t := t) h hs hiq hb (show z < q by omega)
  dsimp only
  rw [w1, ok_bind]
  unfold add0
  rw [h.readZ (s + z + i + 1) (by omega) (by omega), ok_bind, h.readZ (s + z + 1) (by omega) (by omega), ok_bind]
  by_cases hne : f (s + z + i + 1) ≠ f (s + z + 1)
  · rw [if_pos hne, if_pos hne, w2.readZ z (by omega) rfl, ok_bind, w2.readZ (z + 1) (by omega) (by omega), ok_bind]
    have w := w2.writeZ (z := (z : ℤ)) z (by omega) rfl (Function.update g z (if f (s + z + i) ≠ f (s + z) then (t - f (s + z)) / (f (s + z + i) - f (s + z)) * g z else 0) z +
      (f (s + z + i + 1) - t) / (f (s + z + i + 1) - f (s + z + 1)) * Function.update g z (if f (s + z + i) ≠ f (s + z) then (t - f (s + z)) / (f (s + z + i) - f (s + z)) * g z else 0) (z + 1))
    obtain ⟨b'', w3, w4⟩ := w
    refine ⟨b'', w3, ?_⟩
    rwa [Function.update_idem, Function.update_self, Function.update_of_ne (by omega)] at w4
  · rw [if_neg hne, if_neg hne]
    exact ⟨b', rfl, w2⟩

lemma first0_ok (h : Exact k (q + m) f) (hs : s + q ≤ m) (hiq : i < q) (hb : Exact b q g) {z : ℕ} (hz : z + 1 < q) :
    ∃ b', first0 s t k i z b = .ok b' ∧ Exact b' q (Function.update g z
      (if f (s + z + i + 1) ≠ f (s + z + 1) then (f (s + z + i + 1) - t) / (f (s + z + i + 1) - f (s + z + 1)) * g (z + 1) else 0)) := by
  unfold first0
  rw [h.readZ (s + z + i + 1) (by omega) (by omega), ok_bind, h.readZ (s + z + 1) (by omega) (by omega), ok_bind]
  by_cases hne : f (s + z + i + 1) ≠ f (s + z + 1)
  · rw [if_pos hne, if_pos hne, hb.readZ (z + 1) (by omega) (by omega), ok_bind]
    exact hb.writeZ _ (by omega) (by omega) _
  · rw [if_neg hne, if_neg hne]
    exact hb.writeZ _ (by omega) (by omega) _

lemma deg0_ok (h : Exact k (q + m) f) (hs : s + q ≤ m) (hi : 1 ≤ i) (hiq : i < q) (hb : Exact b q g) :
    ∃ b', deg0 q s t k i b = .ok b' ∧ Exact b' q (SMT.BSpline.deg0 f t q s i g) := by
  unfold deg0 SMT.BSpline.deg0
  obtain ⟨b1, e1, hb1⟩ := first0_ok (t := t) h hs hiq hb (show q - i - 1 + 1 < q by omega)
  have hz1 : (q : ℤ) - i - 1 = ((q - i - 1 : ℕ) : ℤ) := by omega
  dsimp only
  rw [hz1, e1, ok_bind]
  obtain ⟨b2, e2, hb2⟩ := loop_foldl (fun (b : Buf ℝ) g => Exact b q g) (body := fun j b => mid0 s t k i (((q - i - 1 : ℕ) : ℤ) + 1 + j) b)
    (step := fun b j => Function.update b j (SMT.BSpline.mid0 f t s i j (b j) (b (j + 1)))) (a := q - i - 1 + 1) (m := q - 1 - (q - i - 1 + 1)) hb1 (fun j hj b g hb => by
      have := mid0_ok (t := t) h hs hiq hb (show q - i - 1 + 1 + j + 1 < q by omega)
      rwa [show ((q - i - 1 + 1 + j : ℕ) : ℤ) = ((q - i - 1 : ℕ) : ℤ) + 1 + j by push_cast; ring] at this)
  rw [show ((q : ℤ) - 1 - (((q - i - 1 : ℕ) : ℤ) + 1)).toNat = q - 1 - (q - i - 1 + 1) by omega, e2, ok_bind]
  have := last0_ok (t := t) h hs hiq hb2 (show q - 1 < q by omega)
  rwa [show ((q - 1 : ℕ) : ℤ) = (q : ℤ) - 1 by omega] at this

/-- **C99** `compute_basis_0` on memory: with knots and a result array of the right size, if the parameter lies in a span, it writes the `order` numbers of C23 and nothing else. -/
theorem C99_basis0 (hq : 1 ≤ q) (hqm : q ≤ m) (h : Exact k (q + m) f) (hs : SMT.BSpline.iStart q m t f = some s) (hsm : s + q ≤ m) (hb : b.len = q) :
    ∃ b', computeBasis0 q m t k b = .ok ((s : ℤ), b') ∧ Exact b' q (SMT.BSpline.basis0 f t q s) := by
  unfold computeBasis0 SMT.BSpline.basis0 SMT.BSpline.init0
  obtain ⟨b1, e1, hb1⟩ := zeros_ok hb
  obtain ⟨b2, e2, hb2⟩ := hb1.writeZ (z := (q : ℤ) - 1) (q - 1) (by omega) (by omega) 1
  obtain ⟨b3, e3, hb3⟩ := loop_foldl (fun (b : Buf ℝ) g => Exact b q g) (body := fun i b => deg0 q s t k ((i : ℤ) + 1) b) (step := fun b i => SMT.BSpline.deg0 f t q s i b) (a := 1) (m := q - 1) hb2
    (fun i hi b g hb => by
      have := deg0_ok (t := t) h hsm (i := 1 + i) (by omega) (by omega) hb
      rwa [show (((1 + i : ℕ) : ℤ)) = (i : ℤ) + 1 by push_cast; ring] at this)
  rw [iStart_ok hq hqm h, hs, ok_bind, e1, ok_bind, e2, ok_bind, show ((q : ℤ) - 1).toNat = q - 1 by omega]
  simp only [span, Option.elim]
  rw [e3, ok_bind, pure_ok]
  exact ⟨b3, rfl, hb3⟩

/-! ## `compute_basis_1` -/

lemma upd_comp {α β : Type} (π : α → β) (g : ℕ → α) (z : ℕ) (v : α) : Function.update (fun j => π (g j)) z (π v) = fun j => π (Function.update g z v j) := by
  funext j
  by_cases e : j = z
  · subst e; rw [Function.update_self, Function.update_self]
  · rw [Function.update_of_ne e, Function.update_of_ne e]

/-- Two arrays hold the components of `g`. -/
def Two (q : ℕ) (b : Buf ℝ × Buf ℝ) (g : ℕ → ℝ × ℝ) : Prop := Exact b.1 q (fun j => (g j).1) ∧ Exact b.2 q fun j => (g j).2

variable {b2 : Buf ℝ × Buf ℝ} {g2 : ℕ → ℝ × ℝ}

lemma mid1_ok (h : Exact k (q + m) f) (hs : s + q ≤ m) (hiq : i < q) (hb : Two q b2 g2) {z : ℕ} (hz : z < q) :
    ∃ b', mid1 q s t k i z b2 = .ok b' ∧ Two q b' (Function.update g2 z (SMT.BSpline.mid1 f t q s i z (g2 z) (g2 (z + 1)))) := by
  obtain ⟨ha, hc⟩ := hb
  have e1 : left1 s t k i z b2 = .ok (if f (s + z + i) ≠ f (s + z) then
      ((t - f (s + z)) / (f (s + z + i) - f (s + z)) * (g2 z).1, ((g2 z).1 + (t - f (s + z)) * (g2 z).2) / (f (s + z + i) - f (s + z))) else (0, 0)) := by
    unfold left1
    rw [h.readZ (s + z + i) (by omega) (by omega), ok_bind, h.readZ (s + z) (by omega) (by omega), ok_bind]
    by_cases hne : f (s + z + i) ≠ f (s + z)
    · rw [if_pos hne, if_pos hne, ha.readZ z hz rfl, ok_bind, hc.readZ z hz rfl, ok_bind, pure_ok]
    · rw [if_neg hne, if_neg hne, pure_ok]
  have e2 : right1 q s t k i z b2 = .ok (if z ≠ q - 1 ∧ f (s + z + i + 1) ≠ f (s + z + 1) then
      ((f (s + z + i + 1) - t) / (f (s + z + i + 1) - f (s + z + 1)) * (g2 (z + 1)).1,
        ((f (s + z + i + 1) - t) * (g2 (z + 1)).2 - (g2 (z + 1)).1) / (f (s + z + i + 1) - f (s + z + 1))) else (0, 0)) := by
    unfold right1
    by_cases hz' : z = q - 1
    · rw [if_neg (by omega), if_neg (fun hh => hh.1 hz'), pure_ok]
    · rw [if_pos (by omega), h.readZ (s + z + i + 1) (by omega) (by omega), ok_bind, h.readZ (s + z + 1) (by omega) (by omega), ok_bind]
      by_cases hne : f (s + z + i + 1) ≠ f (s + z + 1)
      · rw [if_pos hne, if_pos ⟨hz', hne⟩, ha.readZ (z + 1) (by omega) (by omega), ok_bind, hc.readZ (z + 1) (by omega) (by omega), ok_bind, pure_ok]
      · rw [if_neg hne, if_neg (fun hh => hne hh.2), pure_ok]
  unfold mid1
  rw [e1, ok_bind, e2, ok_bind]
  obtain ⟨b0, f1, f2⟩ := ha.writeZ (z := (z : ℤ)) z hz rfl (SMT.BSpline.mid1 f t q s i z (g2 z) (g2 (z + 1))).1
  obtain ⟨b1, f3, f4⟩ := hc.writeZ (z := (z : ℤ)) z hz rfl (SMT.BSpline.mid1 f t q s i z (g2 z) (g2 (z + 1))).2
  refine ⟨(b0, b1), ?_, ?_, ?_⟩
  · unfold SMT.BSpline.mid1 at f1 f3
    dsimp only at f1 f3
    rw [f1, ok_bind, f3, ok_bind, pure_ok]
  · rwa [upd_comp Prod.fst] at f2
  · rwa [upd_comp Prod.snd] at f4

lemma deg1_ok (h : Exact k (q + m) f) (hs : s + q ≤ m) (hi : 1 ≤ i) (hiq : i < q) (hb : Two q b2 g2) :
    ∃ b', deg1 q s t k i b2 = .ok b' ∧ Two q b' (SMT.BSpline.deg1 f t q s i g2) := by
  unfold deg1 SMT.BSpline.deg1
  have hz1 : (q : ℤ) - i - 1 = ((q - i - 1 : ℕ) : ℤ) := by omega
  rw [hz1, show ((q : ℤ) - ((q - i - 1 : ℕ) : ℤ)).toNat = q - (q - i - 1) by omega]
  exact loop_foldl (Two q) hb fun j hj b g hb => by
    have := mid1_ok (t := t) h hs hiq hb (show q - i - 1 + j < q by omega)
    rwa [show ((q - i - 1 + j : ℕ) : ℤ) = ((q - i - 1 : ℕ) : ℤ) + j by push_cast; ring] at this

/-- **C99** `compute_basis_1` on memory: the first derivatives of C24. -/
theorem C99_basis1 (hq : 1 ≤ q) (hqm : q ≤ m) (h : Exact k (q + m) f) (hs : SMT.BSpline.iStart q m t f = some s) (hsm : s + q ≤ m) (hb : b.len = q) :
    ∃ b', computeBasis1 q m t k b = .ok ((s : ℤ), b') ∧ Exact b' q (SMT.BSpline.basis1 f t q s) := by
  unfold computeBasis1 SMT.BSpline.basis1
  obtain ⟨c1, e1, h1⟩ := zeros_ok (q := q) (b := Buf.fresh q) rfl
  obtain ⟨c2, e2, h2⟩ := zeros_ok hb
  obtain ⟨c3, e3, h3⟩ := h1.writeZ (z := (q : ℤ) - 1) (q - 1) (by omega) (by omega) 1
  have h0 : Two q (c3, c2) (Function.update (fun _ => (0, 0)) (q - 1) (1, 0)) := by
    refine ⟨?_, ?_⟩
    · rw [← upd_comp Prod.fst (fun _ : ℕ => ((0, 0) : ℝ × ℝ))]; exact h3
    · rw [← upd_comp Prod.snd (fun _ : ℕ => ((0, 0) : ℝ × ℝ))]
      rw [show Function.update (fun j : ℕ => (0 : ℝ)) (q - 1) 0 = fun _ => 0 from Function.update_eq_self _ _]; exact h2
  obtain ⟨c4, e4, h4⟩ := loop_foldl (Two q) (body := fun i b => deg1 q s t k ((i : ℤ) + 1) b) (step := fun b i => SMT.BSpline.deg1 f t q s i b) (a := 1) (m := q - 1) h0
    (fun i hi b g hb => by
      have := deg1_ok (t := t) h hsm (i := 1 + i) (by omega) (by omega) hb
      rwa [show (((1 + i : ℕ) : ℤ)) = (i : ℤ) + 1 by push_cast; ring] at this)
  rw [iStart_ok hq hqm h, hs, ok_bind, alloc, if_pos (by omega), ok_bind, Int.toNat_natCast, e1, ok_bind, e2, ok_bind, e3, ok_bind, show ((q : ℤ) - 1).toNat = q - 1 by omega]
  simp only [span, Option.elim]
  rw [e4, ok_bind, pure_ok]
  exact ⟨c4.2, rfl, h4.2⟩

/-! ## `compute_basis_2` -/

/-- Three arrays hold the components of `g`. -/
def Three (q : ℕ) (b : Buf ℝ × Buf ℝ × Buf ℝ) (g : ℕ → ℝ × ℝ × ℝ) : Prop :=
  Exact b.1 q (fun j => (g j).1) ∧ Exact b.2.1 q (fun j => (g j).2.1) ∧ Exact b.2.2 q fun j => (g j).2.2

variable {b3 : Buf ℝ × Buf ℝ × Buf ℝ} {g3 : ℕ → ℝ × ℝ × ℝ}

lemma mid2_ok (h : Exact k (q + m) f) (hs : s + q ≤ m) (hiq : i < q) (hb : Three q b3 g3) {z : ℕ} (hz : z < q) :
    ∃ b', mid2 q s t k i z b3 = .ok b' ∧ Three q b' (Function.update g3 z (SMT.BSpline.mid2 f t q s i z (g3 z) (g3 (z + 1)))) := by
  obtain ⟨ha, hc, hd⟩ := hb
  have e1 : left2 s t k i z b3 = .ok (if f (s + z + i) ≠ f (s + z) then
      ((t - f (s + z)) / (f (s + z + i) - f (s + z)) * (g3 z).1, ((g3 z).1 + (t - f (s + z)) * (g3 z).2.1) / (f (s + z + i) - f (s + z)),
        (2 * (g3 z).2.1 + (t - f (s + z)) * (g3 z).2.2) / (f (s + z + i) - f (s + z))) else (0, 0, 0)) := by
    unfold left2
    rw [h.readZ (s + z + i) (by omega) (by omega), ok_bind, h.readZ (s + z) (by omega) (by omega), ok_bind]
    by_cases hne : f (s + z + i) ≠ f (s + z)
    · rw [if_pos hne, if_pos hne, ha.readZ z hz rfl, ok_bind, hc.readZ z hz rfl, ok_bind, hd.readZ z hz rfl, ok_bind, pure_ok]
    · rw [if_neg hne, if_neg hne, pure_ok]
  have e2 : right2 q s t k i z b3 = .ok (if z ≠ q - 1 ∧ f (s + z + i + 1) ≠ f (s + z + 1) then
      ((f (s + z + i + 1) - t) / (f (s + z + i + 1) - f (s + z + 1)) * (g3 (z + 1)).1,
        ((f (s + z + i + 1) - t) * (g3 (z + 1)).2.1 - (g3 (z + 1)).1) / (f (s + z + i + 1) - f (s + z + 1)),
        ((f (s + z + i + 1) - t) * (g3 (z + 1)).2.2 - 2 * (g3 (z + 1)).2.1) / (f (s + z + i + 1) - f (s + z + 1))) else (0, 0, 0)) := by
    unfold right2
    by_cases hz' : z = q - 1
    · rw [if_neg (by omega), if_neg (fun hh => hh.1 hz'), pure_ok]
    · rw [if_pos (by omega), h.readZ (s + z + i + 1) (by omega) (by omega), ok_bind, h.readZ (s + z + 1) (by omega) (by omega), ok_bind]
      by_cases hne : f (s + z + i + 1) ≠ f (s + z + 1)
      · rw [if_pos hne, if_pos ⟨hz', hne⟩, ha.readZ (z + 1) (by omega) (by omega), ok_bind, hc.readZ (z + 1) (by omega) (by omega), ok_bind, hd.readZ (z + 1) (by omega) (by omega), ok_bind, pure_ok]
      · rw [if_neg hne, if_neg (fun hh => hne hh.2), pure_ok]
  unfold mid2
  rw [e1, ok_bind, e2, ok_bind]
  obtain ⟨b0, f1, f2⟩ := ha.writeZ (z := (z : ℤ)) z hz rfl (SMT.BSpline.mid2 f t q s i z (g3 z) (g3 (z + 1))).1
  obtain ⟨b1, f3, f4⟩ := hc.writeZ (z := (z : ℤ)) z hz rfl (SMT.BSpline.mid2 f t q s i z (g3 z) (g3 (z + 1))).2.1
  have f5 : ∃ b2', set2 i z ((if f (s + z + i) ≠ f (s + z) then
      ((t - f (s + z)) / (f (s + z + i) - f (s + z)) * (g3 z).1, ((g3 z).1 + (t - f (s + z)) * (g3 z).2.1) / (f (s + z + i) - f (s + z)),
        (2 * (g3 z).2.1 + (t - f (s + z)) * (g3 z).2.2) / (f (s + z + i) - f (s + z))) else (0, 0, 0)).2.2 + (if z ≠ q - 1 ∧ f (s + z + i + 1) ≠ f (s + z + 1) then
      ((f (s + z + i + 1) - t) / (f (s + z + i + 1) - f (s + z + 1)) * (g3 (z + 1)).1,
        ((f (s + z + i + 1) - t) * (g3 (z + 1)).2.1 - (g3 (z + 1)).1) / (f (s + z + i + 1) - f (s + z + 1)),
        ((f (s + z + i + 1) - t) * (g3 (z + 1)).2.2 - 2 * (g3 (z + 1)).2.1) / (f (s + z + i + 1) - f (s + z + 1))) else (0, 0, 0)).2.2) b3.2.2 = .ok b2' ∧
      Exact b2' q (Function.update (fun j => (g3 j).2.2) z (SMT.BSpline.mid2 f t q s i z (g3 z) (g3 (z + 1))).2.2) := by
    unfold set2 SMT.BSpline.mid2
    dsimp only
    by_cases hi1 : 1 < i
    · rw [if_pos (by exact_mod_cast hi1), if_pos hi1]
      exact hd.writeZ z hz rfl _
    · rw [if_neg (by exact_mod_cast hi1), if_neg hi1]
      refine ⟨b3.2.2, rfl, ?_⟩
      rw [show Function.update (fun j => (g3 j).2.2) z (g3 z).2.2 = fun j => (g3 j).2.2 from Function.update_eq_self z _]
      exact hd
  obtain ⟨b2', f5, f6⟩ := f5
  refine ⟨(b0, b1, b2'), ?_, ?_, ?_, ?_⟩
  · unfold SMT.BSpline.mid2 at f1 f3
    dsimp only at f1 f3
    rw [f1, ok_bind, f3, ok_bind, f5, ok_bind, pure_ok]
  · rwa [upd_comp Prod.fst] at f2
  · rwa [upd_comp fun p : ℝ × ℝ × ℝ => p.2.1] at f4
  · rwa [upd_comp fun p : ℝ × ℝ × ℝ => p.2.2] at f6

lemma deg2_ok (h : Exact k (q + m) f) (hs : s + q ≤ m) (hi : 1 ≤ i) (hiq : i < q) (hb : Three q b3 g3) :
    ∃ b', deg2 q s t k i b3 = .ok b' ∧ Three q b' (SMT.BSpline.deg2 f t q s i g3) := by
  unfold deg2 SMT.BSpline.deg2
  have hz1 : (q : ℤ) - i - 1 = ((q - i - 1 : ℕ) : ℤ) := by omega
  rw [hz1, show ((q : ℤ) - ((q - i - 1 : ℕ) : ℤ)).toNat = q - (q - i - 1) by omega]
  exact loop_foldl (Three q) hb fun j hj b g hb => by
    have := mid2_ok (t := t) h hs hiq hb (show q - i - 1 + j < q by omega)
    rwa [show ((q - i - 1 + j : ℕ) : ℤ) = ((q - i - 1 : ℕ) : ℤ) + j by push_cast; ring] at this

/-- **C99** `compute_basis_2` on memory: the second derivatives of C24. -/
theorem C99_basis2 (hq : 1 ≤ q) (hqm : q ≤ m) (h : Exact k (q + m) f) (hs : SMT.BSpline.iStart q m t f = some s) (hsm : s + q ≤ m) (hb : b.len = q) :
    ∃ b', computeBasis2 q m t k b = .ok ((s : ℤ), b') ∧ Exact b' q (SMT.BSpline.basis2 f t q s) := by
  unfold computeBasis2 SMT.BSpline.basis2
  obtain ⟨c1, e1, h1⟩ := zeros_ok (q := q) (b := Buf.fresh q) rfl
  obtain ⟨c2, e2, h2⟩ := zeros_ok hb
  obtain ⟨c3, e3, h3⟩ := h1.writeZ (z := (q : ℤ) - 1) (q - 1) (by omega) (by omega) 1
  have h0 : Three q (c3, c1, c2) (Function.update (fun _ => (0, 0, 0)) (q - 1) (1, 0, 0)) := by
    have hu : Function.update (fun j : ℕ => (0 : ℝ)) (q - 1) 0 = fun _ => 0 := Function.update_eq_self _ _
    refine ⟨?_, ?_, ?_⟩
    · rw [← upd_comp Prod.fst (fun _ : ℕ => ((0, 0, 0) : ℝ × ℝ × ℝ))]; exact h3
    · rw [← upd_comp (fun p : ℝ × ℝ × ℝ => p.2.1) (fun _ : ℕ => ((0, 0, 0) : ℝ × ℝ × ℝ))]; rw [hu]; exact h1
    · rw [← upd_comp (fun p : ℝ × ℝ × ℝ => p.2.2) (fun _ : ℕ => ((0, 0, 0) : ℝ × ℝ × ℝ))]; rw [hu]; exact h2
  obtain ⟨c4, e4, h4⟩ := loop_foldl (Three q) (body := fun i b => deg2 q s t k ((i : ℤ) + 1) b) (step := fun b i => SMT.BSpline.deg2 f t q s i b) (a := 1) (m := q - 1) h0
    (fun i hi b g hb => by
      have := deg2_ok (t := t) h hsm (i := 1 + i) (by omega) (by omega) hb
      rwa [show (((1 + i : ℕ) : ℤ)) = (i : ℤ) + 1 by push_cast; ring] at this)
  rw [iStart_ok hq hqm h, hs, ok_bind, alloc, if_pos (by omega), ok_bind, ok_bind, Int.toNat_natCast, e1, ok_bind, ok_bind, e2, ok_bind, e3, ok_bind, show ((q : ℤ) - 1).toNat = q - 1 by omega]
  simp only [span, Option.elim]
  rw [e4, ok_bind, pure_ok]
  exact ⟨c4.2.2, rfl, h4.2.2⟩

end SMT.Native.Rmtb
