import Verif.Fp.MoeProps

/-!
# Property C114: membership probabilities and predictions
-/
set_option linter.unusedSectionVars false
set_option linter.unusedSimpArgs false
set_option linter.unusedVariables false

namespace SMT.Fp.Moe
open SMT.Fp.Ego

variable {K : Type} [Field K] [LinearOrder K] [IsStrictOrderedRing K] {F : Format K} {k : ℕ} {w : Fin k → K} {pdf : Fin k → X K} {t : Tree}

/-- **C114** One cluster: the probability is 1, the smooth and the hard prediction are the expert's, its variance too, whatever the densities are. -/
theorem C114_single (w : Fin 1 → K) (pdf e : Fin 1 → X K) (t : Tree) (he : F.Val (e 0)) :
    (∀ j, probaX F t w pdf j = .fin 1) ∧ smoothX F (probaX F t w pdf) e = e 0 ∧ smoothVarX F (probaX F t w pdf) e = e 0 ∧ hardX (probaX F t w pdf) e = some (e 0) := by
  have h1 : ∀ j, probaX F t w pdf j = .fin 1 := fun j => if_pos rfl
  have h2 : F.mulX (.fin 1) (.fin (1 : K)) = .fin 1 := by
    show F.of (1 * 1) = _
    rw [mul_one, F.of_one]
  have h3 : F.addX (.fin 0) (F.mulX (e 0) (.fin 1)) = e 0 := by
    cases h : e 0 with
    | nan => rfl
    | inf s =>
      show F.addX (.fin 0) (if (1 : K) = 0 then X.nan else X.inf (decide ((1 : K) < 0) != s)) = _
      rw [if_neg one_ne_zero, decide_eq_false (not_lt.2 zero_le_one)]
      cases s <;> rfl
    | fin a =>
      rw [h] at he
      have ha : F.Fin a := he
      show F.addX (.fin 0) (F.of (a * 1)) = _
      rw [mul_one, F.of_fin ha]
      show F.of (0 + a) = _
      rw [zero_add, F.of_fin ha]
  refine ⟨h1, ?_, ?_, ?_⟩
  · simp only [smoothX, List.finRange_succ, List.finRange_zero, List.map_nil, List.foldl_cons, List.foldl_nil, h1, h3]
  · simp only [smoothVarX, List.finRange_succ, List.finRange_zero, List.map_nil, List.foldl_cons, List.foldl_nil, h1, h2, h3]
  · simp [hardX, h1, List.finRange_succ, argmaxX, argmaxGo, isNan]

theorem probaX_eq (hk : k ≠ 1) (j : Fin k) :
    probaX F t w pdf j = if (X.fin 0).lt (total F t (products F w pdf)) then F.divX (products F w pdf j) (total F t (products F w pdf)) else products F w pdf j := if_neg hk

/-- **C114** Two or more clusters. If a product is NaN (a zero weight with an infinite density), the products themselves are returned; if all products are zero (underflow: the point is far from every cluster), all
probabilities are zero; if the sum overflows, every probability is zero, or NaN where the product itself is infinite. -/
theorem C114_special (h : Inputs F w pdf) (ht : t.Adds k) (hk : k ≠ 1) :
    ((∃ j, products F w pdf j = .nan) → ∀ j, probaX F t w pdf j = products F w pdf j) ∧
    ((∀ j, products F w pdf j = .fin 0) → ∀ j, probaX F t w pdf j = .fin 0) ∧
    (total F t (products F w pdf) = .inf false → ∀ j, (products F w pdf j = .inf false ∧ probaX F t w pdf j = .nan) ∨ (products F w pdf j ≠ .inf false ∧ probaX F t w pdf j = .fin 0)) := by
  have hT := C114_total h ht
  refine ⟨fun e j => ?_, fun e j => ?_, fun e j => ?_⟩
  · rw [probaX_eq hk, hT.1.2 e]
    rfl
  · rw [probaX_eq hk, hT.2.1.2 e, e j]
    simp [X.lt]
  · rw [probaX_eq hk, e]
    have hnn : products F w pdf j ≠ .nan := fun c => by
      rw [hT.1.2 ⟨j, c⟩] at e
      cases e
    have hn := (product_nn h j).resolve_right hnn
    rw [if_pos (show (X.fin (0 : K)).lt (X.inf false) = true from rfl)]
    cases e' : products F w pdf j with
    | nan => exact absurd e' hnn
    | inf s =>
      rw [e'] at hn
      have hs : s = false := hn
      rw [hs]
      exact .inl ⟨rfl, rfl⟩
    | fin x => exact .inr ⟨by simp, rfl⟩

/-- The regular case: the sum of the products is a positive number. -/
structure Regular (F : Format K) (t : Tree) (w : Fin k → K) (pdf : Fin k → X K) (p q : Fin k → K) : Prop where
  /-- the products are numbers -/
  prod : ∀ j, products F w pdf j = .fin (p j)
  prod_fin : ∀ j, F.Fin (p j)
  prod_nonneg : ∀ j, 0 ≤ p j
  sum_pos : 0 < ∑ j, p j
  /-- so are the probabilities -/
  prob : ∀ j, probaX F t w pdf j = .fin (q j)
  prob_fin : ∀ j, F.Fin (q j)
  nonneg : ∀ j, 0 ≤ q j
  le_one : ∀ j, q j ≤ 1

/-- Error of the sum of `k` numbers, relative to it. -/
def gSum (F : Format K) (k : ℕ) : K := ((1 - F.u) ^ (k - 1))⁻¹ - 1

theorem pow_pos' (n : ℕ) : 0 < (1 - F.u) ^ n := pow_pos (by linarith [F.u_lt]) n

theorem gSum_nonneg : 0 ≤ gSum F k := by
  have h : (1 - F.u) ^ (k - 1) ≤ 1 := pow_le_one₀ (by linarith [F.u_lt]) (by linarith [F.u_nonneg])
  have := (one_le_inv₀ (pow_pos' (F := F) (k - 1))).2 h
  unfold gSum
  linarith

/-- `S / r` is close to one. -/
theorem ratio_close {S r : K} (hr : 0 < r) (hS : 0 < S) (h1 : (1 - F.u) ^ (k - 1) * S ≤ r) (h2 : r ≤ (1 + F.u) ^ (k - 1) * S) : |S / r - 1| ≤ gSum F k := by
  have hm := pow_pos' (F := F) (k - 1)
  have hp : 0 < (1 + F.u) ^ (k - 1) := pow_pos (by linarith [F.u_nonneg]) _
  have hprod : (1 - F.u) ^ (k - 1) * (1 + F.u) ^ (k - 1) ≤ 1 := by
    rw [← mul_pow]
    refine pow_le_one₀ (mul_nonneg (by linarith [F.u_lt]) (by linarith [F.u_nonneg])) ?_
    nlinarith [mul_self_nonneg F.u]
  have hup : S / r ≤ ((1 - F.u) ^ (k - 1))⁻¹ := by
    rw [div_le_iff₀ hr, ← div_eq_inv_mul, le_div_iff₀ hm]
    linarith
  have hlo : (1 - F.u) ^ (k - 1) ≤ S / r := by
    rw [le_div_iff₀ hr]
    calc (1 - F.u) ^ (k - 1) * r ≤ (1 - F.u) ^ (k - 1) * ((1 + F.u) ^ (k - 1) * S) := mul_le_mul_of_nonneg_left h2 hm.le
      _ = ((1 - F.u) ^ (k - 1) * (1 + F.u) ^ (k - 1)) * S := by ring
      _ ≤ 1 * S := mul_le_mul_of_nonneg_right hprod hS.le
      _ = S := one_mul S
  have h3 : 1 - (1 - F.u) ^ (k - 1) ≤ ((1 - F.u) ^ (k - 1))⁻¹ - 1 := by
    have e : (1 - F.u) ^ (k - 1) * ((1 - F.u) ^ (k - 1))⁻¹ = 1 := mul_inv_cancel₀ hm.ne'
    generalize (1 - F.u) ^ (k - 1) = a at *
    have hi : 0 < a⁻¹ := inv_pos.2 hm
    nlinarith [mul_self_nonneg (1 - a), mul_pos hm hi, mul_nonneg hi.le (mul_self_nonneg (1 - a))]
  unfold gSum
  rw [abs_le]
  constructor <;> linarith

/-- The error of all probabilities together, for `k` clusters. -/
def gProb (F : Format K) (k : ℕ) : K := F.u * (1 + gSum F k) + gSum F k + k * F.tiny

theorem gProb_nonneg : 0 ≤ gProb F k := by
  have h1 := gSum_nonneg (F := F) (k := k)
  have h2 : 0 ≤ F.u * (1 + gSum F k) := mul_nonneg F.u_nonneg (by linarith)
  have h3 : 0 ≤ (k : K) * F.tiny := mul_nonneg (Nat.cast_nonneg k) F.tiny_nonneg
  unfold gProb
  linarith

/-- **C114** Otherwise all probabilities are numbers between 0 and 1; each is within `u (1 + g) + g` of the probability meant, relatively, and `tiny` absolutely; all errors together, and with them the distance of
their sum from 1, are at most `gProb = u (1 + g) + g + k tiny`, where `1 + g = (1 - u)^{-(k-1)}`. -/
theorem C114_probabilities (h : Inputs F w pdf) (ht : t.Adds k) (hk : k ≠ 1) {r : K} (hr : 0 < r) (e : total F t (products F w pdf) = .fin r) :
    ∃ p q : Fin k → K, Regular F t w pdf p q ∧
      (∀ j, |q j - p j / ∑ i, p i| ≤ (F.u * (1 + gSum F k) + gSum F k) * (p j / ∑ i, p i) + F.tiny) ∧
      ∑ j, |q j - p j / ∑ i, p i| ≤ gProb F k ∧ |∑ j, q j - 1| ≤ gProb F k := by
  have hT := C114_total h ht
  have hnn : ∀ j, products F w pdf j ≠ .nan := fun j c => by
    rw [hT.1.2 ⟨j, c⟩] at e
    cases e
  have hleaf : ∀ i ∈ t.leaves, ∃ j : Fin k, (j : ℕ) = i := fun i hi => ⟨⟨i, (mem_leaves ht).1 hi⟩, rfl⟩
  have hl : ∀ i ∈ t.leaves, Nn F (if h : i < k then products F w pdf ⟨i, h⟩ else .nan) := by
    intro i hi
    obtain ⟨j, rfl⟩ := hleaf i hi
    rw [at_index]
    exact (product_nn h j).resolve_right (hnn j)
  obtain ⟨fr, hlv, b1, b2⟩ := tree_fin (F := F) _ t hl e
  have hs := leaves_sum ht (fun i => num (if h : i < k then products F w pdf ⟨i, h⟩ else .nan)) (fun j => num (products F w pdf j)) fun j => by rw [at_index]
  rw [leaves_length ht, hs] at b1 b2
  have hj : ∀ j, products F w pdf j = .fin (num (products F w pdf j)) ∧ F.Fin (num (products F w pdf j)) ∧ 0 ≤ num (products F w pdf j) ∧ num (products F w pdf j) ≤ r := by
    intro j
    have := hlv j ((mem_leaves ht).2 j.2)
    rwa [at_index] at this
  generalize hp : (fun j => num (products F w pdf j)) = p at *
  have hp' : ∀ j, num (products F w pdf j) = p j := fun j => congrFun hp j
  simp only [hp'] at hj
  have hS : 0 < ∑ j, p j := by
    have h0 : 0 ≤ ∑ j, p j := Finset.sum_nonneg fun j _ => (hj j).2.2.1
    rcases h0.lt_or_eq with h0 | h0
    · exact h0
    · rw [← h0, mul_zero] at b2
      linarith
  have hq : ∀ j, 0 ≤ p j / r ∧ p j / r ≤ 1 := fun j => ⟨div_nonneg (hj j).2.2.1 hr.le, (div_le_one hr).2 (hj j).2.2.2⟩
  have hq' : ∀ j, probaX F t w pdf j = .fin (F.rnd (p j / r)) := by
    intro j
    rw [probaX_eq hk, e, if_pos (show (X.fin (0 : K)).lt (X.fin r) = true from decide_eq_true hr), (hj j).1]
    show (if r = 0 then _ else F.of (p j / r)) = _
    rw [if_neg hr.ne']
    exact F.of_small (by rw [abs_of_nonneg (hq j).1]; exact (hq j).2.trans F.one_le_big)
  have g0 := gSum_nonneg (F := F) (k := k)
  have rc := ratio_close hr hS b1 b2
  have each : ∀ j, |F.rnd (p j / r) - p j / ∑ i, p i| ≤ (F.u * (1 + gSum F k) + gSum F k) * (p j / ∑ i, p i) + F.tiny := by
    intro j
    have a0 : 0 ≤ p j / ∑ i, p i := div_nonneg (hj j).2.2.1 hS.le
    have e1 : p j / r = (p j / ∑ i, p i) * ((∑ i, p i) / r) := by
      field_simp
    have rc' := abs_le.1 rc
    have a1 : p j / r ≤ (p j / ∑ i, p i) * (1 + gSum F k) := by
      rw [e1]
      exact mul_le_mul_of_nonneg_left (by linarith [rc'.2]) a0
    have a2 : |p j / r - p j / ∑ i, p i| ≤ (p j / ∑ i, p i) * gSum F k := by
      rw [e1, show (p j / ∑ i, p i) * ((∑ i, p i) / r) - p j / ∑ i, p i = (p j / ∑ i, p i) * ((∑ i, p i) / r - 1) by ring, abs_mul, abs_of_nonneg a0]
      exact mul_le_mul_of_nonneg_left rc a0
    have a3 := F.err (p j / r)
    rw [abs_of_nonneg (hq j).1] at a3
    have a4 : F.u * (p j / r) ≤ F.u * ((p j / ∑ i, p i) * (1 + gSum F k)) := mul_le_mul_of_nonneg_left a1 F.u_nonneg
    have a5 := abs_sub_le (F.rnd (p j / r)) (p j / r) (p j / ∑ i, p i)
    have e2 : (F.u * (1 + gSum F k) + gSum F k) * (p j / ∑ i, p i) = F.u * ((p j / ∑ i, p i) * (1 + gSum F k)) + (p j / ∑ i, p i) * gSum F k := by ring
    linarith
  have one : ∑ j, p j / ∑ i, p i = 1 := by rw [← Finset.sum_div, div_self hS.ne']
  have all : ∑ j, |F.rnd (p j / r) - p j / ∑ i, p i| ≤ gProb F k := by
    refine (Finset.sum_le_sum fun j _ => each j).trans (le_of_eq ?_)
    rw [Finset.sum_add_distrib, ← Finset.mul_sum, one, mul_one, Finset.sum_const, Finset.card_univ, Fintype.card_fin, nsmul_eq_mul]
    rfl
  refine ⟨p, fun j => F.rnd (p j / r), ⟨fun j => (hj j).1, fun j => (hj j).2.1, fun j => (hj j).2.2.1, hS, hq', fun j => ⟨F.idem _, ?_⟩, fun j => F.nonneg (hq j).1, fun j => F.le_rep F.one (hq j).2⟩, each, all, ?_⟩
  · rw [abs_of_nonneg (F.nonneg (hq j).1)]
    exact (F.le_rep F.one (hq j).2).trans F.one_le_big
  · have e3 : ∑ j, F.rnd (p j / r) - 1 = ∑ j, (F.rnd (p j / r) - p j / ∑ i, p i) := by
      rw [Finset.sum_sub_distrib, one]
    rw [e3]
    exact (Finset.abs_sum_le_sum_abs _ _).trans all

/-! ## The smooth prediction -/

/-- A sum of numbers from the left. -/
theorem fold_sum {α : Type} (f : α → K) (l : List α) (s : K) (hs : F.Fin s) (hf : ∀ a ∈ l, F.Fin (f a)) (hb : (1 + F.u) ^ l.length * (|s| + (l.map fun a => |f a|).sum) ≤ F.big) :
    ∃ c, l.foldl (fun r a => F.addX r (.fin (f a))) (.fin s) = .fin c ∧ F.Fin c ∧ |c - (s + (l.map f).sum)| ≤ ((1 + F.u) ^ l.length - 1) * (|s| + (l.map fun a => |f a|).sum) := by
  induction l generalizing s with
  | nil => exact ⟨s, rfl, hs, by simp⟩
  | cons a l ih =>
    have u0 := F.u_nonneg
    have hfa := hf a (by simp)
    simp only [List.map_cons, List.sum_cons, List.length_cons] at hb ⊢
    have hA : 0 ≤ (l.map fun a => |f a|).sum := List.sum_nonneg (by
      intro v hv
      obtain ⟨b, -, rfl⟩ := List.mem_map.1 hv
      exact abs_nonneg _)
    generalize hAe : (l.map fun a => |f a|).sum = A at *
    have hp : 1 ≤ (1 + F.u) ^ l.length := one_le_pow₀ (by linarith)
    have ht := abs_add_le s (f a)
    have hM : 0 ≤ |s| + (|f a| + A) := add_nonneg (abs_nonneg _) (add_nonneg (abs_nonneg _) hA)
    have hsmall : |s + f a| ≤ F.big := by
      have h1 : |s| + (|f a| + A) ≤ (1 + F.u) ^ (l.length + 1) * (|s| + (|f a| + A)) := le_mul_of_one_le_left hM (one_le_pow₀ (by linarith))
      linarith
    have e1 : F.addX (.fin s) (.fin (f a)) = .fin (F.rnd (s + f a)) := F.of_small hsmall
    obtain ⟨-, hs'⟩ := of_eq_fin (show F.of (s + f a) = .fin (F.rnd (s + f a)) from F.of_small hsmall)
    have herr := F.add s (f a) hs.1 hfa.1
    have habs : |F.rnd (s + f a)| ≤ (1 + F.u) * |s + f a| := by
      have := abs_sub_abs_le_abs_sub (F.rnd (s + f a)) (s + f a)
      linarith
    have hm : |F.rnd (s + f a)| + A ≤ (1 + F.u) * (|s| + (|f a| + A)) := by
      have h1 : (1 + F.u) * |s + f a| ≤ (1 + F.u) * (|s| + |f a|) := mul_le_mul_of_nonneg_left ht (by linarith)
      have h2 : A ≤ (1 + F.u) * A := le_mul_of_one_le_left hA (by linarith)
      linarith
    obtain ⟨c, ec, fc, hc⟩ := ih (F.rnd (s + f a)) hs' (fun b hb => hf b (by simp [hb])) (by
      refine le_trans ?_ hb
      rw [pow_succ, mul_assoc]
      exact mul_le_mul_of_nonneg_left hm (by linarith))
    refine ⟨c, ?_, fc, ?_⟩
    · rw [List.foldl_cons, e1, ec]
    · have h3 : ((1 + F.u) ^ l.length - 1) * (|F.rnd (s + f a)| + A) ≤ ((1 + F.u) ^ l.length - 1) * ((1 + F.u) * (|s| + (|f a| + A))) :=
        mul_le_mul_of_nonneg_left hm (by linarith)
      have h4 : F.u * |s + f a| ≤ F.u * (|s| + (|f a| + A)) := mul_le_mul_of_nonneg_left (by linarith) u0
      have h5 := abs_sub_le c (F.rnd (s + f a) + (l.map f).sum) (s + (f a + (l.map f).sum))
      have h6 : F.rnd (s + f a) + (l.map f).sum - (s + (f a + (l.map f).sum)) = F.rnd (s + f a) - (s + f a) := by ring
      rw [h6] at h5
      have h7 : ((1 + F.u) ^ (l.length + 1) - 1) * (|s| + (|f a| + A)) = ((1 + F.u) ^ l.length - 1) * ((1 + F.u) * (|s| + (|f a| + A))) + F.u * (|s| + (|f a| + A)) := by ring
      linarith

/-- **C114** The smooth prediction for numbers `e j` of size at most `E` and probabilities `q j ≥ 0`: if nothing can overflow, a number within rounding of `∑ e j q j`. -/
theorem C114_smooth_sum {E Q : K} {e q : Fin k → K} (he : ∀ j, |e j| ≤ E) (hq : ∀ j, 0 ≤ q j) (hQ : ∑ j, q j ≤ Q) (hE : 0 ≤ E)
    (hb : (1 + F.u) ^ k * ((1 + F.u) * (E * Q) + k * F.tiny) ≤ F.big) :
    ∃ c, smoothX F (fun j => .fin (q j)) (fun j => .fin (e j)) = .fin c ∧ F.Fin c ∧
      |c - ∑ j, e j * q j| ≤ ((1 + F.u) ^ (k + 1) - 1) * (E * Q) + (1 + F.u) ^ k * (k * F.tiny) := by
  have u0 := F.u_nonneg
  have t0 := F.tiny_nonneg
  have hp : 1 ≤ (1 + F.u) ^ k := one_le_pow₀ (by linarith)
  have hQ0 : 0 ≤ Q := (Finset.sum_nonneg fun j _ => hq j).trans hQ
  have hEQ : 0 ≤ E * Q := mul_nonneg hE hQ0
  have hkt : 0 ≤ (k : K) * F.tiny := mul_nonneg (Nat.cast_nonneg k) t0
  have hterm : ∀ j, |e j * q j| ≤ E * q j := fun j => by
    rw [abs_mul, abs_of_nonneg (hq j)]
    exact mul_le_mul_of_nonneg_right (he j) (hq j)
  have hsum : ∑ j, E * q j ≤ E * Q := by
    rw [← Finset.mul_sum]
    exact mul_le_mul_of_nonneg_left hQ hE
  have htot : ∑ j, |e j * q j| ≤ E * Q := (Finset.sum_le_sum fun j _ => hterm j).trans hsum
  have hsmall : ∀ j, |e j * q j| ≤ F.big := by
    intro j
    have h1 : |e j * q j| ≤ ∑ i, |e i * q i| := Finset.single_le_sum (f := fun i => |e i * q i|) (fun i _ => abs_nonneg _) (Finset.mem_univ j)
    have h2 : (1 + F.u) * (E * Q) + k * F.tiny ≤ (1 + F.u) ^ k * ((1 + F.u) * (E * Q) + k * F.tiny) :=
      le_mul_of_one_le_left (add_nonneg (mul_nonneg (by linarith) hEQ) hkt) hp
    have h3 : E * Q ≤ (1 + F.u) * (E * Q) := le_mul_of_one_le_left hEQ (by linarith)
    linarith
  have hm : ∀ j, F.mulX (.fin (e j)) (.fin (q j)) = .fin (F.rnd (e j * q j)) := fun j => F.of_small (hsmall j)
  have hfin : ∀ j, F.Fin (F.rnd (e j * q j)) := fun j => (of_eq_fin (F.of_small (hsmall j))).2
  have hr : ∀ j, |F.rnd (e j * q j)| ≤ (1 + F.u) * |e j * q j| + F.tiny := fun j => by
    have := F.err (e j * q j)
    have h1 := abs_sub_abs_le_abs_sub (F.rnd (e j * q j)) (e j * q j)
    linarith
  have hrs : ((List.finRange k).map fun j => |F.rnd (e j * q j)|).sum ≤ (1 + F.u) * (E * Q) + k * F.tiny := by
    rw [← Fin.sum_univ_def]
    refine (Finset.sum_le_sum fun j _ => hr j).trans ?_
    rw [Finset.sum_add_distrib, ← Finset.mul_sum, Finset.sum_const, Finset.card_univ, Fintype.card_fin, nsmul_eq_mul]
    have := mul_le_mul_of_nonneg_left htot (show 0 ≤ 1 + F.u by linarith)
    linarith
  obtain ⟨c, ec, fc, hc⟩ := fold_sum (F := F) (fun j => F.rnd (e j * q j)) (List.finRange k) 0 F.fin_zero (fun j _ => hfin j) (by
    rw [List.length_finRange, abs_zero, zero_add]
    exact (mul_le_mul_of_nonneg_left hrs (by linarith)).trans hb)
  rw [List.length_finRange, abs_zero, zero_add, zero_add] at hc
  refine ⟨c, ?_, fc, ?_⟩
  · unfold smoothX
    simp only [hm]
    exact ec
  · rw [← Fin.sum_univ_def] at hc
    have h1 : |∑ j, F.rnd (e j * q j) - ∑ j, e j * q j| ≤ F.u * (E * Q) + k * F.tiny := by
      rw [← Finset.sum_sub_distrib]
      refine (Finset.abs_sum_le_sum_abs _ _).trans ((Finset.sum_le_sum fun j _ => F.err (e j * q j)).trans ?_)
      rw [Finset.sum_add_distrib, ← Finset.mul_sum, Finset.sum_const, Finset.card_univ, Fintype.card_fin, nsmul_eq_mul]
      have := mul_le_mul_of_nonneg_left htot u0
      linarith
    have h2 := abs_sub_le c (∑ j, F.rnd (e j * q j)) (∑ j, e j * q j)
    have h3 : ((1 + F.u) ^ k - 1) * ((List.finRange k).map fun j => |F.rnd (e j * q j)|).sum ≤ ((1 + F.u) ^ k - 1) * ((1 + F.u) * (E * Q) + k * F.tiny) :=
      mul_le_mul_of_nonneg_left hrs (by linarith)
    have h4 : ((1 + F.u) ^ (k + 1) - 1) * (E * Q) + (1 + F.u) ^ k * (k * F.tiny) = ((1 + F.u) ^ k - 1) * ((1 + F.u) * (E * Q) + k * F.tiny) + (F.u * (E * Q) + k * F.tiny) := by ring
    linarith

/-- The bound on the error of a smooth prediction with `k` clusters and outputs of size at most `E`. -/
def gPred (F : Format K) (k : ℕ) (E : K) : K := ((1 + F.u) ^ (k + 1) * (1 + gProb F k) - 1) * E + (1 + F.u) ^ k * (k * F.tiny)

/-- **C114** The smooth prediction in the regular case, for experts' outputs that are numbers of size at most `E`, `E` not so large that something could overflow: a number, at most `gPred` away from the convex combination
meant, and so at most this far outside the range `[lo, hi]` of the experts' outputs. -/
theorem C114_smooth (h : Inputs F w pdf) (ht : t.Adds k) (hk : k ≠ 1) {r : K} (hr : 0 < r) (er : total F t (products F w pdf) = .fin r)
    {e : Fin k → K} {E : K} (he : ∀ j, |e j| ≤ E) (hb : (1 + F.u) ^ k * ((1 + F.u) * (E * (1 + gProb F k)) + k * F.tiny) ≤ F.big) :
    ∃ (p : Fin k → K) (c : K), (∀ j, products F w pdf j = .fin (p j) ∧ 0 ≤ p j) ∧ 0 < ∑ j, p j ∧ smoothX F (probaX F t w pdf) (fun j => .fin (e j)) = .fin c ∧ F.Fin c ∧
      |c - ∑ j, e j * (p j / ∑ i, p i)| ≤ gPred F k E ∧
      ∀ lo hi, (∀ j, lo ≤ e j ∧ e j ≤ hi) → lo - gPred F k E ≤ c ∧ c ≤ hi + gPred F k E := by
  obtain ⟨p, q, hR, -, hq2, hq3⟩ := C114_probabilities h ht hk hr er
  have hk0 : 0 < k := adds_pos ht
  have hE : 0 ≤ E := (abs_nonneg _).trans (he ⟨0, hk0⟩)
  have hS := hR.sum_pos
  obtain ⟨c, ec, fc, hc⟩ := C114_smooth_sum (Q := 1 + gProb F k) he hR.nonneg (by linarith [(abs_le.1 hq3).2]) hE hb
  have hmain : |c - ∑ j, e j * (p j / ∑ i, p i)| ≤ gPred F k E := by
    have h1 : |∑ j, e j * q j - ∑ j, e j * (p j / ∑ i, p i)| ≤ E * gProb F k := by
      rw [← Finset.sum_sub_distrib]
      refine (Finset.abs_sum_le_sum_abs _ _).trans ?_
      refine le_trans ?_ (mul_le_mul_of_nonneg_left hq2 hE)
      rw [Finset.mul_sum]
      refine Finset.sum_le_sum fun j _ => ?_
      rw [← mul_sub, abs_mul]
      exact mul_le_mul_of_nonneg_right (he j) (abs_nonneg _)
    have h2 := abs_sub_le c (∑ j, e j * q j) (∑ j, e j * (p j / ∑ i, p i))
    unfold gPred
    have h3 : ((1 + F.u) ^ (k + 1) * (1 + gProb F k) - 1) * E = ((1 + F.u) ^ (k + 1) - 1) * (E * (1 + gProb F k)) + E * gProb F k := by ring
    linarith
  refine ⟨p, c, fun j => ⟨hR.prod j, hR.prod_nonneg j⟩, hS, ?_, fc, hmain, fun lo hi hlh => ?_⟩
  · rw [show probaX F t w pdf = fun j => .fin (q j) from funext hR.prob]
    exact ec
  · have one : ∑ j, p j / ∑ i, p i = 1 := by rw [← Finset.sum_div, div_self hS.ne']
    have a0 : ∀ j, 0 ≤ p j / ∑ i, p i := fun j => div_nonneg (hR.prod_nonneg j) hS.le
    have l1 : lo ≤ ∑ j, e j * (p j / ∑ i, p i) := by
      have : lo * ∑ j, p j / ∑ i, p i ≤ ∑ j, e j * (p j / ∑ i, p i) := by
        rw [Finset.mul_sum]
        exact Finset.sum_le_sum fun j _ => mul_le_mul_of_nonneg_right (hlh j).1 (a0 j)
      rwa [one, mul_one] at this
    have l2 : ∑ j, e j * (p j / ∑ i, p i) ≤ hi := by
      have : ∑ j, e j * (p j / ∑ i, p i) ≤ hi * ∑ j, p j / ∑ i, p i := by
        rw [Finset.mul_sum]
        exact Finset.sum_le_sum fun j _ => mul_le_mul_of_nonneg_right (hlh j).2 (a0 j)
      rwa [one, mul_one] at this
    have := abs_le.1 hmain
    exact ⟨by linarith, by linarith⟩

end SMT.Fp.Moe
