import Verif.Ese.Model
import Mathlib.Tactic.Linarith
import Mathlib.Tactic.Ring
import Mathlib.Tactic.FieldSimp
import Mathlib.Tactic.NormNum

/-!
# Properties C13, C14: the ESE optimisation keeps Latin designs Latin and never gets worse
-/
namespace SMT.Ese
set_option linter.unusedSectionVars false
set_option linter.unusedSimpArgs false

variable {n d : ℕ}

/-! ## Specification -/

/-- Every column of `Y` is a rearrangement of the same column of `X`. -/
def ColumnsRearranged (X Y : Design n d) : Prop :=
  ∀ k, ∃ π : Equiv.Perm (Fin n), ∀ i, Y i k = X (π i) k

/-- A Latin design: within each column all values differ. -/
def Latin (X : Design n d) : Prop := ∀ k, Function.Injective fun i => X i k

/-- Row `i` is the same in both designs. -/
def RowsKept (fixed : List (Fin n)) (X Y : Design n d) : Prop := ∀ i ∈ fixed, Y i = X i

/-! ## The single exchange -/

theorem swapEntry_apply (X : Design n d) (k : Fin d) (i1 i2 i : Fin n) (c : Fin d) :
    swapEntry X k i1 i2 i c = if c = k then X (Equiv.swap i1 i2 i) k else X i c := by
  unfold swapEntry
  by_cases h2 : i = i2
  · subst h2
    by_cases hc : c = k
    · subst hc; simp
    · simp [hc]
  · by_cases h1 : i = i1
    · subst h1
      by_cases hc : c = k
      · subst hc; simp [h2]
      · simp [h2, hc]
    · by_cases hc : c = k
      · subst hc; simp [h1, h2, Equiv.swap_apply_of_ne_of_ne]
      · simp [h1, h2, hc]

theorem rearranged_refl (X : Design n d) : ColumnsRearranged X X := fun _ => ⟨1, fun _ => rfl⟩

theorem rearranged_swap (X0 X : Design n d) (h : ColumnsRearranged X0 X) (k : Fin d) (i1 i2 : Fin n) :
    ColumnsRearranged X0 (swapEntry X k i1 i2) := by
  intro c
  obtain ⟨π, hπ⟩ := h c
  by_cases hc : c = k
  · subst hc
    exact ⟨(Equiv.swap i1 i2).trans π, fun i => by simp [swapEntry_apply, hπ]⟩
  · exact ⟨π, fun i => by simp [swapEntry_apply, hc, hπ]⟩

theorem rowsKept_swap (fixed : List (Fin n)) (X0 X : Design n d) (h : RowsKept fixed X0 X) (k : Fin d)
    (i1 i2 : Fin n) (h1 : i1 ∉ fixed) (h2 : i2 ∉ fixed) : RowsKept fixed X0 (swapEntry X k i1 i2) := by
  intro i hi
  have e1 : i ≠ i1 := fun e => h1 (e ▸ hi)
  have e2 : i ≠ i2 := fun e => h2 (e ▸ hi)
  funext c
  rw [swapEntry_apply, Equiv.swap_apply_of_ne_of_ne e1 e2, ← h i hi]
  split
  · rename_i hc; rw [hc]
  · rfl

theorem latin_of_rearranged (X Y : Design n d) (hX : Latin X) (h : ColumnsRearranged X Y) : Latin Y := by
  intro k i j hij
  obtain ⟨π, hπ⟩ := h k
  simp only [hπ] at hij
  exact π.injective (hX k hij)

/-! ## The incremental criterion -/

theorem dist_comm' (u v : Fin d → ℝ) : dist u v = dist v u := by
  unfold dist; congr 1; exact Finset.sum_congr rfl fun c _ => by ring

theorem dist_sq (u v : Fin d → ℝ) : dist u v ^ 2 = ∑ c, (u c - v c) ^ 2 :=
  Real.sq_sqrt (Finset.sum_nonneg fun _ _ => sq_nonneg _)

/-- Sum over pairs `i < j` of a symmetric function with zero diagonal. -/
theorem pair_sum {K : Type} [CommRing K] (f : Fin n → Fin n → K) (hs : ∀ i j, f i j = f j i) (hd : ∀ i, f i i = 0) :
    2 * ∑ q ∈ (Finset.univ : Finset (Fin n × Fin n)).filter (fun q => q.1 < q.2), f q.1 q.2 =
      ∑ i, ∑ j, f i j := by
  rw [← Finset.sum_product', Finset.univ_product_univ]
  rw [← Finset.sum_filter_add_sum_filter_not (s := (Finset.univ : Finset (Fin n × Fin n)))
    (p := fun q : Fin n × Fin n => q.1 < q.2)]
  have hswap : ∑ q ∈ (Finset.univ : Finset (Fin n × Fin n)).filter (fun q => ¬ q.1 < q.2), f q.1 q.2 =
      ∑ q ∈ (Finset.univ : Finset (Fin n × Fin n)).filter (fun q => q.1 < q.2), f q.1 q.2 := by
    rw [← Finset.sum_filter_add_sum_filter_not
      (s := (Finset.univ : Finset (Fin n × Fin n)).filter (fun q => ¬ q.1 < q.2))
      (p := fun q : Fin n × Fin n => q.1 = q.2)]
    have h0 : ∑ q ∈ ((Finset.univ : Finset (Fin n × Fin n)).filter (fun q => ¬ q.1 < q.2)).filter
        (fun q => q.1 = q.2), f q.1 q.2 = 0 := by
      apply Finset.sum_eq_zero
      intro q hq
      simp only [Finset.mem_filter] at hq
      rw [hq.2, hd]
    rw [h0, zero_add]
    refine Finset.sum_bij (fun q _ => (q.2, q.1)) ?_ ?_ ?_ ?_
    · intro q hq
      simp only [Finset.mem_filter, Finset.mem_univ, true_and] at hq ⊢
      omega
    · intro a _ b _ h
      simp only [Prod.mk.injEq] at h
      exact Prod.ext h.2 h.1
    · intro b hb
      simp only [Finset.mem_filter, Finset.mem_univ, true_and] at hb
      exact ⟨(b.2, b.1), by simp only [Finset.mem_filter, Finset.mem_univ, true_and]; omega, rfl⟩
    · intro q _; exact hs _ _
  rw [hswap]; ring

/-- A symmetric difference table that vanishes off the two exchanged rows. -/
theorem two_row_sum {K : Type} [CommRing K] (h : Fin n → Fin n → K) (i1 i2 : Fin n) (hne : i1 ≠ i2) (hs : ∀ i j, h i j = h j i)
    (h11 : h i1 i1 = 0) (h22 : h i2 i2 = 0) (h12 : h i1 i2 = 0)
    (hz : ∀ i j, i ≠ i1 → i ≠ i2 → j ≠ i1 → j ≠ i2 → h i j = 0) :
    ∑ i, ∑ j, h i j = 2 * ∑ j ∈ (Finset.univ : Finset (Fin n)).filter (fun j => j ≠ i1 ∧ j ≠ i2),
      (h i1 j + h i2 j) := by
  have split : ∀ g : Fin n → K, ∑ i, g i = g i1 + g i2 +
      ∑ j ∈ (Finset.univ : Finset (Fin n)).filter (fun j => j ≠ i1 ∧ j ≠ i2), g j := by
    intro g
    rw [← Finset.sum_filter_not_add_sum_filter (s := Finset.univ) (p := fun j => j ≠ i1 ∧ j ≠ i2)]
    congr 1
    rw [← Finset.sum_pair hne]
    refine Finset.sum_congr ?_ fun _ _ => rfl
    ext j; simp only [Finset.mem_filter, Finset.mem_univ, true_and, Finset.mem_insert, Finset.mem_singleton]
    tauto
  rw [split (fun i => ∑ j, h i j)]
  rw [split (fun j => h i1 j), split (fun j => h i2 j)]
  have hr : ∑ i ∈ (Finset.univ : Finset (Fin n)).filter (fun j => j ≠ i1 ∧ j ≠ i2), ∑ j, h i j =
      ∑ i ∈ (Finset.univ : Finset (Fin n)).filter (fun j => j ≠ i1 ∧ j ≠ i2), (h i1 i + h i2 i) := by
    refine Finset.sum_congr rfl fun i hi => ?_
    simp only [Finset.mem_filter, Finset.mem_univ, true_and] at hi
    rw [split (fun j => h i j)]
    rw [Finset.sum_eq_zero (s := Finset.univ.filter _), hs i i1, hs i i2, add_zero]
    intro j hj
    simp only [Finset.mem_filter, Finset.mem_univ, true_and] at hj
    exact hz i j hi.1 hi.2 hj.1 hj.2
  rw [hr, h11, h22, h12, hs i2 i1, h12, Finset.sum_add_distrib]
  ring

/-- **C14** The incremental criterion equals the criterion recomputed from scratch on the exchanged
design, for all designs, columns, row pairs and powers `p ≥ 1`. -/
theorem C14_incremental_exact (X : Design n d) (k : Fin d) (i1 i2 : Fin n) (hne : i1 ≠ i2) (p : ℕ)
    (hp : 1 ≤ p) : exchangeVal X k i1 i2 (phiP X p) p = phiP (swapEntry X k i1 i2) p := by
  set Y := swapEntry X k i1 i2 with hY
  have hfilter : ∀ Z : Design n d,
      ∑ q ∈ (Finset.univ : Finset (Fin n × Fin n)).filter (fun q => q.1 < q.2),
        dist (Z q.1) (Z q.2) ^ (-(p : ℤ)) =
      ∑ q ∈ (Finset.univ : Finset (Fin n × Fin n)).filter (fun q => q.1 < q.2),
        (fun i j => if i = j then 0 else dist (Z i) (Z j) ^ (-(p : ℤ))) q.1 q.2 := by
    intro Z
    refine Finset.sum_congr rfl fun q hq => ?_
    simp only [Finset.mem_filter] at hq
    simp only [if_neg (ne_of_lt hq.2)]
  have hsymm : ∀ Z : Design n d, ∀ i j, (fun i j => if i = j then 0 else dist (Z i) (Z j) ^ (-(p : ℤ))) i j =
      (fun i j => if i = j then 0 else dist (Z i) (Z j) ^ (-(p : ℤ))) j i := by
    intro Z i j
    simp only [eq_comm (a := i) (b := j), dist_comm' (Z i) (Z j)]
  set S := fun Z : Design n d => ∑ q ∈ (Finset.univ : Finset (Fin n × Fin n)).filter (fun q => q.1 < q.2),
      dist (Z q.1) (Z q.2) ^ (-(p : ℤ)) with hS
  have hS2 : ∀ Z, 2 * S Z = ∑ i, ∑ j, (if i = j then 0 else dist (Z i) (Z j) ^ (-(p : ℤ))) := by
    intro Z
    rw [hS]; simp only
    rw [hfilter Z]
    exact pair_sum _ (hsymm Z) (fun i => by simp)
  have hrow : ∀ i, i ≠ i1 → i ≠ i2 → Y i = X i := by
    intro i h1 h2
    funext c
    rw [hY, swapEntry_apply, Equiv.swap_apply_of_ne_of_ne h1 h2]
    split
    · rename_i hc; rw [hc]
    · rfl
  -- distances after the exchange
  have hd1 : ∀ j, j ≠ i1 → j ≠ i2 → dist (Y i1) (Y j) =
      Real.sqrt (dist (X i1) (X j) ^ 2 + (X i2 k - X j k) ^ 2 - (X i1 k - X j k) ^ 2) := by
    intro j h1 h2
    rw [hrow j h1 h2, dist_sq]
    unfold dist
    congr 1
    rw [← Finset.add_sum_erase _ _ (Finset.mem_univ k), ← Finset.add_sum_erase _ _ (Finset.mem_univ k)]
    rw [hY, swapEntry_apply, if_pos rfl, Equiv.swap_apply_left]
    rw [Finset.sum_congr rfl (g := fun c => (X i1 c - X j c) ^ 2) (fun c hc => by
      rw [swapEntry_apply, if_neg (Finset.ne_of_mem_erase hc)])]
    ring
  have hd2 : ∀ j, j ≠ i1 → j ≠ i2 → dist (Y i2) (Y j) =
      Real.sqrt (dist (X i2) (X j) ^ 2 - (X i2 k - X j k) ^ 2 + (X i1 k - X j k) ^ 2) := by
    intro j h1 h2
    rw [hrow j h1 h2, dist_sq]
    unfold dist
    congr 1
    rw [← Finset.add_sum_erase _ _ (Finset.mem_univ k), ← Finset.add_sum_erase _ _ (Finset.mem_univ k)]
    rw [hY, swapEntry_apply, if_pos rfl, Equiv.swap_apply_right]
    rw [Finset.sum_congr rfl (g := fun c => (X i2 c - X j c) ^ 2) (fun c hc => by
      rw [swapEntry_apply, if_neg (Finset.ne_of_mem_erase hc)])]
    ring
  have hd12 : dist (Y i1) (Y i2) = dist (X i1) (X i2) := by
    unfold dist
    congr 1
    refine Finset.sum_congr rfl fun c _ => ?_
    rw [hY, swapEntry_apply, swapEntry_apply, Equiv.swap_apply_left, Equiv.swap_apply_right]
    by_cases hc : c = k
    · subst hc; simp; ring
    · simp [hc]
  have hdiff : S Y - S X = ∑ j ∈ (Finset.univ : Finset (Fin n)).filter (fun j => j ≠ i1 ∧ j ≠ i2),
      (Real.sqrt (dist (X i1) (X j) ^ 2 + (X i2 k - X j k) ^ 2 - (X i1 k - X j k) ^ 2) ^ (-(p : ℤ))
      - dist (X i1) (X j) ^ (-(p : ℤ))
      + Real.sqrt (dist (X i2) (X j) ^ 2 - (X i2 k - X j k) ^ 2 + (X i1 k - X j k) ^ 2) ^ (-(p : ℤ))
      - dist (X i2) (X j) ^ (-(p : ℤ))) := by
    have h2 : 2 * (S Y - S X) = ∑ i, ∑ j, ((if i = j then 0 else dist (Y i) (Y j) ^ (-(p : ℤ))) -
        (if i = j then 0 else dist (X i) (X j) ^ (-(p : ℤ)))) := by
      simp only [Finset.sum_sub_distrib]
      rw [← hS2, ← hS2]; ring
    rw [two_row_sum _ i1 i2 hne (fun i j => by
        have a := hsymm Y i j; have b := hsymm X i j; simp only at a b; rw [a, b]) (by simp) (by simp)
        (by simp [hne, hd12]) (fun i j a b c e => by rw [hrow i a b, hrow j c e]; simp)] at h2
    have h3 := mul_left_cancel₀ (two_ne_zero) h2
    rw [h3]
    refine Finset.sum_congr rfl fun j hj => ?_
    simp only [Finset.mem_filter, Finset.mem_univ, true_and] at hj
    rw [if_neg (Ne.symm hj.1), if_neg (Ne.symm hj.2), if_neg (Ne.symm hj.1), if_neg (Ne.symm hj.2),
      hd1 j hj.1 hj.2, hd2 j hj.1 hj.2]
    ring
  have hSnn : 0 ≤ S X := Finset.sum_nonneg fun q _ => zpow_nonneg (Real.sqrt_nonneg _) _
  have hpow : (phiP X p) ^ p = S X := by
    unfold phiP
    rw [one_div, Real.rpow_inv_natCast_pow hSnn (by omega)]
  unfold exchangeVal
  rw [hpow, ← hdiff]
  unfold phiP
  congr 1
  simp only [hS]; ring

/-! ## The loops -/

theorem drawRow_ok (R : Rng n) (bad : Fin n → Bool) : ∀ fuel s i s', drawRow R bad fuel s = some (i, s') →
    bad i = false := by
  intro fuel
  induction fuel with
  | zero => intro s i s' h; simp [drawRow] at h
  | succ f ih =>
    intro s i s' h
    unfold drawRow at h
    split at h
    · exact ih _ _ _ h
    · rename_i hb
      simp only [Option.some.injEq] at h
      rw [h] at hb
      simpa using hb

/-- What is true of every design the algorithm handles, with its criterion value. -/
structure Good (fixed : List (Fin n)) (p : ℕ) (X0 X : Design n d) (phi : ℝ) : Prop where
  cols : ColumnsRearranged X0 X
  rows : RowsKept fixed X0 X
  crit : phi = phiP X p

theorem exchange_good (R : Rng n) (fuel : ℕ) (fixed : List (Fin n)) (p : ℕ) (hp : 1 ≤ p) (X0 X : Design n d)
    (k : Fin d) (phi : ℝ) (h : Good fixed p X0 X phi) (s s' : R.σ) (Y : Design n d) (v : ℝ)
    (he : exchange R fuel fixed p X k phi s = some ((Y, v), s')) : Good fixed p X0 Y v := by
  unfold exchange at he
  split at he
  · simp at he
  · rename_i i1 s1 h1
    split at he
    · simp at he
    · rename_i i2 s2 h2
      simp only [Option.some.injEq, Prod.mk.injEq] at he
      obtain ⟨⟨rfl, rfl⟩, rfl⟩ := he
      have b1 := drawRow_ok _ _ _ _ _ _ h1
      have b2 := drawRow_ok _ _ _ _ _ _ h2
      simp at b1 b2
      refine ⟨rearranged_swap _ _ h.cols _ _ _, rowsKept_swap _ _ _ h.rows _ _ _ b1 b2.2, ?_⟩
      rw [h.crit]
      exact C14_incremental_exact X k i1 i2 (fun e => b2.1 e.symm) p hp

theorem candidates_good (R : Rng n) (fuel : ℕ) (fixed : List (Fin n)) (p : ℕ) (hp : 1 ≤ p)
    (X0 X : Design n d) (k : Fin d) (phi : ℝ) (h : Good fixed p X0 X phi) :
    ∀ (J : ℕ) (s s' : R.σ) (cs : List (Design n d × ℝ)),
      candidates R fuel fixed p X k phi J s = some (cs, s') → ∀ c ∈ cs, Good fixed p X0 c.1 c.2 := by
  intro J
  induction J with
  | zero => intro s s' cs hc; simp [candidates] at hc; rw [hc.1]; simp
  | succ J ih =>
    intro s s' cs hc
    unfold candidates at hc
    split at hc
    · simp at hc
    · rename_i c1 s1 h1
      split at hc
      · simp at hc
      · rename_i cs2 s2 h2
        simp only [Option.some.injEq, Prod.mk.injEq] at hc
        obtain ⟨rfl, rfl⟩ := hc
        intro c hcm
        rcases List.mem_cons.1 hcm with rfl | hcm
        · exact exchange_good R fuel fixed p hp X0 X k phi h s s1 c.1 c.2 h1
        · exact ih _ _ _ h2 c hcm

theorem firstMin_mem (cs : List (Design n d × ℝ)) : ∀ c, firstMin c cs ∈ c :: cs := by
  induction cs with
  | nil => intro c; simp [firstMin]
  | cons a as ih =>
    intro c
    unfold firstMin
    split
    · have := ih a; simp at this ⊢; tauto
    · have := ih c; simp at this ⊢; tauto

/-- Invariant of the whole optimisation. -/
structure Inv (fixed : List (Fin n)) (p : ℕ) (X0 : Design n d) (R : Rng n) (st : St R d) : Prop where
  cur : Good fixed p X0 st.X st.phi
  best : Good fixed p X0 st.best st.phiBest
  le0 : st.phiBest ≤ phiP X0 p
  head : st.hist.head? = some (phiP X0 p)
  last : st.hist.getLast? = some st.phiBest
  mono : st.hist.Pairwise (fun a b => b ≤ a)
  leAll : ∀ v ∈ st.hist, st.phiBest ≤ v

theorem hist_append (l : List ℝ) (v0 b v : ℝ) (hh : l.head? = some v0) (hm : l.Pairwise (fun a b => b ≤ a))
    (ha : ∀ x ∈ l, b ≤ x) (hv : v ≤ b) : (l ++ [v]).head? = some v0 ∧ (l ++ [v]).getLast? = some v ∧
      (l ++ [v]).Pairwise (fun a b => b ≤ a) ∧ ∀ x ∈ l ++ [v], v ≤ x := by
  refine ⟨by cases l <;> simp_all, by simp, ?_, ?_⟩
  · rw [List.pairwise_append]
    refine ⟨hm, by simp, ?_⟩
    intro a haa c hc
    simp at hc; subst hc
    exact hv.trans (ha a haa)
  · intro x hx
    simp at hx
    rcases hx with hx | rfl
    · exact hv.trans (ha x hx)
    · exact le_refl _

theorem innerStep_inv [NeZero d] (R : Rng n) (fuel : ℕ) (fixed : List (Fin n)) (p : ℕ) (hp : 1 ≤ p) (J : ℕ) (T : ℝ)
    (X0 : Design n d) (i : ℕ) (st st' : St R d) (h : Inv fixed p X0 R st)
    (he : innerStep R fuel fixed p J T i st = some st') :
    Inv fixed p X0 R st' ∧ st'.hist.length = st.hist.length + 1 ∧ st'.phiBest ≤ st.phiBest := by
  unfold innerStep at he
  split at he
  · simp at he
  · simp at he
  · rename_i c cs s hc
    have hgood := candidates_good R fuel fixed p hp X0 st.X _ st.phi h.cur J st.rng s (c :: cs) hc
      _ (firstMin_mem cs c)
    dsimp only at he
    split at he
    · split at he
      · rename_i _ hlt
        simp only [Option.some.injEq] at he; subst he
        obtain ⟨a, b, c', e⟩ := hist_append st.hist _ st.phiBest (firstMin c cs).2 h.head h.mono h.leAll hlt.le
        exact ⟨⟨hgood, hgood, hlt.le.trans h.le0, a, b, c', e⟩, by simp, hlt.le⟩
      · simp only [Option.some.injEq] at he; subst he
        obtain ⟨a, b, c', e⟩ := hist_append st.hist _ st.phiBest st.phiBest h.head h.mono h.leAll le_rfl
        exact ⟨⟨hgood, h.best, h.le0, a, b, c', e⟩, by simp, le_refl _⟩
    · simp only [Option.some.injEq] at he; subst he
      obtain ⟨a, b, c', e⟩ := hist_append st.hist _ st.phiBest st.phiBest h.head h.mono h.leAll le_rfl
      exact ⟨⟨h.cur, h.best, h.le0, a, b, c', e⟩, by simp, le_refl _⟩

theorem innerLoop_inv [NeZero d] (R : Rng n) (fuel : ℕ) (fixed : List (Fin n)) (p : ℕ) (hp : 1 ≤ p) (J : ℕ) (T : ℝ)
    (X0 : Design n d) : ∀ (m i : ℕ) (st st' : St R d), Inv fixed p X0 R st →
    innerLoop R fuel fixed p J T i m st = some st' →
    Inv fixed p X0 R st' ∧ st'.hist.length = st.hist.length + m ∧ st'.phiBest ≤ st.phiBest := by
  intro m
  induction m with
  | zero => intro i st st' h he; simp [innerLoop] at he; subst he; exact ⟨h, rfl, le_refl _⟩
  | succ m ih =>
    intro i st st' h he
    unfold innerLoop at he
    split at he
    · simp at he
    · rename_i st1 h1
      obtain ⟨a, b, c⟩ := innerStep_inv R fuel fixed p hp J T X0 i st st1 h h1
      obtain ⟨a', b', c'⟩ := ih _ _ _ a he
      exact ⟨a', by omega, c'.trans c⟩

/-- The temperatures of successive outer iterations, each repeated `inner` times. -/
inductive TempHist (inner : ℕ) : ℝ → List ℝ → Prop
  | nil (T) : TempHist inner T []
  | cons (T T' l) : (T' = 8 / 10 * T ∨ T' = T ∨ T' = T / (8 / 10)) → TempHist inner T' l →
      TempHist inner T (List.replicate inner T ++ l)

theorem outerLoop_inv [NeZero d] (R : Rng n) (fuel : ℕ) (fixed : List (Fin n)) (p : ℕ) (hp : 1 ≤ p) (J inner : ℕ)
    (tol : ℝ) (htol : 0 < tol) (X0 : Design n d) : ∀ (m : ℕ) (T : ℝ) (st st' : St R d) (hT hT' hP hP' : List ℝ),
    Inv fixed p X0 R st → outerLoop R fuel fixed p J inner tol m T st hT hP = some (st', hT', hP') →
    Inv fixed p X0 R st' ∧ st'.hist.length = st.hist.length + m * inner ∧
      ∃ l, hT' = hT ++ l ∧ TempHist inner T l ∧ l.length = m * inner := by
  intro m
  induction m with
  | zero =>
    intro T st st' hT hT' hP hP' h he
    simp [outerLoop] at he
    obtain ⟨rfl, rfl, rfl⟩ := he
    exact ⟨h, by simp, [], by simp, .nil _, by simp⟩
  | succ m ih =>
    intro T st st' hT hT' hP hP' h he
    unfold outerLoop at he
    split at he
    · simp at he
    · rename_i st1 h1
      obtain ⟨a, b, c⟩ := innerLoop_inv R fuel fixed p hp J T X0 _ _ _ _
        (⟨h.cur, h.best, h.le0, h.head, h.last, h.mono, h.leAll⟩ :
          Inv fixed p X0 R { st with nAcc := 0, nImp := 0 }) h1
      split at he
      · simp at he
      · dsimp only at he
        obtain ⟨a', b', l, hl, ht, hlen⟩ := ih _ _ _ _ _ _ _ a he
        refine ⟨a', by simp at b; rw [b', b]; ring, List.replicate inner T ++ l, by rw [hl, List.append_assoc],
          .cons _ _ _ ?_ ht, by simp [hlen]; ring⟩
        unfold newT
        simp only at c
        rw [if_pos (by linarith)]
        split
        · exact Or.inl rfl
        · split
          · exact Or.inr (Or.inl rfl)
          · exact Or.inr (Or.inr rfl)

theorem maximinESE_inv [NeZero d] (R : Rng n) (fuel : ℕ) (X0 : Design n d) (T0 : Option ℝ) (outer inner J : ℕ)
    (tol : ℝ) (htol : 0 < tol) (p : ℕ) (hp : 1 ≤ p) (fixed : List (Fin n)) (seed : R.σ) (r : Result n d)
    (hr : maximinESE R fuel X0 T0 outer inner J tol p fixed seed = some r) :
    ∃ st : St R d, Inv fixed p X0 R st ∧ r.X = st.best ∧ r.histPhi = st.hist ∧
      st.hist.length = 1 + outer * inner ∧
      TempHist inner (T0.getD (5 / 1000 * phiP X0 p)) r.histT ∧
      r.histT.length = outer * inner := by
  unfold maximinESE at hr
  dsimp only at hr
  split at hr
  · simp at hr
  · rename_i st' hT hP ho
    simp only [Option.some.injEq] at hr; subst hr
    obtain ⟨a, b, l, hl, ht, hlen⟩ := outerLoop_inv R fuel fixed p hp J inner tol htol X0 _ _ _ _ _ _ _ _
      (⟨⟨rearranged_refl X0, fun _ _ => rfl, rfl⟩, ⟨rearranged_refl X0, fun _ _ => rfl, rfl⟩, le_refl _,
        rfl, rfl, by simp, by simp⟩) ho
    simp at hl
    subst hl
    exact ⟨st', a, rfl, rfl, by simpa using b, ht, hlen⟩

/-- **C13** Whatever the random draws, temperatures, loop counts and number of candidates, every column of
the returned design is a rearrangement of the same column of the initial design, and the rows listed in
`fixed_index` are untouched. -/
theorem C13_columns_rearranged [NeZero d] (R : Rng n) (fuel : ℕ) (X0 : Design n d) (T0 : Option ℝ)
    (outer inner J : ℕ) (tol : ℝ) (htol : 0 < tol) (p : ℕ) (hp : 1 ≤ p) (fixed : List (Fin n)) (seed : R.σ)
    (r : Result n d) (hr : maximinESE R fuel X0 T0 outer inner J tol p fixed seed = some r) :
    ColumnsRearranged X0 r.X ∧ RowsKept fixed X0 r.X := by
  obtain ⟨st, h, hx, _⟩ := maximinESE_inv R fuel X0 T0 outer inner J tol htol p hp fixed seed r hr
  rw [hx]; exact ⟨h.best.cols, h.best.rows⟩

/-- **C13** A Latin initial design gives a Latin result; its points are pairwise at positive distance. -/
theorem C13_latin_result [NeZero d] (R : Rng n) (fuel : ℕ) (P0 : Design n d) (hL : Latin P0) (seed : R.σ)
    (r : Result n d) (hr : ese R fuel P0 seed = some r) :
    Latin r.X ∧ ∀ i j, i ≠ j → 0 < dist (r.X i) (r.X j) := by
  obtain ⟨h, _⟩ := C13_columns_rearranged R fuel P0 _ _ _ _ _ (by norm_num) _ (by norm_num) _ seed r hr
  have hlat := latin_of_rearranged P0 r.X hL h
  refine ⟨hlat, fun i j hij => ?_⟩
  unfold dist
  apply Real.sqrt_pos_of_pos
  refine Finset.sum_pos' (fun _ _ => sq_nonneg _) ⟨0, Finset.mem_univ _, ?_⟩
  have : r.X i 0 - r.X j 0 ≠ 0 := fun e => hij (hlat 0 (by simpa using sub_eq_zero.1 e))
  positivity

/-- **C13** Every candidate built from a rearrangement of a Latin design has distinct points, so no
distance used as a divisor in the criterion is zero (the incremental formula never sees `0 ** -p`). -/
theorem C13_points_stay_distinct [NeZero d] (X0 X : Design n d) (hL : Latin X0) (h : ColumnsRearranged X0 X)
    (k : Fin d) (i1 i2 i j : Fin n) (hij : i ≠ j) : 0 < dist (swapEntry X k i1 i2 i) (swapEntry X k i1 i2 j) := by
  have hlat := latin_of_rearranged X0 _ hL (rearranged_swap X0 X h k i1 i2)
  unfold dist
  apply Real.sqrt_pos_of_pos
  refine Finset.sum_pos' (fun _ _ => sq_nonneg _) ⟨0, Finset.mem_univ _, ?_⟩
  have : swapEntry X k i1 i2 i 0 - swapEntry X k i1 i2 j 0 ≠ 0 :=
    fun e => hij (hlat 0 (by simpa using sub_eq_zero.1 e))
  positivity

/-- **C14** The returned design is never worse than the initial one; the recorded history starts at the
initial criterion, is non-increasing, ends at the criterion of the returned design and has one entry per
inner iteration. -/
theorem C14_never_worse [NeZero d] (R : Rng n) (fuel : ℕ) (X0 : Design n d) (T0 : Option ℝ) (outer inner J : ℕ)
    (tol : ℝ) (htol : 0 < tol) (p : ℕ) (hp : 1 ≤ p) (fixed : List (Fin n)) (seed : R.σ) (r : Result n d)
    (hr : maximinESE R fuel X0 T0 outer inner J tol p fixed seed = some r) :
    phiP r.X p ≤ phiP X0 p ∧ r.histPhi.head? = some (phiP X0 p) ∧
      r.histPhi.getLast? = some (phiP r.X p) ∧ r.histPhi.Pairwise (fun a b => b ≤ a) ∧
      r.histPhi.length = 1 + outer * inner := by
  obtain ⟨st, h, hx, hh, hlen, _⟩ := maximinESE_inv R fuel X0 T0 outer inner J tol htol p hp fixed seed r hr
  rw [hx, hh, ← h.best.crit]
  exact ⟨h.le0, h.head, h.last, h.mono, hlen⟩

/-- **C14** Temperature schedule. Because the best criterion never increases, the "no improvement" branch of
the temperature update (factors 0.7 and 0.9, `lhs.py` 218-223) is unreachable for every positive tolerance:
consecutive outer temperatures only ever differ by a factor 0.8, 1 or 1/0.8. -/
theorem C14_temperature_schedule [NeZero d] (R : Rng n) (fuel : ℕ) (X0 : Design n d) (T0 : Option ℝ)
    (outer inner J : ℕ) (tol : ℝ) (htol : 0 < tol) (p : ℕ) (hp : 1 ≤ p) (fixed : List (Fin n)) (seed : R.σ)
    (r : Result n d) (hr : maximinESE R fuel X0 T0 outer inner J tol p fixed seed = some r) :
    TempHist inner (T0.getD (5 / 1000 * phiP X0 p)) r.histT ∧
      r.histT.length = outer * inner := by
  obtain ⟨st, h, hx, hh, hlen, ht⟩ := maximinESE_inv R fuel X0 T0 outer inner J tol htol p hp fixed seed r hr
  exact ht

/-! ## Termination and non-vacuity -/

/-- From every generator state some acceptable row other than `i` is drawn within `fuel` draws. -/
def Fair (R : Rng n) (fuel : ℕ) (fixed : List (Fin n)) : Prop :=
  ∀ (s : R.σ), (drawRow R (fun i => decide (i ∈ fixed)) fuel s).isSome ∧
    ∀ i1, (drawRow R (fun i => decide (i = i1) || decide (i ∈ fixed)) fuel s).isSome

theorem candidates_isSome (R : Rng n) (fuel : ℕ) (fixed : List (Fin n)) (hF : Fair R fuel fixed) (p : ℕ)
    (X : Design n d) (k : Fin d) (phi : ℝ) : ∀ (J : ℕ) (s : R.σ),
    ∃ cs s', candidates R fuel fixed p X k phi J s = some (cs, s') ∧ cs.length = J := by
  intro J
  induction J with
  | zero => intro s; exact ⟨[], s, rfl, rfl⟩
  | succ J ih =>
    intro s
    obtain ⟨⟨i1, s1⟩, h1⟩ := Option.isSome_iff_exists.1 (hF s).1
    obtain ⟨⟨i2, s2⟩, h2⟩ := Option.isSome_iff_exists.1 ((hF s1).2 i1)
    obtain ⟨cs, s', h3, h4⟩ := ih s2
    exact ⟨_ :: cs, s', by unfold candidates exchange; simp only [h1, h2, h3]; rfl, by simp [h4]⟩

theorem innerLoop_isSome [NeZero d] (R : Rng n) (fuel : ℕ) (fixed : List (Fin n)) (hF : Fair R fuel fixed)
    (p J : ℕ) (hJ : 0 < J) (T : ℝ) : ∀ (m i : ℕ) (st : St R d), (innerLoop R fuel fixed p J T i m st).isSome := by
  intro m
  induction m with
  | zero => intro i st; simp [innerLoop]
  | succ m ih =>
    intro i st
    obtain ⟨cs, s', h1, h2⟩ := candidates_isSome R fuel fixed hF p st.X (Fin.ofNat d (i + 1)) st.phi J st.rng
    cases cs with
    | nil => simp at h2; omega
    | cons c cs =>
      have : ∃ st', innerStep R fuel fixed p J T i st = some st' := by
        unfold innerStep
        simp only [h1]
        split
        · split
          · exact ⟨_, rfl⟩
          · exact ⟨_, rfl⟩
        · exact ⟨_, rfl⟩
      obtain ⟨st', hst⟩ := this
      unfold innerLoop
      simp only [hst]
      exact ih _ _

/-- **C13** With at least one candidate and one inner iteration and a generator whose rejection loops stop,
the optimisation returns. -/
theorem C13_returns [NeZero d] (R : Rng n) (fuel : ℕ) (fixed : List (Fin n)) (hF : Fair R fuel fixed)
    (X0 : Design n d) (T0 : Option ℝ) (outer inner J : ℕ) (hi : 0 < inner) (hJ : 0 < J) (tol : ℝ) (p : ℕ) (seed : R.σ) :
    (maximinESE R fuel X0 T0 outer inner J tol p fixed seed).isSome := by
  have key : ∀ (m : ℕ) (T : ℝ) (st : St R d) (a b : List ℝ),
      (outerLoop R fuel fixed p J inner tol m T st a b).isSome := by
    intro m
    induction m with
    | zero => intro T st a b; simp [outerLoop]
    | succ m ih =>
      intro T st a b
      obtain ⟨st', h⟩ := Option.isSome_iff_exists.1
        (innerLoop_isSome R fuel fixed hF p J hJ T inner 0 { st with nAcc := 0, nImp := 0 })
      unfold outerLoop
      simp only [h, Nat.ne_of_gt hi, if_false]
      exact ih _ _ _ _
  obtain ⟨⟨st', hT, hP⟩, h⟩ := Option.isSome_iff_exists.1
    (key outer (T0.getD (5 / 1000 * phiP X0 p))
      ⟨X0, phiP X0 p, X0, phiP X0 p, 0, 0, [phiP X0 p], seed⟩ [] [])
  unfold maximinESE
  dsimp only
  rw [h]; rfl

/-- **C13** A one-point design makes the second rejection loop run for ever: no amount of draws yields a
second row (`LHS(criterion="ese")` called with one point does not return once it gets there). -/
theorem C13_single_point_diverges (R : Rng 1) (fuel : ℕ) (fixed : List (Fin 1)) (p : ℕ) (X : Design 1 d)
    (k : Fin d) (phi : ℝ) (s : R.σ) : exchange R fuel fixed p X k phi s = none := by
  unfold exchange
  split
  · rfl
  · rename_i i1 s1 h1
    have : ∀ f s, drawRow R (fun i => decide (i = i1) || decide (i ∈ fixed)) f s = none := by
      intro f
      induction f with
      | zero => intro s; rfl
      | succ f ih => intro s; unfold drawRow; simp [Subsingleton.elim (R.randint s).1 i1, ih]
    rw [this]

/-- A generator that cycles through the rows of a three-point design. -/
noncomputable def cyc : Rng 3 := ⟨ℕ, fun s => (Fin.ofNat 3 s, s + 1), fun s => (1 / 2, s + 1)⟩

theorem drawRow_isSome_here (R : Rng n) (bad : Fin n → Bool) (f : ℕ) (s : R.σ)
    (h : bad (R.randint s).1 = false) : (drawRow R bad (f + 1) s).isSome := by
  unfold drawRow; simp [h]

theorem drawRow_isSome_next (R : Rng n) (bad : Fin n → Bool) (f : ℕ) (s : R.σ)
    (h : (drawRow R bad f (R.randint s).2).isSome) : (drawRow R bad (f + 1) s).isSome := by
  unfold drawRow
  split
  · exact h
  · rfl

theorem ofNat3_ne (s : ℕ) : Fin.ofNat 3 s ≠ Fin.ofNat 3 (s + 1) := by
  intro h
  have := congrArg Fin.val h
  simp only [Fin.ofNat] at this; omega

theorem cyc_fair : Fair cyc 3 [] := by
  intro s
  refine ⟨drawRow_isSome_here _ _ _ _ (by simp), fun i1 => ?_⟩
  by_cases h1 : (cyc.randint s).1 = i1
  · apply drawRow_isSome_next
    apply drawRow_isSome_here
    have h2 : (cyc.randint (cyc.randint s).2).1 ≠ i1 := fun h2 => ofNat3_ne s (h1.trans h2.symm)
    simp [h2]
  · exact drawRow_isSome_here _ _ _ _ (by simp [h1])

/-- Non-vacuity: `_ese` on a three-point Latin design in two dimensions returns. -/
example : ∃ (P0 : Design 3 2) (r : Result 3 2), Latin P0 ∧ ese cyc 3 P0 (0 : ℕ) = some r := by
  refine ⟨fun i c => if c = 0 then (i : ℕ) else 2 - (i : ℕ), ?_⟩
  obtain ⟨r, hr⟩ := Option.isSome_iff_exists.1 (C13_returns cyc 3 [] cyc_fair
    (d := 2) (fun i c => if c = 0 then ((i : ℕ) : ℝ) else 2 - ((i : ℕ) : ℝ)) none (min (3 * 2 / 2) 30) (min (20 * 2) 100) 20
    (by norm_num) (by norm_num) (1 / 1000) 10 (0 : ℕ))
  refine ⟨r, ?_, hr⟩
  intro k i j hij
  by_cases hk : k = 0
  · simp [hk] at hij; exact Fin.ext hij
  · simp [hk] at hij; exact Fin.ext hij

/-! ## One iteration of the inner loop -/

/-- Specification: `Y` is `X` with the entries of rows `i1`, `i2` in column `k` exchanged. -/
def Exchanged (k : Fin d) (i1 i2 : Fin n) (X Y : Design n d) : Prop :=
  Y i1 k = X i2 k ∧ Y i2 k = X i1 k ∧ ∀ i c, ¬ (c = k ∧ (i = i1 ∨ i = i2)) → Y i c = X i c

theorem swapEntry_exchanged (X : Design n d) (k : Fin d) (i1 i2 : Fin n) (hne : i1 ≠ i2) : Exchanged k i1 i2 X (swapEntry X k i1 i2) := by
  refine ⟨?_, ?_, ?_⟩
  · unfold swapEntry; rw [Function.update_of_ne hne]; simp
  · unfold swapEntry; simp
  · intro i c h
    unfold swapEntry
    by_cases h2 : i = i2
    · subst h2
      have hc : c ≠ k := fun e => h ⟨e, Or.inr rfl⟩
      simp [hc]
    · rw [Function.update_of_ne h2]
      by_cases h1 : i = i1
      · subst h1
        have hc : c ≠ k := fun e => h ⟨e, Or.inl rfl⟩
        simp [hc]
      · rw [Function.update_of_ne h1]

theorem candidates_spec (R : Rng n) (fuel : ℕ) (fixed : List (Fin n)) (p : ℕ) (hp : 1 ≤ p) (X : Design n d) (k : Fin d) :
    ∀ (J : ℕ) (s s' : R.σ) (cs : List (Design n d × ℝ)), candidates R fuel fixed p X k (phiP X p) J s = some (cs, s') →
      cs.length = J ∧ ∀ c ∈ cs, c.2 = phiP c.1 p ∧ ∃ i1 i2, i1 ≠ i2 ∧ i1 ∉ fixed ∧ i2 ∉ fixed ∧ Exchanged k i1 i2 X c.1 := by
  intro J
  induction J with
  | zero => intro s s' cs hc; simp [candidates] at hc; rw [hc.1]; simp
  | succ J ih =>
    intro s s' cs hc
    unfold candidates at hc
    split at hc
    · simp at hc
    · rename_i c1 s1 h1
      split at hc
      · simp at hc
      · rename_i cs2 s2 h2
        simp only [Option.some.injEq, Prod.mk.injEq] at hc
        obtain ⟨rfl, rfl⟩ := hc
        obtain ⟨l, m⟩ := ih _ _ _ h2
        refine ⟨by simp [l], fun c hcm => ?_⟩
        rcases List.mem_cons.1 hcm with rfl | hcm
        · unfold exchange at h1
          split at h1
          · simp at h1
          · rename_i i1 t1 e1
            split at h1
            · simp at h1
            · rename_i i2 t2 e2
              simp only [Option.some.injEq, Prod.mk.injEq] at h1
              have b1 := drawRow_ok _ _ _ _ _ _ e1
              have b2 := drawRow_ok _ _ _ _ _ _ e2
              simp at b1 b2
              have hne : i1 ≠ i2 := fun e => b2.1 e.symm
              obtain ⟨rfl, -⟩ := h1
              exact ⟨C14_incremental_exact X k i1 i2 hne p hp, i1, i2, hne, b1, b2.2, swapEntry_exchanged X k i1 i2 hne⟩
        · exact m c hcm

theorem firstMin_le (cs : List (Design n d × ℝ)) : ∀ c, ∀ a ∈ c :: cs, (firstMin c cs).2 ≤ a.2 := by
  induction cs with
  | nil => intro c a ha; simp at ha; subst ha; exact le_rfl
  | cons b bs ih =>
    intro c a ha
    unfold firstMin
    split
    · rename_i hlt
      rcases List.mem_cons.1 ha with rfl | ha
      · exact (ih b b (by simp)).trans hlt.le
      · exact ih b a ha
    · rename_i hlt
      push Not at hlt
      rcases List.mem_cons.1 ha with rfl | ha
      · exact ih _ _ (by simp)
      · rcases List.mem_cons.1 ha with rfl | ha
        · exact (ih c c (by simp)).trans hlt
        · exact ih c a (by simp [ha])

/-- **C14** The sizes used by the `"ese"` criterion in `d` dimensions: `min(1.5 d, 30)` outer iterations of `min(20 d, 100)` inner ones, from 0.005 times the criterion of the initial design. -/
theorem C14_ese [NeZero d] (R : Rng n) (fuel : ℕ) (P0 : Design n d) (seed : R.σ) (r : Result n d) (hr : ese R fuel P0 seed = some r) :
    phiP r.X 10 ≤ phiP P0 10 ∧ TempHist (min (20 * d) 100) (5 / 1000 * phiP P0 10) r.histT ∧ r.histT.length = min (3 * d / 2) 30 * min (20 * d) 100 ∧
      r.histPhi.length = 1 + min (3 * d / 2) 30 * min (20 * d) 100 := by
  have h1 := C14_never_worse R fuel P0 none _ _ _ _ (by norm_num) _ (by norm_num) _ _ r hr
  have h2 := C14_temperature_schedule R fuel P0 none _ _ _ _ (by norm_num) _ (by norm_num) _ _ r hr
  exact ⟨h1.1, h2.1, h2.2, h1.2.2.2.2⟩

/-- **C14** The inner loop performs the iterations number `0, 1, …, inner_loop - 1` in this order, each on the state left by the one before: the exchanged column is `1 mod d, 2 mod d, …`, so every column
is visited once in every `d` consecutive iterations. -/
theorem C14_inner_loop [NeZero d] (R : Rng n) (fuel : ℕ) (fixed : List (Fin n)) (p J : ℕ) (T : ℝ) (inner : ℕ) (st : St R d) :
    innerLoop R fuel fixed p J T 0 inner st = (List.range inner).foldlM (fun st i => innerStep R fuel fixed p J T i st) st := by
  have key : ∀ (m i : ℕ) (st : St R d), innerLoop R fuel fixed p J T i m st = (List.range' i m).foldlM (fun st i => innerStep R fuel fixed p J T i st) st := by
    intro m
    induction m with
    | zero => intro i st; rfl
    | succ m ih =>
      intro i st
      rw [List.range'_succ, List.foldlM_cons]
      unfold innerLoop
      cases innerStep R fuel fixed p J T i st with
      | none => rfl
      | some st' => exact ih (i + 1) st'
  rw [key, List.range_eq_range']

/-- **C14** One inner iteration number `i` draws `J` designs, each obtained from the current one by exchanging two entries of non-fixed rows in
column `(i+1) mod d`, takes one (`Y`) of least criterion among them, and moves to it exactly when its criterion exceeds the current one by at most
`T` times the random number drawn; the best design is replaced exactly when an accepted `Y` is strictly better than it; the
counters and the history record this. -/
theorem C14_inner_iteration [NeZero d] (R : Rng n) (fuel : ℕ) (fixed : List (Fin n)) (p : ℕ) (hp : 1 ≤ p) (J : ℕ) (T : ℝ) (i : ℕ)
    (st st' : St R d) (hphi : st.phi = phiP st.X p) (he : innerStep R fuel fixed p J T i st = some st') :
    ∃ (cands : List (Design n d)) (Y : Design n d) (s : R.σ), cands.length = J ∧ Y ∈ cands ∧
      (∀ Z ∈ cands, phiP Y p ≤ phiP Z p ∧
        ∃ k i1 i2, k.val = (i + 1) % d ∧ i1 ≠ i2 ∧ i1 ∉ fixed ∧ i2 ∉ fixed ∧ Exchanged k i1 i2 st.X Z) ∧
      (phiP Y p - phiP st.X p ≤ T * (R.rand s).1 →
        st'.X = Y ∧ st'.phi = phiP Y p ∧ st'.nAcc = st.nAcc + 1 ∧
        (phiP Y p < st.phiBest → st'.best = Y ∧ st'.phiBest = phiP Y p ∧ st'.nImp = st.nImp + 1) ∧
        (¬ phiP Y p < st.phiBest → st'.best = st.best ∧ st'.phiBest = st.phiBest ∧ st'.nImp = st.nImp)) ∧
      (¬ phiP Y p - phiP st.X p ≤ T * (R.rand s).1 →
        st'.X = st.X ∧ st'.phi = st.phi ∧ st'.nAcc = st.nAcc ∧ st'.best = st.best ∧ st'.phiBest = st.phiBest ∧ st'.nImp = st.nImp) ∧
      st'.hist = st.hist ++ [st'.phiBest] := by
  unfold innerStep at he
  split at he
  · simp at he
  · simp at he
  · rename_i c cs s hc
    rw [hphi] at hc
    obtain ⟨hl, hm⟩ := candidates_spec R fuel fixed p hp st.X _ J st.rng s (c :: cs) hc
    have hmem := firstMin_mem cs c
    have hmin := firstMin_le cs c
    have hval := (hm _ hmem).1
    refine ⟨(c :: cs).map (·.1), (firstMin c cs).1, s, by simpa using hl, List.mem_map.2 ⟨_, hmem, rfl⟩, ?_, ?_⟩
    · intro Z hZ
      obtain ⟨a, ha, rfl⟩ := List.mem_map.1 hZ
      obtain ⟨v, i1, i2, e1, e2, e3, e4⟩ := hm a ha
      refine ⟨?_, _, i1, i2, ?_, e1, e2, e3, e4⟩
      · rw [← hval, ← v]; exact hmin a ha
      · simp [Fin.ofNat]
    · dsimp only at he
      rw [hval, hphi] at he
      split at he
      · rename_i hacc
        split at he
        · rename_i hlt
          simp only [Option.some.injEq] at he; subst he
          exact ⟨fun _ => ⟨rfl, rfl, rfl, fun _ => ⟨rfl, rfl, rfl⟩, fun h => absurd hlt h⟩, fun h => absurd hacc h, rfl⟩
        · rename_i hlt
          simp only [Option.some.injEq] at he; subst he
          exact ⟨fun _ => ⟨rfl, rfl, rfl, fun h => absurd h hlt, fun _ => ⟨rfl, rfl, rfl⟩⟩, fun h => absurd hacc h, rfl⟩
      · rename_i hacc
        simp only [Option.some.injEq] at he; subst he
        exact ⟨fun h => absurd h hacc, fun _ => ⟨rfl, hphi ▸ rfl, rfl, rfl, rfl, rfl⟩, rfl⟩

end SMT.Ese
