import Verif.Fp.SplineProps

/-!
# Property C102, second part: rows of the Jacobian and predictions
-/
namespace SMT.Fp
open SMT.BSpline SMT.Rmtb
set_option linter.unusedSectionVars false
set_option linter.unusedSimpArgs false
set_option linter.unusedVariables false

variable {K : Type} [Field K] [LinearOrder K] [IsStrictOrderedRing K] (R : Rounding K)

/-! ## Signed quantities -/

/-- `c` is `x` up to `n` roundings relative to `T`, a bound of `|x|`. -/
def Within (n : ℕ) (T x c : K) : Prop := |x| ≤ T ∧ |c - x| ≤ (R.rho ^ n - 1) * T

variable {R}

theorem Within.mono {n m : ℕ} (h : n ≤ m) {T x c : K} (hw : Within R n T x c) : Within R m T x c := by
  obtain ⟨h1, h2⟩ := hw
  refine ⟨h1, h2.trans (mul_le_mul_of_nonneg_right ?_ ((abs_nonneg x).trans h1))⟩
  linarith [pow_le_pow_right₀ (rho_one_le R) h]

theorem Within.rnd {n : ℕ} {T x c : K} (hw : Within R n T x c) : Within R (n + 1) T x (R.rnd c) := by
  obtain ⟨h1, h2⟩ := hw
  refine ⟨h1, ?_⟩
  have hT : 0 ≤ T := (abs_nonneg x).trans h1
  have hp : 1 ≤ R.rho ^ n := one_le_pow₀ (rho_one_le R)
  have hc : |c| ≤ R.rho ^ n * T := by
    have : |c| ≤ |c - x| + |x| := by
      have := abs_add_le (c - x) x
      rwa [sub_add_cancel] at this
    nlinarith
  have h3 := R.rel c
  have h4 : |R.rnd c - x| ≤ |R.rnd c - c| + |c - x| := by
    have := abs_add_le (R.rnd c - c) (c - x)
    rwa [sub_add_sub_cancel] at this
  have h5 : R.u * |c| ≤ R.u * (R.rho ^ n * T) := mul_le_mul_of_nonneg_left hc R.u_nonneg
  have h6 : (1 + R.u) * (R.rho ^ n * T) ≤ R.rho * (R.rho ^ n * T) :=
    mul_le_mul_of_nonneg_right (one_add_le_rho R) (mul_nonneg (by linarith) hT)
  rw [pow_succ]
  linarith

theorem Within.add {n : ℕ} {S T x c y d : K} (h : Within R n S x c) (h' : Within R n T y d) : Within R n (S + T) (x + y) (c + d) := by
  obtain ⟨h1, h2⟩ := h
  obtain ⟨g1, g2⟩ := h'
  refine ⟨(abs_add_le x y).trans (by linarith), ?_⟩
  have : c + d - (x + y) = (c - x) + (d - y) := by ring
  rw [this, mul_add]
  exact (abs_add_le _ _).trans (by linarith)

theorem Close.within {n : ℕ} {w w' : K} (h : Close R n w w') (v : K) : Within R n (w * |v|) (w * v) (w' * v) := by
  refine ⟨by rw [abs_mul, abs_of_nonneg h.1], ?_⟩
  rw [← sub_mul, abs_mul]
  have := h.abs_sub
  calc |w' - w| * |v| ≤ w * (R.rho ^ n - 1) * |v| := mul_le_mul_of_nonneg_right this (abs_nonneg v)
    _ = (R.rho ^ n - 1) * (w * |v|) := by ring

theorem within_zero (n : ℕ) : Within R n 0 0 (0 : K) := ⟨by simp, by simp⟩

theorem Within.fold {α : Type} {n : ℕ} (T x c : α → K) : ∀ (l : List α), (∀ e ∈ l, Within R n (T e) (x e) (c e)) →
    ∀ (m : ℕ) (hm : n ≤ m) (S y d : K), Within R m S y d →
      Within R (m + l.length) (S + (l.map T).sum) (y + (l.map x).sum) (l.foldl (fun s e => R.rnd (s + c e)) d) := by
  intro l
  induction l with
  | nil => intro _ m hm S y d h; simpa using h
  | cons e l ih =>
    intro h m hm S y d hd
    have h1 := (hd.add ((h e (by simp)).mono hm)).rnd
    have h2 := ih (fun e he => h e (by simp [he])) (m + 1) (by omega) _ _ _ h1
    rw [List.foldl_cons, List.map_cons, List.map_cons, List.sum_cons, List.sum_cons, ← add_assoc, ← add_assoc, List.length_cons,
      show m + (l.length + 1) = m + 1 + l.length by omega]
    exact h2

variable (R)

/-! ## Entries of a row -/

/-- The entry loop as a recursion. -/
def recF : List (Ax K) → ℕ → K → ℕ → K × ℕ
  | [], _, d, c => (d, c)
  | (_, _, s, b) :: as, inz, d, c =>
    let P := (as.map (·.1)).prod
    recF as (inz % P) (R.rnd (d * b (inz / P))) (c + (inz / P + s) * (as.map (·.2.1)).prod)

theorem entryF_eq (axs : List (Ax K)) (inz : ℕ) :
    entryF R (axs.map (·.1)) (axs.map (·.2.1)) (axs.map (·.2.2)) inz = recF R axs inz 1 0 := by
  have key : ∀ (axs : List (Ax K)) (inz : ℕ) (d : K) (c : ℕ),
      (List.range axs.length).foldl (fun (st : K × ℕ) ix =>
        let z := digit (axs.map (·.1)) inz ix
        let sb := (axs.map (·.2.2)).getD ix (0, fun _ => 0)
        (R.rnd (st.1 * sb.2 z), st.2 + (z + sb.1) * tailProd (axs.map (·.2.1)) ix)) (d, c) = recF R axs inz d c := by
    intro axs
    induction axs with
    | nil => intro inz d c; simp [recF]
    | cons a as ih =>
      intro inz d c
      obtain ⟨o, n, s, b⟩ := a
      rw [List.length_cons, List.range_succ_eq_map, List.foldl_cons, List.foldl_map]
      have h3 : ∀ ix, digit (((o, n, s, b) :: as).map (·.1)) inz (ix + 1) = digit (as.map (·.1)) (inz % (as.map (·.1)).prod) ix :=
        fun ix => by rw [List.map_cons]; exact digit_succ _ _ _ _
      have h4 : ∀ ix, (((o, n, s, b) :: as).map (·.2.2)).getD (ix + 1) (0, fun _ => 0) = (as.map (·.2.2)).getD ix (0, fun _ => 0) :=
        fun ix => by simp
      have h5 : ∀ ix, tailProd (((o, n, s, b) :: as).map (·.2.1)) (ix + 1) = tailProd (as.map (·.2.1)) ix := fun ix => by
        simp [tailProd]
      have h6 : digit (((o, n, s, b) :: as).map (·.1)) inz 0 = inz / (as.map (·.1)).prod := by
        rw [List.map_cons]; exact digit_zero _ _ _
      simp only [Nat.succ_eq_add_one, h3, h4, h5, h6]
      rw [ih]
      simp [recF, tailProd]
  have := key axs inz 1 0
  unfold entryF
  rw [List.length_map]
  exact this

/-- The same axis with exact and computed basis values. -/
def AxClose (a aF : Ax K) : Prop :=
  a.1 = aF.1 ∧ a.2.1 = aF.2.1 ∧ a.2.2.1 = aF.2.2.1 ∧ ∀ j, j < a.1 → Close R (5 * (a.1 - 1)) (a.2.2.2 j) (aF.2.2.2 j)

theorem map_eq_of {α β γ : Type} {r : α → β → Prop} (f : α → γ) (g : β → γ) (h : ∀ a b, r a b → f a = g b) {l : List α} {l' : List β}
    (hr : List.Forall₂ r l l') : l.map f = l'.map g := by
  induction hr with
  | nil => rfl
  | cons hab _ ih => rw [List.map_cons, List.map_cons, h _ _ hab, ih]

theorem recF_close {axs axsF : List (Ax K)} (h : List.Forall₂ (AxClose R) axs axsF) : ∀ (inz : ℕ), inz < (axs.map (·.1)).prod →
    ∀ (m : ℕ) (d dF : K) (c : ℕ), Close R m d dF →
      (recF R axsF inz dF c).2 = c + (recE axs inz).2 ∧
        Close R (m + (axs.map fun a => 5 * (a.1 - 1) + 1).sum) (d * (recE axs inz).1) (recF R axsF inz dF c).1 := by
  induction h with
  | nil => intro inz _ m d dF c hd; simpa [recF, recE] using hd
  | @cons a aF as asF hab htl ih =>
    intro inz hi m d dF c hd
    obtain ⟨o, n, s, b⟩ := a
    obtain ⟨oF, nF, sF, bF⟩ := aF
    obtain ⟨h1, h2, h3, h4⟩ := hab
    dsimp only at h1 h2 h3 h4
    have e1 : as.map (·.1) = asF.map (·.1) := map_eq_of _ _ (fun _ _ h => h.1) htl
    have e2 : as.map (·.2.1) = asF.map (·.2.1) := map_eq_of _ _ (fun _ _ h => h.2.1) htl
    rw [List.map_cons, List.prod_cons] at hi
    have hP : 0 < (as.map (·.1)).prod := by
      rcases Nat.eq_zero_or_pos (as.map (·.1)).prod with h0 | h0
      · rw [h0, mul_zero] at hi; omega
      · exact h0
    have hz : inz / (as.map (·.1)).prod < o := Nat.div_lt_of_lt_mul (by rwa [mul_comm] at hi)
    have hd' := (hd.mul (h4 _ hz)).rnd
    have := ih (inz % (as.map (·.1)).prod) (Nat.mod_lt _ hP) _ _ _ (c + (inz / (as.map (·.1)).prod + sF) * (as.map (·.2.1)).prod) hd'
    simp only [recF, recE, ← e1, ← e2]
    rw [h3]
    refine ⟨by rw [this.1]; omega, ?_⟩
    rw [List.map_cons, List.sum_cons]
    have h5 := this.2
    rw [mul_assoc] at h5
    exact Close.mono (by dsimp only; omega) h5

theorem recE_strict (axs : List (Ax K)) : (∀ a ∈ axs, a.2.2.1 + a.1 ≤ a.2.1) → ∀ i j, i < j →
    j < (axs.map (·.1)).prod → (recE axs i).2 < (recE axs j).2 := by
  induction axs with
  | nil => intro _ i j hij hj; simp at hj; omega
  | cons a as ih =>
    intro h i j hij hj
    have hlt := recE_lt as (fun a ha => h a (by simp [ha]))
    obtain ⟨o, n, s, b⟩ := a
    rw [List.map_cons, List.prod_cons] at hj
    have hP : 0 < (as.map (·.1)).prod := by
      rcases Nat.eq_zero_or_pos (as.map (·.1)).prod with h0 | h0
      · rw [h0, mul_zero] at hj; omega
      · exact h0
    simp only [recE]
    have li := hlt _ (Nat.mod_lt i hP)
    have lj := hlt _ (Nat.mod_lt j hP)
    have hle : i / (as.map (·.1)).prod ≤ j / (as.map (·.1)).prod := Nat.div_le_div_right hij.le
    rcases hle.lt_or_eq with hl | he
    · have : (i / (as.map (·.1)).prod + s + 1) * (as.map (·.2.1)).prod ≤ (j / (as.map (·.1)).prod + s) * (as.map (·.2.1)).prod :=
        Nat.mul_le_mul_right _ (by omega)
      rw [Nat.add_mul _ 1, one_mul] at this
      omega
    · rw [he]
      have : i % (as.map (·.1)).prod < j % (as.map (·.1)).prod := by
        have e1 := Nat.div_add_mod i (as.map (·.1)).prod
        have e2 := Nat.div_add_mod j (as.map (·.1)).prod
        rw [he] at e1
        omega
      have := ih (fun a ha => h a (by simp [ha])) _ _ this (Nat.mod_lt j hP)
      omega

/-! ## Specification: the spline on the computed knots -/

/-- `∑_{j₁} ⋯ ∑_{j_d} N_{j₁}(t₁) ⋯ N_{j_d}(t_d) c[j₁, …, j_d]` in exact arithmetic, with textbook basis functions on the computed
knots and row-major coefficients. -/
def splineK : List (Axis K) → List K → (ℕ → K) → K
  | [], _, c => c 0
  | a :: as, ts, c => ∑ j ∈ Finset.range a.ncp, N (knotF R a.order a.ncp) j (a.order - 1) (ts.headD 0) *
      splineK as ts.tail (fun q => c (j * (as.map (·.ncp)).prod + q))

/-- Number of roundings in one entry. -/
def entryOps (axes : List (Axis K)) : ℕ := (axes.map fun a => 5 * (a.order - 1) + 1).sum

theorem basesF_ok : ∀ (axes : List (Axis K)) (ts : List K),
    (∀ a ∈ axes, 1 ≤ a.order ∧ a.order ≤ a.ncp) → axes.length = ts.length → (∀ t ∈ ts, 0 ≤ t ∧ t < 1) →
    ∃ axs axsF : List (Ax K), basesF R axes ts = some (axsF.map (·.2.2)) ∧ List.Forall₂ (AxClose R) axs axsF ∧
      axs.map (·.1) = axes.map (·.order) ∧ axs.map (·.2.1) = axes.map (·.ncp) ∧
      (∀ a ∈ axs, a.2.2.1 + a.1 ≤ a.2.1) ∧ (∀ c, nested axs c = splineK R axes ts c) ∧
      ∀ a ∈ axs, (∀ j, j < a.1 → 0 ≤ a.2.2.2 j) ∧ ∑ j ∈ Finset.range a.1, a.2.2.2 j = 1 := by
  intro axes
  induction axes with
  | nil => intro ts _ _ _; exact ⟨[], [], rfl, .nil, rfl, rfl, by simp, fun c => rfl, by simp⟩
  | cons a as ih =>
    intro ts hv hl ht
    cases ts with
    | nil => simp at hl
    | cons t ts =>
      obtain ⟨ho, hn⟩ := hv a (by simp)
      obtain ⟨h0, h1⟩ := ht t (by simp)
      obtain ⟨s, e1, e2, e5, e6⟩ := C102_span_search R a.order a.ncp ho hn t h0 h1
      have hk := knotF_mono R a.order a.ncp hn
      obtain ⟨axs, axsF, f1, f0, f2, f3, f4, f5, f6⟩ := ih ts (fun b hb => hv b (by simp [hb])) (by simpa using hl)
        (fun u hu => ht u (by simp [hu]))
      obtain ⟨p1, p2⟩ := C23_partition_of_unity _ hk t a.order s ho e5 e6
      refine ⟨(a.order, a.ncp, s, basis0 (knotF R a.order a.ncp) t a.order s) :: axs,
        (a.order, a.ncp, s, basis0F R (knotF R a.order a.ncp) t a.order s) :: axsF, ?_, ?_, by simp [f2], by simp [f3], ?_, ?_, ?_⟩
      · simp [basesF, computeBasisF, e1, f1]
      · exact .cons ⟨rfl, rfl, rfl, fun j hj => basis_close R _ hk t a.order s ho e5 e6 j hj⟩ f0
      · intro b hb
        rcases List.mem_cons.1 hb with h | h
        · subst h; exact e2
        · exact f4 b h
      · intro c
        simp only [nested, splineK, List.headD_cons, List.tail_cons, f3]
        simp only [← f5]
        have hsub : Finset.image (fun j => s + j) (Finset.range a.order) ⊆ Finset.range a.ncp := by
          intro q hq
          rw [Finset.mem_image] at hq
          obtain ⟨j, hj, rfl⟩ := hq
          rw [Finset.mem_range] at hj ⊢; omega
        rw [← Finset.sum_subset hsub, Finset.sum_image]
        · refine Finset.sum_congr rfl fun j hj => ?_
          rw [Finset.mem_range] at hj
          rw [C23_is_cox_de_boor _ hk t a.order s ho e5 e6 j hj, Nat.add_comm j s]
        · intro i _ j _ h; simp only at h; omega
        · intro q hq hq'
          rw [C23_local_support _ hk t a.order s ho e5 e6 q, zero_mul]
          by_contra hc
          push Not at hc
          apply hq'
          rw [Finset.mem_image]
          exact ⟨q - s, Finset.mem_range.2 (by omega), by omega⟩
      · intro b hb
        rcases List.mem_cons.1 hb with h | h
        · subst h
          exact ⟨fun j hj => (p2 j hj).1, p1⟩
        · exact f6 b h

theorem paramF_mem (eps : K) (h0 : 0 < eps) (h1 : R.rnd eps ≤ R.rnd (1 - eps)) (h2 : R.rnd (1 - eps) < 1) (a : Axis K) (x : K) :
    0 ≤ paramF R eps a x ∧ paramF R eps a x < 1 := by
  refine ⟨le_min (le_max_of_le_right ?_) ?_, lt_of_le_of_lt (min_le_right _ _) h2⟩
  · rw [zero_add]; exact (R.pos h0).le
  · exact (R.pos h0).le.trans h1

/-- What the theorems need of the literal `1e-15`. -/
def EpsOk (eps : K) : Prop := 0 < eps ∧ R.rnd eps ≤ R.rnd (1 - eps) ∧ R.rnd (1 - eps) < 1

theorem jacRowF_ok (eps : K) (he : EpsOk R eps) (axes : List (Axis K)) (hv : ∀ a ∈ axes, 1 ≤ a.order ∧ a.order ≤ a.ncp) (x : List K)
    (hl : axes.length = x.length) : ∃ axs axsF : List (Ax K),
      jacRowF R eps axes x = some ((List.range (axs.map (·.1)).prod).map fun i => recF R axsF i 1 0) ∧ List.Forall₂ (AxClose R) axs axsF ∧
      axs.map (·.1) = axes.map (·.order) ∧ axs.map (·.2.1) = axes.map (·.ncp) ∧
      (∀ a ∈ axs, a.2.2.1 + a.1 ≤ a.2.1) ∧ (∀ c, nested axs c = splineK R axes (List.zipWith (paramF R eps) axes x) c) ∧
      (∀ a ∈ axs, (∀ j, j < a.1 → 0 ≤ a.2.2.2 j) ∧ ∑ j ∈ Finset.range a.1, a.2.2.2 j = 1) ∧
      (axs.map fun a => 5 * (a.1 - 1) + 1).sum = entryOps axes := by
  obtain ⟨axs, axsF, f1, f0, f2, f3, f4, f5, f6⟩ := basesF_ok R axes (List.zipWith (paramF R eps) axes x) hv (by simp [hl]) (by
    intro t ht
    obtain ⟨i, hi, rfl⟩ := List.mem_iff_getElem.1 ht
    rw [List.getElem_zipWith]
    exact paramF_mem R eps he.1 he.2.1 he.2.2 _ _)
  refine ⟨axs, axsF, ?_, f0, f2, f3, f4, f5, f6, ?_⟩
  · unfold jacRowF
    rw [f1, Option.map_some, ← f2, ← f3]
    congr 1
    refine List.map_congr_left fun i hi => ?_
    have e1 : axs.map (·.1) = axsF.map (·.1) := map_eq_of _ _ (fun _ _ h => h.1) f0
    have e2 : axs.map (·.2.1) = axsF.map (·.2.1) := map_eq_of _ _ (fun _ _ h => h.2.1) f0
    rw [e1, e2, entryF_eq]
  · have : (axs.map fun a => 5 * (a.1 - 1) + 1) = (axs.map (·.1)).map fun o => 5 * (o - 1) + 1 := by rw [List.map_map]; rfl
    rw [this, f2, List.map_map]
    rfl

/-- **C102** The parameter of a point: always inside the clamped range, monotone in the point, and for a point inside the
limits the clamped value of a number within three roundings of `(x - lower) / (upper - lower)`. -/
theorem C102_parameter (eps : K) (he : EpsOk R eps) (a : Axis K) (ha : a.lo < a.hi) (x x' : K) (hx : x ≤ x') :
    (R.rnd eps ≤ paramF R eps a x ∧ paramF R eps a x ≤ R.rnd (1 - eps)) ∧ paramF R eps a x ≤ paramF R eps a x' ∧
      (a.lo ≤ x → ∃ t, paramF R eps a x = min (max t (R.rnd eps)) (R.rnd (1 - eps)) ∧
        |t - (x - a.lo) / (a.hi - a.lo)| ≤ (x - a.lo) / (a.hi - a.lo) * (R.rho ^ 3 - 1)) := by
  unfold paramF
  rw [zero_add]
  refine ⟨⟨le_min (le_max_right _ _) he.2.1, min_le_right _ _⟩, ?_, fun h => ⟨_, rfl, ?_⟩⟩
  · refine min_le_min_right _ (max_le_max_right _ (R.mono _ _ ?_))
    exact div_le_div_of_nonneg_right (R.mono _ _ (by linarith)) (R.nonneg (by linarith))
  · have h1 : Close R 1 (x - a.lo) (R.rnd (x - a.lo)) := Close.of_rnd (by linarith)
    have h2 : Close R 1 (a.hi - a.lo) (R.rnd (a.hi - a.lo)) := Close.of_rnd (by linarith)
    exact (h1.div h2).rnd.abs_sub

/-- **C102** Every row of the Jacobian of values has `∏ order` entries at valid columns in increasing order, none negative, and
its entries sum to one up to the roundings of one entry. -/
theorem C102_row (eps : K) (he : EpsOk R eps) (axes : List (Axis K)) (hv : ∀ a ∈ axes, 1 ≤ a.order ∧ a.order ≤ a.ncp) (x : List K)
    (hl : axes.length = x.length) : ∃ row, jacRowF R eps axes x = some row ∧ row.length = (axes.map (·.order)).prod ∧
      (row.map (·.2)).Pairwise (· < ·) ∧ (∀ e ∈ row, 0 ≤ e.1 ∧ e.2 < (axes.map (·.ncp)).prod) ∧
      |(row.map (·.1)).sum - 1| ≤ R.rho ^ entryOps axes - 1 := by
  obtain ⟨axs, axsF, f1, f0, f2, f3, f4, f5, f6, f7⟩ := jacRowF_ok R eps he axes hv x hl
  have hc : ∀ i, i < (axs.map (·.1)).prod → (recF R axsF i 1 0).2 = (recE axs i).2 ∧ Close R (entryOps axes) (recE axs i).1 (recF R axsF i 1 0).1 := by
    intro i hi
    have := recF_close R f0 i hi 0 1 1 0 (Close.refl zero_le_one)
    rw [zero_add, zero_add, one_mul, f7] at this
    exact this
  refine ⟨_, f1, by simp [f2], ?_, ?_, ?_⟩
  · rw [List.map_map, List.pairwise_map]
    refine List.Pairwise.imp_of_mem ?_ (List.pairwise_lt_range)
    intro i j hi hj hij
    rw [List.mem_range] at hi hj
    simp only [Function.comp]
    rw [(hc i hi).1, (hc j hj).1]
    exact recE_strict axs f4 i j hij hj
  · intro e hm
    rw [List.mem_map] at hm
    obtain ⟨i, hi, rfl⟩ := hm
    rw [List.mem_range] at hi
    exact ⟨(hc i hi).2.2.1, by rw [(hc i hi).1, ← f3]; exact recE_lt axs f4 i hi⟩
  · have hs := row_sum axs (fun _ => (1 : K))
    rw [nested_one axs (fun a ha => (f6 a ha).2)] at hs
    simp only [mul_one] at hs
    rw [List.map_map, list_sum_range]
    have h1 : ∑ i ∈ Finset.range (axs.map (·.1)).prod, ((·.1) ∘ fun i => recF R axsF i 1 0) i - 1 =
        ∑ i ∈ Finset.range (axs.map (·.1)).prod, ((recF R axsF i 1 0).1 - (recE axs i).1) := by
      rw [Finset.sum_sub_distrib, hs]
      rfl
    rw [h1]
    refine (Finset.abs_sum_le_sum_abs _ _).trans ?_
    refine (Finset.sum_le_sum fun i hi => (hc i (Finset.mem_range.1 hi)).2.abs_sub).trans ?_
    rw [← Finset.sum_mul, hs, one_mul]

/-- **C102** The prediction is the tensor-product spline, in exact arithmetic, at the computed parameters and on the computed
knots, up to `entryOps + 1 + ∏ order` roundings relative to the largest coefficient. -/
theorem C102_prediction (eps : K) (he : EpsOk R eps) (axes : List (Axis K)) (hv : ∀ a ∈ axes, 1 ≤ a.order ∧ a.order ≤ a.ncp) (x : List K)
    (hl : axes.length = x.length) (coeff : ℕ → K) (M : K) (hM : ∀ q, q < (axes.map (·.ncp)).prod → |coeff q| ≤ M) :
    ∃ y, predictF R eps axes coeff x = some y ∧
      |y - splineK R axes (List.zipWith (paramF R eps) axes x) coeff| ≤ (R.rho ^ (entryOps axes + 1 + (axes.map (·.order)).prod) - 1) * M := by
  obtain ⟨axs, axsF, f1, f0, f2, f3, f4, f5, f6, f7⟩ := jacRowF_ok R eps he axes hv x hl
  refine ⟨_, by unfold predictF; rw [f1]; rfl, ?_⟩
  have hc : ∀ i, i < (axs.map (·.1)).prod → (recF R axsF i 1 0).2 = (recE axs i).2 ∧ Close R (entryOps axes) (recE axs i).1 (recF R axsF i 1 0).1 := by
    intro i hi
    have := recF_close R f0 i hi 0 1 1 0 (Close.refl zero_le_one)
    rw [zero_add, zero_add, one_mul, f7] at this
    exact this
  have hw : ∀ i ∈ List.range (axs.map (·.1)).prod, Within R (entryOps axes + 1) ((recE axs i).1 * |coeff (recE axs i).2|)
      ((recE axs i).1 * coeff (recE axs i).2) (R.rnd ((recF R axsF i 1 0).1 * coeff (recF R axsF i 1 0).2)) := by
    intro i hi
    rw [List.mem_range] at hi
    obtain ⟨h1, h2⟩ := hc i hi
    rw [h1]
    exact (h2.within _).rnd
  have hf := Within.fold _ _ _ _ hw (entryOps axes + 1) le_rfl 0 0 0 (within_zero _)
  rw [zero_add, zero_add, List.length_range, list_sum_range, list_sum_range, row_sum axs coeff, f5, f2] at hf
  dsimp only
  rw [List.foldl_map, f2]
  refine hf.2.trans (mul_le_mul_of_nonneg_left ?_ (sub_nonneg.2 (one_le_pow₀ (rho_one_le R))))
  have h1 := row_sum axs (fun _ => M)
  rw [nested_one axs (fun a ha => (f6 a ha).2), f2] at h1
  rw [← h1]
  refine Finset.sum_le_sum fun i hi => ?_
  rw [Finset.mem_range, ← f2] at hi
  refine mul_le_mul_of_nonneg_left (hM _ ?_) (recE_nonneg axs (fun a ha => (f6 a ha).1) i hi)
  rw [← f3]
  exact recE_lt axs f4 i hi

/-- **C102** A prediction lies between the smallest and the largest coefficient, up to those roundings. -/
theorem C102_between (eps : K) (he : EpsOk R eps) (axes : List (Axis K)) (hv : ∀ a ∈ axes, 1 ≤ a.order ∧ a.order ≤ a.ncp) (x : List K)
    (hl : axes.length = x.length) (coeff : ℕ → K) (lo hi M : K)
    (hc : ∀ q, q < (axes.map (·.ncp)).prod → lo ≤ coeff q ∧ coeff q ≤ hi ∧ |coeff q| ≤ M) :
    ∃ y, predictF R eps axes coeff x = some y ∧
      lo - (R.rho ^ (entryOps axes + 1 + (axes.map (·.order)).prod) - 1) * M ≤ y ∧
      y ≤ hi + (R.rho ^ (entryOps axes + 1 + (axes.map (·.order)).prod) - 1) * M := by
  obtain ⟨y, h1, h2⟩ := C102_prediction R eps he axes hv x hl coeff M fun q hq => (hc q hq).2.2
  obtain ⟨axs, axsF, f1, f0, f2, f3, f4, f5, f6, f7⟩ := jacRowF_ok R eps he axes hv x hl
  have hn := row_sum axs coeff
  rw [f5] at hn
  have hb : ∀ i ∈ Finset.range (axs.map (·.1)).prod, (recE axs i).1 * lo ≤ (recE axs i).1 * coeff (recE axs i).2 ∧
      (recE axs i).1 * coeff (recE axs i).2 ≤ (recE axs i).1 * hi := by
    intro i hi'
    rw [Finset.mem_range] at hi'
    have h0 := recE_nonneg axs (fun a ha => (f6 a ha).1) i hi'
    have hq := hc _ (by rw [← f3]; exact recE_lt axs f4 i hi')
    exact ⟨mul_le_mul_of_nonneg_left hq.1 h0, mul_le_mul_of_nonneg_left hq.2.1 h0⟩
  have hlo := Finset.sum_le_sum fun i hi => (hb i hi).1
  have hhi := Finset.sum_le_sum fun i hi => (hb i hi).2
  have g1 := row_sum axs (fun _ => lo)
  have g2 := row_sum axs (fun _ => hi)
  rw [nested_one axs (fun a ha => (f6 a ha).2)] at g1 g2
  rw [hn] at hlo hhi
  rw [abs_le] at h2
  refine ⟨y, h1, ?_, ?_⟩ <;> linarith [h2.1, h2.2]

/-! ## The hypotheses are met, and the size of the bounds -/

/-- The literal `1e-15` in double precision. -/
def epsD : ℚ := double.rnd (1 / 1000000000000000)

theorem C102_eps_double : EpsOk double epsD := by
  refine ⟨?_, ?_, ?_⟩ <;> decide +kernel

/-- Cubic splines (order 4) in two inputs: the prediction is off the exact spline on the computed knots by less than `1.1e-14` times the
largest coefficient. -/
theorem C102_double_cubic (n1 n2 : ℕ) (l1 h1 l2 h2 : ℚ) (hn1 : 4 ≤ n1) (hn2 : 4 ≤ n2) (x y : ℚ) (coeff : ℕ → ℚ) (M : ℚ) (hM : ∀ q, q < n1 * n2 → |coeff q| ≤ M) :
    ∃ z, predictF double epsD [⟨4, n1, l1, h1⟩, ⟨4, n2, l2, h2⟩] coeff [x, y] = some z ∧
      |z - splineK double [⟨4, n1, l1, h1⟩, ⟨4, n2, l2, h2⟩] [paramF double epsD ⟨4, n1, l1, h1⟩ x, paramF double epsD ⟨4, n2, l2, h2⟩ y] coeff| ≤
        11 / 1000000000000000 * M := by
  obtain ⟨z, hz, h⟩ := C102_prediction double epsD C102_eps_double [⟨4, n1, l1, h1⟩, ⟨4, n2, l2, h2⟩] (by
    intro a ha
    simp only [List.mem_cons, List.not_mem_nil, or_false] at ha
    rcases ha with rfl | rfl <;> exact ⟨by norm_num, by assumption⟩) [x, y] rfl coeff M (by simpa using hM)
  refine ⟨z, hz, h.trans ?_⟩
  have h0 : 0 ≤ M := (abs_nonneg _).trans (hM 0 (by positivity))
  refine mul_le_mul_of_nonneg_right ?_ h0
  show double.rho ^ 49 - 1 ≤ 11 / 1000000000000000
  have : double.rho = 9007199254740993 / 9007199254740991 := by
    unfold Rounding.rho
    show (1 + (2 : ℚ) ^ (-((53 : ℕ) : ℤ))) / (1 - (2 : ℚ) ^ (-((53 : ℕ) : ℤ))) = _
    norm_num
  rw [this]
  norm_num

/-- A row, computed: order 2, three control points on `[0, 1]`, at `x = 1/3` as a double. -/
example : (jacRowF double epsD [⟨2, 3, 0, 1⟩] [double.rnd (1 / 3)]).map (·.map (·.2)) = some [0, 1] := by decide +kernel

end SMT.Fp
