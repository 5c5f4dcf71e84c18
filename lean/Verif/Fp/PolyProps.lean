import Verif.Fp.Poly
import Verif.Fp.StandardProps
import Verif.Fp.EseProps2
import Verif.Qp.Props

/-!
# Property C119, first part: LS and QP
-/
set_option linter.unusedSectionVars false
set_option linter.unusedSimpArgs false
set_option linter.unusedVariables false

namespace SMT.Fp

variable {K : Type} [Field K] [LinearOrder K] [IsStrictOrderedRing K] {R : Rounding K}

/-! ## Scalar products -/

theorem Dot.terms_pos (d : Dot) : 1 ≤ d.terms.length := by
  induction d with
  | mul i => simp [Dot.terms]
  | add a b ha hb => rw [Dot.terms, List.length_append]; omega
  | fma i a ha => simp [Dot.terms]

theorem Dot.terms_length {d : Dot} {n : ℕ} (h : d.Computes n) : d.terms.length = n := by
  rw [List.Perm.length_eq h, List.length_range]

/-- The products may already carry `n` errors. -/
theorem Dot.eval_within (n : ℕ) (T x f g : ℕ → K) (d : Dot) (h : ∀ i ∈ d.terms, Within R n (T i) (x i) (f i * g i)) :
    Within R (n + d.terms.length) (d.terms.map T).sum (d.terms.map x).sum (d.eval R f g) := by
  induction d with
  | mul i =>
    have := (h i (by simp [Dot.terms])).rnd
    simpa [Dot.terms, Dot.eval] using this
  | add a b ha hb =>
    have p1 := a.terms_pos
    have p2 := b.terms_pos
    have h1 := ha fun i hi => h i (by simp [Dot.terms, hi])
    have h2 := hb fun i hi => h i (by simp [Dot.terms, hi])
    rw [Dot.terms, Dot.eval, List.map_append, List.map_append, List.sum_append, List.sum_append, List.length_append]
    have := ((h1.mono (m := n + (a.terms.length + b.terms.length - 1)) (by omega)).add (h2.mono (by omega))).rnd
    rwa [show n + (a.terms.length + b.terms.length - 1) + 1 = n + (a.terms.length + b.terms.length) by omega] at this
  | fma i a ha =>
    have h1 := ha fun j hj => h j (by simp [Dot.terms, hj])
    have h2 := h i (by simp [Dot.terms])
    rw [Dot.terms, Dot.eval, List.map_cons, List.map_cons, List.sum_cons, List.sum_cons, List.length_cons]
    have := ((h2.mono (m := n + a.terms.length) (by omega)).add h1).rnd
    rwa [show n + a.terms.length + 1 = n + (a.terms.length + 1) by omega] at this

theorem sum_range_list (n : ℕ) (f : ℕ → K) : ((List.range n).map f).sum = ∑ i ∈ Finset.range n, f i := rfl

theorem Dot.sum_terms {d : Dot} {n : ℕ} (h : d.Computes n) (f : ℕ → K) : (d.terms.map f).sum = ∑ i ∈ Finset.range n, f i := by
  rw [(h.map f).sum_eq, sum_range_list]

theorem Dot.left_computes (n : ℕ) : (Dot.left n).Computes (n + 1) := by
  induction n with
  | zero => exact List.Perm.refl _
  | succ n ih =>
    rw [Dot.Computes, Dot.left, Dot.terms, List.range_succ]
    exact ih.append (List.Perm.refl _)

theorem within_self (x : K) : Within R 0 |x| x x := ⟨le_rfl, by simp⟩

/-- With an error in one factor. -/
theorem Within.mul_right {n : ℕ} {T x c : K} (h : Within R n T x c) (g : K) : Within R n (T * |g|) (x * g) (c * g) := by
  obtain ⟨h1, h2⟩ := h
  refine ⟨by rw [abs_mul]; exact mul_le_mul_of_nonneg_right h1 (abs_nonneg g), ?_⟩
  rw [← sub_mul, abs_mul, ← mul_assoc]
  exact mul_le_mul_of_nonneg_right h2 (abs_nonneg g)

/-! ## Linear models -/

namespace Poly
open SMT.Qp

/-- **C119** LS: the computed prediction differs from the exact one by at most `ρⁿ⁺¹ - 1` times the sum of the absolute values of its terms. -/
theorem C119_ls_value {nx : ℕ} (d : Dot) (hd : d.Computes nx) (coef : ℕ → K) (b : K) (x : ℕ → K) :
    |lsPredictF R d coef b x - ((∑ i ∈ Finset.range nx, x i * coef i) + b)| ≤
      (R.rho ^ (nx + 1) - 1) * ((∑ i ∈ Finset.range nx, |x i| * |coef i|) + |b|) := by
  have h := Dot.eval_within (R := R) 0 (fun i => |x i * coef i|) (fun i => x i * coef i) x coef d fun i _ => within_self _
  rw [Dot.sum_terms hd, Dot.sum_terms hd, Dot.terms_length hd] at h
  have h2 := (h.add ((within_self b).mono (by omega))).rnd.2
  simpa only [abs_mul, Nat.zero_add, lsPredictF] using h2

/-- **C119** LS: the derivative is the coefficient itself, without an error. -/
theorem C119_ls_derivative (coef : ℕ → K) (kx : ℕ) (h : R.Rep (coef kx)) : lsDerivF R coef kx = coef kx := by
  rw [lsDerivF, one_mul]
  exact h

/-! ## Quadratic models -/

/-- Exact values rounded where the program computes something. -/
theorem writesF_eq (dim : ℕ) (x : ℕ → K) (hx : ∀ i, i < dim → R.Rep (x i)) :
    writesF R dim x = (writes dim x).map fun p => (p.1, R.rnd p.2) := by
  unfold writesF writes
  rw [List.map_cons, List.map_append, List.map_append, List.map_map, List.map_map, List.map_flatMap]
  simp only [List.map_map, Function.comp_def]
  rw [R.one]
  congr 2
  · congr 1
    · refine List.map_congr_left fun i hi => ?_
      rw [List.mem_range'_1] at hi
      rw [show R.rnd (x (i - 1)) = x (i - 1) from hx _ (by omega)]
    · refine List.map_congr_left fun i hi => ?_
      rw [sq]

theorem responseRowF_eq (dim : ℕ) (x : ℕ → K) (hx : ∀ i, i < dim → R.Rep (x i)) :
    responseRowF R dim x = some ((writes dim x).map fun p => R.rnd p.2) := by
  have hc : (writesF R dim x).map (·.1) = List.range' ([] : List K).length (nApp dim) := by
    rw [writesF_eq dim x hx, List.map_map]
    have := C32_columns dim x
    rw [List.range_eq_range'] at this
    simpa [Function.comp_def] using this
  have := fold_writes (writesF R dim x) [] (nApp dim) hc
  rw [writesF_eq dim x hx, List.map_map] at this
  rw [responseRowF, writesF_eq dim x hx]
  simpa [Function.comp_def] using this

theorem writes_length (dim : ℕ) (x : ℕ → K) : (writes dim x).length = nApp dim := by
  have := congrArg List.length (C32_columns dim x)
  simpa using this

theorem row_rnd (dim : ℕ) (x : ℕ → K) (k : ℕ) :
    ((writes dim x).map fun p => R.rnd p.2).getD k 0 = R.rnd (((writes dim x).map (·.2)).getD k 0) := by
  by_cases h : k < (writes dim x).length
  · simp [List.getD_eq_getElem?_getD, h]
  · simp [List.getD_eq_getElem?_getD, not_lt.1 h, R.zero]

theorem row_abs (dim : ℕ) (x : ℕ → K) (k : ℕ) :
    ((writes dim fun i => |x i|).map (·.2)).getD k 0 = |((writes dim x).map (·.2)).getD k 0| := by
  have e : (writes dim fun i => |x i|) = (writes dim x).map fun p => (p.1, |p.2|) := by
    unfold writes
    rw [List.map_cons, List.map_append, List.map_append, List.map_map, List.map_map, List.map_flatMap]
    simp only [List.map_map, Function.comp_def, abs_mul, abs_pow, abs_one]
  rw [e, List.map_map]
  by_cases h : k < (writes dim x).length
  · simp [List.getD_eq_getElem?_getD, h]
  · simp [List.getD_eq_getElem?_getD, not_lt.1 h]

/-- The terms of the polynomial add up to it. -/
theorem terms_sum (dim : ℕ) (c x : ℕ → K) :
    ∑ k ∈ Finset.range (nApp dim), ((writes dim x).map (·.2)).getD k 0 * c k = quadratic dim c x := by
  have h := C32_predict_is_quadratic dim c x
  unfold predict at h
  rw [responseRow_eq, Option.map_some, Option.some.injEq, List.length_map, writes_length] at h
  exact h

theorem terms_abs (dim : ℕ) (c x : ℕ → K) :
    ∑ k ∈ Finset.range (nApp dim), |((writes dim x).map (·.2)).getD k 0 * c k| = quadratic dim (fun k => |c k|) fun i => |x i| := by
  rw [← terms_sum dim (fun k => |c k|)]
  refine Finset.sum_congr rfl fun k _ => ?_
  rw [row_abs, abs_mul]

/-- **C119** QP: the computed prediction differs from the exact one by at most `ρ^(N+1) - 1`, `N` the number of terms, times the value of the polynomial with
the absolute values of the coefficients at the absolute values of the inputs. -/
theorem C119_qp_value (dim : ℕ) (d : Dot) (hd : d.Computes ((dim + 2).choose dim)) (coef x : ℕ → K) (hx : ∀ i, i < dim → R.Rep (x i)) :
    ∃ y, predictF R d dim coef x = some y ∧
      |y - quadratic dim coef x| ≤ (R.rho ^ ((dim + 2).choose dim + 1) - 1) * quadratic dim (fun k => |coef k|) fun i => |x i| := by
  refine ⟨_, by rw [predictF, responseRowF_eq dim x hx]; rfl, ?_⟩
  have hd' : d.Computes (nApp dim) := hd
  have h := Dot.eval_within (R := R) 1 (fun k => |((writes dim x).map (·.2)).getD k 0 * coef k|)
    (fun k => ((writes dim x).map (·.2)).getD k 0 * coef k) (fun k => ((writes dim x).map fun p => R.rnd p.2).getD k 0) coef d fun k _ => by
      rw [row_rnd, abs_mul]
      exact (within_self (R := R) _).rnd.mul_right _
  rw [Dot.sum_terms hd', Dot.sum_terms hd', Dot.terms_length hd', terms_sum, terms_abs] at h
  rw [show (dim + 2).choose dim + 1 = 1 + nApp dim by rw [Nat.add_comm]; rfl]
  exact h.2

/-! ## Derivatives of quadratic models -/

/-- `D` is the partial derivative of the polynomial in input `kx` at `x`: moving that input by any `h` changes the value by `h D + h² e`. -/
def IsSlope (dim kx : ℕ) (c x : ℕ → K) (D : K) : Prop :=
  ∃ e, ∀ h, quadratic dim c (Function.update x kx (x kx + h)) = quadratic dim c x + h * D + h ^ 2 * e

theorem isSlope_derivEntry (dim kx : ℕ) (hk : kx < dim) (c x : ℕ → K) : IsSlope dim kx c x (derivEntry dim kx c x) :=
  ⟨_, C32_taylor dim kx hk c x⟩

theorem IsSlope.unique {dim kx : ℕ} {c x : ℕ → K} {D D' : K} (h : IsSlope dim kx c x D) (h' : IsSlope dim kx c x D') : D = D' := by
  obtain ⟨e, he⟩ := h
  obtain ⟨e', he'⟩ := h'
  have a := (he 1).symm.trans (he' 1)
  have b := (he (-1)).symm.trans (he' (-1))
  linarith

theorem cross_within (dim kx : ℕ) (c x : ℕ → K) : ∀ (l : List ℕ) (m : ℕ), 1 ≤ m → ∀ S y e : K, Within R m S y e →
    Within R (m + l.length)
      (l.foldl (fun acc i => if i > kx then acc + |c (crossIdx dim kx i)| * |x i| else if i < kx then acc + |c (crossIdx dim i kx)| * |x i| else acc) S)
      (l.foldl (fun acc i => if i > kx then acc + c (crossIdx dim kx i) * x i else if i < kx then acc + c (crossIdx dim i kx) * x i else acc) y)
      (l.foldl (fun acc i => if i > kx then R.rnd (acc + R.rnd (c (crossIdx dim kx i) * x i)) else if i < kx then R.rnd (acc + R.rnd (c (crossIdx dim i kx) * x i)) else acc) e) := by
  intro l
  induction l with
  | nil => intro m _ S y e h; simpa using h
  | cons i l ih =>
    intro m hm S y e h
    rw [List.foldl_cons, List.foldl_cons, List.foldl_cons, List.length_cons, show m + (l.length + 1) = m + 1 + l.length by omega]
    have key : ∀ k, Within R (m + 1) (S + |c k| * |x i|) (y + c k * x i) (R.rnd (e + R.rnd (c k * x i))) := fun k => by
      rw [← abs_mul]
      exact (h.add ((within_self (R := R) (c k * x i)).rnd.mono hm)).rnd
    refine ih (m + 1) (by omega) _ _ _ ?_
    by_cases h1 : i > kx
    · rw [if_pos h1, if_pos h1, if_pos h1]
      exact key _
    · rw [if_neg h1, if_neg h1, if_neg h1]
      by_cases h2 : i < kx
      · rw [if_pos h2, if_pos h2, if_pos h2]
        exact key _
      · rw [if_neg h2, if_neg h2, if_neg h2]
        exact h.mono (by omega)

/-- **C119** QP: the computed partial derivative differs from the exact one `D` by at most `ρ^(dim+3) - 1` times the partial derivative `T` of the polynomial with
the absolute values of the coefficients at the absolute values of the inputs. -/
theorem C119_qp_derivative (dim kx : ℕ) (hk : kx < dim) (coef x : ℕ → K) {D T : K} (hD : IsSlope dim kx coef x D)
    (hT : IsSlope dim kx (fun k => |coef k|) (fun i => |x i|) T) :
    |derivF R dim kx coef x - D| ≤ (R.rho ^ (dim + 3) - 1) * T := by
  rw [hD.unique (isSlope_derivEntry dim kx hk coef x), hT.unique (isSlope_derivEntry dim kx hk _ _)]
  have hc := cross_within (R := R) dim kx coef x (List.range dim) 1 le_rfl 0 0 0 ((within_zero 1))
  rw [List.length_range] at hc
  have h2 : Within R 1 (2 * |coef (1 + dim + kx)|) (2 * coef (1 + dim + kx)) (R.rnd (2 * coef (1 + dim + kx))) := by
    have := (within_self (R := R) (2 * coef (1 + dim + kx))).rnd
    rwa [abs_mul, abs_two] at this
  have h3 := (((within_self (R := R) (coef (1 + kx))).mono (m := 2) (by omega)).add ((h2.mul_right (x kx)).rnd)).rnd
  exact ((h3.mono (m := dim + 2) (by omega)).add (hc.mono (by omega))).rnd.2

/-! ## Exact results -/

/-- **C119** QP: at the origin the prediction is the constant coefficient and the derivative the linear one, without an error. -/
theorem C119_qp_origin (dim : ℕ) (d : Dot) (hd : d.Computes ((dim + 2).choose dim)) (coef x : ℕ → K) (hx : ∀ i, i < dim → x i = 0) (h0 : R.Rep (coef 0)) :
    predictF R d dim coef x = some (coef 0) ∧ ∀ kx, kx < dim → R.Rep (coef (1 + kx)) → derivF R dim kx coef x = coef (1 + kx) := by
  have hrow : ∀ k, k ≠ 0 → ((writes dim x).map (·.2)).getD k 0 = 0 := by
    intro k hk
    unfold writes
    rw [List.map_cons]
    obtain ⟨k, rfl⟩ := Nat.exists_eq_succ_of_ne_zero hk
    rw [List.getD_cons_succ]
    rw [List.getD_eq_getElem?_getD]
    cases hg : (List.map (·.2) ((List.range' 1 dim).map (fun i => (i, x (i - 1))) ++
        (List.range' (dim + 1) dim).map (fun i => (i, x (i - (dim + 1)) ^ 2)) ++
        (List.range (dim - 1)).flatMap fun i => (List.range' (i + 1) (dim - (i + 1))).map fun j => (crossIdx dim i j, x i * x j)))[k]? with
    | none => rfl
    | some v =>
      have hv := List.mem_of_getElem? hg
      rw [Option.getD_some]
      simp only [List.mem_map, List.mem_append, List.mem_flatMap, List.mem_range, List.mem_range'_1] at hv
      obtain ⟨p, (⟨i, hi, rfl⟩ | ⟨i, hi, rfl⟩) | ⟨i, hi, j, hj, rfl⟩, rfl⟩ := hv
      · exact hx _ (by omega)
      · show x _ ^ 2 = 0
        rw [hx _ (by omega)]
        ring
      · show x i * x j = 0
        rw [hx i (by omega), zero_mul]
  have hr0 : ((writes dim x).map (·.2)).getD 0 0 = 1 := rfl
  constructor
  · rw [predictF, responseRowF_eq dim x fun i hi => by rw [hx i hi]; exact R.rep_zero, Option.map_some]
    congr 1
    set row := fun k => ((writes dim x).map fun p => R.rnd p.2).getD k 0 with hrw
    have e0 : row 0 = 1 := by rw [hrw]; dsimp only; rw [row_rnd, hr0, R.one]
    have e1 : ∀ k, k ≠ 0 → row k = 0 := fun k hk => by rw [hrw]; dsimp only; rw [row_rnd, hrow k hk, R.zero]
    have hnd : d.terms.Nodup := (List.Perm.nodup_iff hd).2 List.nodup_range
    have hmem : 0 ∈ d.terms := hd.mem_iff.2 (List.mem_range.2 (Nat.choose_pos (by omega)))
    have hc0 : R.rnd (coef 0) = coef 0 := h0
    have key : ∀ d : Dot, d.terms.Nodup → d.eval R row coef = if 0 ∈ d.terms then coef 0 else 0 := by
      intro d
      induction d with
      | mul i =>
        intro _
        by_cases hi : i = 0
        · subst hi
          simpa [Dot.eval, Dot.terms, e0] using hc0
        · simp [Dot.eval, Dot.terms, e1 i hi, R.zero, Ne.symm hi]
      | add a b ha hb =>
        intro hn
        rw [Dot.terms, List.nodup_append] at hn
        rw [Dot.eval, ha hn.1, hb hn.2.1, Dot.terms]
        by_cases h1 : 0 ∈ a.terms
        · have h2 : 0 ∉ b.terms := fun h => hn.2.2 0 h1 0 h rfl
          simpa [h1, h2] using hc0
        · by_cases h2 : 0 ∈ b.terms
          · simpa [h1, h2] using hc0
          · simp [h1, h2, R.zero]
      | fma i a ha =>
        intro hn
        rw [Dot.terms, List.nodup_cons] at hn
        rw [Dot.eval, ha hn.2, Dot.terms]
        by_cases hi : i = 0
        · subst hi
          simpa [e0, hn.1] using hc0
        · by_cases h2 : 0 ∈ a.terms
          · simpa [e1 i hi, h2] using hc0
          · simp [e1 i hi, h2, R.zero, Ne.symm hi]
    rw [show d.eval R (fun k => ((writes dim x).map fun p => R.rnd p.2).getD k 0) coef = d.eval R row coef from rfl, key d hnd, if_pos hmem]
  · intro kx hk hr
    have hcr : crossF R dim kx coef x = 0 := by
      unfold crossF
      have : ∀ l : List ℕ, (∀ i ∈ l, i < dim) → l.foldl (fun acc i =>
          if i > kx then R.rnd (acc + R.rnd (coef (crossIdx dim kx i) * x i))
          else if i < kx then R.rnd (acc + R.rnd (coef (crossIdx dim i kx) * x i))
          else acc) 0 = 0 := by
        intro l
        induction l with
        | nil => intro _; rfl
        | cons i l ih =>
          intro hl
          rw [List.foldl_cons, hx i (hl i (by simp)), mul_zero, mul_zero, R.zero, add_zero, R.zero, ite_self, ite_self]
          exact ih fun j hj => hl j (by simp [hj])
      exact this _ fun i hi => List.mem_range.1 hi
    rw [derivF, hcr, hx kx hk, mul_zero, R.zero, add_zero, add_zero]
    rw [show R.rnd (coef (1 + kx)) = coef (1 + kx) from hr]
    exact hr

/-- All sums and products of a program are exact if its products are integers whose absolute values add up to at most `2ᵖ`. -/
theorem eval_int [FloorRing K] {p : ℕ} (hp : 1 ≤ p) (z : ℕ → ℤ) (f g : ℕ → K) (d : Dot) (hz : ∀ i ∈ d.terms, f i * g i = z i) (hs : (d.terms.map fun i => |z i|).sum ≤ 2 ^ p) :
    d.eval (binary p hp) f g = ((d.terms.map z).sum : ℤ) ∧ |(d.terms.map z).sum| ≤ (d.terms.map fun i => |z i|).sum := by
  induction d with
  | mul i =>
    simp only [Dot.terms, List.map_cons, List.map_nil, List.sum_cons, List.sum_nil, add_zero] at hs ⊢
    refine ⟨?_, le_rfl⟩
    rw [Dot.eval, hz i (by simp [Dot.terms])]
    exact binary_int hp _ hs
  | add a b ha hb =>
    rw [Dot.terms, List.map_append, List.sum_append] at hs
    have na : 0 ≤ (a.terms.map fun i => |z i|).sum := List.sum_nonneg fun v hv => by obtain ⟨i, -, rfl⟩ := List.mem_map.1 hv; exact abs_nonneg _
    have nb : 0 ≤ (b.terms.map fun i => |z i|).sum := List.sum_nonneg fun v hv => by obtain ⟨i, -, rfl⟩ := List.mem_map.1 hv; exact abs_nonneg _
    obtain ⟨a1, a2⟩ := ha (fun i hi => hz i (by simp [Dot.terms, hi])) (by linarith)
    obtain ⟨b1, b2⟩ := hb (fun i hi => hz i (by simp [Dot.terms, hi])) (by linarith)
    rw [Dot.terms, List.map_append, List.sum_append, List.map_append, List.sum_append]
    have hab := (abs_add_le (a.terms.map z).sum (b.terms.map z).sum).trans (add_le_add a2 b2)
    refine ⟨?_, hab⟩
    rw [Dot.eval, a1, b1, ← Int.cast_add]
    exact binary_int hp _ (hab.trans hs)
  | fma i a ha =>
    rw [Dot.terms, List.map_cons, List.sum_cons] at hs
    have na : 0 ≤ |z i| := abs_nonneg _
    obtain ⟨a1, a2⟩ := ha (fun j hj => hz j (by simp [Dot.terms, hj])) (by linarith)
    rw [Dot.terms, List.map_cons, List.sum_cons, List.map_cons, List.sum_cons]
    have hab := (abs_add_le (z i) (a.terms.map z).sum).trans (add_le_add le_rfl a2)
    refine ⟨?_, hab⟩
    rw [Dot.eval, a1, hz i (by simp [Dot.terms]), ← Int.cast_add]
    exact binary_int hp _ (hab.trans hs)

/-- The entries of a row for integer inputs, as integers. -/
def writesZ (dim : ℕ) (x : ℕ → ℤ) : List (ℕ × ℤ) :=
  (0, 1) ::
  ((List.range' 1 dim).map (fun i => (i, x (i - 1))) ++
   (List.range' (dim + 1) dim).map (fun i => (i, x (i - (dim + 1)) ^ 2)) ++
   (List.range (dim - 1)).flatMap fun i =>
     (List.range' (i + 1) (dim - (i + 1))).map fun j => (crossIdx dim i j, x i * x j))

theorem writes_cast (dim : ℕ) (x : ℕ → ℤ) : (writes dim fun i => (x i : K)) = (writesZ dim x).map fun p => (p.1, (p.2 : K)) := by
  unfold writes writesZ
  rw [List.map_cons, List.map_append, List.map_append, List.map_map, List.map_map, List.map_flatMap]
  simp only [List.map_map, Function.comp_def]
  push_cast
  rfl

theorem row_cast (dim : ℕ) (x : ℕ → ℤ) (k : ℕ) :
    ((writes dim fun i => (x i : K)).map (·.2)).getD k 0 = (((writesZ dim x).map (·.2)).getD k 0 : ℤ) := by
  rw [writes_cast]
  by_cases h : k < (writesZ dim x).length
  · simp [List.getD_eq_getElem?_getD, h]
  · simp [List.getD_eq_getElem?_getD, not_lt.1 h]

/-- **C119** QP: with integer coefficients and inputs the prediction is exact, in any order of summation and with or without fused multiply-add, if the polynomial with the
absolute values of the coefficients at the absolute values of the inputs is at most `2ᵖ` (`2⁵³` in double precision). -/
theorem C119_qp_integers [FloorRing K] {p : ℕ} (hp : 1 ≤ p) (dim : ℕ) (d : Dot) (hd : d.Computes ((dim + 2).choose dim)) (coef x : ℕ → ℤ)
    (hx : ∀ i, i < dim → |x i| ≤ 2 ^ p)
    (hT : quadratic dim (fun k => |(coef k : K)|) (fun i => |(x i : K)|) ≤ 2 ^ p) :
    predictF (binary (K := K) p hp) d dim (fun k => (coef k : K)) (fun i => (x i : K)) = some (quadratic dim (fun k => (coef k : K)) fun i => (x i : K)) := by
  have hd' : d.Computes (nApp dim) := hd
  rw [predictF, responseRowF_eq dim _ fun i hi => binary_int hp _ (hx i hi), Option.map_some]
  congr 1
  set w : ℕ → ℤ := fun k => ((writesZ dim x).map (·.2)).getD k 0 with hw
  set z : ℕ → ℤ := fun k => w k * coef k with hz
  have hsum : ((d.terms.map fun i => |z i|).sum : ℤ) ≤ 2 ^ p := by
    rw [← terms_abs, ] at hT
    have : (((d.terms.map fun i => |z i|).sum : ℤ) : K) ≤ ((2 ^ p : ℤ) : K) := by
      refine le_trans (le_of_eq ?_) (hT.trans (by push_cast; exact le_rfl))
      rw [((hd'.map _).sum_eq), ← sum_range_list, Int.cast_list_sum, List.map_map]
      congr 1
      refine List.map_congr_left fun k _ => ?_
      rw [row_cast]
      show ((|w k * coef k| : ℤ) : K) = |((w k : ℤ) : K) * (coef k : K)|
      rw [Int.cast_abs, Int.cast_mul]
    exact_mod_cast this
  have hterm : ∀ i ∈ d.terms, |z i| ≤ 2 ^ p := fun i hi =>
    (List.single_le_sum (l := d.terms.map fun i => |z i|) (fun v hv => by obtain ⟨j, -, rfl⟩ := List.mem_map.1 hv; exact abs_nonneg _) _
      (List.mem_map.2 ⟨i, hi, rfl⟩)).trans hsum
  have hf : ∀ i ∈ d.terms, ((writes dim fun i => (x i : K)).map fun p_1 => (binary p hp).rnd p_1.2).getD i 0 * (coef i : K) = (z i : ℤ) := by
    intro i hi
    rw [row_rnd, row_cast, hz]
    dsimp only
    by_cases hc : coef i = 0
    · rw [hc]; simp
    · have h1 : |w i| ≤ |z i| := by
        rw [hz]
        dsimp only
        rw [abs_mul]
        exact le_mul_of_one_le_right (abs_nonneg _) (Int.one_le_abs hc)
      have : (binary (K := K) p hp).rnd ((w i : ℤ) : K) = (w i : ℤ) := binary_int hp _ (h1.trans (hterm i hi))
      rw [show (((writesZ dim x).map (·.2)).getD i 0 : ℤ) = w i from rfl, this]
      push_cast
      rfl
  rw [(eval_int hp z _ _ d hf hsum).1, ← terms_sum, (hd'.map z).sum_eq, ← sum_range_list, Int.cast_list_sum, List.map_map]
  congr 1
  refine List.map_congr_left fun k _ => ?_
  rw [row_cast, Function.comp_apply, hz]
  push_cast
  rfl

/-! ## Double precision -/

/-- **C119** In double precision: the errors of LS with up to 100 inputs and of QP with up to 10 inputs are at most `3e-14` and `1.6e-14` of the sums of the
absolute values of the terms. -/
theorem C119_double {n : ℕ} (d : Dot) (coef : ℕ → ℚ) (b : ℚ) (x : ℕ → ℚ) :
    (n ≤ 100 → d.Computes n → |lsPredictF double d coef b x - ((∑ i ∈ Finset.range n, x i * coef i) + b)| ≤
      3 / 10 ^ 14 * ((∑ i ∈ Finset.range n, |x i| * |coef i|) + |b|)) ∧
    (n ≤ 10 → d.Computes ((n + 2).choose n) → (∀ i, i < n → double.Rep (x i)) → ∃ y, predictF double d n coef x = some y ∧
      |y - quadratic n coef x| ≤ 16 / 10 ^ 15 * quadratic n (fun k => |coef k|) fun i => |x i|) := by
  have hmono : ∀ {a b : ℕ}, a ≤ b → (double : Rounding ℚ).rho ^ a ≤ (double : Rounding ℚ).rho ^ b := fun h => pow_le_pow_right₀ (rho_one_le _) h
  constructor
  · intro hn hd
    refine (C119_ls_value d hd coef b x).trans (mul_le_mul_of_nonneg_right ?_ (by positivity))
    have h1 : (double : Rounding ℚ).rho ^ 101 - 1 ≤ 3 / 10 ^ 14 := by decide +kernel
    linarith [hmono (show n + 1 ≤ 101 by omega)]
  · intro hn hd hx
    obtain ⟨y, h1, h2⟩ := C119_qp_value (R := double) n d hd coef x hx
    refine ⟨y, h1, h2.trans (mul_le_mul_of_nonneg_right ?_ ?_)⟩
    · have h1 : (double : Rounding ℚ).rho ^ 67 - 1 ≤ 16 / 10 ^ 15 := by decide +kernel
      have h2 : (n + 2).choose n ≤ 66 := by
        rw [Nat.choose_symm_add]
        exact (Nat.choose_le_choose 2 (show n + 2 ≤ 12 by omega)).trans (by decide)
      linarith [hmono (show (n + 2).choose n + 1 ≤ 67 by omega)]
    · rw [← terms_abs]
      exact Finset.sum_nonneg fun k _ => abs_nonneg _

/-! ## Examples -/

example : (Dot.add (.fma 2 (.mul 0)) (.fma 1 (.mul 3))).Computes 4 := by unfold Dot.Computes; decide
example : Dot.Computes (.left 5) ((2 + 2).choose 2) := Dot.left_computes 5

/-- Two inputs: `1 + 2 x - 3 y + 4 x² + 5 y² + 6 x y` at `(2, -1)`, and what rounding does at `x = 1 + 2⁻³⁰`, `1 - 2 x + x²`: the exact value is `2⁻⁶⁰`. -/
example : predictF double (.left 5) 2 (fun k => [1, 2, -3, 4, 5, 6].getD k 0) (fun i => [2, -1].getD i 0) = some 17 ∧
    derivF double 2 0 (fun k => [1, 2, -3, 4, 5, 6].getD k 0) (fun i => [2, -1].getD i 0) = 12 ∧
    derivF double 2 1 (fun k => [1, 2, -3, 4, 5, 6].getD k 0) (fun i => [2, -1].getD i 0) = -1 ∧
    predictF double (.left 2) 1 (fun k => [1, -2, 1].getD k 0) (fun _ => 1 + 1 / 2 ^ 30) = some 0 ∧
    quadratic 1 (fun k => [1, -2, (1 : ℚ)].getD k 0) (fun _ => 1 + 1 / 2 ^ 30) = 1 / 2 ^ 60 := by decide +kernel

/-- The hypotheses of `C119_qp_derivative` and of `C119_qp_integers`. -/
example : ∃ D T : ℚ, IsSlope 2 1 (fun k => [1, 2, -3, 4, 5, 6].getD k 0) (fun i => [2, -1].getD i 0) D ∧ D = -1 ∧
    IsSlope 2 1 (fun k => |[1, 2, -3, 4, 5, 6].getD k 0|) (fun i => |[2, -1].getD i 0|) T ∧ T = 25 :=
  ⟨_, _, isSlope_derivEntry 2 1 (by norm_num) _ _, by decide +kernel, isSlope_derivEntry 2 1 (by norm_num) _ _, by decide +kernel⟩
example : quadratic 2 (fun k => |(([1, 2, -3, 4, 5, 6].getD k 0 : ℤ) : ℚ)|) (fun i => |(([2, -1].getD i 0 : ℤ) : ℚ)|) ≤ 2 ^ 53 := by decide +kernel

example : lsPredictF double (.left 1) (fun k => [1, 3].getD k 0) (1 / 4) (fun i => [2, -1].getD i 0) = -3 / 4 := by decide +kernel

end Poly
end SMT.Fp
