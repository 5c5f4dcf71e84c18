import Verif.Fp.CorrProps3

/-!
# C116: accuracy of the computed correlations

Bounds between the arguments of the exponential, the polynomial factors and what they are in exact arithmetic. `up F x` and `lo F x` bound the rounding of a number `x ≥ 0`: relative error `u`, absolute error `tiny` (underflow).
-/
set_option linter.unusedSectionVars false
set_option linter.unusedSimpArgs false
set_option linter.unusedVariables false

namespace SMT.Fp.Corr
open SMT.Fp.Moe

variable {K : Type} [Field K] [LinearOrder K] [IsStrictOrderedRing K] {n m c : ℕ}
variable (F : Format K)

/-- The largest and the smallest number `x ≥ 0` can be rounded to. -/
def up (x : K) : K := (1 + F.u) * x + F.tiny
def lo (x : K) : K := (1 - F.u) * x - F.tiny

theorem rnd_up {x : K} (h : 0 ≤ x) : F.rnd x ≤ up F x := by
  have := (abs_le.1 (F.err x)).2
  rw [abs_of_nonneg h] at this
  unfold up; linarith

theorem rnd_lo {x : K} (h : 0 ≤ x) : lo F x ≤ F.rnd x := by
  have := (abs_le.1 (F.err x)).1
  rw [abs_of_nonneg h] at this
  unfold lo; linarith

theorem up_mono {x y : K} (h : x ≤ y) : up F x ≤ up F y := by
  have := mul_le_mul_of_nonneg_left h (by linarith [F.u_nonneg] : 0 ≤ 1 + F.u)
  unfold up; linarith

theorem lo_mono {x y : K} (h : x ≤ y) : lo F x ≤ lo F y := by
  have := mul_le_mul_of_nonneg_left h (by linarith [F.u_lt] : 0 ≤ 1 - F.u)
  unfold lo; linarith

/-- The exact distance of two coordinates in the sense of the kernel: the square or the absolute value of the difference. -/
def dist (k : Kind) (a b : K) : K := if k = .squarExp then (a - b) ^ 2 else |a - b|

/-- The bounds of the computed distance: the difference is rounded, its square too. -/
def distUp (k : Kind) (a b : K) : K := if k = .squarExp then up F ((1 + F.u) ^ 2 * (a - b) ^ 2) else (1 + F.u) * |a - b|
def distLo (k : Kind) (a b : K) : K := if k = .squarExp then lo F ((1 - F.u) ^ 2 * (a - b) ^ 2) else (1 - F.u) * |a - b|

theorem compDist_near (k : Kind) {a b : K} (ha : F.Fin a) (hb : F.Fin b) {q : K}
    (h : compDist F k (fun _ : Fin 1 => F.subX (.fin a) (.fin b)) 0 = .fin q) : distLo F k a b ≤ q ∧ q ≤ distUp F k a b ∧ 0 ≤ q := by
  have hdel : ∀ {δ : K}, F.subX (.fin a) (.fin b) = .fin δ → (1 - F.u) * |a - b| ≤ |δ| ∧ |δ| ≤ (1 + F.u) * |a - b| := by
    intro δ e
    have e' : F.of (a + -b) = .fin δ := e
    obtain ⟨e1, _⟩ := of_eq_fin e'
    have := F.add a (-b) ha.1 (by rw [F.odd, hb.1])
    rw [← e1, ← sub_eq_add_neg] at this
    have h1 := abs_sub_abs_le_abs_sub δ (a - b)
    have h2 := abs_sub_abs_le_abs_sub (a - b) δ
    rw [abs_sub_comm (a - b) δ] at h2
    constructor <;> linarith
  have ab : ∀ {q : K}, (F.subX (.fin a) (.fin b)).abs = .fin q → (1 - F.u) * |a - b| ≤ q ∧ q ≤ (1 + F.u) * |a - b| ∧ 0 ≤ q := by
    intro q h
    cases hs : F.subX (.fin a) (.fin b) with
    | nan => rw [hs] at h; cases h
    | inf s => rw [hs] at h; cases h
    | fin δ =>
      rw [hs] at h
      have hq : |δ| = q := X.fin.inj h
      obtain ⟨h1, h2⟩ := hdel hs
      exact ⟨hq ▸ h1, hq ▸ h2, hq ▸ abs_nonneg δ⟩
  unfold distLo distUp
  cases k
  · rw [if_neg (by simp), if_neg (by simp)]; exact ab h
  · rw [if_pos rfl, if_pos rfl]
    have h' : F.mulX (F.subX (.fin a) (.fin b)) (F.subX (.fin a) (.fin b)) = .fin q := h
    cases hs : F.subX (.fin a) (.fin b) with
    | nan => rw [hs] at h'; cases h'
    | inf s => rw [hs] at h'; cases h'
    | fin δ =>
      rw [hs] at h'
      obtain ⟨e, _⟩ := of_eq_fin (show F.of (δ * δ) = .fin q from h')
      obtain ⟨h1, h2⟩ := hdel hs
      have n1 : (0 : K) ≤ (1 - F.u) * |a - b| := mul_nonneg (by linarith [F.u_lt]) (abs_nonneg _)
      have l1 : (1 - F.u) ^ 2 * (a - b) ^ 2 ≤ δ * δ := by
        rw [← abs_mul_abs_self δ, ← sq_abs (a - b), ← mul_pow, sq]
        exact mul_le_mul h1 h1 n1 (abs_nonneg _)
      have l2 : δ * δ ≤ (1 + F.u) ^ 2 * (a - b) ^ 2 := by
        rw [← abs_mul_abs_self δ, ← sq_abs (a - b), ← mul_pow, sq]
        exact mul_le_mul h2 h2 (abs_nonneg _) (n1.trans (h1.trans h2))
      rw [e]
      exact ⟨(lo_mono F l1).trans (rnd_lo F (mul_self_nonneg δ)), (rnd_up F (mul_self_nonneg δ)).trans (up_mono F l2), F.nonneg (mul_self_nonneg δ)⟩
  · rw [if_neg (by simp), if_neg (by simp)]; exact ab h
  · rw [if_neg (by simp), if_neg (by simp)]; exact ab h

theorem mul_fin {q : K} (hq : 0 < q) {x : X K} (hx : Nn F x) {r : K} (h : F.mulX (.fin q) x = .fin r) :
    ∃ y, x = .fin y ∧ 0 ≤ y ∧ r = F.rnd (q * y) ∧ F.Fin r := by
  cases x with
  | fin y =>
    obtain ⟨e, hf⟩ := of_eq_fin (show F.of (q * y) = .fin r from h)
    exact ⟨y, rfl, hx.2, e, hf⟩
  | inf s =>
    have : F.mulX (.fin q) (.inf s) = if q = 0 then X.nan else X.inf (decide (q < 0) != s) := rfl
    rw [this, if_neg hq.ne'] at h
    cases h
  | nan => exact hx.elim

/-- The scaled distance of one coordinate. -/
theorem scaled_near (k : Kind) {th a b : K} (hth : 0 < th) (ha : F.Fin a) (hb : F.Fin b) {l : K}
    (h : F.mulX (.fin th) (compDist F k (fun _ : Fin 1 => F.subX (.fin a) (.fin b)) 0) = .fin l) :
    lo F (th * distLo F k a b) ≤ l ∧ l ≤ up F (th * distUp F k a b) ∧ 0 ≤ l := by
  have hn := compDist_nn F k (fun _ : Fin 1 => F.subX (.fin a) (.fin b)) (fun _ => sub_fin_ne_nan F a b) (fun _ => F.addX_val) 0
  obtain ⟨q, e, hq, rfl, _⟩ := mul_fin F hth hn h
  obtain ⟨h1, h2, h3⟩ := compDist_near F k ha hb e
  have hp : 0 ≤ th * q := mul_nonneg hth.le h3
  exact ⟨(lo_mono F (mul_le_mul_of_nonneg_left h1 hth.le)).trans (rnd_lo F hp), (rnd_up F hp).trans (up_mono F (mul_le_mul_of_nonneg_left h2 hth.le)), F.nonneg hp⟩

theorem compDist_at (k : Kind) (d : Fin m → X K) (i : Fin m) : compDist F k d i = compDist F k (fun _ : Fin 1 => d i) 0 := by cases k <;> rfl

/-- The sum of the scaled distances. -/
theorem sum_near (k : Kind) {t : Tree} (ht : t.Adds m) (theta : Fin m → K) (hth : ∀ i, 0 < theta i) (a b : Fin m → K) (ha : ∀ i, F.Fin (a i)) (hb : ∀ i, F.Fin (b i)) {S : K}
    (h : rowSum F t (scaled F theta (compDist F k (diff F (fun i => .fin (a i)) (fun i => .fin (b i))))) = .fin S) :
    (1 - F.u) ^ (m - 1) * ∑ i, lo F (theta i * distLo F k (a i) (b i)) ≤ S ∧ S ≤ (1 + F.u) ^ (m - 1) * ∑ i, up F (theta i * distUp F k (a i) (b i)) := by
  set l := scaled F theta (compDist F k (diff F (fun i => .fin (a i)) (fun i => .fin (b i)))) with hl
  have hn : ∀ i, Nn F (l i) := fun i => mul_pos_nn F (hth i) (compDist_nn F k _ (fun i => sub_fin_ne_nan F (a i) (b i)) (fun i => F.addX_val) i)
  obtain ⟨_, h1, h2, h3⟩ := tree_fin (fun i => if h : i < m then l ⟨i, h⟩ else .nan) t (fun i hi => by rw [dif_pos ((mem_leaves ht).1 hi)]; exact hn _) h
  rw [leaves_sum ht (fun i => num (if h : i < m then l ⟨i, h⟩ else .nan)) (fun i => num (l i)) (fun j => by rw [dif_pos j.2]), leaves_length ht] at h2 h3
  have near : ∀ i, lo F (theta i * distLo F k (a i) (b i)) ≤ num (l i) ∧ num (l i) ≤ up F (theta i * distUp F k (a i) (b i)) := by
    intro i
    have e := (h1 i ((mem_leaves ht).2 i.2)).1
    rw [dif_pos i.2] at e
    have e' : F.mulX (.fin (theta i)) (compDist F k (fun _ : Fin 1 => F.subX (.fin (a i)) (.fin (b i))) 0) = .fin (num (l i)) := by
      have e2 : F.mulX (.fin (theta i)) (compDist F k (diff F (fun i => .fin (a i)) (fun i => .fin (b i))) i) = .fin (num (l i)) := e
      rw [compDist_at] at e2
      exact e2
    obtain ⟨x, y, _⟩ := scaled_near F k (hth i) (ha i) (hb i) e'
    exact ⟨x, y⟩
  constructor
  · refine le_trans (mul_le_mul_of_nonneg_left (Finset.sum_le_sum fun i _ => (near i).1) ?_) h2
    exact pow_nonneg (by linarith [F.u_lt]) _
  · refine le_trans h3 (mul_le_mul_of_nonneg_left (Finset.sum_le_sum fun i _ => (near i).2) ?_)
    exact pow_nonneg (by linarith [F.u_nonneg]) _

/-- **C116** Accuracy of the exponential kernels: the computed correlation is `np.exp` of `-S`, where `S` is the exact `Σ θ (a - b)²` (or `Σ θ |a - b|`) up to relative errors of the `m - 1` additions and of the three (two) roundings in each
term, and up to the underflow threshold; if `S` overflows, the correlation is zero. -/
theorem C116_exp_accuracy {L : Lib K} {cut : K} (hx : ExpOk F L.ex cut) (hr : Rows L m) (k : Kind) (hk : k.IsExp) (theta : Fin m → K) (hth : ∀ i, 0 < theta i)
    (a b : Fin m → K) (ha : ∀ i, F.Fin (a i)) (hb : ∀ i, F.Fin (b i)) :
    corr F L k theta (diff F (fun i => .fin (a i)) (fun i => .fin (b i))) = .fin 0 ∨
    ∃ S, corr F L k theta (diff F (fun i => .fin (a i)) (fun i => .fin (b i))) = L.ex (.fin (-S)) ∧
      (1 - F.u) ^ (m - 1) * ∑ i, lo F (theta i * distLo F k (a i) (b i)) ≤ S ∧ S ≤ (1 + F.u) ^ (m - 1) * ∑ i, up F (theta i * distUp F k (a i) (b i)) := by
  have hex : corr F L k theta (diff F (fun i => .fin (a i)) (fun i => .fin (b i))) =
      L.ex (rowSum F L.ts (scaled F theta (compDist F k (diff F (fun i => .fin (a i)) (fun i => .fin (b i)))))).neg := by
    cases k
    · rfl
    · rfl
    · exact hk.elim
    · exact hk.elim
  have hn : Nn F (rowSum F L.ts (scaled F theta (compDist F k (diff F (fun i => .fin (a i)) (fun i => .fin (b i)))))) :=
    rowSum_nn F hr.ts _ fun i => mul_pos_nn F (hth i) (compDist_nn F k _ (fun i => sub_fin_ne_nan F (a i) (b i)) (fun i => F.addX_val) i)
  cases hs : rowSum F L.ts (scaled F theta (compDist F k (diff F (fun i => .fin (a i)) (fun i => .fin (b i))))) with
  | nan => rw [hs] at hn; exact hn.elim
  | inf s =>
    rw [hs] at hn hex
    have : s = false := hn
    subst this
    left
    rw [hex]
    exact hx.ninf
  | fin S =>
    right
    refine ⟨S, by rw [hex, hs]; rfl, sum_near F k hr.ts theta hth a b ha hb hs⟩

/-- **C116** Without underflow and without rounding errors the bounds are the exact sum: they lose nothing else. -/
theorem C116_bounds_exact (hu : F.u = 0) (ht : F.tiny = 0) (k : Kind) (th a b : K) :
    lo F (th * distLo F k a b) = th * dist k a b ∧ up F (th * distUp F k a b) = th * dist k a b := by
  unfold lo up distLo distUp dist
  unfold lo up
  rw [hu, ht]
  by_cases h : k = .squarExp
  · rw [if_pos h, if_pos h, if_pos h]; constructor <;> ring
  · rw [if_neg h, if_neg h, if_neg h]; constructor <;> ring

/-! ## The Matérn kernels -/

/-- The exact factors of the Matérn kernels. -/
def factor (L : Lib K) (k : Kind) (l : K) : K := if k = .matern52 then 1 + L.s5 * l + L.c53 * (l * l) else 1 + L.s3 * l

/-- The computed factor of one coordinate. -/
def factorX (L : Lib K) (k : Kind) (l : X K) : X K := if k = .matern52 then factor52 F L l else factor32 F L l

/-- The rounding of a number that is at least one: underflow counts as relative error. -/
theorem rnd_ge1 {x : K} (h : 1 ≤ x) : F.rnd x ≤ grow F * x ∧ (1 - F.u - F.tiny) * x ≤ F.rnd x := by
  have := abs_le.1 (F.err x)
  rw [abs_of_nonneg (by linarith)] at this
  have h2 : F.tiny ≤ F.tiny * x := le_mul_of_one_le_right F.tiny_nonneg h
  unfold grow
  constructor <;> linarith [this.1, this.2]

theorem fin_of_add {x y : X K} (hx : Nn F x) (hy : Nn F y) {r : K} (h : F.addX x y = .fin r) : ∃ a b, x = .fin a ∧ y = .fin b ∧ r = F.rnd (a + b) ∧ 0 ≤ a ∧ 0 ≤ b := by
  cases x with
  | nan => exact hx.elim
  | inf s => cases y with
    | nan => exact hy.elim
    | inf t => have h1 : s = false := hx; have h2 : t = false := hy; subst h1 h2; cases h
    | fin b => cases h
  | fin a => cases y with
    | nan => exact hy.elim
    | inf t => cases h
    | fin b => exact ⟨a, b, rfl, rfl, (of_eq_fin (show F.of (a + b) = .fin r from h)).1, hx.2, hy.2⟩

/-- **C116** Accuracy of a Matérn factor: a finite computed factor of the scaled distance `l` is `1 + √5 l + 5/3 l²` (`1 + √3 l`) up to the relative errors of four (two) roundings. -/
theorem C116_factor_accuracy {L : Lib K} (hc : Consts L) (k : Kind) {l f : K} (hl : F.Fin l) (hl0 : 0 ≤ l) (h : factorX F L k (.fin l) = .fin f)
    (hs : F.tiny * (1 + L.c53) + F.u < 1) :
    (1 - F.u - F.tiny * (1 + L.c53)) ^ 4 * factor L k l ≤ f ∧ f ≤ (1 + F.u + F.tiny * (1 + L.c53)) ^ 4 * factor L k l := by
  set w := F.u + F.tiny * (1 + L.c53) with hw
  have hcc := hc.c53
  have ht0 := F.tiny_nonneg
  have hu0 := F.u_nonneg
  have hw0 : 0 ≤ w := add_nonneg hu0 (mul_nonneg ht0 (by linarith))
  have hw1 : w < 1 := by rw [hw]; linarith
  have htw : F.tiny ≤ F.tiny * (1 + L.c53) := le_mul_of_one_le_right ht0 (by linarith)
  have e1 : 1 - F.u - F.tiny * (1 + L.c53) = 1 - w := by rw [hw]; ring
  have e2 : 1 + F.u + F.tiny * (1 + L.c53) = 1 + w := by rw [hw]; ring
  rw [e1, e2]
  have nl : Nn F (.fin l) := ⟨hl, hl0⟩
  have r1 : ∀ {x : K}, 1 ≤ x → (1 - w) * x ≤ F.rnd x ∧ F.rnd x ≤ (1 + w) * x := by
    intro x hx
    obtain ⟨p, q⟩ := rnd_ge1 F hx
    have hx0 : 0 ≤ x := zero_le_one.trans hx
    have p' : grow F * x ≤ (1 + w) * x := mul_le_mul_of_nonneg_right (by unfold grow; rw [hw]; linarith) hx0
    have q' : (1 - w) * x ≤ (1 - F.u - F.tiny) * x := mul_le_mul_of_nonneg_right (by rw [hw]; linarith) hx0
    exact ⟨q'.trans q, p.trans p'⟩
  have pw1 : ∀ j : ℕ, (1 - w) ^ (j + 1) ≤ (1 - w) ^ j := fun j => pow_le_pow_of_le_one (by linarith) (by linarith) (Nat.le_succ j)
  have pw2 : ∀ j : ℕ, (1 + w) ^ j ≤ (1 + w) ^ (j + 1) := fun j => pow_le_pow_right₀ (by linarith) (Nat.le_succ j)
  unfold factorX at h
  unfold factor
  by_cases hk : k = .matern52
  · rw [if_pos hk] at h ⊢
    unfold factor52 at h
    have hll : (X.fin l) ≠ .nan := by simp
    have nsq := mul_self_nn F hll
    obtain ⟨A, B, hA, hB, rfl, hA0, hB0⟩ := fin_of_add F (Ge1.nn F (add_ge1 F (ge1_one F) (mul_pos_nn F hc.s5 nl))) (mul_pos_nn F hc.c53 nsq) h
    obtain ⟨o, P, ho, hP, rfl, _, hP0⟩ := fin_of_add F (nn_one F) (mul_pos_nn F hc.s5 nl) hA
    have ho' : o = 1 := (X.fin.inj ho).symm
    subst ho'
    obtain ⟨y, hy, hy0, rfl, _⟩ := mul_fin F hc.s5 nl hP
    have hy' : y = l := (X.fin.inj hy).symm
    subst hy'
    obtain ⟨z, hz, hz0, rfl, _⟩ := mul_fin F hc.c53 nsq hB
    have hz' : F.of (y * y) = .fin z := hz
    obtain ⟨hz'', _⟩ := of_eq_fin hz'
    have y2 : 0 ≤ y * y := mul_self_nonneg y
    have s5y : 0 ≤ L.s5 * y := mul_nonneg hc.s5.le hl0
    have cz : 0 ≤ L.c53 * z := mul_nonneg hc.c53.le hz0
    -- `P = rnd (s5 y)`, `z = rnd (y y)`, `B = rnd (c53 z)`
    have P1 := rnd_lo F s5y
    have P2 := rnd_up F s5y
    have z1 := rnd_lo F y2
    have z2 := rnd_up F y2
    rw [← hz''] at z1 z2
    have B1 := rnd_lo F cz
    have B2 := rnd_up F cz
    unfold lo at P1 z1 B1
    unfold up at P2 z2 B2
    have A1 := r1 (x := 1 + F.rnd (L.s5 * y)) (by linarith)
    set A := F.rnd (1 + F.rnd (L.s5 * y)) with hAdef
    set P := F.rnd (L.s5 * y)
    set B := F.rnd (L.c53 * z)
    have hA1 : 1 ≤ A := F.rep_le F.one (by linarith)
    have T := r1 (x := A + B) (by linarith)
    -- upper bounds
    have U1 : 1 + P ≤ (1 + w) * (1 + L.s5 * y) := by
      have h1 : (1 + F.u) * (L.s5 * y) ≤ (1 + w) * (L.s5 * y) := mul_le_mul_of_nonneg_right (by rw [hw]; linarith) s5y
      have h2 : F.tiny ≤ w := by rw [hw]; linarith
      have e : (1 + w) * (1 + L.s5 * y) = 1 + w + (1 + w) * (L.s5 * y) := by ring
      linarith
    have U2 : A ≤ (1 + w) ^ 2 * (1 + L.s5 * y) := by
      have h1 := mul_le_mul_of_nonneg_left U1 (by linarith : 0 ≤ 1 + w)
      have e : (1 + w) ^ 2 * (1 + L.s5 * y) = (1 + w) * ((1 + w) * (1 + L.s5 * y)) := by ring
      linarith [A1.2]
    have V1 : B ≤ (1 + F.u) ^ 2 * (L.c53 * (y * y)) + (1 + F.u) * (F.tiny * (1 + L.c53)) := by
      have h1 := mul_le_mul_of_nonneg_left z2 hc.c53.le
      have h2 := mul_le_mul_of_nonneg_left h1 (by linarith : 0 ≤ 1 + F.u)
      have h3 : F.tiny ≤ (1 + F.u) * F.tiny := le_mul_of_one_le_left ht0 (by linarith)
      have e : (1 + F.u) * (L.c53 * ((1 + F.u) * (y * y) + F.tiny)) + (1 + F.u) * F.tiny = (1 + F.u) ^ 2 * (L.c53 * (y * y)) + (1 + F.u) * (F.tiny * (1 + L.c53)) := by ring
      linarith
    have cy : 0 ≤ L.c53 * (y * y) := mul_nonneg hc.c53.le y2
    have V2 : (1 + F.u) ^ 2 * (L.c53 * (y * y)) ≤ (1 + w) ^ 3 * (L.c53 * (y * y)) :=
      mul_le_mul_of_nonneg_right ((pow_le_pow_left₀ (by linarith) (by rw [hw]; linarith [mul_nonneg ht0 (by linarith : 0 ≤ 1 + L.c53)]) 2).trans (pw2 2)) cy
    have V3 : (1 + w) ^ 2 * (1 + L.s5 * y) + (1 + F.u) * (F.tiny * (1 + L.c53)) ≤ (1 + w) ^ 3 * (1 + L.s5 * y) := by
      have h1 : (1 + F.u) * (F.tiny * (1 + L.c53)) ≤ (1 + w) ^ 2 * w := by
        have hq : F.tiny * (1 + L.c53) ≤ w := by rw [hw]; linarith
        have hq1 : 1 + F.u ≤ (1 + w) ^ 2 := le_trans (by rw [hw]; linarith [mul_nonneg ht0 (by linarith : 0 ≤ 1 + L.c53)] : 1 + F.u ≤ (1 + w) ^ 1) (pw2 1)
        exact mul_le_mul hq1 hq (mul_nonneg ht0 (by linarith)) (by positivity)
      have h2 : (1 + w) ^ 2 * w ≤ (1 + w) ^ 2 * w * (1 + L.s5 * y) := le_mul_of_one_le_right (by positivity) (by linarith)
      have e : (1 + w) ^ 3 * (1 + L.s5 * y) = (1 + w) ^ 2 * (1 + L.s5 * y) + (1 + w) ^ 2 * w * (1 + L.s5 * y) := by ring
      linarith
    have U3 : A + B ≤ (1 + w) ^ 3 * (1 + L.s5 * y + L.c53 * (y * y)) := by
      have e : (1 + w) ^ 3 * (1 + L.s5 * y + L.c53 * (y * y)) = (1 + w) ^ 3 * (1 + L.s5 * y) + (1 + w) ^ 3 * (L.c53 * (y * y)) := by ring
      linarith
    -- lower bounds
    have W1 : (1 - w) * (1 + L.s5 * y) ≤ 1 + P := by
      have h1 : (1 - w) * (L.s5 * y) ≤ (1 - F.u) * (L.s5 * y) := mul_le_mul_of_nonneg_right (by rw [hw]; linarith) s5y
      have h2 : F.tiny ≤ w := by rw [hw]; linarith
      have e : (1 - w) * (1 + L.s5 * y) = 1 - w + (1 - w) * (L.s5 * y) := by ring
      linarith
    have W2 : (1 - w) ^ 2 * (1 + L.s5 * y) ≤ A := by
      have h1 := mul_le_mul_of_nonneg_left W1 (by linarith : 0 ≤ 1 - w)
      have e : (1 - w) ^ 2 * (1 + L.s5 * y) = (1 - w) * ((1 - w) * (1 + L.s5 * y)) := by ring
      linarith [A1.1]
    have hu1 := F.u_lt
    have X1 : (1 - F.u) ^ 2 * (L.c53 * (y * y)) - F.tiny * (1 + L.c53) ≤ B := by
      have h1 := mul_le_mul_of_nonneg_left z1 hc.c53.le
      have h2 := mul_le_mul_of_nonneg_left h1 (by linarith : 0 ≤ 1 - F.u)
      have h3 : (1 - F.u) * (L.c53 * F.tiny) ≤ L.c53 * F.tiny := mul_le_of_le_one_left (mul_nonneg hc.c53.le ht0) (by linarith)
      have e : (1 - F.u) * (L.c53 * ((1 - F.u) * (y * y) - F.tiny)) = (1 - F.u) ^ 2 * (L.c53 * (y * y)) - (1 - F.u) * (L.c53 * F.tiny) := by ring
      have e' : F.tiny * (1 + L.c53) = F.tiny + L.c53 * F.tiny := by ring
      linarith
    have hq : F.tiny * (1 + L.c53) ≤ w := by rw [hw]; linarith
    -- the absolute error is taken from `A`, which is at least one
    have X2 : (1 - w) ^ 3 * (L.c53 * (y * y)) ≤ (1 - F.u) ^ 2 * (L.c53 * (y * y)) :=
      mul_le_mul_of_nonneg_right ((pw1 2).trans (pow_le_pow_left₀ (by linarith) (by rw [hw]; linarith) 2)) cy
    have X3 : (1 - w) ^ 3 * (1 + L.s5 * y) ≤ A - w := by
      have a1 : (1 - w) * A ≤ A - w := by
        have : w ≤ w * A := le_mul_of_one_le_right hw0 hA1
        linarith
      have h1 := mul_le_mul_of_nonneg_left W2 (by linarith : 0 ≤ 1 - w)
      have e : (1 - w) ^ 3 * (1 + L.s5 * y) = (1 - w) * ((1 - w) ^ 2 * (1 + L.s5 * y)) := by ring
      linarith
    have W3 : (1 - w) ^ 3 * (1 + L.s5 * y + L.c53 * (y * y)) ≤ A + B := by
      have e : (1 - w) ^ 3 * (1 + L.s5 * y + L.c53 * (y * y)) = (1 - w) ^ 3 * (1 + L.s5 * y) + (1 - w) ^ 3 * (L.c53 * (y * y)) := by ring
      linarith
    constructor
    · have h1 := mul_le_mul_of_nonneg_left W3 (by linarith : 0 ≤ 1 - w)
      have e : (1 - w) ^ 4 * (1 + L.s5 * y + L.c53 * (y * y)) = (1 - w) * ((1 - w) ^ 3 * (1 + L.s5 * y + L.c53 * (y * y))) := by ring
      linarith [T.1]
    · have h1 := mul_le_mul_of_nonneg_left U3 (by linarith : 0 ≤ 1 + w)
      have e : (1 + w) ^ 4 * (1 + L.s5 * y + L.c53 * (y * y)) = (1 + w) * ((1 + w) ^ 3 * (1 + L.s5 * y + L.c53 * (y * y))) := by ring
      linarith [T.2]
  · rw [if_neg hk] at h ⊢
    unfold factor32 at h
    obtain ⟨o, P, ho, hP, rfl, _, hP0⟩ := fin_of_add F (nn_one F) (mul_pos_nn F hc.s3 nl) h
    have ho' : o = 1 := (X.fin.inj ho).symm
    subst ho'
    obtain ⟨y, hy, hy0, rfl, _⟩ := mul_fin F hc.s3 nl hP
    have hy' : y = l := (X.fin.inj hy).symm
    subst hy'
    have s3y : 0 ≤ L.s3 * y := mul_nonneg hc.s3.le hl0
    have P1 := rnd_lo F s3y
    have P2 := rnd_up F s3y
    unfold lo at P1
    unfold up at P2
    have A1 := r1 (x := 1 + F.rnd (L.s3 * y)) (by linarith)
    have h2 : F.tiny ≤ w := by rw [hw]; linarith
    have U1 : 1 + F.rnd (L.s3 * y) ≤ (1 + w) * (1 + L.s3 * y) := by
      have h1 : (1 + F.u) * (L.s3 * y) ≤ (1 + w) * (L.s3 * y) := mul_le_mul_of_nonneg_right (by rw [hw]; linarith) s3y
      have e : (1 + w) * (1 + L.s3 * y) = 1 + w + (1 + w) * (L.s3 * y) := by ring
      linarith
    have W1 : (1 - w) * (1 + L.s3 * y) ≤ 1 + F.rnd (L.s3 * y) := by
      have h1 : (1 - w) * (L.s3 * y) ≤ (1 - F.u) * (L.s3 * y) := mul_le_mul_of_nonneg_right (by rw [hw]; linarith) s3y
      have e : (1 - w) * (1 + L.s3 * y) = 1 - w + (1 - w) * (L.s3 * y) := by ring
      linarith
    have pos : 0 ≤ 1 + L.s3 * y := by linarith
    constructor
    · have h1 := mul_le_mul_of_nonneg_left W1 (by linarith : 0 ≤ 1 - w)
      have e : (1 - w) * ((1 - w) * (1 + L.s3 * y)) = (1 - w) ^ 2 * (1 + L.s3 * y) := by ring
      have h4 : (1 - w) ^ 4 ≤ (1 - w) ^ 2 := (pw1 3).trans (pw1 2)
      have h3 := mul_le_mul_of_nonneg_right h4 pos
      linarith [A1.1]
    · have h1 := mul_le_mul_of_nonneg_left U1 (by linarith : 0 ≤ 1 + w)
      have e : (1 + w) * ((1 + w) * (1 + L.s3 * y)) = (1 + w) ^ 2 * (1 + L.s3 * y) := by ring
      have h4 : (1 + w) ^ 2 ≤ (1 + w) ^ 4 := (pw2 2).trans (pw2 3)
      have h3 := mul_le_mul_of_nonneg_right h4 pos
      linarith [A1.2]

theorem evalM_near (f : ℕ → X K) (g : ℕ → K) {w : K} (hw0 : 0 ≤ w) (hw1 : w ≤ 1) (hw : F.u + F.tiny ≤ w) (t : Tree) (hf : ∀ i ∈ t.leaves, Ge1 F (f i)) (hg0 : ∀ i ∈ t.leaves, 0 ≤ g i)
    (hg : ∀ i ∈ t.leaves, ∀ v, f i = .fin v → (1 - w) ^ 4 * g i ≤ v ∧ v ≤ (1 + w) ^ 4 * g i) {p : K} (hp : evalM F f t = .fin p) :
    (∀ i ∈ t.leaves, ∃ v, f i = .fin v) ∧ ((1 - w) ^ 5) ^ t.leaves.length * (t.leaves.map g).prod ≤ p ∧ p ≤ ((1 + w) ^ 5) ^ t.leaves.length * (t.leaves.map g).prod := by
  have hprod : ∀ l : List ℕ, (∀ i ∈ l, 0 ≤ g i) → 0 ≤ (l.map g).prod := by
    intro l h
    refine List.prod_nonneg fun x hx => ?_
    obtain ⟨i, hi, rfl⟩ := List.mem_map.1 hx
    exact h i hi
  have a5 : (1 - w) ^ 5 ≤ (1 - w) ^ 4 := pow_le_pow_of_le_one (by linarith) (by linarith) (by norm_num)
  have b5 : (1 + w) ^ 4 ≤ (1 + w) ^ 5 := pow_le_pow_right₀ (by linarith) (by norm_num)
  -- one power is kept in reserve for the rounding of the product
  have main : (∀ i ∈ t.leaves, ∃ v, f i = .fin v) ∧ ((1 - w) ^ 5) ^ t.leaves.length * (t.leaves.map g).prod ≤ (1 - w) * p ∧ (1 + w) * p ≤ ((1 + w) ^ 5) ^ t.leaves.length * (t.leaves.map g).prod := by
    induction t generalizing p with
    | leaf i =>
      have hi : i ∈ (Tree.leaf i).leaves := by simp [Tree.leaves]
      have hp' : f i = .fin p := hp
      obtain ⟨h1, h2⟩ := hg i hi p hp'
      refine ⟨fun j hj => ?_, ?_, ?_⟩
      · simp [Tree.leaves] at hj; subst hj; exact ⟨p, hp'⟩
      · simp only [Tree.leaves, List.length_singleton, pow_one, List.map_cons, List.map_nil, List.prod_singleton]
        have := mul_le_mul_of_nonneg_left h1 (by linarith : 0 ≤ 1 - w)
        have e : (1 - w) ^ 5 * g i = (1 - w) * ((1 - w) ^ 4 * g i) := by ring
        linarith
      · simp only [Tree.leaves, List.length_singleton, pow_one, List.map_cons, List.map_nil, List.prod_singleton]
        have := mul_le_mul_of_nonneg_left h2 (by linarith : 0 ≤ 1 + w)
        have e : (1 + w) ^ 5 * g i = (1 + w) * ((1 + w) ^ 4 * g i) := by ring
        linarith
    | node a b ha hb =>
      have la : ∀ i ∈ a.leaves, i ∈ (Tree.node a b).leaves := fun i hi => by simp [Tree.leaves, hi]
      have lb : ∀ i ∈ b.leaves, i ∈ (Tree.node a b).leaves := fun i hi => by simp [Tree.leaves, hi]
      have ga := (evalM_ge1 F f a fun i hi => hf i (la i hi)).1
      have gb := (evalM_ge1 F f b fun i hi => hf i (lb i hi)).1
      have hm : F.mulX (evalM F f a) (evalM F f b) = .fin p := hp
      rcases (mul_ge1 F ga gb).2 with h | ⟨x, y, hx, hy⟩
      · rw [hm] at h; cases h
      · rw [hx] at ga; rw [hy] at gb
        obtain ⟨v1, A1, A2⟩ := ha (fun i hi => hf i (la i hi)) (fun i hi => hg0 i (la i hi)) (fun i hi => hg i (la i hi)) hx
        obtain ⟨v2, B1, B2⟩ := hb (fun i hi => hf i (lb i hi)) (fun i hi => hg0 i (lb i hi)) (fun i hi => hg i (lb i hi)) hy
        rw [hx, hy] at hm
        obtain ⟨rfl, _⟩ := of_eq_fin (show F.of (x * y) = .fin p from hm)
        have x1 : 1 ≤ x := ga.2
        have y1 : 1 ≤ y := gb.2
        have xy1 : 1 ≤ x * y := one_le_mul_of_one_le_of_one_le x1 y1
        obtain ⟨R1, R2⟩ := rnd_ge1 F xy1
        have R1' : F.rnd (x * y) ≤ (1 + w) * (x * y) := R1.trans (mul_le_mul_of_nonneg_right (by unfold grow; linarith) (by linarith))
        have R2' : (1 - w) * (x * y) ≤ F.rnd (x * y) := le_trans (mul_le_mul_of_nonneg_right (by linarith) (by linarith)) R2
        set PA := (a.leaves.map g).prod
        set PB := (b.leaves.map g).prod
        have pa := hprod a.leaves fun i hi => hg0 i (la i hi)
        have pb := hprod b.leaves fun i hi => hg0 i (lb i hi)
        have n0 : (0 : K) ≤ 1 - w := by linarith
        have n1 : (0 : K) ≤ 1 + w := by linarith
        refine ⟨fun i hi => ?_, ?_, ?_⟩
        · rw [Tree.leaves, List.mem_append] at hi
          exact hi.elim (v1 i) (v2 i)
        · rw [Tree.leaves, List.length_append, List.map_append, List.prod_append, pow_add]
          have h1 := mul_le_mul A1 B1 (mul_nonneg (pow_nonneg (pow_nonneg n0 5) _) pb) (mul_nonneg n0 (by linarith))
          have h2 := mul_le_mul_of_nonneg_left R2' n0
          calc ((1 - w) ^ 5) ^ a.leaves.length * ((1 - w) ^ 5) ^ b.leaves.length * (PA * PB)
              = ((1 - w) ^ 5) ^ a.leaves.length * PA * (((1 - w) ^ 5) ^ b.leaves.length * PB) := by ring
            _ ≤ (1 - w) * x * ((1 - w) * y) := h1
            _ = (1 - w) * ((1 - w) * (x * y)) := by ring
            _ ≤ _ := h2
        · rw [Tree.leaves, List.length_append, List.map_append, List.prod_append, pow_add]
          have h1 := mul_le_mul A2 B2 (mul_nonneg n1 (by linarith)) (mul_nonneg (pow_nonneg (pow_nonneg n1 5) _) pa)
          have h2 := mul_le_mul_of_nonneg_left R1' n1
          calc (1 + w) * F.rnd (x * y) ≤ (1 + w) * ((1 + w) * (x * y)) := h2
            _ = (1 + w) * x * ((1 + w) * y) := by ring
            _ ≤ ((1 + w) ^ 5) ^ a.leaves.length * PA * (((1 + w) ^ 5) ^ b.leaves.length * PB) := h1
            _ = _ := by ring
  obtain ⟨m1, m2, m3⟩ := main
  have hp1 : 1 ≤ p := by
    have := (evalM_ge1 F f t hf).1
    rw [hp] at this
    exact this.2
  refine ⟨m1, m2.trans ?_, le_trans ?_ m3⟩
  · exact mul_le_of_le_one_left (by linarith) (by linarith)
  · exact le_mul_of_one_le_left (by linarith) (by linarith)

/-- **C116** Accuracy of the Matérn kernels: unless the product of the factors overflows, the scaled distances `l` are numbers, the correlation is the rounded product of `P` and `np.exp(-s Σ l)`, rounded too, where `P` is the product of the
exact factors up to five roundings for each coordinate. -/
theorem C116_matern_accuracy {L : Lib K} (hr : Rows L m) (hc : Consts L) (k : Kind) (hk : k.IsMatern) (hs : F.tiny * (1 + L.c53) + F.u < 1)
    (theta : Fin m → K) (hth : ∀ i, 0 < theta i) (d : Fin m → X K) (hd : ∀ i, d i ≠ .nan) (hv : ∀ i, F.Val (d i)) {P : K} (hP : polyPart F L k theta d = .fin P) :
    ∃ l : Fin m → K, (∀ i, F.mulX (.fin (theta i)) (d i).abs = .fin (l i) ∧ F.Fin (l i) ∧ 0 ≤ l i) ∧
      ((1 - F.u - F.tiny * (1 + L.c53)) ^ 5) ^ m * ∏ i, factor L k (l i) ≤ P ∧ P ≤ ((1 + F.u + F.tiny * (1 + L.c53)) ^ 5) ^ m * ∏ i, factor L k (l i) ∧
      corr F L k theta d = F.mulX (.fin P) (L.ex (F.mulX (.fin (if k = .matern52 then L.s5 else L.s3)) (rowSum F L.ts fun i => .fin (l i))).neg) := by
  have hn : ∀ i, Nn F (F.mulX (.fin (theta i)) (d i).abs) := fun i => mul_pos_nn F (hth i) (compDist_nn F .absExp d hd hv i)
  set ll : Fin m → X K := fun i => F.mulX (.fin (theta i)) (d i).abs with hll
  have hpoly : rowProd F L.tp (fun i => factorX F L k (ll i)) = .fin P := by
    cases k
    · exact hk.elim
    · exact hk.elim
    · exact hP
    · exact hP
  have hge : ∀ i, Ge1 F (factorX F L k (ll i)) := by
    intro i
    unfold factorX
    split
    · exact (factor_ge1 F hc (hn i)).1
    · exact (factor_ge1 F hc (hn i)).2
  -- a finite factor comes from a finite distance
  have hfin : ∀ i v, factorX F L k (ll i) = .fin v → ∃ l, ll i = .fin l ∧ F.Fin l ∧ 0 ≤ l := by
    intro i v e
    cases h : ll i with
    | nan => have q : Nn F (ll i) := hn i; rw [h] at q; exact q.elim
    | fin l => have q : Nn F (ll i) := hn i; rw [h] at q; exact ⟨l, rfl, q.1, q.2⟩
    | inf s =>
      exfalso
      have q : Nn F (ll i) := hn i
      rw [h] at q e
      have h1 : s = false := q
      subst h1
      have g5 : F.mulX (.fin L.s5) (.inf false) = .inf false := by
        show (if L.s5 = 0 then X.nan else X.inf (decide (L.s5 < 0) != false)) = _
        rw [if_neg hc.s5.ne', decide_eq_false (not_lt.2 hc.s5.le)]; rfl
      have g53 : F.mulX (.fin L.c53) (.inf false) = .inf false := by
        show (if L.c53 = 0 then X.nan else X.inf (decide (L.c53 < 0) != false)) = _
        rw [if_neg hc.c53.ne', decide_eq_false (not_lt.2 hc.c53.le)]; rfl
      have g3 : F.mulX (.fin L.s3) (.inf false) = .inf false := by
        show (if L.s3 = 0 then X.nan else X.inf (decide (L.s3 < 0) != false)) = _
        rw [if_neg hc.s3.ne', decide_eq_false (not_lt.2 hc.s3.le)]; rfl
      have gg : F.mulX (X.inf false) (X.inf false) = .inf false := rfl
      unfold factorX factor52 factor32 at e
      rw [gg, g5, g53, g3] at e
      split at e
      · cases e
      · cases e
  have hw0 : 0 ≤ F.u + F.tiny * (1 + L.c53) := add_nonneg F.u_nonneg (mul_nonneg F.tiny_nonneg (by linarith [hc.c53]))
  have e1 : 1 - F.u - F.tiny * (1 + L.c53) = 1 - (F.u + F.tiny * (1 + L.c53)) := by ring
  have e2 : 1 + F.u + F.tiny * (1 + L.c53) = 1 + (F.u + F.tiny * (1 + L.c53)) := by ring
  have fpos : ∀ y, 0 ≤ y → 0 ≤ factor L k y := by
    intro y hy
    unfold factor
    have h5 := mul_nonneg hc.s5.le hy
    have h3 := mul_nonneg hc.s3.le hy
    have h53 := mul_nonneg hc.c53.le (mul_self_nonneg y)
    split <;> linarith
  have numnn : ∀ i, 0 ≤ num (ll i) := by
    intro i
    have q : Nn F (ll i) := hn i
    cases h : ll i with
    | fin y => rw [h] at q; exact q.2
    | inf s => exact le_rfl
    | nan => exact le_rfl
  obtain ⟨H1, H2, H3⟩ := evalM_near F (fun i => if h : i < m then factorX F L k (ll ⟨i, h⟩) else .nan) (fun i => if h : i < m then factor L k (num (ll ⟨i, h⟩)) else 1)
    hw0 (by linarith) (by linarith [le_mul_of_one_le_right F.tiny_nonneg (by linarith [hc.c53] : 1 ≤ 1 + L.c53)]) L.tp
    (fun i hi => by rw [dif_pos ((mem_leaves hr.tp).1 hi)]; exact hge _) (fun i hi => by rw [dif_pos ((mem_leaves hr.tp).1 hi)]; exact fpos _ (numnn _))
    (fun i hi v hv' => by
      rw [dif_pos ((mem_leaves hr.tp).1 hi)] at hv' ⊢
      obtain ⟨l, hl, hl1, hl2⟩ := hfin _ v hv'
      rw [hl] at hv' ⊢
      have := C116_factor_accuracy F hc k hl1 hl2 hv' hs
      rw [e1, e2] at this
      exact this) hpoly
  have hall : ∀ i, ∃ l, ll i = .fin l ∧ F.Fin l ∧ 0 ≤ l := by
    intro i
    obtain ⟨v, hv'⟩ := H1 i ((mem_leaves hr.tp).2 i.2)
    rw [dif_pos i.2] at hv'
    exact hfin i v hv'
  choose l hl1 hl2 hl3 using hall
  have hpr : (L.tp.leaves.map fun i => if h : i < m then factor L k (num (ll ⟨i, h⟩)) else 1).prod = ∏ i, factor L k (l i) := by
    rw [(hr.tp.map _).prod_eq]
    have : ∀ q, q ≤ m → ((List.range q).map fun i => if h : i < m then factor L k (num (ll ⟨i, h⟩)) else 1).prod = ∏ i : Fin q, if h : (i : ℕ) < m then factor L k (num (ll ⟨i, h⟩)) else 1 := by
      intro q
      induction q with
      | zero => intro _; simp
      | succ q ih => intro hq; rw [List.range_succ, List.map_append, List.prod_append, ih (by omega), Fin.prod_univ_castSucc]; simp
    rw [this m le_rfl]
    refine Finset.prod_congr rfl fun i _ => ?_
    rw [dif_pos i.2]
    show factor L k (num (ll i)) = _
    rw [hl1]
    rfl
  rw [hpr, leaves_length hr.tp, ← e1] at H2
  rw [hpr, leaves_length hr.tp, ← e2] at H3
  refine ⟨l, fun i => ⟨hl1 i, hl2 i, hl3 i⟩, H2, H3, ?_⟩
  have hsum : (rowSum F L.ts fun i => F.mulX (.fin (theta i)) (d i).abs) = rowSum F L.ts fun i => .fin (l i) := by
    congr 1
    funext i
    exact hl1 i
  rw [corr_matern F L k hk, hP]
  unfold expPart
  cases k
  · exact hk.elim
  · exact hk.elim
  · dsimp only
    rw [neg_fin_mul, hsum, if_pos rfl]
  · dsimp only
    rw [neg_fin_mul, hsum, if_neg (by simp)]

/-- The hypothesis on the format holds for doubles. -/
example : binary64.tiny * (1 + (lib64 3).c53) + binary64.u < 1 := by decide +kernel
example : ∃ P, polyPart binary64 (lib64 2) .matern52 ![1, 2] ![.fin 2, .fin (-4)] = .fin P := by
  have h : (polyPart binary64 (lib64 2) .matern52 ![1, 2] ![.fin 2, .fin (-4)]).lt (.fin 2000) = true := by decide +kernel
  have h' := (parts binary64 crude_ok (rows64 2 (by norm_num)) ⟨by norm_num [lib64], by norm_num [lib64], by norm_num [lib64]⟩ .matern52 ![1, 2] (by decide) ![.fin 2, .fin (-4)]
    (fun i => by fin_cases i <;> simp) (fun i => by fin_cases i <;> exact ⟨by decide +kernel, by decide +kernel⟩)).1
  cases hp : polyPart binary64 (lib64 2) .matern52 ![1, 2] ![.fin 2, .fin (-4)] with
  | fin P => exact ⟨P, rfl⟩
  | inf s => rw [hp] at h h'; have : s = false := h'; subst this; cases h
  | nan => rw [hp] at h; cases h

end SMT.Fp.Corr
