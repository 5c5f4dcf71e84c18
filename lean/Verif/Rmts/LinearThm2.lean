import Verif.Rmts.LinearThm
import Verif.Solvers.Converge
import Verif.Rmts.Order

/-!
# C113: Krylov and stationary solvers
-/
set_option linter.unusedSectionVars false
set_option linter.unusedSimpArgs false
set_option linter.unusedVariables false

namespace SMT.Solvers
open Matrix

variable {K : Type} [Field K] [LinearOrder K] [IsStrictOrderedRing K] {n : ℕ}

theorem energy_split {A : Matrix (Fin n) (Fin n) K} (hA : Spd A) {b x x0 xs : Fin n → K} (hxs : A *ᵥ xs = b) (h : (b - A *ᵥ x) ⬝ᵥ (x - x0) = 0) :
    energy A (x0 - xs) = energy A (x - xs) + energy A (x - x0) := by
  have h1 : (x - x0) ⬝ᵥ (A *ᵥ (x - xs)) = 0 := by
    rw [mulVec_sub, hxs, dotProduct_comm, ← neg_sub b, neg_dotProduct, h, neg_zero]
  have h2 := hA.comm (x - x0) (x - xs)
  have e : x0 - xs = (x - xs) - (x - x0) := by abel
  unfold energy
  rw [e, mulVec_sub, sub_dotProduct, dotProduct_sub, dotProduct_sub, h1, ← h2, h1]
  ring

/-- **C113** A call of conjugate gradients with symmetric positive definite matrix and preconditioner, any tolerance, any limit of iterations, any start: the residual of the result is orthogonal to the
distance moved, so the energy of the error decreases by exactly the energy of that distance; the result is not the start if the residual there exceeds the tolerances; and if the limit is at least the number of
unknowns, the residual is at most `tol * max(1, |b|)`. -/
theorem C113_conjugate_gradients (A M : Matrix (Fin n) (Fin n) K) (hA : Spd A) (hM : Spd M) (tol : K) (ilimit : ℕ) (b x0 xs : Fin n → K) (hxs : A *ᵥ xs = b) :
    (b - A *ᵥ cg A M tol ilimit b x0) ⬝ᵥ (cg A M tol ilimit b x0 - x0) = 0 ∧
    energy A (x0 - xs) = energy A (cg A M tol ilimit b x0 - xs) + energy A (cg A M tol ilimit b x0 - x0) ∧
    (0 < ilimit → tol ^ 2 * max 1 (b ⬝ᵥ b) < (b - A *ᵥ x0) ⬝ᵥ (b - A *ᵥ x0) → 0 < energy A (cg A M tol ilimit b x0 - x0)) ∧
    (n ≤ ilimit → (b - A *ᵥ cg A M tol ilimit b x0) ⬝ᵥ (b - A *ᵥ cg A M tol ilimit b x0) ≤ tol ^ 2 * max 1 (b ⬝ᵥ b)) := by
  have hg : (b - A *ᵥ cg A M tol ilimit b x0) ⬝ᵥ (cg A M tol ilimit b x0 - x0) = 0 := by
    rcases cg_spec hA hM tol ilimit b x0 with ⟨e, -⟩ | ⟨-, k, hk, e, hr, -⟩
    · rw [e, sub_self, dotProduct_zero]
    · rw [e, ← residual]; exact galerkin hA hM k hr
  have ht : (0 : K) ≤ tol ^ 2 := sq_nonneg _
  refine ⟨hg, energy_split hA hxs hg, fun hl hlt => ?_, fun hn => ?_⟩
  · refine hA.2 _ (sub_ne_zero.2 fun hx => ?_)
    have h1 : tol ^ 2 < (b - A *ᵥ x0) ⬝ᵥ (b - A *ᵥ x0) := (le_mul_of_one_le_right ht (le_max_left _ _)).trans_lt hlt
    have h2 : tol ^ 2 * (b ⬝ᵥ b) < (b - A *ᵥ x0) ⬝ᵥ (b - A *ᵥ x0) := (mul_le_mul_of_nonneg_left (le_max_right _ _) ht).trans_lt hlt
    rcases cg_spec hA hM tol ilimit b x0 with ⟨-, h⟩ | ⟨-, k, hk, e, hr, hs⟩
    · exact absurd h (not_le.2 h1)
    · have hk0 : k ≠ 0 := by
        rintro rfl
        rcases hs with hs | hs
        · rw [residual] at hs
          exact absurd hs (not_le.2 h2)
        · omega
      have hp := (ortho hA hM k hr).rp 0 k (Nat.pos_of_ne_zero hk0) le_rfl
      rw [residual, ← e, hx] at hp
      have : (b - A *ᵥ x0) ⬝ᵥ (M *ᵥ (b - A *ᵥ x0)) = 0 := hp
      have hr0 : b - A *ᵥ x0 ≠ 0 := hr 0 (Nat.pos_of_ne_zero hk0)
      exact absurd this (hM.2 _ hr0).ne'
  · rcases cg_spec hA hM tol ilimit b x0 with ⟨e, h⟩ | ⟨-, k, hk, e, hr, hs⟩
    · rw [e]; exact h.trans (le_mul_of_one_le_right ht (le_max_left _ _))
    · rw [e, ← residual]
      rcases hs with hs | hs
      · exact hs.trans (mul_le_mul_of_nonneg_left (le_max_right _ _) ht)
      · omega

/-- With the inverse as preconditioner one iteration gives the exact solution. -/
theorem cg_inverse {A : Matrix (Fin n) (Fin n) K} (hA : Spd A) (tol : K) (ilimit : ℕ) (hl : 0 < ilimit) (b x0 : Fin n → K) :
    A *ᵥ cg A A⁻¹ tol ilimit b x0 = b ∨ cg A A⁻¹ tol ilimit b x0 = x0 ∧ (b - A *ᵥ x0) ⬝ᵥ (b - A *ᵥ x0) ≤ tol ^ 2 * max 1 (b ⬝ᵥ b) := by
  have ht : (0 : K) ≤ tol ^ 2 := sq_nonneg _
  rcases cg_spec hA hA.inv tol ilimit b x0 with ⟨e, h⟩ | ⟨-, k, hk, e, hr, hs⟩
  · exact Or.inr ⟨e, h.trans (le_mul_of_one_le_right ht (le_max_left _ _))⟩
  · by_cases h0 : (iter A A⁻¹ b x0 0).r = 0
    · have hk : k = 0 := by
        by_contra hk
        exact hr 0 (Nat.pos_of_ne_zero hk) h0
      left
      rw [hk] at e
      rw [residual] at h0
      rw [e, ← sub_eq_zero, ← neg_sub, h0, neg_zero]
    have h1 : (iter A A⁻¹ b x0 1).r = 0 := by
      rw [r_succ]
      have hp : A *ᵥ (iter A A⁻¹ b x0 0).p = (iter A A⁻¹ b x0 0).r := hA.mul_inv _
      have ha : alphaK A A⁻¹ b x0 0 = 1 := by
        unfold alphaK
        rw [hp]
        have hρ := rho_pos hA.inv h0
        have : (iter A A⁻¹ b x0 0).p ⬝ᵥ (iter A A⁻¹ b x0 0).r = rhoK A A⁻¹ b x0 0 := by
          unfold rhoK; rw [dotProduct_comm]; rfl
        rw [this]
        exact div_self hρ.ne'
      rw [hp, ha, one_smul, sub_self]
    have hk1 : k ≤ 1 := by
      by_contra hc
      exact hr 1 (by omega) h1
    rcases Nat.le_one_iff_eq_zero_or_eq_one.1 hk1 with rfl | rfl
    · right
      have e' : cg A A⁻¹ tol ilimit b x0 = x0 := e
      refine ⟨e', ?_⟩
      rcases hs with hs | hs
      · rw [residual] at hs
        exact hs.trans (mul_le_mul_of_nonneg_left (le_max_right _ _) ht)
      · omega
    · left
      rw [residual] at h1
      rw [e, ← sub_eq_zero, ← neg_sub, h1, neg_zero]

end SMT.Solvers

namespace SMT.Rmts
open Matrix SMT.Solvers SMT.LineSearch

variable {K : Type} [Field K] [LinearOrder K] [IsStrictOrderedRing K] {n ny : ℕ}

/-! ## Specification -/

/-- The names of Krylov solvers. -/
def KrylovName (name : String) : Prop := name = "krylov" ∨ name = "krylov-dense" ∨ name = "krylov-lu" ∨ name = "krylov-mg"

/-- The residual of `x`, squared norm. -/
def resSq (A : Matrix (Fin n) (Fin n) K) (b x : Fin n → K) : K := ∑ i, (b i - ∑ j, A i j * x j) ^ 2

theorem resSq_eq (A : Matrix (Fin n) (Fin n) K) (b x : Fin n → K) : resSq A b x = (b - A *ᵥ x) ⬝ᵥ (b - A *ᵥ x) :=
  Finset.sum_congr rfl fun i _ => sq _

theorem krylov_dir (L : LinLib K) (name : String) (h : KrylovName name) (contig : Bool) (A : Matrix (Fin n) (Fin n) K) (hA : Spd A) (b d : Fin n → K) :
    ∃ M, Spd M ∧ direction L name contig A b d = .ok (cg A M cgTol cgLimit b d) ∧ ((name = "krylov-lu" ∨ name = "krylov-mg") → M = A⁻¹) := by
  have hdet : A.det ≠ 0 := hA.det.ne_zero
  have hp1 : preconditioner (some "dense") = none := by decide
  have hp2 : preconditioner none = none := by decide
  have hp3 : preconditioner (some "lu") = some (.direct "lu") := by decide
  have hp4 : preconditioner (some "mg") = some .multigrid := by decide
  rcases h with rfl | rfl | rfl | rfl
  · refine ⟨1, spd_one, ?_, fun h => ?_⟩
    · unfold direction
      rw [show getSolver "krylov" = some (.krylov none) by decide]
      dsimp only; rw [hp2]; rfl
    · rcases h with h | h <;> exact absurd h (by decide)
  · refine ⟨1, spd_one, ?_, fun h => ?_⟩
    · unfold direction
      rw [show getSolver "krylov-dense" = some (.krylov (some "dense")) by decide]
      dsimp only; rw [hp1]; rfl
    · rcases h with h | h <;> exact absurd h (by decide)
  · refine ⟨A⁻¹, hA.inv, ?_, fun _ => rfl⟩
    unfold direction
    rw [show getSolver "krylov-lu" = some (.krylov (some "lu")) by decide]
    dsimp only; rw [hp3]; unfold pcMatrix; dsimp only; rw [if_pos rfl, if_neg hdet]; rfl
  · refine ⟨A⁻¹, hA.inv, ?_, fun _ => rfl⟩
    unfold direction
    rw [show getSolver "krylov-mg" = some (.krylov (some "mg")) by decide]
    dsimp only; rw [hp4]; unfold pcMatrix; dsimp only; rw [if_neg hdet]; rfl

theorem cgTol_pos : (0 : K) < cgTol := by unfold cgTol; positivity

theorem cgTol_lt : (cgTol : K) ^ 2 < 1 := by
  unfold cgTol
  rw [div_pow, one_pow, div_lt_one (by positivity), ← pow_mul]
  exact one_lt_pow₀ (by norm_num) (by norm_num)

/-- **C113** The direction of a Krylov solver for a symmetric positive definite matrix, `x`, from the previous direction `d`: the solver never raises, the residual of `x` is orthogonal to `x - d`, with at most
100 unknowns its norm is at most `1e-15 * max(1, |b|)`; from `d = 0`, `x` is a descent direction (`b` is the negative gradient) unless `|b| ≤ 1e-15`. With `krylov-lu` and `krylov-mg` `x` is the exact solution, or
the previous direction if that already met the tolerance. -/
theorem C113_krylov_direction (L : LinLib K) (name : String) (h : KrylovName name) (contig : Bool) (A : Matrix (Fin n) (Fin n) K) (hA : Spd A) (b d : Fin n → K) :
    ∃ x, direction L name contig A b d = .ok x ∧ (b - A *ᵥ x) ⬝ᵥ (x - d) = 0 ∧
      (n ≤ 100 → resSq A b x ≤ (1 / 10 ^ 15) ^ 2 * max 1 (∑ i, b i ^ 2)) ∧
      (d = 0 → (1 / 10 ^ 15) ^ 2 < ∑ i, b i ^ 2 → 0 < ∑ i, b i * x i ∧ x ⬝ᵥ (A *ᵥ x) = ∑ i, b i * x i ∧ (n ≤ 100 → resSq A b x ≤ (1 / 10 ^ 15) ^ 2 * ∑ i, b i ^ 2)) ∧
      (name = "krylov-lu" ∨ name = "krylov-mg" → A *ᵥ x = b ∨ x = d ∧ resSq A b d ≤ (1 / 10 ^ 15) ^ 2 * max 1 (∑ i, b i ^ 2)) := by
  obtain ⟨M, hM, e, hinv⟩ := krylov_dir L name h contig A hA b d
  have hb : ∑ i, b i ^ 2 = b ⬝ᵥ b := Finset.sum_congr rfl fun i _ => sq _
  have htol : ((1 : K) / 10 ^ 15) = cgTol := rfl
  obtain ⟨h1, h2, h3, h4⟩ := C113_conjugate_gradients A M hA hM cgTol cgLimit b d (A⁻¹ *ᵥ b) (hA.mul_inv b)
  refine ⟨_, e, h1, fun hn => ?_, fun hd hlt => ?_, fun hnm => ?_⟩
  · rw [resSq_eq, hb, htol]; exact h4 hn
  · subst hd
    rw [hb, htol] at hlt
    have hpos : (0 : K) < b ⬝ᵥ b := (sq_nonneg _).trans_lt hlt
    have hbig : (cgTol : K) ^ 2 * max 1 (b ⬝ᵥ b) < (b - A *ᵥ 0) ⬝ᵥ (b - A *ᵥ 0) := by
      rw [mulVec_zero, sub_zero]
      rcases le_total 1 (b ⬝ᵥ b) with hc | hc
      · rw [max_eq_right hc]
        exact mul_lt_of_lt_one_left hpos cgTol_lt
      · rw [max_eq_left hc, mul_one]; exact hlt
    have hE := h3 (by unfold cgLimit; norm_num) hbig
    rw [sub_zero] at h1 hE
    have heq : cg A M cgTol cgLimit b 0 ⬝ᵥ (A *ᵥ cg A M cgTol cgLimit b 0) = b ⬝ᵥ cg A M cgTol cgLimit b 0 := by
      rw [sub_dotProduct, sub_eq_zero] at h1
      rw [h1, dotProduct_comm]
    refine ⟨?_, heq, fun hn => ?_⟩
    · show 0 < b ⬝ᵥ _
      rw [← heq]; exact hE
    · rw [resSq_eq, hb, htol]
      rcases cg_spec hA hM cgTol cgLimit b 0 with ⟨e', h⟩ | ⟨-, k, hk, e', hr, hs⟩
      · rw [mulVec_zero, sub_zero] at h
        exact absurd h (not_le.2 hlt)
      · rw [e', ← Solvers.residual]
        rcases hs with hs | hs
        · exact hs
        · have := hs.2; unfold cgLimit at this; omega
  · have hMi := hinv hnm
    rw [resSq_eq, hb, htol]
    subst hMi
    exact cg_inverse hA cgTol cgLimit (by unfold cgLimit; norm_num) b d

/-- **C113** Training with a Krylov solver and order 2, at most 100 unknowns and any line search of the library: it ends normally with the matrix of the normal equations, and for every output whose right-hand side is
larger than the Newton tolerance the residual of the normal equations is at most `1e-15` times the norm of the right-hand side (zero with `krylov-lu` and `krylov-mg`); other outputs are zero. The number of
further passes makes no difference. -/
theorem C113_krylov_order2 (L : LinLib K) (name : String) (h : KrylovName name) (hn : n ≤ 100) (H : Fin n → Fin n → K) (hS : ∀ i j, H i j = H j i) (hH : PosDef H) (bs : List (MBlock K n ny))
    (hc : ∀ b ∈ bs, 0 ≤ b.c) (maxiter : ℕ) (tol : K) (htol : 1 / 10 ^ 15 ≤ tol) (hsmall : ∀ l, (1 / 10 ^ 15) ^ 2 * ∑ i, normalRhs bs l i ^ 2 ≤ tol ^ 2) (ls : Search K n) (hls : TakesFullStep ls)
    (hv : ∃ l, Visible bs tol l) :
    ∃ sol, trainNamed L name H bs 2 maxiter tol ls = .ok (sol, normalMtx H bs) ∧
      ∀ l, (Visible bs tol l → resSq (Matrix.of (normalMtx H bs)) (normalRhs bs l) (sol l) ≤ (1 / 10 ^ 15) ^ 2 * ∑ i, normalRhs bs l i ^ 2) ∧
        (Visible bs tol l → name = "krylov-lu" ∨ name = "krylov-mg" → NormalEq H bs l (sol l)) ∧ (¬ Visible bs tol l → sol l = fun _ => 0) := by
  have hA : ∀ l : Fin ny, Spd (Matrix.of (normalMtx H bs)) := fun l => normalMtx_spd H hS hH bs hc l
  have hex : ∀ l, ∃ x, Visible bs tol l → direction L name (decide (ny = 1 ∨ n ≤ 1)) (Matrix.of (normalMtx H bs)) (normalRhs bs l) (fun _ => 0) = .ok x ∧
      (normalRhs bs l - Matrix.of (normalMtx H bs) *ᵥ x) ⬝ᵥ x = 0 ∧
      resSq (Matrix.of (normalMtx H bs)) (normalRhs bs l) x ≤ (1 / 10 ^ 15) ^ 2 * ∑ i, normalRhs bs l i ^ 2 ∧ (name = "krylov-lu" ∨ name = "krylov-mg" → Matrix.of (normalMtx H bs) *ᵥ x = normalRhs bs l) := by
    intro l
    obtain ⟨x, e, h1, -, h3, h4⟩ := C113_krylov_direction L name h (decide (ny = 1 ∨ n ≤ 1)) _ (hA l) (normalRhs bs l) (fun _ => 0)
    refine ⟨x, fun hvl => ⟨e, ?_, ?_⟩⟩
    · have : x - (fun _ => 0) = x := sub_zero x
      rwa [this] at h1
    · have h0 : ((1 : K) / 10 ^ 15) ^ 2 < ∑ i, normalRhs bs l i ^ 2 := (pow_le_pow_left₀ (by positivity) htol 2).trans_lt hvl
      obtain ⟨h5, h6, h7⟩ := h3 rfl h0
      refine ⟨h7 hn, fun hnm => ?_⟩
      rcases h4 hnm with h8 | ⟨h8, -⟩
      · exact h8
      · rw [h8] at h5
        simp at h5
  choose D hD using hex
  refine ⟨_, trainW_two H hS hH bs hc maxiter tol _ ls hls D (fun l hl => ⟨(hD l hl).1, (hD l hl).2.1, ?_⟩) hv, fun l => ⟨fun hl => ?_, fun hl hnm => ?_, fun hl => ?_⟩⟩
  · rw [← resSq_eq]; exact (hD l hl).2.2.1.trans (hsmall l)
  · rw [if_pos hl]; exact (hD l hl).2.2.1
  · rw [if_pos hl]; intro i; exact congrFun ((hD l hl).2.2.2 hnm) i
  · rw [if_neg hl]

/-! ## Stationary solvers -/

/-- **C113** `gs` starting from zero never raises for a symmetric positive definite matrix and gives a descent direction for every nonzero right-hand side. -/
theorem C113_gs_direction (L : LinLib K) (contig : Bool) (A : Matrix (Fin n) (Fin n) K) (hA : Spd A) (b : Fin n → K) :
    ∃ x, direction L "gs" contig A b 0 = .ok x ∧ (b ≠ 0 → 0 < ∑ i, b i * x i) := by
  have hd : ∀ i, 0 < A i i := by
    intro i
    have := hA.2 (Pi.single i 1) (by intro h; have := congrFun h i; simp at this)
    simpa [mulVec_single] using this
  refine ⟨stationary "gs" A statDamping statLimit b (some 0), ?_, fun hb => ?_⟩
  · unfold direction
    rw [show getSolver "gs" = some (.stationary "gs") by decide]
    dsimp only
    rw [if_neg fun h => by obtain ⟨-, i, hi⟩ := h; exact (hd i).ne' hi]
  · have hs := fun k => C46_gs_sweeps_energy A hA.1 hd (statDamping : K) (by unfold statDamping; norm_num) (by unfold statDamping; norm_num) b 0 (A⁻¹ *ᵥ b) (hA.mul_inv b) k
    have h1 : energy A (stationary "gs" A statDamping 1 b (some 0) - A⁻¹ *ᵥ b) < energy A (0 - A⁻¹ *ᵥ b) :=
      (hs 0).2 (by show A *ᵥ (0 : Fin n → K) ≠ b; rw [mulVec_zero]; exact hb.symm)
    have hall : ∀ k, energy A (stationary "gs" A statDamping (k + 1) b (some 0) - A⁻¹ *ᵥ b) < energy A (0 - A⁻¹ *ᵥ b) := by
      intro k
      induction k with
      | zero => exact h1
      | succ k ih => exact (hs (k + 1)).1.trans_lt ih
    have h10 := hall 9
    have e10 : statLimit = 9 + 1 := rfl
    rw [← e10] at h10
    show 0 < b ⬝ᵥ _
    generalize stationary "gs" A statDamping statLimit b (some 0) = x at h10
    have hE : energy A (x - A⁻¹ *ᵥ b) = x ⬝ᵥ (A *ᵥ x) - 2 * (b ⬝ᵥ x) + energy A (0 - A⁻¹ *ᵥ b) := by
      unfold energy
      rw [mulVec_sub, mulVec_sub, hA.mul_inv, mulVec_zero, zero_sub, zero_sub, sub_dotProduct, dotProduct_sub, dotProduct_sub, hA.comm (A⁻¹ *ᵥ b) x, hA.mul_inv, neg_dotProduct_neg, dotProduct_comm x b]
      ring
    have hx : 0 ≤ x ⬝ᵥ (A *ᵥ x) := by
      by_cases h0 : x = 0
      · rw [h0, zero_dotProduct]
      · exact (hA.2 x h0).le
    rw [hE] at h10
    linarith

theorem posDef_nonneg {H : Fin n → Fin n → K} (hH : PosDef H) (v : Fin n → K) : 0 ≤ ∑ i, v i * ∑ j, H i j * v j := by
  by_cases hv : v = 0
  · rw [hv]; simp
  · exact (hH v hv).le

/-- **C113** Along an ascent direction the backtracking search (the default) never ends, for every even order: no step satisfies its condition. -/
theorem C113_backtracking_ascent (H : Fin n → Fin n → K) (hS : ∀ i j, H i j = H j i) (hH : PosDef H) (bs : List (MBlock K n ny)) (hc : ∀ b ∈ bs, 0 ≤ b.c) (l : Fin ny) (p : ℕ) (hpe : Even p) (hp2 : 2 ≤ p)
    (x d : Fin n → K) (hg : 0 < ∑ i, optGrad H (outs bs l) p x i * d i) (fuel : ℕ) :
    backtrackingSearch fuel (optFunc H (outs bs l) p) (optGrad H (outs bs l) p) x d = none := by
  have key : ∀ fuel (a : K), 0 < a → (mkLS (optFunc H (outs bs l) p) (optGrad H (outs bs l) p) x d).backtrack (1 / 2) fuel a = none := by
    intro fuel
    induction fuel with
    | zero => intro a _; rfl
    | succ fuel ih =>
      intro a ha
      unfold LS.backtrack
      rw [if_pos]
      · exact ih _ (by positivity)
      · intro hdec
        have hd0 : (mkLS (optFunc H (outs bs l) p) (optGrad H (outs bs l) p) x d).dphi 0 = ∑ i, optGrad H (outs bs l) p x i * d i := by
          unfold LS.dphi; rw [Rmts.at_zero]; rfl
        have hp0 : (mkLS (optFunc H (outs bs l) p) (optGrad H (outs bs l) p) x d).phi 0 = optFunc H (outs bs l) p x := by
          unfold LS.phi; rw [Rmts.at_zero]; rfl
        have hpa : optFunc H (outs bs l) p x + a * ∑ i, optGrad H (outs bs l) p x i * d i ≤ (mkLS (optFunc H (outs bs l) p) (optGrad H (outs bs l) p) x d).phi a := by
          have h1 := func_lower H hS (outs bs l) (outs_nonneg bs hc l) p hpe hp2 x (fun i => a * d i)
          have h2 := posDef_nonneg hH (fun i => a * d i)
          have h3 : ∑ i, optGrad H (outs bs l) p x i * (a * d i) = a * ∑ i, optGrad H (outs bs l) p x i * d i := by
            rw [Finset.mul_sum]; exact Finset.sum_congr rfl fun i _ => by ring
          show _ ≤ optFunc H (outs bs l) p (fun i => x i + a * d i)
          rw [h3] at h1
          linarith
        unfold LS.funcDecreased at hdec
        rw [hd0, hp0] at hdec
        have hu : (mkLS (optFunc H (outs bs l) p) (optGrad H (outs bs l) p) x d).u1 = 1 / 10000 := rfl
        rw [hu] at hdec
        have h1 : 0 < a * ∑ i, optGrad H (outs bs l) p x i * d i := mul_pos ha hg
        have h3 : (1 : K) / 10000 * a * ∑ i, optGrad H (outs bs l) p x i * d i = 1 / 10000 * (a * ∑ i, optGrad H (outs bs l) p x i * d i) := by ring
        rw [h3] at hdec
        linarith
  show ((mkLS (optFunc H (outs bs l) p) (optGrad H (outs bs l) p) x d).backtrack (1 / 2) fuel 1).map _ = none
  rw [key fuel 1 one_pos]
  rfl

end SMT.Rmts
