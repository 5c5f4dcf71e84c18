import Verif.LineSearch.Model
import Verif.Rmts.Props
import Mathlib.Analysis.Calculus.Deriv.MeanValue
import Mathlib.Analysis.Calculus.Deriv.Add
import Mathlib.Analysis.Calculus.Deriv.Mul
import Mathlib.Analysis.Calculus.Deriv.Pow
import Mathlib.Topology.UniformSpace.HeineCantor
import Mathlib.Analysis.SpecificLimits.Basic
import Mathlib.Tactic.Linarith
import Mathlib.Tactic.Ring
import Mathlib.Tactic.FieldSimp
import Mathlib.LinearAlgebra.Matrix.NonsingularInverse
import Mathlib.LinearAlgebra.Matrix.Determinant.Basic

set_option linter.unusedSectionVars false
set_option linter.unusedSimpArgs false
set_option linter.unusedVariables false

/-!
# C44, C45: line searches
-/
namespace SMT.LineSearch

/-! ## Specification -/

/-- The sufficient-decrease (Armijo) condition for the step `a` along `d` from `x`. -/
def Armijo {K : Type} [Field K] [LinearOrder K] {n : ℕ} (f : (Fin n → K) → K) (g : (Fin n → K) → Fin n → K)
    (x d : Fin n → K) (u1 a : K) : Prop :=
  f (x + a • d) ≤ f x + u1 * a * ∑ i, g x i * d i

/-- The strong curvature condition for the step `a` along `d` from `x`. -/
def Curvature {K : Type} [Field K] [LinearOrder K] {n : ℕ} (g : (Fin n → K) → Fin n → K)
    (x d : Fin n → K) (u2 a : K) : Prop :=
  |∑ i, g (x + a • d) i * d i| ≤ |u2 * ∑ i, g x i * d i|

section generic
variable {K : Type} [Field K] [LinearOrder K] [IsStrictOrderedRing K] {n : ℕ} (L : LS K n)

lemma at_eq (a : K) : L.at a = L.x + a • L.dx := by funext i; simp [LS.at]
lemma at_zero : L.at 0 = L.x := by funext i; simp [LS.at]

lemma funcDecreased_iff (a : K) : L.funcDecreased a ↔ Armijo L.func L.grad L.x L.dx L.u1 a := by
  unfold LS.funcDecreased Armijo LS.phi LS.dphi; rw [at_zero, at_eq]

lemma gradDecreased_iff (a : K) : L.gradDecreased a ↔ Curvature L.grad L.x L.dx L.u2 a := by
  unfold LS.gradDecreased Curvature LS.dphi; rw [at_zero, at_eq]

/-! ## C44 -/

lemma backtrack_spec (rho : K) : ∀ (fuel : ℕ) (a0 a : K), L.backtrack rho fuel a0 = some a →
    ∃ k, k < fuel ∧ a = a0 * rho ^ k ∧ L.funcDecreased a ∧ ∀ j < k, ¬ L.funcDecreased (a0 * rho ^ j)
  | 0, _, _, h => by simp [LS.backtrack] at h
  | fuel + 1, a0, a, h => by
    unfold LS.backtrack at h
    by_cases hd : L.funcDecreased a0
    · simp [hd] at h
      exact ⟨0, by omega, by simp [h], h ▸ hd, by simp⟩
    · simp [hd] at h
      obtain ⟨k, hk, h1, h2, h3⟩ := backtrack_spec rho fuel (a0 * rho) a h
      refine ⟨k + 1, by omega, by rw [h1]; ring, h2, fun j hj => ?_⟩
      cases j with
      | zero => simpa using hd
      | succ j =>
        have := h3 j (by omega)
        rwa [pow_succ', ← mul_assoc]

/-- **C44** If the backtracking search returns `y`, then `y = x + (initial_a * rho^k) dx` for a `k` whose step passes the Armijo test
while every earlier step `initial_a * rho^j` fails it. -/
theorem C44_returns_first_armijo_step (fuel : ℕ) (a0 rho : K) (y : Fin n → K) (h : L.backtracking fuel a0 rho = some y) :
    ∃ k, y = L.x + (a0 * rho ^ k) • L.dx ∧ Armijo L.func L.grad L.x L.dx L.u1 (a0 * rho ^ k) ∧
      ∀ j < k, ¬ Armijo L.func L.grad L.x L.dx L.u1 (a0 * rho ^ j) := by
  unfold LS.backtracking at h
  rw [Option.map_eq_some_iff] at h
  obtain ⟨a, ha, rfl⟩ := h
  obtain ⟨k, -, h1, h2, h3⟩ := backtrack_spec L rho fuel a0 a ha
  subst h1
  exact ⟨k, at_eq L _, (funcDecreased_iff L _).1 h2, fun j hj => fun hc => h3 j hj ((funcDecreased_iff L _).2 hc)⟩

/-- **C44** For a direction that is not an ascent direction, a returned point is never worse than the start; for a descent
direction and `u1 > 0` it is strictly better, by the Armijo amount. -/
theorem C44_never_increases (fuel : ℕ) (a0 rho : K) (ha0 : 0 < a0) (hr : 0 < rho) (hu : 0 ≤ L.u1)
    (hd : ∑ i, L.grad L.x i * L.dx i ≤ 0) (y : Fin n → K) (h : L.backtracking fuel a0 rho = some y) :
    L.func y ≤ L.func L.x ∧ (0 < L.u1 → ∑ i, L.grad L.x i * L.dx i < 0 → L.func y < L.func L.x) := by
  obtain ⟨k, rfl, h2, -⟩ := C44_returns_first_armijo_step L fuel a0 rho y h
  unfold Armijo at h2
  have hp : 0 < a0 * rho ^ k := by positivity
  refine ⟨?_, fun h1 h3 => ?_⟩
  · have := mul_nonpos_of_nonneg_of_nonpos (mul_nonneg hu hp.le) hd
    linarith
  · have := mul_neg_of_pos_of_neg (mul_pos h1 hp) h3
    linarith

/-- **C44** More allowance never changes the result: the answer is a function of the inputs, not of the fuel of the model. -/
theorem C44_fuel_irrelevant (rho : K) : ∀ (f1 f2 : ℕ) (a0 a b : K), L.backtrack rho f1 a0 = some a → L.backtrack rho f2 a0 = some b → a = b
  | 0, _, _, _, _, h, _ => by simp [LS.backtrack] at h
  | _ + 1, 0, _, _, _, _, h => by simp [LS.backtrack] at h
  | f1 + 1, f2 + 1, a0, a, b, h1, h2 => by
    unfold LS.backtrack at h1 h2
    by_cases hd : L.funcDecreased a0
    · simp [hd] at h1 h2; rw [← h1, ← h2]
    · simp [hd] at h1 h2; exact C44_fuel_irrelevant rho f1 f2 _ a b h1 h2

lemma backtrack_reaches (rho : K) : ∀ (k : ℕ) (a0 : K), L.funcDecreased (a0 * rho ^ k) → ∃ a, L.backtrack rho (k + 1) a0 = some a
  | 0, a0, h => by simp at h; simp [LS.backtrack, h]
  | k + 1, a0, h => by
    unfold LS.backtrack
    by_cases hd : L.funcDecreased a0
    · simp [hd]
    · simp only [hd, not_false_iff, if_true]
      apply backtrack_reaches rho k
      rwa [mul_assoc, ← pow_succ']

/-- The search does not come back when no step in the sequence passes. -/
lemma backtrack_none (rho : K) : ∀ (fuel : ℕ) (a0 : K), (∀ k, ¬ L.funcDecreased (a0 * rho ^ k)) → L.backtrack rho fuel a0 = none
  | 0, _, _ => rfl
  | fuel + 1, a0, h => by
    unfold LS.backtrack
    have h0 := h 0
    simp at h0
    simp only [h0, not_false_iff, if_true]
    apply backtrack_none rho fuel
    intro k
    have := h (k + 1)
    rwa [pow_succ', ← mul_assoc] at this

/-- **C44 (limit)** The search does not terminate on an ascent direction: `f(x) = x₀`, `dx = 1`, any `0 ≤ u1 < 1`, from any start. -/
theorem C44_ascent_diverges (x u1 u2 a0 rho : K) (hu : u1 < 1) (ha0 : 0 < a0) (hr : 0 < rho) (fuel : ℕ) :
    LS.backtracking (n := 1) ⟨fun _ => x, fun _ => 1, fun y => y 0, fun _ _ => 1, u1, u2⟩ fuel a0 rho = none := by
  unfold LS.backtracking
  rw [backtrack_none]; rfl
  intro k
  have hp : 0 < a0 * rho ^ k := by positivity
  simp [LS.funcDecreased, LS.phi, LS.dphi, LS.at]
  nlinarith

/-! ## C45, partial correctness -/

/-- `cm` returns a point with the true value and slope. -/
def Consistent (cm : Pt K → Pt K → Option (Pt K)) : Prop := ∀ s1 s2 s, cm s1 s2 = some s → s = L.eval s.a

theorem midpoint_consistent : Consistent L L.midpoint := by
  intro s1 s2 s h; unfold LS.midpoint at h; simp at h; subst h; rfl

theorem quadratic_consistent (solve) : Consistent L (L.quadratic solve) := by
  intro s1 s2 s h; unfold LS.quadratic at h
  rw [Option.map_eq_some_iff] at h
  obtain ⟨c, -, rfl⟩ := h; rfl

lemma cubicTry_fst (a1 a2 : K) (r : Option K) (st : Option (Pt K) × K) :
    L.cubicTry a1 a2 r st = st ∨ ∃ ρ, r = some ρ ∧ ((a1 ≤ ρ ∧ ρ ≤ a2) ∨ (a2 ≤ ρ ∧ ρ ≤ a1)) ∧ L.phi ρ < st.2 ∧
      L.cubicTry a1 a2 r st = (some (L.eval ρ), L.phi ρ) := by
  unfold LS.cubicTry
  cases r with
  | none => simp
  | some ρ =>
    dsimp only
    split
    · split
      · right; exact ⟨ρ, rfl, ‹_›, ‹_›, rfl⟩
      · left; rfl
    · left; rfl

/-- **C45** The point proposed by cubic interpolation lies in the current bracket, is strictly better than its worse end, is one of the two
roots, and has the smaller objective of the admissible roots. -/
theorem C45_cubic_in_bracket (solve) (roots) (s1 s2 s : Pt K) (h : L.cubic solve roots s1 s2 = some s) :
    s = L.eval s.a ∧ min s1.a s2.a ≤ s.a ∧ s.a ≤ max s1.a s2.a ∧ s.p < max s1.p s2.p ∧
    ∃ c r1 r2, solve !![1, s1.a, s1.a ^ 2, s1.a ^ 3; 1, s2.a, s2.a ^ 2, s2.a ^ 3; 0, 1, 2 * s1.a, 3 * s1.a ^ 2; 0, 1, 2 * s2.a, 3 * s2.a ^ 2]
      ![s1.p, s2.p, s1.dp, s2.dp] = some c ∧ roots (3 * c 3) (2 * c 2) (c 1) = some (r1, r2) ∧ (r1 = some s.a ∨ r2 = some s.a) ∧
      ∀ ρ, (r1 = some ρ ∨ r2 = some ρ) → min s1.a s2.a ≤ ρ → ρ ≤ max s1.a s2.a → s.p ≤ L.phi ρ := by
  unfold LS.cubic at h
  split at h
  · simp at h
  rename_i c hc
  split at h
  · simp at h
  rename_i r1 r2 hr
  have inb : ∀ ρ, ((s1.a ≤ ρ ∧ ρ ≤ s2.a) ∨ (s2.a ≤ ρ ∧ ρ ≤ s1.a)) ↔ (min s1.a s2.a ≤ ρ ∧ ρ ≤ max s1.a s2.a) := by
    intro ρ
    rcases le_total s1.a s2.a with h12 | h12
    · simp only [min_eq_left h12, max_eq_right h12]
      constructor
      · rintro (h | h)
        · exact h
        · exact ⟨h12.trans h.1, h.2.trans h12⟩
      · exact Or.inl
    · simp only [min_eq_right h12, max_eq_left h12]
      constructor
      · rintro (h | h)
        · exact ⟨h12.trans h.1, h.2.trans h12⟩
        · exact h
      · exact Or.inr
  -- what a try that leaves the state unchanged says about its root
  have keep : ∀ r st, L.cubicTry s1.a s2.a r st = st → ∀ ρ, r = some ρ → min s1.a s2.a ≤ ρ → ρ ≤ max s1.a s2.a → st.2 ≤ L.phi ρ := by
    intro r st hst ρ hρ h1 h2
    subst hρ
    by_contra hlt
    push Not at hlt
    unfold LS.cubicTry at hst
    simp only [(inb ρ).2 ⟨h1, h2⟩, if_true, hlt] at hst
    rw [← hst] at hlt
    exact lt_irrefl _ hlt
  set st1 := L.cubicTry s1.a s2.a r1 (none, max s1.p s2.p) with hst1
  rcases cubicTry_fst L s1.a s2.a r2 st1 with h2 | ⟨ρ, hρ, hin, hlt, h2⟩
  · rw [h2] at h
    rcases cubicTry_fst L s1.a s2.a r1 (none, max s1.p s2.p) with h1 | ⟨ρ, hρ, hin, hlt, h1⟩
    · rw [hst1, h1] at h; simp at h
    · rw [hst1, h1] at h
      simp at h; subst h
      obtain ⟨i1, i2⟩ := (inb ρ).1 hin
      refine ⟨rfl, i1, i2, hlt, c, r1, r2, hc, hr, Or.inl hρ, ?_⟩
      rintro σ (hσ | hσ) j1 j2
      · rw [hρ] at hσ; cases hσ; exact le_rfl
      · have := keep r2 st1 h2 σ hσ j1 j2
        rw [hst1, h1] at this
        exact this
  · rw [h2] at h
    simp at h; subst h
    obtain ⟨i1, i2⟩ := (inb ρ).1 hin
    have hle : st1.2 ≤ max s1.p s2.p := by
      rcases cubicTry_fst L s1.a s2.a r1 (none, max s1.p s2.p) with h1 | ⟨σ, -, -, hlt', h1⟩
      · rw [hst1, h1]
      · rw [hst1, h1]; exact hlt'.le
    refine ⟨rfl, i1, i2, lt_of_lt_of_le hlt hle, c, r1, r2, hc, hr, Or.inr hρ, ?_⟩
    rintro σ (hσ | hσ) j1 j2
    · rcases cubicTry_fst L s1.a s2.a r1 (none, max s1.p s2.p) with h1 | ⟨τ, hτ, -, -, h1⟩
      · have := keep r1 _ h1 σ hσ j1 j2
        exact (lt_of_lt_of_le hlt hle).le.trans this
      · rw [hτ] at hσ; cases hσ
        rw [hst1, h1] at hlt; exact hlt.le
    · rw [hρ] at hσ; cases hσ; exact le_rfl

theorem cubic_consistent (solve) (roots) : Consistent L (L.cubic solve roots) :=
  fun s1 s2 s h => (C45_cubic_in_bracket L solve roots s1 s2 s h).1

/-- **C45 (limit)** The cubic search raises whenever no real root in the bracket improves on the worse end. -/
theorem C45_cubic_raises (solve) (roots) (s1 s2 : Pt K) (c r1 r2)
    (hc : solve !![1, s1.a, s1.a ^ 2, s1.a ^ 3; 1, s2.a, s2.a ^ 2, s2.a ^ 3; 0, 1, 2 * s1.a, 3 * s1.a ^ 2; 0, 1, 2 * s2.a, 3 * s2.a ^ 2]
      ![s1.p, s2.p, s1.dp, s2.dp] = some c) (hr : roots (3 * c 3) (2 * c 2) (c 1) = some (r1, r2))
    (hno : ∀ ρ, (r1 = some ρ ∨ r2 = some ρ) → min s1.a s2.a ≤ ρ → ρ ≤ max s1.a s2.a → max s1.p s2.p ≤ L.phi ρ) :
    L.cubic solve roots s1 s2 = none := by
  by_contra hne
  obtain ⟨s, hs⟩ := Option.ne_none_iff_exists'.1 hne
  obtain ⟨h1, h2, h3, h4, c', r1', r2', hc', hr', hroot, -⟩ := C45_cubic_in_bracket L solve roots s1 s2 s hs
  rw [hc] at hc'; cases hc'
  rw [hr] at hr'; cases hr'
  have := hno s.a hroot h2 h3
  rw [h1] at h4
  exact absurd this (not_le.2 h4)

lemma zoom_step (cm) : ∀ (fuel : ℕ) (s1 s2 : Pt K) (a : K), L.zoom cm fuel s1 s2 = .step a → L.funcDecreased a ∧ L.gradDecreased a
  | 0, _, _, _, h => by simp [LS.zoom] at h
  | fuel + 1, s1, s2, a, h => by
    unfold LS.zoom at h
    split at h
    · simp at h
    rename_i s hs
    split at h
    · exact zoom_step cm fuel _ _ a h
    rename_i h1
    push Not at h1
    split at h
    · simp at h; subst h; exact ⟨h1.1, ‹_›⟩
    · split at h
      · exact zoom_step cm fuel _ _ a h
      · exact zoom_step cm fuel _ _ a h

lemma zoom_ne_nothing (cm) : ∀ (fuel : ℕ) (s1 s2 : Pt K), L.zoom cm fuel s1 s2 ≠ .nothing
  | 0, _, _ => by simp [LS.zoom]
  | fuel + 1, s1, s2 => by
    unfold LS.zoom
    split
    · simp
    split
    · exact zoom_ne_nothing cm fuel _ _
    split
    · simp
    · split
      · exact zoom_ne_nothing cm fuel _ _
      · exact zoom_ne_nothing cm fuel _ _

lemma bracket_step (cm) (fuel : ℕ) : ∀ (it : ℕ) (s1 s2 : Pt K) (a : K), L.bracket cm fuel it s1 s2 = .step a →
    L.funcDecreased a ∧ L.gradDecreased a
  | 0, _, _, _, h => by simp [LS.bracket] at h
  | it + 1, s1, s2, a, h => by
    unfold LS.bracket at h
    split at h
    · exact zoom_step L cm fuel _ _ a h
    rename_i h1
    push Not at h1
    split at h
    · simp at h; subst h; exact ⟨h1.1, ‹_›⟩
    · split at h
      · exact zoom_step L cm fuel _ _ a h
      · exact bracket_step cm fuel it _ _ a h

/-- **C45** Whatever the interpolation rule proposes, a step returned by the bracketed searches satisfies both strong Wolfe conditions. -/
theorem C45_returned_step_is_wolfe (cm) (fuel : ℕ) (a0 a : K) (h : L.bracketed cm fuel a0 = .step a) :
    Armijo L.func L.grad L.x L.dx L.u1 a ∧ Curvature L.grad L.x L.dx L.u2 a := by
  have := bracket_step L cm fuel 20 _ _ a h
  exact ⟨(funcDecreased_iff L a).1 this.1, (gradDecreased_iff L a).1 this.2⟩

lemma bracket_nothing (cm) (fuel : ℕ) : ∀ (it : ℕ) (b a : K), L.bracket cm fuel it (L.eval b) (L.eval a) = .nothing →
    ∀ j < it, L.funcDecreased (a * (3 / 2) ^ j) ∧ ¬ L.gradDecreased (a * (3 / 2) ^ j) ∧ L.dphi (a * (3 / 2) ^ j) < 0 ∧
      L.phi (a * (3 / 2) ^ j) ≤ L.phi (if j = 0 then b else a * (3 / 2) ^ (j - 1))
  | 0, _, _, _ => by simp
  | it + 1, b, a, h => by
    unfold LS.bracket at h
    split at h
    · exact absurd h (zoom_ne_nothing L cm fuel _ _)
    rename_i h1
    push Not at h1
    split at h
    · simp at h
    rename_i h2
    split at h
    · exact absurd h (zoom_ne_nothing L cm fuel _ _)
    rename_i h3
    push Not at h3
    have ih := bracket_nothing cm fuel it a (a * (3 / 2)) h
    intro j hj
    cases j with
    | zero => simpa [LS.eval] using ⟨h1.1, h2, h3, h1.2⟩
    | succ j =>
      have := ih j (by omega)
      have e : a * (3 / 2) ^ (j + 1) = a * (3 / 2) * (3 / 2) ^ j := by ring
      rw [e]
      refine ⟨this.1, this.2.1, this.2.2.1, this.2.2.2.trans (le_of_eq ?_)⟩
      cases j with
      | zero => simp
      | succ j => simp [pow_succ']; congr 1; ring

/-- **C45** The search gives up (returns `None`) only when all 20 trial steps `a0 (3/2)^j` passed the Armijo test, kept decreasing the objective,
and still had a steep negative slope. -/
theorem C45_gives_up_only_when (cm) (fuel : ℕ) (a0 : K) (h : L.bracketed cm fuel a0 = .nothing) (j : ℕ) (hj : j < 20) :
    Armijo L.func L.grad L.x L.dx L.u1 (a0 * (3 / 2) ^ j) ∧ ¬ Curvature L.grad L.x L.dx L.u2 (a0 * (3 / 2) ^ j) ∧
    ∑ i, L.grad (L.x + (a0 * (3 / 2) ^ j) • L.dx) i * L.dx i < 0 ∧
    L.func (L.x + (a0 * (3 / 2) ^ j) • L.dx) ≤ (if j = 0 then L.func L.x else L.func (L.x + (a0 * (3 / 2) ^ (j - 1)) • L.dx)) := by
  have := bracket_nothing L cm fuel 20 0 a0 h j hj
  refine ⟨(funcDecreased_iff L _).1 this.1, fun hc => this.2.1 ((gradDecreased_iff L _).2 hc), ?_, ?_⟩
  · have h2 := this.2.2.1; unfold LS.dphi at h2; rwa [at_eq] at h2
  · have h2 := this.2.2.2
    unfold LS.phi at h2
    rw [at_eq] at h2
    split
    · rename_i hj0; subst hj0; simpa [at_zero] using h2
    · rename_i hj0; simpa [hj0, at_eq] using h2

/-- **C45 (limit)** It does give up on a strictly decreasing linear objective (no Wolfe step exists): the caller receives `None`. -/
theorem C45_gives_up_on_linear (cm) (fuel : ℕ) (x u1 u2 a0 : K) (ha0 : 0 < a0) (hu1 : u1 < 1) (hu2 : 0 ≤ u2) (hu : u2 < 1) :
    LS.bracketed (n := 1) ⟨fun _ => x, fun _ => 1, fun y => -y 0, fun _ _ => -1, u1, u2⟩ cm fuel a0 = .nothing := by
  set L : LS K 1 := ⟨fun _ => x, fun _ => 1, fun y => -y 0, fun _ _ => -1, u1, u2⟩ with hL
  have hp : ∀ a, L.phi a = -(x + a) := by intro a; simp [hL, LS.phi, LS.at]
  have hd : ∀ a, L.dphi a = -1 := by intro a; simp [hL, LS.dphi]
  have hg : ∀ a, ¬ L.gradDecreased a := by
    intro a; unfold LS.gradDecreased; rw [hd, hd]; simp [hL, abs_of_nonneg hu2]; exact hu
  have hf : ∀ a, 0 < a → L.funcDecreased a := by
    intro a ha; unfold LS.funcDecreased; rw [hp, hp, hd]; simp only [hL]; nlinarith
  have key : ∀ it b a, 0 < a → b ≤ a → L.bracket cm fuel it (L.eval b) (L.eval a) = .nothing := by
    intro it
    induction it with
    | zero => intros; rfl
    | succ it ih =>
      intro b a ha hba
      unfold LS.bracket
      have h1 : ¬ (¬ L.funcDecreased (L.eval a).a ∨ (L.eval a).p > (L.eval b).p) := by
        push Not
        refine ⟨hf a ha, ?_⟩
        simp only [LS.eval, hp]; linarith
      rw [if_neg h1, if_neg (hg _), if_neg (by simp [LS.eval, hd])]
      exact ih a _ (by simp only [LS.eval]; linarith) (by simp only [LS.eval]; linarith)
  exact key 20 0 a0 ha0 ha0.le

end generic

/-! ## Exact solves for the interpolation systems -/

/-- `np.linalg.solve` in exact arithmetic: it returns a solution, and does return one for a non-singular matrix. -/
def IsSolve {K : Type} [Field K] {m : ℕ} (solve : Matrix (Fin m) (Fin m) K → (Fin m → K) → Option (Fin m → K)) : Prop :=
  ∀ A b, (∀ c, solve A b = some c → A.mulVec c = b) ∧ (A.det ≠ 0 → ∃ c, solve A b = some c)

/-- Such a solver exists. -/
theorem isSolve_exists {K : Type} [Field K] [DecidableEq K] (m : ℕ) : ∃ solve, IsSolve (K := K) (m := m) solve := by
  refine ⟨fun A b => if A.det ≠ 0 then some (A⁻¹.mulVec b) else none, fun A b => ⟨fun c hc => ?_, fun hd => ?_⟩⟩
  · dsimp only at hc
    split at hc
    · rename_i hd
      simp at hc; subst hc
      rw [Matrix.mulVec_mulVec, Matrix.mul_nonsing_inv _ (isUnit_iff_ne_zero.2 hd), Matrix.one_mulVec]
    · simp at hc
  · exact ⟨_, if_pos hd⟩

section quad
variable {K : Type} [Field K] [LinearOrder K] [IsStrictOrderedRing K] {n : ℕ} (L : LS K n)

/-- **C45** The point proposed by quadratic interpolation is the stationary point of the parabola through the two values and the slope at the
first end: with `h = a2 - a1`, `a = a1 + h * (-dp1 h) / (2 (p2 - p1 - dp1 h))`. -/
theorem C45_quadratic_minimiser (solve) (hs : IsSolve solve) (s1 s2 : Pt K) (hne : s1.a ≠ s2.a)
    (hcurv : s2.p - s1.p - s1.dp * (s2.a - s1.a) ≠ 0) :
    L.quadratic solve s1 s2 = some (L.eval (s1.a + (s2.a - s1.a) *
      ((-(s1.dp * (s2.a - s1.a))) / (2 * (s2.p - s1.p - s1.dp * (s2.a - s1.a)))))) := by
  have hh : s2.a - s1.a ≠ 0 := sub_ne_zero.2 (Ne.symm hne)
  set A : Matrix (Fin 3) (Fin 3) K := !![1, s1.a, s1.a ^ 2; 1, s2.a, s2.a ^ 2; 0, 1, 2 * s1.a] with hA
  have hdet : A.det = -(s2.a - s1.a) ^ 2 := by
    rw [hA, Matrix.det_fin_three]; simp; ring
  have hdet' : A.det ≠ 0 := by rw [hdet]; exact neg_ne_zero.2 (pow_ne_zero _ hh)
  obtain ⟨c, hc⟩ := (hs A ![s1.p, s2.p, s1.dp]).2 hdet'
  have hsol := (hs A ![s1.p, s2.p, s1.dp]).1 c hc
  have e0 := congrFun hsol 0
  have e1 := congrFun hsol 1
  have e2 := congrFun hsol 2
  simp [hA, Matrix.mulVec, dotProduct, Fin.sum_univ_three] at e0 e1 e2
  unfold LS.quadratic
  rw [← hA, hc]
  simp only [Option.map_some]
  congr 2
  have k1 : c 2 * (s2.a - s1.a) ^ 2 = s2.p - s1.p - s1.dp * (s2.a - s1.a) := by
    rw [← e0, ← e1, ← e2]; ring
  have k2 : c 2 ≠ 0 := by
    intro h0; rw [h0] at k1; simp at k1; exact hcurv k1.symm
  have k3 : c 1 = s1.dp - 2 * s1.a * c 2 := by rw [← e2]; ring
  rw [← k1, k3]
  field_simp
  ring

end quad

/-! ## Termination over the reals -/
section real
variable {n : ℕ} (L : LS ℝ n)

/-- **C44** Backtracking terminates for every objective differentiable along the direction at the start, every descent direction,
`u1 < 1`, `0 < rho < 1` and positive first step. -/
theorem C44_terminates (hder : HasDerivAt (fun a : ℝ => L.func (L.x + a • L.dx)) (∑ i, L.grad L.x i * L.dx i) 0)
    (hdesc : ∑ i, L.grad L.x i * L.dx i < 0) (hu : L.u1 < 1) (a0 rho : ℝ) (ha0 : 0 < a0) (hr0 : 0 < rho) (hr1 : rho < 1) :
    ∃ fuel y, L.backtracking fuel a0 rho = some y := by
  set D := ∑ i, L.grad L.x i * L.dx i with hD
  have hlo := hasDerivAt_iff_tendsto_slope_zero.1 hder
  have hev : ∀ᶠ t in nhdsWithin (0:ℝ) {0}ᶜ, t⁻¹ • (L.func (L.x + (0 + t) • L.dx) - L.func (L.x + (0:ℝ) • L.dx)) < L.u1 * D := by
    apply hlo.eventually_lt_const
    nlinarith
  have hseq : Filter.Tendsto (fun k : ℕ => a0 * rho ^ k) Filter.atTop (nhdsWithin 0 {0}ᶜ) := by
    apply tendsto_nhdsWithin_iff.2
    refine ⟨?_, Filter.Eventually.of_forall fun k => ?_⟩
    · have := (tendsto_pow_atTop_nhds_zero_of_lt_one hr0.le hr1).const_mul a0
      simpa using this
    · have : 0 < a0 * rho ^ k := by positivity
      simpa using this.ne'
  obtain ⟨k, hk⟩ := (hseq.eventually hev).exists
  have hp : 0 < a0 * rho ^ k := by positivity
  have harm : L.funcDecreased (a0 * rho ^ k) := by
    rw [funcDecreased_iff]
    unfold Armijo
    simp only [zero_add, zero_smul, add_zero, smul_eq_mul] at hk
    rw [inv_mul_lt_iff₀ hp] at hk
    rw [← hD]
    nlinarith
  obtain ⟨a, ha⟩ := backtrack_reaches L rho k a0 harm
  exact ⟨k + 1, L.at a, by simp [LS.backtracking, ha]⟩

/-- The state of the zoom phase: `l` is the best Armijo point so far and is too steep, the objective goes down from `l` towards `h`, and
`h` fails Armijo or is no better than `l`. -/
structure Inv (B l h : ℝ) : Prop where
  l0 : 0 ≤ l
  lB : l ≤ B
  h0 : 0 ≤ h
  hB : h ≤ B
  arm : L.funcDecreased l
  steep : ¬ L.gradDecreased l
  down : L.dphi l * (h - l) < 0
  high : ¬ L.funcDecreased h ∨ L.phi l ≤ L.phi h

variable (hφ : ∀ a, HasDerivAt L.phi (L.dphi a) a) (hcont : Continuous L.dphi) (hneg : L.dphi 0 < 0)
  (hu1 : 0 < L.u1) (hu12 : L.u1 < L.u2) (hu2 : L.u2 < 1)
include hφ hcont hneg hu1 hu12 hu2

omit hφ hcont in
lemma Inv.steep' {B l h : ℝ} (I : Inv L B l h) : L.u2 * |L.dphi 0| < |L.dphi l| := by
  have := I.steep
  unfold LS.gradDecreased at this
  push Not at this
  rwa [abs_mul, abs_of_pos (hu1.trans hu12)] at this

omit hcont hneg hu1 hu12 hu2 in
lemma Inv.mvt {B l h : ℝ} (I : Inv L B l h) : ∃ ξ, 0 ≤ ξ ∧ ξ ≤ B ∧ |ξ - l| ≤ |h - l| ∧ L.phi h - L.phi l = L.dphi ξ * (h - l) := by
  have hne : h ≠ l := by
    intro he; have := I.down; rw [he] at this; simp at this
  rcases lt_or_gt_of_ne hne with hlt | hlt
  · obtain ⟨ξ, hξ, he⟩ := exists_hasDerivAt_eq_slope L.phi L.dphi hlt (fun x _ => (hφ x).continuousAt.continuousWithinAt) (fun x _ => hφ x)
    refine ⟨ξ, I.h0.trans hξ.1.le, hξ.2.le.trans I.lB, ?_, ?_⟩
    · rw [abs_of_neg (by linarith [hξ.2]), abs_of_neg (by linarith)]; linarith [hξ.1]
    · have : l - h ≠ 0 := sub_ne_zero.2 (Ne.symm hne)
      field_simp at he
      linarith
  · obtain ⟨ξ, hξ, he⟩ := exists_hasDerivAt_eq_slope L.phi L.dphi hlt (fun x _ => (hφ x).continuousAt.continuousWithinAt) (fun x _ => hφ x)
    refine ⟨ξ, I.l0.trans hξ.1.le, hξ.2.le.trans I.hB, ?_, ?_⟩
    · rw [abs_of_pos (by linarith [hξ.1]), abs_of_pos (by linarith)]; linarith [hξ.2]
    · have : h - l ≠ 0 := sub_ne_zero.2 hne
      field_simp at he
      linarith

omit hcont in
/-- In any bracket the slope varies by at least `(u2-u1)|φ'(0)|`. -/
lemma Inv.slope_gap {B l h : ℝ} (I : Inv L B l h) :
    ∃ ξ, 0 ≤ ξ ∧ ξ ≤ B ∧ |ξ - l| ≤ |h - l| ∧ (L.u2 - L.u1) * |L.dphi 0| < |L.dphi ξ - L.dphi l| := by
  have hst := I.steep' L hneg hu1 hu12 hu2
  have hne : h ≠ l := by
    intro he; have := I.down; rw [he] at this; simp at this
  have habs0 : |L.dphi 0| = -L.dphi 0 := abs_of_neg hneg
  have hmvt := I.mvt L hφ
  obtain ⟨ξ, h1, h2, h3, h4⟩ := hmvt
  refine ⟨ξ, h1, h2, h3, ?_⟩
  have hD : 0 < |L.dphi 0| := abs_pos.2 hneg.ne
  by_cases hge : L.phi l ≤ L.phi h
  · -- the slope changes sign
    have h5 : 0 ≤ L.dphi ξ * (h - l) := by rw [← h4]; linarith
    have h6 := I.down
    have h7 : |L.dphi l| ≤ |L.dphi ξ - L.dphi l| := by
      rcases lt_or_gt_of_ne hne with hlt | hlt
      · have : L.dphi ξ ≤ 0 := by by_contra hc; push Not at hc; nlinarith
        have : 0 < L.dphi l := by by_contra hc; push Not at hc; nlinarith
        rw [abs_of_pos this, abs_of_nonpos (by linarith)]; linarith
      · have : 0 ≤ L.dphi ξ := by by_contra hc; push Not at hc; nlinarith
        have : L.dphi l < 0 := by by_contra hc; push Not at hc; nlinarith
        rw [abs_of_neg this, abs_of_nonneg (by linarith)]; linarith
    nlinarith
  · have hna : ¬ L.funcDecreased h := by
      rcases I.high with h | h
      · exact h
      · exact absurd h hge
    push Not at hge
    have ha := I.arm
    unfold LS.funcDecreased at ha hna
    push Not at hna
    have hlt : l < h := by
      by_contra hc
      push Not at hc
      have : L.u1 * l * L.dphi 0 ≤ L.u1 * h * L.dphi 0 := by
        have : 0 ≤ L.u1 * (l - h) * (-L.dphi 0) := mul_nonneg (mul_nonneg hu1.le (by linarith)) (by linarith)
        nlinarith
      linarith
    have h6 : L.dphi l < 0 := by have := I.down; by_contra hc; push Not at hc; nlinarith
    have h7 : L.u1 * L.dphi 0 < L.dphi ξ := by
      have : L.u1 * L.dphi 0 * (h - l) < L.dphi ξ * (h - l) := by rw [← h4]; nlinarith
      exact lt_of_mul_lt_mul_right this (by linarith)
    rw [abs_of_neg h6] at hst
    rw [habs0] at hst ⊢
    rw [abs_of_pos (by nlinarith)]
    nlinarith

/-- Brackets that meet the invariant are never shorter than some `δ > 0`. -/
lemma width_bound (B : ℝ) : ∃ δ > 0, ∀ l h, Inv L B l h → δ ≤ |h - l| := by
  have huc : UniformContinuousOn L.dphi (Set.Icc 0 B) := isCompact_Icc.uniformContinuousOn_of_continuous hcont.continuousOn
  rw [Metric.uniformContinuousOn_iff] at huc
  have hpos : 0 < (L.u2 - L.u1) * |L.dphi 0| := mul_pos (by linarith) (abs_pos.2 hneg.ne)
  obtain ⟨δ, hδ, hδ'⟩ := huc _ hpos
  refine ⟨δ, hδ, fun l h I => ?_⟩
  by_contra hc
  push Not at hc
  obtain ⟨ξ, h1, h2, h3, h4⟩ := I.slope_gap L hφ hneg hu1 hu12 hu2
  have := hδ' ξ ⟨h1, h2⟩ l ⟨I.l0, I.lB⟩ (by rw [Real.dist_eq]; linarith)
  rw [Real.dist_eq] at this
  linarith

omit hφ hcont hneg hu1 hu12 hu2 in
/-- How the invariant is preserved by a point strictly inside. -/
lemma Inv.next {B l h m r : ℝ} (hu2n : 0 ≤ L.u2) (I : Inv L B l h) (hr0 : 0 < r) (hr1 : r < 1) (hm : m = l + r * (h - l)) :
    ((¬ L.funcDecreased m ∨ L.phi m > L.phi l) → Inv L B l m) ∧
    (¬ (¬ L.funcDecreased m ∨ L.phi m > L.phi l) → ¬ L.gradDecreased m → L.dphi m * (h - l) ≥ 0 → Inv L B m l) ∧
    (¬ (¬ L.funcDecreased m ∨ L.phi m > L.phi l) → ¬ L.gradDecreased m → ¬ L.dphi m * (h - l) ≥ 0 → Inv L B m h) := by
  have m0 : 0 ≤ m := by
    have : m = (1 - r) * l + r * h := by rw [hm]; ring
    rw [this]; exact add_nonneg (mul_nonneg (by linarith) I.l0) (mul_nonneg hr0.le I.h0)
  have mB : m ≤ B := by
    have : m = (1 - r) * l + r * h := by rw [hm]; ring
    rw [this]; nlinarith [I.lB, I.hB]
  have hne : h - l ≠ 0 := by
    intro he; have := I.down; rw [he] at this; simp at this
  refine ⟨fun hc => ⟨I.l0, I.lB, m0, mB, I.arm, I.steep, ?_, ?_⟩, fun hc hg hs => ?_, fun hc hg hs => ?_⟩
  · have : L.dphi l * (m - l) = r * (L.dphi l * (h - l)) := by rw [hm]; ring
    rw [this]; exact mul_neg_of_pos_of_neg hr0 I.down
  · rcases hc with hc | hc
    · exact Or.inl hc
    · exact Or.inr hc.le
  · push Not at hc
    have hdm : L.dphi m ≠ 0 := by
      intro h0; apply hg; unfold LS.gradDecreased; rw [h0, abs_zero]; exact abs_nonneg _
    refine ⟨m0, mB, I.l0, I.lB, hc.1, hg, ?_, Or.inr hc.2⟩
    have : L.dphi m * (l - m) = -(r * (L.dphi m * (h - l))) := by rw [hm]; ring
    rw [this]
    have : 0 < L.dphi m * (h - l) := lt_of_le_of_ne hs (Ne.symm (mul_ne_zero hdm hne))
    have := mul_pos hr0 this
    linarith
  · push Not at hc hs
    refine ⟨m0, mB, I.h0, I.hB, hc.1, hg, ?_, ?_⟩
    · have : L.dphi m * (h - m) = (1 - r) * (L.dphi m * (h - l)) := by rw [hm]; ring
      rw [this]; exact mul_neg_of_pos_of_neg (by linarith) hs
    · rcases I.high with hh | hh
      · exact Or.inl hh
      · exact Or.inr (hc.2.trans hh)

/-- The zoom phase terminates for a rule that proposes points at relative positions in `[c, 1-c]`. -/
lemma zoom_terminates (B c : ℝ) (hc0 : 0 < c) (cm : Pt ℝ → Pt ℝ → Option (Pt ℝ))
    (hcm : ∀ l h, Inv L B l h → ∃ r, c ≤ r ∧ r ≤ 1 - c ∧ cm (L.eval l) (L.eval h) = some (L.eval (l + r * (h - l)))) (δ : ℝ)
    (hδ : ∀ l h, Inv L B l h → δ ≤ |h - l|) :
    ∀ (N : ℕ) (l h : ℝ), Inv L B l h → |h - l| * (1 - c) ^ N < δ → ∀ fuel, N ≤ fuel →
      ∃ a, L.zoom cm fuel (L.eval l) (L.eval h) = .step a := by
  intro N
  induction N with
  | zero => intro l h I hw; simp at hw; exact absurd (hδ l h I) (not_le.2 hw)
  | succ N ih =>
    intro l h I hw fuel hf
    obtain ⟨fuel, rfl⟩ : ∃ f, fuel = f + 1 := ⟨fuel - 1, by omega⟩
    obtain ⟨r, hr0, hr1, he⟩ := hcm l h I
    unfold LS.zoom
    rw [he]
    set m := l + r * (h - l) with hm
    obtain ⟨n1, n2, n3⟩ := I.next L (hu1.trans hu12).le (by linarith : 0 < r) (by linarith) hm
    have hc1 : 0 ≤ 1 - c := by linarith
    have wid : ∀ w : ℝ, w ≤ |h - l| * (1 - c) → w * (1 - c) ^ N < δ := by
      intro w hw'
      refine lt_of_le_of_lt ?_ hw
      rw [pow_succ']
      rw [← mul_assoc]
      exact mul_le_mul_of_nonneg_right hw' (by positivity)
    have w1 : |m - l| ≤ |h - l| * (1 - c) := by
      have : m - l = (h - l) * r := by rw [hm]; ring
      rw [this, abs_mul, abs_of_pos (by linarith : 0 < r)]
      exact mul_le_mul_of_nonneg_left (by linarith) (abs_nonneg _)
    have w2 : |h - m| ≤ |h - l| * (1 - c) := by
      have : h - m = (h - l) * (1 - r) := by rw [hm]; ring
      rw [this, abs_mul, abs_of_nonneg (by linarith : 0 ≤ 1 - r)]
      exact mul_le_mul_of_nonneg_left (by linarith) (abs_nonneg _)
    have e1 : (L.eval m).a = m := rfl
    have e2 : (L.eval m).p = L.phi m := rfl
    have e3 : (L.eval m).dp = L.dphi m := rfl
    have e4 : (L.eval l).p = L.phi l := rfl
    have e5 : (L.eval h).a - (L.eval l).a = h - l := rfl
    simp only [e1, e2, e3, e4, e5]
    by_cases h1 : ¬ L.funcDecreased m ∨ L.phi m > L.phi l
    · rw [if_pos h1]
      exact ih l m (n1 h1) (wid _ w1) fuel (by omega)
    rw [if_neg h1]
    by_cases h2 : L.gradDecreased m
    · rw [if_pos h2]; exact ⟨_, rfl⟩
    rw [if_neg h2]
    by_cases h3 : L.dphi m * (h - l) ≥ 0
    · rw [if_pos h3]
      exact ih m l (n2 h1 h2 h3) (wid _ (by rw [abs_sub_comm]; exact w1)) fuel (by omega)
    · rw [if_neg h3]
      exact ih m h (n3 h1 h2 h3) (wid _ w2) fuel (by omega)

/-- The expansion loop hands over to the zoom phase with the invariant. -/
lemma bracket_cases (B : ℝ) (cm : Pt ℝ → Pt ℝ → Option (Pt ℝ)) (fuel : ℕ)
    (hz : ∀ l h, Inv L B l h → ∃ a, L.zoom cm fuel (L.eval l) (L.eval h) = .step a) :
    ∀ (it : ℕ) (b a : ℝ), 0 ≤ b → b < a → a * (3 / 2) ^ it ≤ B → L.funcDecreased b → ¬ L.gradDecreased b → L.dphi b < 0 →
      L.bracket cm fuel it (L.eval b) (L.eval a) = .nothing ∨ ∃ s, L.bracket cm fuel it (L.eval b) (L.eval a) = .step s := by
  intro it
  induction it with
  | zero => intros; left; rfl
  | succ it ih =>
    intro b a hb hba haB harm hst hd
    have hap : 0 < a := lt_of_le_of_lt hb hba
    have haB' : a ≤ B := by
      refine le_trans ?_ haB
      have : (1:ℝ) ≤ (3 / 2) ^ (it + 1) := one_le_pow₀ (by norm_num)
      nlinarith
    unfold LS.bracket
    have e1 : (L.eval a).a = a := rfl
    have e2 : (L.eval a).p = L.phi a := rfl
    have e3 : (L.eval a).dp = L.dphi a := rfl
    have e4 : (L.eval b).p = L.phi b := rfl
    simp only [e1, e2, e3, e4]
    by_cases h1 : ¬ L.funcDecreased a ∨ L.phi a > L.phi b
    · rw [if_pos h1]
      right
      refine hz b a ⟨hb, hba.le.trans haB', hap.le, haB', harm, hst, mul_neg_of_neg_of_pos hd (by linarith), ?_⟩
      rcases h1 with h1 | h1
      · exact Or.inl h1
      · exact Or.inr h1.le
    rw [if_neg h1]
    push Not at h1
    by_cases h2 : L.gradDecreased a
    · rw [if_pos h2]; right; exact ⟨_, rfl⟩
    rw [if_neg h2]
    by_cases h3 : L.dphi a ≥ 0
    · rw [if_pos h3]
      right
      have hda : L.dphi a ≠ 0 := by
        intro h0; apply h2; unfold LS.gradDecreased; rw [h0, abs_zero]; exact abs_nonneg _
      have h3' : 0 < L.dphi a := lt_of_le_of_ne h3 (Ne.symm hda)
      exact hz a b ⟨hap.le, haB', hb, hba.le.trans haB', h1.1, h2, mul_neg_of_pos_of_neg h3' (by linarith), Or.inr h1.2⟩
    · rw [if_neg h3]
      push Not at h3
      exact ih a (a * (3 / 2)) hap.le (by linarith) (by rw [mul_assoc, ← pow_succ']; exact haB) h1.1 h2 h3

lemma bracketed_terminates (a0 c : ℝ) (ha0 : 0 < a0) (hc0 : 0 < c) (hc1 : c < 1) (cm : Pt ℝ → Pt ℝ → Option (Pt ℝ))
    (hcm : ∀ l h, Inv L (a0 * (3 / 2) ^ 20) l h → ∃ r, c ≤ r ∧ r ≤ 1 - c ∧ cm (L.eval l) (L.eval h) = some (L.eval (l + r * (h - l)))) :
    ∃ N, ∀ fuel ≥ N, L.bracketed cm fuel a0 = .nothing ∨ ∃ a, L.bracketed cm fuel a0 = .step a := by
  set B := a0 * (3 / 2 : ℝ) ^ 20 with hB
  have hBp : 0 < B := by positivity
  obtain ⟨δ, hδ, hw⟩ := width_bound L hφ hcont hneg hu1 hu12 hu2 B
  obtain ⟨N, hN⟩ := exists_pow_lt_of_lt_one (div_pos hδ hBp) (by linarith : 1 - c < 1)
  refine ⟨N, fun fuel hf => ?_⟩
  refine bracket_cases L hφ hcont hneg hu1 hu12 hu2 B cm fuel (fun l h I => ?_) 20 0 a0 le_rfl ha0 le_rfl ?_ ?_ hneg
  · refine zoom_terminates L hφ hcont hneg hu1 hu12 hu2 B c hc0 cm hcm δ hw N l h I ?_ fuel hf
    rw [lt_div_iff₀ hBp] at hN
    refine lt_of_le_of_lt ?_ hN
    rw [mul_comm]
    apply mul_le_mul_of_nonneg_left _ (pow_nonneg (by linarith) _)
    rw [abs_le]; constructor <;> linarith [I.l0, I.lB, I.h0, I.hB]
  · unfold LS.funcDecreased; simp
  · unfold LS.gradDecreased
    rw [abs_mul, abs_of_pos (hu1.trans hu12)]
    push Not
    have := abs_pos.2 hneg.ne
    nlinarith

omit hφ hcont hneg hu1 hu12 hu2 in
lemma phi_fun : L.phi = fun a => L.func (L.x + a • L.dx) := by funext a; unfold LS.phi; rw [at_eq]

omit hφ hcont hneg hu1 hu12 hu2 in
lemma dphi_fun : L.dphi = fun a => ∑ i, L.grad (L.x + a • L.dx) i * L.dx i := by funext a; unfold LS.dphi; rw [at_eq]

omit hφ hcont hneg hu1 hu12 hu2 in
/-- **C45** The bisecting ("bracketed") search terminates, with a step or after its 20 expansions, for every objective that is continuously
differentiable along the direction, every descent direction, `0 < u1 < u2 < 1` and positive first step. -/
theorem C45_bisection_terminates
    (hφ : ∀ a : ℝ, HasDerivAt (fun a => L.func (L.x + a • L.dx)) (∑ i, L.grad (L.x + a • L.dx) i * L.dx i) a)
    (hcont : Continuous fun a : ℝ => ∑ i, L.grad (L.x + a • L.dx) i * L.dx i)
    (hneg : ∑ i, L.grad L.x i * L.dx i < 0) (hu1 : 0 < L.u1) (hu12 : L.u1 < L.u2) (hu2 : L.u2 < 1) (a0 : ℝ) (ha0 : 0 < a0) :
    ∃ N, ∀ fuel ≥ N, L.bracketed L.midpoint fuel a0 = .nothing ∨ ∃ a, L.bracketed L.midpoint fuel a0 = .step a := by
  refine bracketed_terminates L (by rw [phi_fun, dphi_fun]; exact hφ) (by rw [dphi_fun]; exact hcont)
    (by rw [dphi_fun]; simpa using hneg) hu1 hu12 hu2 a0 (1 / 2) ha0 (by norm_num) (by norm_num) _ (fun l h I => ?_)
  refine ⟨1 / 2, by norm_num, by norm_num, ?_⟩
  unfold LS.midpoint LS.eval
  simp only
  have : (1:ℝ) / 2 * l + 1 / 2 * h = l + 1 / 2 * (h - l) := by ring
  rw [this]

/-- Where quadratic interpolation puts its point. -/
lemma quadratic_position (B M : ℝ) (hM : ∀ ξ, 0 ≤ ξ → ξ ≤ B → |L.dphi ξ| ≤ M) (h2u : 2 * L.u1 < L.u2) (solve) (hs : IsSolve solve)
    (l h : ℝ) (I : Inv L B l h) :
    ∃ r, L.u2 * |L.dphi 0| / (4 * M) ≤ r ∧ r ≤ L.u2 / (2 * (L.u2 - L.u1)) ∧
      L.quadratic solve (L.eval l) (L.eval h) = some (L.eval (l + r * (h - l))) := by
  have hne : h ≠ l := by
    intro he; have := I.down; rw [he] at this; simp at this
  have hst := I.steep' L hneg hu1 hu12 hu2
  obtain ⟨ξ, x0, x1, -, hx⟩ := I.mvt L hφ
  set w := |h - l| with hw
  have hwp : 0 < w := abs_pos.2 (sub_ne_zero.2 hne)
  have hD : 0 < |L.dphi 0| := abs_pos.2 hneg.ne
  set E := -(L.dphi l * (h - l)) with hE
  have hEabs : E = |L.dphi l| * w := by
    rw [hE, hw, ← abs_mul, abs_of_neg I.down]
  have hElo : L.u2 * |L.dphi 0| * w < E := by rw [hEabs]; exact mul_lt_mul_of_pos_right hst hwp
  have hEhi : E ≤ M * w := by rw [hEabs]; exact mul_le_mul_of_nonneg_right (hM l I.l0 I.lB) hwp.le
  set Δ := L.phi h - L.phi l with hΔ
  have hΔhi : Δ ≤ M * w := by
    rw [hx]
    refine (le_abs_self _).trans ?_
    rw [abs_mul]
    exact mul_le_mul_of_nonneg_right (hM ξ x0 x1) hwp.le
  have hΔlo : -(L.u1 * |L.dphi 0| * w) ≤ Δ := by
    by_cases hge : L.phi l ≤ L.phi h
    · have : 0 ≤ L.u1 * |L.dphi 0| * w := by positivity
      linarith
    · have hna : ¬ L.funcDecreased h := by
        rcases I.high with h | h
        · exact h
        · exact absurd h hge
      push Not at hge
      have ha := I.arm
      unfold LS.funcDecreased at ha hna
      push Not at hna
      have habs0 : |L.dphi 0| = -L.dphi 0 := abs_of_neg hneg
      have h1 : h - l ≤ w := le_abs_self _
      have : L.u1 * |L.dphi 0| * (h - l) ≤ L.u1 * |L.dphi 0| * w := mul_le_mul_of_nonneg_left h1 (by positivity)
      rw [habs0] at this ⊢
      nlinarith
  have hu2p : 0 < L.u2 := hu1.trans hu12
  have hMp : 0 < M := by
    have : 0 < M * w := lt_of_lt_of_le (lt_of_le_of_lt (by positivity) hElo) hEhi
    exact (pos_iff_pos_of_mul_pos this).2 hwp
  have hEp : 0 < E := lt_of_le_of_lt (by positivity) hElo
  have hsum : (L.u2 - L.u1) * E ≤ L.u2 * (Δ + E) := by nlinarith
  have hsp : 0 < Δ + E := by
    have : 0 < (L.u2 - L.u1) * E := mul_pos (by linarith) hEp
    by_contra hc; push Not at hc; nlinarith
  have hcurv : (L.eval h).p - (L.eval l).p - (L.eval l).dp * ((L.eval h).a - (L.eval l).a) = Δ + E := by
    simp only [LS.eval, hΔ, hE]; ring
  refine ⟨E / (2 * (Δ + E)), ?_, ?_, ?_⟩
  · rw [div_le_div_iff₀ (by positivity) (by positivity)]
    have : Δ + E ≤ 2 * (M * w) := by linarith
    have h3 : L.u2 * |L.dphi 0| * (2 * (Δ + E)) ≤ L.u2 * |L.dphi 0| * (2 * (2 * (M * w))) :=
      mul_le_mul_of_nonneg_left (by linarith) (by positivity)
    nlinarith
  · rw [div_le_div_iff₀ (by positivity) (by linarith)]
    nlinarith
  · rw [C45_quadratic_minimiser L solve hs _ _ (by simpa [LS.eval] using Ne.symm hne) (by rw [hcurv]; exact hsp.ne'), hcurv]
    congr 2
    simp only [LS.eval]
    rw [← hE]; ring

omit hφ hcont hneg hu1 hu12 hu2 in
/-- **C45** The quadratic search terminates, with a step or after its 20 expansions, without raising, for every objective that is continuously
differentiable along the direction, every descent direction, `0 < 2 u1 < u2 < 1` (the defaults are `1e-4`, `0.9`), positive first step and an exact
linear solver. -/
theorem C45_quadratic_terminates (solve) (hs : IsSolve solve)
    (hφ : ∀ a : ℝ, HasDerivAt (fun a => L.func (L.x + a • L.dx)) (∑ i, L.grad (L.x + a • L.dx) i * L.dx i) a)
    (hcont : Continuous fun a : ℝ => ∑ i, L.grad (L.x + a • L.dx) i * L.dx i)
    (hneg : ∑ i, L.grad L.x i * L.dx i < 0) (hu1 : 0 < L.u1) (hu12 : 2 * L.u1 < L.u2) (hu2 : L.u2 < 1) (a0 : ℝ) (ha0 : 0 < a0) :
    ∃ N, ∀ fuel ≥ N, L.bracketed (L.quadratic solve) fuel a0 = .nothing ∨ ∃ a, L.bracketed (L.quadratic solve) fuel a0 = .step a := by
  have hφ' : ∀ a, HasDerivAt L.phi (L.dphi a) a := by rw [phi_fun, dphi_fun]; exact hφ
  have hcont' : Continuous L.dphi := by rw [dphi_fun]; exact hcont
  have hneg' : L.dphi 0 < 0 := by rw [dphi_fun]; simpa using hneg
  have hu12' : L.u1 < L.u2 := by linarith
  obtain ⟨M, hM⟩ := (isCompact_Icc (a := (0:ℝ)) (b := a0 * (3 / 2) ^ 20)).exists_bound_of_continuousOn hcont'.continuousOn
  have hM' : ∀ ξ, 0 ≤ ξ → ξ ≤ a0 * (3 / 2) ^ 20 → |L.dphi ξ| ≤ M := fun ξ h0 h1 => hM ξ ⟨h0, h1⟩
  have hD : 0 < |L.dphi 0| := abs_pos.2 hneg'.ne
  have hMp : 0 < M := lt_of_lt_of_le hD (hM' 0 le_rfl (by positivity))
  have hu2p : 0 < L.u2 := hu1.trans hu12'
  have c1 : 0 < L.u2 * |L.dphi 0| / (4 * M) := by positivity
  have hden : 0 < 2 * (L.u2 - L.u1) := by linarith
  have c2 : L.u2 / (2 * (L.u2 - L.u1)) < 1 := by rw [div_lt_one hden]; linarith
  have c3 : 0 < L.u2 / (2 * (L.u2 - L.u1)) := div_pos hu2p hden
  refine bracketed_terminates L hφ' hcont' hneg' hu1 hu12' hu2 a0
    (min (L.u2 * |L.dphi 0| / (4 * M)) (1 - L.u2 / (2 * (L.u2 - L.u1)))) ha0
    (lt_min c1 (by linarith)) (lt_of_le_of_lt (min_le_right _ _) (by linarith)) _ (fun l h I => ?_)
  obtain ⟨r, r1, r2, r3⟩ := quadratic_position L hφ' hcont' hneg' hu1 hu12' hu2 _ M hM' hu12 solve hs l h I
  refine ⟨r, (min_le_left _ _).trans r1, ?_, r3⟩
  have := min_le_right (L.u2 * |L.dphi 0| / (4 * M)) (1 - L.u2 / (2 * (L.u2 - L.u1)))
  linarith

end real

/-! ## Concrete cases -/

/-- `f(x) = x²` over `ℚ` from `x = 1` along the (negative) gradient direction `dx = -4`, with the default constants. -/
def exLS : LS ℚ 1 := ⟨fun _ => 1, fun _ => -4, fun y => y 0 ^ 2, fun y _ => 2 * y 0, 1 / 10000, 9 / 10⟩

/-- Backtracking rejects `1` and `1/2` and accepts `1/4`, reaching the minimiser. -/
example : (exLS.backtrack (1 / 2) 10 1) = some (1 / 4) ∧ exLS.backtracking 10 1 (1 / 2) = some (fun _ => 0) := by
  constructor
  · decide +kernel
  · have : exLS.backtrack (1 / 2) 10 1 = some (1 / 4) := by decide +kernel
    simp only [LS.backtracking, this, Option.map_some]
    congr 1; funext i; simp [LS.at, exLS]

/-- The bisecting search accepts `1/4` after two bisections. -/
example : exLS.bracketed exLS.midpoint 10 1 = .step (1 / 4) := by decide +kernel

/-- The same problem over the reals. -/
noncomputable def exLSR : LS ℝ 1 := ⟨fun _ => 1, fun _ => -4, fun y => y 0 ^ 2, fun y _ => 2 * y 0, 1 / 10000, 9 / 10⟩

/-- The hypotheses of the termination theorems hold for `f(x) = x²`, `x = 1`, `dx = -4`. -/
example : (∃ fuel y, exLSR.backtracking fuel 1 (1 / 2) = some y) ∧
    (∃ N, ∀ fuel ≥ N, exLSR.bracketed exLSR.midpoint fuel 1 = .nothing ∨ ∃ a, exLSR.bracketed exLSR.midpoint fuel 1 = .step a) ∧
    (∃ solve, ∃ N, ∀ fuel ≥ N, exLSR.bracketed (exLSR.quadratic solve) fuel 1 = .nothing ∨
      ∃ a, exLSR.bracketed (exLSR.quadratic solve) fuel 1 = .step a) := by
  have hd : ∀ a : ℝ, HasDerivAt (fun a : ℝ => exLSR.func (exLSR.x + a • exLSR.dx)) (∑ i, exLSR.grad (exLSR.x + a • exLSR.dx) i * exLSR.dx i) a := by
    intro a
    have h := ((hasDerivAt_id a).mul_const (-4)).const_add 1
    have := h.fun_pow 2
    simpa [exLSR] using this
  have hc : Continuous fun a : ℝ => ∑ i, exLSR.grad (exLSR.x + a • exLSR.dx) i * exLSR.dx i := by
    simp [exLSR]; fun_prop
  have hn : ∑ i, exLSR.grad exLSR.x i * exLSR.dx i < 0 := by simp [exLSR]
  refine ⟨?_, ?_, ?_⟩
  · refine C44_terminates exLSR (by simpa using hd 0) hn ?_ 1 (1 / 2) ?_ ?_ ?_ <;> norm_num [exLSR]
  · refine C45_bisection_terminates exLSR hd hc hn ?_ ?_ ?_ 1 ?_ <;> norm_num [exLSR]
  · obtain ⟨solve, hs⟩ := isSolve_exists (K := ℝ) 3
    refine ⟨solve, C45_quadratic_terminates exLSR solve hs hd hc hn ?_ ?_ ?_ 1 ?_⟩ <;> norm_num [exLSR]

/-! ## Use in the RMTS Newton solver -/

open SMT.Rmts in
/-- **C55** A Newton step with the (default) backtracking search: for every even order `p ≥ 2`, non-negative weights, positive regularisation and any exact
solution `d` of the Newton system, the search returns, the objective does not increase, and it strictly decreases unless `sol` is already
stationary. -/
theorem C55_newton_step_with_backtracking {n : ℕ} (reg ew : ℝ) (hreg : 0 < reg) (hew : 0 ≤ ew)
    (terms : List (ℝ × (nq : ℕ) × (Fin nq → Fin n → ℝ))) (ht : ∀ t ∈ terms, 0 ≤ t.1)
    (bs : List (Block ℝ n)) (hc : ∀ b ∈ bs, 0 ≤ b.c) (p : ℕ) (hp2 : 2 ≤ p) (hpe : Even p) (sol d : Fin n → ℝ)
    (hd : ∀ i, ∑ j, optHess (fullHess reg ew terms) bs p sol i j * d j = -optGrad (fullHess reg ew terms) bs p sol i)
    (u1 u2 : ℝ) (hu0 : 0 < u1) (hu1 : u1 < 1) :
    ∃ fuel y, LS.backtracking ⟨sol, d, optFunc (fullHess reg ew terms) bs p, optGrad (fullHess reg ew terms) bs p, u1, u2⟩ fuel 1 (1 / 2) = some y ∧
      optFunc (fullHess reg ew terms) bs p y ≤ optFunc (fullHess reg ew terms) bs p sol ∧
      ((∃ i, optGrad (fullHess reg ew terms) bs p sol i ≠ 0) →
        optFunc (fullHess reg ew terms) bs p y < optFunc (fullHess reg ew terms) bs p sol) := by
  set H := fullHess reg ew terms with hH
  set L : LS ℝ n := ⟨sol, d, optFunc H bs p, optGrad H bs p, u1, u2⟩ with hL
  obtain ⟨h1, h2⟩ := C55_newton_descent reg ew hreg hew terms ht bs hc p hp2 hpe sol d hd
  have hle : ∑ i, L.grad L.x i * L.dx i ≤ 0 := by
    have : 0 ≤ reg * ∑ i, d i ^ 2 := mul_nonneg hreg.le (Finset.sum_nonneg fun i _ => sq_nonneg _)
    simp only [hL]; linarith
  have hret : ∃ fuel y, L.backtracking fuel 1 (1 / 2) = some y := by
    by_cases hs : ∃ i, optGrad H bs p sol i ≠ 0
    · refine C44_terminates L ?_ (by simpa [hL] using h2 hs) hu1 1 (1 / 2) (by norm_num) (by norm_num) (by norm_num)
      have := C27_gradient H (C27_quadratic_symmetric reg ew terms) bs p sol d
      have e : (fun a : ℝ => L.func (L.x + a • L.dx)) = fun s : ℝ => optFunc H bs p (fun i => sol i + s * d i) := by
        funext a; rfl
      rw [e]; exact this
    · push Not at hs
      have hd0 : ∑ i, d i ^ 2 ≤ 0 := by
        have h0 : ∑ i, optGrad H bs p sol i * d i = 0 := Finset.sum_eq_zero fun i _ => by rw [hs i, zero_mul]
        by_contra hcon; push Not at hcon
        have := mul_pos hreg hcon; linarith
      have hz : ∀ i, d i = 0 := by
        have := le_antisymm hd0 (Finset.sum_nonneg fun i _ => sq_nonneg (d i))
        intro i
        exact pow_eq_zero_iff (two_ne_zero) |>.1 ((Finset.sum_eq_zero_iff_of_nonneg (fun i _ => sq_nonneg (d i))).1 this i (Finset.mem_univ _))
      refine ⟨1, L.at 1, ?_⟩
      have : L.funcDecreased 1 := by
        rw [funcDecreased_iff]; unfold Armijo
        have : d = 0 := funext hz
        simp [hL, this]
      simp [LS.backtracking, LS.backtrack, this]
  obtain ⟨fuel, y, hy⟩ := hret
  obtain ⟨m1, m2⟩ := C44_never_increases L fuel 1 (1 / 2) (by norm_num) (by norm_num) hu0.le hle y hy
  exact ⟨fuel, y, hy, m1, fun hs => m2 hu0 (by simpa [hL] using h2 hs)⟩

end SMT.LineSearch
