import Verif.Fp.LineSearchProps3

/-!
# Property C107: the null search, when a bracketed search falls off its end, infinite slopes
-/
set_option linter.unusedSectionVars false
set_option linter.unusedSimpArgs false
set_option linter.unusedVariables false

namespace SMT.Fp
open Srch

section
variable {K : Type} [Field K] [LinearOrder K] [IsStrictOrderedRing K] {n : ℕ} (F : Format K) (L : Srch K n)

/-- **C107** The null search makes the whole step: `x + dx`, one rounded addition per entry, whatever the entries are (infinities and NaN included). -/
theorem C107_null (hd : ∀ i, L.dx i = .nan ∨ F.Val (L.dx i)) : nullX F L = .done fun i => F.addX (L.x i) (L.dx i) := by
  unfold nullX Srch.pt
  congr 1
  funext i
  congr 1
  rcases hd i with h | h
  · rw [h]; rfl
  · cases hb : L.dx i with
    | nan => rfl
    | inf s =>
      show (if (1 : K) = 0 then X.nan else .inf (decide ((1 : K) < 0) != s)) = _
      rw [if_neg one_ne_zero, decide_eq_false (not_lt.2 zero_le_one)]
      simp
    | fin b =>
      rw [hb] at h
      show F.of (1 * b) = _
      rw [one_mul, F.of_fin h]

/-- The step lengths tried by the bracketing loop: each one and a half times the previous one, rounded. -/
def tried (a : X K) : ℕ → X K
  | 0 => a
  | k + 1 => F.mulX (tried a k) (.fin (3 / 2))

/-- The step length before trial `k`; the first trial is compared with the step `b`. -/
def before (b a : X K) : ℕ → X K
  | 0 => b
  | k + 1 => tried F a k

theorem tried_succ (a : X K) (k : ℕ) : tried F a (k + 1) = tried F (F.mulX a (.fin (3 / 2))) k := by
  induction k with
  | zero => rfl
  | succ k ih => rw [tried, ih]; rfl

theorem before_succ (b a : X K) (k : ℕ) : before F b a (k + 1) = before F a (F.mulX a (.fin (3 / 2))) k := by
  cases k with
  | zero => rfl
  | succ k => exact tried_succ F a k

theorem zoom_something (cm : Tr K → Tr K → Option (Tr K)) : ∀ (fuel : ℕ) (s1 s2 : Tr K), L.zoom F cm fuel s1 s2 ≠ .nothing := by
  intro fuel
  induction fuel with
  | zero => intro s1 s2 h; cases h
  | succ m ih =>
    intro s1 s2 h
    rw [Srch.zoom] at h
    cases hc : cm s1 s2 with
    | none => rw [hc] at h; cases h
    | some s =>
      rw [hc] at h
      dsimp only at h
      split_ifs at h
      · exact ih _ _ h
      · exact ih _ _ h
      · exact ih _ _ h

/-- Trial `k` leads to a longer step: the function has decreased enough and has not grown since the previous step (the first is compared with 0), the slope has not decreased enough and is not
`>= 0`. -/
def Longer (a : X K) (k : ℕ) : Prop :=
  L.funcDec F (tried F a k) = true ∧ (L.phi F (before F (.fin 0) a k)).lt (L.phi F (tried F a k)) = false ∧
    L.gradDec F (tried F a k) = false ∧ (X.fin 0).le (L.dphi F (tried F a k)) = false

theorem bracket_nothing (cm : Tr K → Tr K → Option (Tr K)) (fuel : ℕ) : ∀ (it : ℕ) (b a : X K), L.bracket F cm fuel it (L.eval F b) (L.eval F a) = .nothing ↔
    ∀ k < it, L.funcDec F (tried F a k) = true ∧ (L.phi F (before F b a k)).lt (L.phi F (tried F a k)) = false ∧
      L.gradDec F (tried F a k) = false ∧ (X.fin 0).le (L.dphi F (tried F a k)) = false := by
  intro it
  induction it with
  | zero => intro b a; simp [Srch.bracket]
  | succ m ih =>
    intro b a
    rw [Srch.bracket]
    have e0 : (L.eval F a).a = a := rfl
    have e1 : (L.eval F b).p = L.phi F b := rfl
    have e2 : (L.eval F a).p = L.phi F a := rfl
    have e3 : (L.eval F a).dp = L.dphi F a := rfl
    rw [e0, e1, e2, e3]
    by_cases h1 : (!L.funcDec F a || (L.phi F b).lt (L.phi F a)) = true
    · rw [if_pos h1]
      refine ⟨fun h => absurd h (zoom_something F L cm _ _ _), fun h => ?_⟩
      obtain ⟨a1, a2, -, -⟩ := h 0 (Nat.succ_pos _)
      change L.funcDec F a = true at a1
      change (L.phi F b).lt (L.phi F a) = false at a2
      rw [a1, a2] at h1
      cases h1
    · rw [if_neg h1]
      simp only [Bool.or_eq_true, Bool.not_eq_true', not_or, Bool.not_eq_true] at h1
      by_cases h2 : L.gradDec F a = true
      · rw [if_pos h2]
        refine ⟨fun h => (by cases h), fun h => ?_⟩
        have a3 := (h 0 (Nat.succ_pos _)).2.2.1
        change L.gradDec F a = false at a3
        rw [h2] at a3
        cases a3
      · rw [if_neg h2]
        by_cases h3 : (X.fin 0).le (L.dphi F a) = true
        · rw [if_pos h3]
          refine ⟨fun h => absurd h (zoom_something F L cm _ _ _), fun h => ?_⟩
          have a4 := (h 0 (Nat.succ_pos _)).2.2.2
          change (X.fin 0).le (L.dphi F a) = false at a4
          rw [h3] at a4
          cases a4
        · rw [if_neg h3, ih]
          constructor
          · intro h k hk
            cases k with
            | zero =>
              change L.funcDec F a = true ∧ (L.phi F b).lt (L.phi F a) = false ∧ L.gradDec F a = false ∧ (X.fin 0).le (L.dphi F a) = false
              exact ⟨by simpa using h1.1, h1.2, by simpa using h2, by simpa using h3⟩
            | succ k =>
              have := h k (by omega)
              rw [tried_succ, before_succ]
              exact this
          · intro h k hk
            have := h (k + 1) (by omega)
            rw [tried_succ, before_succ] at this
            exact this

/-- **C107** A bracketed search returns `None` if and only if each of the twenty step lengths `a`, `1.5 a`, `1.5^2 a`, ... it tries asks for a longer one - whatever the subclass. -/
theorem C107_none_iff (cm : Tr K → Tr K → Option (Tr K)) (fuel : ℕ) (a : X K) : L.bracketed F cm fuel a = .nothing ↔ ∀ k < 20, Longer F L a k := by
  unfold Srch.bracketed
  rw [bracket_nothing]
  rfl

/-- **C107** Where the slope at a step is infinite, of either sign, the gradient test passes if and only if the reference slope is infinite too. -/
theorem C107_infinite_slope {a : X K} {s : Bool} (h : L.dphi F a = .inf s) : L.gradDec F a = true ↔ ∃ t, F.mulX L.u2 (L.dphi F (.fin 0)) = .inf t := by
  unfold Srch.gradDec
  rw [h]
  cases hm : F.mulX L.u2 (L.dphi F (.fin 0)) with
  | nan => simp [X.abs, X.le]
  | inf t => simp [X.abs, X.le]
  | fin b => simp [X.abs, X.le]

end

/-- The step lengths of a search started at 1 in double precision: powers of 1.5, exact up to the twentieth. -/
theorem tried_double (k : ℕ) (hk : k ≤ 20) : tried binary64 (.fin 1) k = .fin ((3 / 2 : ℚ) ^ k) := by
  have key : ∀ k : Fin 21, tried binary64 (.fin (1 : ℚ)) k = .fin ((3 / 2 : ℚ) ^ k.val) := by decide +kernel
  exact key ⟨k, by omega⟩

/-- A function that decreases with slope -1 everywhere, on a line. -/
def downhill : Srch ℚ 1 := ⟨fun _ => .fin 0, fun _ => .fin 1, fun v => (v 0).neg, fun _ _ => .fin (-1), fun g d => binary64.mulX (g 0) (d 0), binary64.of (1 / 10000), binary64.of (9 / 10)⟩

/-- It meets the condition of `C107_none_iff`: the search gives up. -/
example (cm : Tr ℚ → Tr ℚ → Option (Tr ℚ)) (fuel : ℕ) : downhill.bracketed binary64 cm fuel (.fin 1) = .nothing := by
  have h : ∀ k : Fin 20, downhill.funcDec binary64 (tried binary64 (.fin 1) k) = true ∧
      (downhill.phi binary64 (before binary64 (.fin 0) (.fin 1) k)).lt (downhill.phi binary64 (tried binary64 (.fin 1) k)) = false ∧
      downhill.gradDec binary64 (tried binary64 (.fin 1) k) = false ∧ (X.fin 0).le (downhill.dphi binary64 (tried binary64 (.fin 1) k)) = false := by decide +kernel
  exact (C107_none_iff _ _ _ _ _).2 fun k hk => h ⟨k, hk⟩

/-- An infinite slope at 1 and a finite one at 0. -/
example : ∃ L : Srch ℚ 1, L.dphi binary64 (.fin 1) = .inf true ∧ L.gradDec binary64 (.fin 1) = false := by
  refine ⟨⟨fun _ => .fin 0, fun _ => .fin 1, fun v => v 0, fun v _ => if v 0 = .fin 1 then .inf true else .fin (-1), fun g d => binary64.mulX (g 0) (d 0), binary64.of (1 / 10000), binary64.of (9 / 10)⟩, ?_, ?_⟩
  · decide +kernel
  · decide +kernel

example : ∀ i, downhill.dx i = .nan ∨ binary64.Val (downhill.dx i) := fun i => Or.inr (by
  show binary64.Fin (1 : ℚ)
  exact binary64.fin_one)

end SMT.Fp
