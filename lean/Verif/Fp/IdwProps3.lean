import Verif.Fp.IdwProps2

/-!
# Property C103, third part: the regular case, and the cases in double precision
-/
namespace SMT.Fp
set_option linter.unusedSectionVars false
set_option linter.unusedSimpArgs false
set_option linter.unusedVariables false

variable {K : Type} [Field K] [LinearOrder K] [IsStrictOrderedRing K] (F : Format K)

theorem inf_absorb (s : Bool) : ∀ (ps : List K), (ps.map X.fin).foldl F.addX (.inf s) = .inf s := by
  intro ps
  induction ps with
  | nil => rfl
  | cons p ps ih =>
    rw [List.map_cons, List.foldl_cons, show F.addX (.inf s) (.fin p) = .inf s from rfl, ih]

/-- A sum of finite numbers that is finite: error of the sum, and it is never NaN. -/
theorem fold_fin : ∀ (ps : List K), (∀ p ∈ ps, F.rnd p = p) → ∀ (s : K), F.Fin s →
    (ps.map X.fin).foldl F.addX (.fin s) ≠ .nan ∧
      ∀ y, (ps.map X.fin).foldl F.addX (.fin s) = .fin y →
        F.Fin y ∧ |y - (s + ps.sum)| ≤ ((1 + F.u) ^ ps.length - 1) * (|s| + (ps.map abs).sum) := by
  intro ps
  induction ps with
  | nil =>
    intro _ s hs
    refine ⟨by simp, fun y hy => ?_⟩
    have e : s = y := by simpa using hy
    subst e
    exact ⟨hs, by simp⟩
  | cons p ps ih =>
    intro h s hs
    have hps : ∀ p ∈ ps, F.rnd p = p := fun q hq => h q (by simp [hq])
    rw [List.map_cons, List.foldl_cons, show F.addX (.fin s) (.fin p) = F.of (s + p) from rfl]
    unfold Format.of
    split
    · rename_i hsm
      have ih' := ih hps (F.rnd (s + p)) ⟨F.idem _, hsm⟩
      refine ⟨ih'.1, fun y hy => ?_⟩
      obtain ⟨h1, h2⟩ := ih'.2 y hy
      refine ⟨h1, ?_⟩
      have ha := F.add s p hs.1 (h p (by simp))
      have hu := F.u_nonneg
      have hP : 1 ≤ (1 + F.u) ^ ps.length := one_le_pow₀ (by linarith)
      have hT : 0 ≤ (ps.map abs).sum := List.sum_nonneg (by
        intro x hx
        obtain ⟨q, -, rfl⟩ := List.mem_map.1 hx
        exact abs_nonneg q)
      have hsp := abs_add_le s p
      have hr : |F.rnd (s + p)| ≤ (1 + F.u) * |s + p| := by
        have := abs_add_le (F.rnd (s + p) - (s + p)) (s + p)
        rw [sub_add_cancel] at this
        linarith
      have htri : |y - (s + (p :: ps).sum)| ≤ |y - (F.rnd (s + p) + ps.sum)| + |F.rnd (s + p) - (s + p)| := by
        have := abs_add_le (y - (F.rnd (s + p) + ps.sum)) (F.rnd (s + p) - (s + p))
        rw [show y - (F.rnd (s + p) + ps.sum) + (F.rnd (s + p) - (s + p)) = y - (s + (p :: ps).sum) by rw [List.sum_cons]; ring] at this
        exact this
      rw [List.length_cons, List.map_cons, List.sum_cons, pow_succ]
      set P := (1 + F.u) ^ ps.length with hPd
      set T := (ps.map abs).sum with hTd
      have h3 : (P - 1) * (|F.rnd (s + p)| + T) ≤ (P - 1) * ((1 + F.u) * |s + p| + T) := mul_le_mul_of_nonneg_left (by linarith) (by linarith)
      have h4 : (P * (1 + F.u) - 1) * |s + p| ≤ (P * (1 + F.u) - 1) * (|s| + |p|) := mul_le_mul_of_nonneg_left hsp (by nlinarith)
      have h5 : (P - 1) * T ≤ (P * (1 + F.u) - 1) * T := mul_le_mul_of_nonneg_right (by nlinarith) hT
      calc |y - (s + (p :: ps).sum)| ≤ (P - 1) * ((1 + F.u) * |s + p| + T) + F.u * |s + p| := by linarith
        _ = (P * (1 + F.u) - 1) * |s + p| + (P - 1) * T := by ring
        _ ≤ (P * (1 + F.u) - 1) * (|s| + |p|) + (P * (1 + F.u) - 1) * T := by linarith
        _ = (P * (1 + F.u) - 1) * (|s| + (|p| + T)) := by ring
    · rw [inf_absorb]
      exact ⟨by simp, fun y hy => by cases hy⟩

/-- A finite sum of non-negative numbers: two-sided bounds, and no summand is above it. -/
theorem fold_pos : ∀ (vs : List K), (∀ v ∈ vs, F.Fin v ∧ 0 ≤ v) → ∀ (s S : K), F.Fin s → 0 ≤ s → (vs.map X.fin).foldl F.addX (.fin s) = .fin S →
    F.Fin S ∧ s ≤ S ∧ (∀ v ∈ vs, v ≤ S) ∧ (s + vs.sum) * (1 - F.u) ^ vs.length ≤ S ∧ S ≤ (s + vs.sum) * (1 + F.u) ^ vs.length := by
  intro vs
  induction vs with
  | nil =>
    intro _ s S hs h0 he
    have e : s = S := by simpa using he
    subst e
    exact ⟨hs, le_rfl, by simp, by simp, by simp⟩
  | cons v vs ih =>
    intro h s S hs h0 he
    obtain ⟨hv, hv0⟩ := h v (by simp)
    have hvs : ∀ w ∈ vs, F.Fin w ∧ 0 ≤ w := fun q hq => h q (by simp [hq])
    rw [List.map_cons, List.foldl_cons, show F.addX (.fin s) (.fin v) = F.of (s + v) from rfl] at he
    unfold Format.of at he
    split at he
    · rename_i hsm
      have hsv : 0 ≤ s + v := by linarith
      obtain ⟨h1, h2, h3, h4, h5⟩ := ih hvs (F.rnd (s + v)) S ⟨F.idem _, hsm⟩ (F.nonneg hsv) he
      have ha := abs_le.1 (F.add s v hs.1 hv.1)
      rw [abs_of_nonneg hsv] at ha
      have hu := F.u_nonneg
      have hu1 := F.u_lt
      have hsum : 0 ≤ vs.sum := List.sum_nonneg fun x hx => (hvs x hx).2
      have s1 : s ≤ F.rnd (s + v) := F.rep_le hs.1 (by linarith)
      have s2 : v ≤ F.rnd (s + v) := F.rep_le hv.1 (by linarith)
      refine ⟨h1, s1.trans h2, ?_, ?_, ?_⟩
      · intro w hw
        rcases List.mem_cons.1 hw with rfl | hw
        · exact s2.trans h2
        · exact h3 w hw
      · refine le_trans ?_ h4
        rw [List.sum_cons, List.length_cons, pow_succ]
        have hP : 0 ≤ (1 - F.u) ^ vs.length := pow_nonneg (by linarith) _
        have : (s + (v + vs.sum)) * (1 - F.u) ≤ F.rnd (s + v) + vs.sum := by nlinarith
        calc (s + (v + vs.sum)) * ((1 - F.u) ^ vs.length * (1 - F.u)) = (s + (v + vs.sum)) * (1 - F.u) * (1 - F.u) ^ vs.length := by ring
          _ ≤ _ := mul_le_mul_of_nonneg_right this hP
      · refine h5.trans ?_
        rw [List.sum_cons, List.length_cons, pow_succ]
        have hP : 0 ≤ (1 + F.u) ^ vs.length := pow_nonneg (by linarith) _
        have : F.rnd (s + v) + vs.sum ≤ (s + (v + vs.sum)) * (1 + F.u) := by nlinarith
        calc (F.rnd (s + v) + vs.sum) * (1 + F.u) ^ vs.length ≤ (s + (v + vs.sum)) * (1 + F.u) * (1 + F.u) ^ vs.length := mul_le_mul_of_nonneg_right this hP
          _ = _ := by ring
    · rw [inf_absorb] at he
      cases he

/-- The row in the regular case. -/
theorem row_regular {pw : X K → X K} {xt : List (List K)} {x : List K} (hf : Far F xt x) {vs : List K} (hw : weights F pw xt x = vs.map .fin)
    (hv : ∀ v ∈ vs, F.Fin v ∧ 0 ≤ v) {S : K} (hs : (vs.map X.fin).foldl F.addX (.fin 0) = .fin S) (hS : S ≠ 0) :
    0 < S ∧ idwRow F pw (xt.map (·.map .fin)) (x.map .fin) = (vs.map fun v => F.rnd (v / S)).map .fin ∧
      ∀ v ∈ vs, 0 ≤ v / S ∧ v / S ≤ 1 ∧ 0 ≤ F.rnd (v / S) ∧ F.rnd (v / S) ≤ 1 := by
  obtain ⟨h1, h2, h3, -, -⟩ := fold_pos F vs hv 0 S F.fin_zero le_rfl hs
  have hpos : 0 < S := lt_of_le_of_ne h2 hS.symm
  have hq : ∀ v ∈ vs, 0 ≤ v / S ∧ v / S ≤ 1 ∧ 0 ≤ F.rnd (v / S) ∧ F.rnd (v / S) ≤ 1 := by
    intro v hm
    have a : 0 ≤ v / S := div_nonneg (hv v hm).2 hpos.le
    have b : v / S ≤ 1 := (div_le_one hpos).2 (h3 v hm)
    exact ⟨a, b, F.nonneg a, F.le_rep F.one b⟩
  refine ⟨hpos, ?_, hq⟩
  rw [row_far F pw xt x hf, hw, hs, List.map_map, List.map_map]
  refine List.map_congr_left fun v hm => ?_
  obtain ⟨a, b, -, -⟩ := hq v hm
  show (if S = 0 then (if v = 0 then X.nan else X.inf (decide (v < 0))) else F.of (v / S)) = X.fin (F.rnd (v / S))
  rw [if_neg hS, F.of_small (by rw [abs_of_nonneg a]; exact b.trans F.one_le_big)]

/-- **C103** In the regular case (all weights and their sum finite, the sum not zero) every entry of the row is a number in `[0, 1]`, and
the entries sum to one up to a rounding each for the sum and the quotients and an underflow per quotient. -/
theorem C103_row {pw : X K → X K} {xt : List (List K)} {x : List K} (hf : Far F xt x) {vs : List K} (hw : weights F pw xt x = vs.map .fin)
    (hv : ∀ v ∈ vs, F.Fin v ∧ 0 ≤ v) {S : K} (hs : (weights F pw xt x).foldl F.addX (.fin 0) = .fin S) (hS : S ≠ 0) :
    ∃ es : List K, idwRow F pw (xt.map (·.map .fin)) (x.map .fin) = es.map .fin ∧ es.length = xt.length ∧ (∀ e ∈ es, 0 ≤ e ∧ e ≤ 1) ∧
      (1 - F.u) / (1 + F.u) ^ xt.length - xt.length * F.tiny ≤ es.sum ∧ es.sum ≤ (1 + F.u) / (1 - F.u) ^ xt.length + xt.length * F.tiny := by
  have hlen : vs.length = xt.length := by
    have := congrArg List.length hw
    simpa [weights] using this.symm
  rw [hw] at hs
  obtain ⟨hpos, hrow, hq⟩ := row_regular F hf hw hv hs hS
  obtain ⟨-, -, -, h4, h5⟩ := fold_pos F vs hv 0 S F.fin_zero le_rfl hs
  rw [zero_add, hlen] at h4 h5
  have hu := F.u_nonneg
  have hu1 := F.u_lt
  refine ⟨_, hrow, by simp [hlen], ?_, ?_⟩
  · intro e he
    obtain ⟨v, hm, rfl⟩ := List.mem_map.1 he
    exact (hq v hm).2.2
  have hsum : ∀ vs : List K, (∀ v ∈ vs, 0 ≤ v / S) →
      (1 - F.u) * (vs.sum / S) - vs.length * F.tiny ≤ (vs.map fun v => F.rnd (v / S)).sum ∧
        (vs.map fun v => F.rnd (v / S)).sum ≤ (1 + F.u) * (vs.sum / S) + vs.length * F.tiny := by
    intro vs
    induction vs with
    | nil => intro _; simp
    | cons v vs ih =>
      intro h
      obtain ⟨i1, i2⟩ := ih fun w hw => h w (by simp [hw])
      have he := abs_le.1 (F.err (v / S))
      rw [abs_of_nonneg (h v (by simp))] at he
      rw [List.map_cons, List.sum_cons, List.sum_cons, List.length_cons, add_div]
      push_cast
      constructor <;> linarith [he.1, he.2]
  obtain ⟨s1, s2⟩ := hsum vs fun v hm => (hq v hm).1
  rw [hlen] at s1 s2
  have hA : 0 < (1 + F.u) ^ xt.length := pow_pos (by linarith) _
  have hB : 0 < (1 - F.u) ^ xt.length := pow_pos (by linarith) _
  have q1 : 1 / (1 + F.u) ^ xt.length ≤ vs.sum / S := by
    rw [div_le_div_iff₀ hA hpos, one_mul]
    exact h5
  have q2 : vs.sum / S ≤ 1 / (1 - F.u) ^ xt.length := by
    rw [div_le_div_iff₀ hpos hB, one_mul]
    exact h4
  have m1 := mul_le_mul_of_nonneg_left q1 (show (0 : K) ≤ 1 - F.u by linarith)
  have m2 := mul_le_mul_of_nonneg_left q2 (show (0 : K) ≤ 1 + F.u by linarith)
  rw [mul_one_div] at m1 m2
  constructor <;> linarith

end SMT.Fp
