import Verif.Kriging.Optim
import Mathlib.Tactic.Ring
import Mathlib.Tactic.Linarith

set_option linter.unusedSectionVars false
set_option linter.unusedSimpArgs false
set_option linter.unusedVariables false

/-!
# C65: the hyper-parameter optimisation loop ends, and what it returns
-/
namespace SMT.Krg.Optim

variable {Θ K : Type} [LinearOrder K] {rlf : Θ → Val K} {att : ℕ → Attempt Θ}

/-! ## Specification -/

/-- Hyper-parameters whose likelihood is evaluated in an attempt. -/
def evaluated (rlf : Θ → Val K) : Attempt Θ → List Θ
  | .raises vs => vs
  | .fatal vs => vs
  | .done vs x1 x2 => vs ++ [pick rlf x1 x2]

/-- ... in the first `n` attempts. -/
def Seen (rlf : Θ → Val K) (att : ℕ → Attempt Θ) (n : ℕ) (θ : Θ) : Prop := ∃ i < n, θ ∈ evaluated rlf (att i)

/-- Number of attempts of a finished loop. -/
def Res.attempts : Res Θ K → ℕ
  | .returned _ n => n
  | .failed _ n => n
  | .crashed _ n => n

/-! ## Helpers -/

theorem visit_fields (s : St Θ K) (θ : Θ) :
    (visit rlf s θ).nbIll = s.nbIll ∧ (visit rlf s θ).k = s.k ∧ (visit rlf s θ).stop = s.stop ∧ (visit rlf s θ).bestVal = s.bestVal ∧ (visit rlf s θ).best = s.best := by
  unfold visit
  cases (rlf θ).finite? with
  | none => simp
  | some v =>
    cases s.mem with
    | none => simp
    | some p => simp only; split <;> simp

theorem visits_fields (vs : List Θ) : ∀ s : St Θ K,
    (vs.foldl (visit rlf) s).nbIll = s.nbIll ∧ (vs.foldl (visit rlf) s).k = s.k ∧ (vs.foldl (visit rlf) s).stop = s.stop ∧ (vs.foldl (visit rlf) s).bestVal = s.bestVal ∧
      (vs.foldl (visit rlf) s).best = s.best := by
  induction vs with
  | nil => intro s; simp
  | cons θ vs ih =>
    intro s
    obtain ⟨a1, a2, a3, a4, a5⟩ := ih (visit rlf s θ)
    obtain ⟨b1, b2, b3, b4, b5⟩ := visit_fields (rlf := rlf) s θ
    simp only [List.foldl_cons]
    exact ⟨a1.trans b1, a2.trans b2, a3.trans b3, a4.trans b4, a5.trans b5⟩

/-- State after the evaluations of an attempt. -/
def after (rlf : Θ → Val K) (s : St Θ K) (a : Attempt Θ) : St Θ K := (evaluated rlf a).foldl (visit rlf) s

theorem after_fields (s : St Θ K) (a : Attempt Θ) : (after rlf s a).nbIll = s.nbIll ∧ (after rlf s a).k = s.k ∧ (after rlf s a).stop = s.stop ∧ (after rlf s a).bestVal = s.bestVal ∧
    (after rlf s a).best = s.best := visits_fields _ _

theorem step_done (s : St Θ K) (vs : List Θ) (x1 x2 : Θ) : step rlf s (.done vs x1 x2) =
    (let s1 := after rlf s (.done vs x1 x2)
     if 0 < s.k then
      match (rlf (pick rlf x1 x2)).finite? with
      | none => if maxRetry < s.stop + 1 then handler { s1 with stop := s.stop + 1, k := s.k } else .cont { s1 with stop := s.stop + 1, k := s.k + 1 }
      | some v => .cont { compare s1 (pick rlf x1 x2) v with k := s.k + 1 }
     else
      match (rlf (pick rlf x1 x2)).finite? with
      | none => .cont { s1 with stop := s.stop + 1, k := s.k + 1 }
      | some v => .cont { s1 with best := some (pick rlf x1 x2), bestVal := v, k := s.k + 1 }) := by
  obtain ⟨h1, h2, h3, h4, h5⟩ := after_fields (rlf := rlf) s (.done vs x1 x2)
  have e : visit rlf (vs.foldl (visit rlf) s) (pick rlf x1 x2) = after rlf s (.done vs x1 x2) := by simp [after, evaluated]
  simp only [step, e, h2, h3]
  cases (rlf (pick rlf x1 x2)).finite? <;> rfl

theorem step_raises (s : St Θ K) (vs : List Θ) : step rlf s (.raises vs) = handler (after rlf s (.raises vs)) := rfl
theorem step_fatal (s : St Θ K) (vs : List Θ) : step rlf s (.fatal vs) = .crash (after rlf s (.fatal vs)) := rfl

/-- What remains to be done decreases with every pass. -/
def todo (s : St Θ K) : ℕ := 2 * s.nbIll + (s.stop - s.k) + (maxRetry - s.stop)

theorem handler_cont {s s' : St Θ K} (h : handler s = .cont s') :
    (0 < s.nbIll ∧ s'.nbIll = s.nbIll - 1 ∧ s'.k = s.k + 1 ∧ s'.stop = s.stop + 1 ∧ s'.mem = s.mem ∧
      ((s.mem = none ∧ s'.best = s.best ∧ s'.bestVal = s.bestVal) ∨ ∃ b θ, s.mem = some (b, θ) ∧
        ((s.bestVal < b ∧ s'.best = some θ ∧ s'.bestVal = b) ∨ (b ≤ s.bestVal ∧ s'.best = s.best ∧ s'.bestVal = s.bestVal)))) ∨
    (s.nbIll = 0 ∧ s.best ≠ none ∧ s' = { s with k := s.stop + 1 }) := by
  unfold handler at h
  by_cases hn : 0 < s.nbIll
  · left
    simp only [hn, if_true] at h
    cases hm : s.mem with
    | none => simp only [hm] at h; obtain rfl := Out.cont.inj h; simp [hn, hm]
    | some p =>
      obtain ⟨b, θ⟩ := p
      simp only [hm] at h
      by_cases hb : s.bestVal < b
      · rw [if_pos hb] at h
        obtain rfl := Out.cont.inj h
        refine ⟨hn, rfl, rfl, rfl, hm.symm ▸ rfl, Or.inr ⟨b, θ, rfl, Or.inl ⟨hb, rfl, rfl⟩⟩⟩
      · rw [if_neg hb] at h
        obtain rfl := Out.cont.inj h
        refine ⟨hn, rfl, rfl, rfl, hm.symm ▸ rfl, Or.inr ⟨b, θ, rfl, Or.inr ⟨not_lt.1 hb, rfl, rfl⟩⟩⟩
  · right
    simp only [hn, if_false] at h
    cases hb : s.best with
    | none => simp [hb] at h
    | some θ =>
      simp only [hb, Option.isNone_some] at h
      exact ⟨Nat.eq_zero_of_not_pos hn, by simp, (Out.cont.inj h).symm⟩

theorem handler_fail {s s' : St Θ K} (h : handler s = .fail s') : s.nbIll = 0 ∧ s.best = none ∧ s' = s := by
  unfold handler at h
  by_cases hn : 0 < s.nbIll
  · simp only [hn, if_true] at h
    cases hm : s.mem with
    | none => simp [hm] at h
    | some p => simp only [hm] at h; split at h <;> simp at h
  · simp only [hn, if_false] at h
    cases hb : s.best with
    | none => simp only [hb, Option.isNone_none, if_true] at h; exact ⟨Nat.eq_zero_of_not_pos hn, rfl, (Out.fail.inj h).symm⟩
    | some θ => simp [hb] at h

theorem handler_not_crash {s s' : St Θ K} : handler s ≠ .crash s' := by
  unfold handler
  by_cases hn : 0 < s.nbIll
  · simp only [hn, if_true]
    cases s.mem with
    | none => simp
    | some p => simp only; split <;> simp
  · simp only [hn, if_false]
    cases s.best <;> simp

theorem compare_fields (s : St Θ K) (x : Θ) (v : K) :
    (compare s x v).nbIll = s.nbIll ∧ (compare s x v).k = s.k ∧ (compare s x v).stop = s.stop ∧ (compare s x v).mem = s.mem := by
  unfold compare
  cases hm : s.mem with
  | none => simp [hm]
  | some p => simp only; split <;> [split; skip] <;> [skip; split; skip] <;> simp [hm]

theorem step_todo {s s' : St Θ K} {a : Attempt Θ} (hrun : s.k < s.stop) (h0 : s.k = 0 → s.stop = 1) (h : step rlf s a = .cont s') :
    todo s' < todo s ∧ (s'.k = 0 → s'.stop = 1) := by
  have key : ∀ s1 : St Θ K, s1.nbIll = s.nbIll → s1.k = s.k → (s1.stop = s.stop ∨ s1.stop = s.stop + 1 ∧ maxRetry < s.stop + 1) → handler s1 = .cont s' → todo s' < todo s ∧ (s'.k = 0 → s'.stop = 1) := by
    intro s1 e1 e2 e3 hh
    rcases handler_cont hh with ⟨h1, h2, h3, h4, -⟩ | ⟨h1, -, rfl⟩
    · refine ⟨?_, by omega⟩
      unfold todo at *
      rw [h2, h3, h4]
      rcases e3 with e3 | ⟨e3, e4⟩ <;> omega
    · refine ⟨?_, by simp⟩
      unfold todo
      simp only []
      rcases e3 with e3 | ⟨e3, e4⟩ <;> omega
  obtain ⟨f1, f2, f3, f4, f5⟩ := after_fields (rlf := rlf) s a
  cases a with
  | fatal vs => simp [step_fatal] at h
  | raises vs => rw [step_raises] at h; exact key _ f1 f2 (Or.inl f3) h
  | done vs x1 x2 =>
    rw [step_done] at h
    simp only [] at h
    by_cases hk : 0 < s.k
    · simp only [hk, if_true] at h
      cases hv : (rlf (pick rlf x1 x2)).finite? with
      | none =>
        simp only [hv] at h
        by_cases hs : maxRetry < s.stop + 1
        · rw [if_pos hs] at h
          exact key { after rlf s (.done vs x1 x2) with stop := s.stop + 1, k := s.k } f1 rfl (Or.inr ⟨rfl, hs⟩) h
        · rw [if_neg hs] at h
          obtain rfl := Out.cont.inj h
          refine ⟨?_, by simp⟩
          unfold todo
          simp only [f1]
          omega
      | some v =>
        simp only [hv] at h
        obtain rfl := Out.cont.inj h
        obtain ⟨c1, c2, c3, c4⟩ := compare_fields (after rlf s (.done vs x1 x2)) (pick rlf x1 x2) v
        refine ⟨?_, by simp⟩
        unfold todo
        simp only [c1, c3, f1, f3]
        omega
    · simp only [hk, if_false] at h
      have hk0 : s.k = 0 := Nat.eq_zero_of_not_pos hk
      have hs1 := h0 hk0
      cases hv : (rlf (pick rlf x1 x2)).finite? with
      | none =>
        simp only [hv] at h
        obtain rfl := Out.cont.inj h
        refine ⟨?_, by simp⟩
        unfold todo maxRetry
        simp only [f1, hk0, hs1]
        omega
      | some v =>
        simp only [hv] at h
        obtain rfl := Out.cont.inj h
        refine ⟨?_, by simp⟩
        unfold todo maxRetry
        simp only [f1, f3, hk0, hs1]
        omega

theorem loop_ends : ∀ fuel i (s : St Θ K), (s.k = 0 → s.stop = 1) → todo s ≤ fuel → ∃ r, loop rlf att fuel i s = some r ∧ r.attempts ≤ i + fuel := by
  intro fuel
  induction fuel with
  | zero =>
    intro i s h0 ht
    have : ¬ s.k < s.stop := by unfold todo at ht; omega
    exact ⟨.returned s i, by unfold loop; rw [if_neg this], le_rfl⟩
  | succ fuel ih =>
    intro i s h0 ht
    unfold loop
    by_cases hr : s.k < s.stop
    · rw [if_pos hr]
      cases hs : step rlf s (att i) with
      | cont s' =>
        obtain ⟨h1, h2⟩ := step_todo hr h0 hs
        obtain ⟨r, e, hn⟩ := ih (i + 1) s' h2 (by omega)
        exact ⟨r, e, by omega⟩
      | fail s' => exact ⟨_, rfl, by simp [Res.attempts]⟩
      | crash s' => exact ⟨_, rfl, by simp [Res.attempts]⟩
    · rw [if_neg hr]
      exact ⟨_, rfl, by simp [Res.attempts]⟩

theorem loop_more {r : Res Θ K} : ∀ fuel i (s : St Θ K), loop rlf att fuel i s = some r → ∀ m, loop rlf att (fuel + m) i s = some r := by
  intro fuel
  induction fuel with
  | zero =>
    intro i s h m
    unfold loop at h ⊢
    by_cases hr : s.k < s.stop
    · rw [if_pos hr] at h; simp at h
    · rw [if_neg hr] at h ⊢; exact h
  | succ fuel ih =>
    intro i s h m
    unfold loop at h
    rw [Nat.succ_add]
    unfold loop
    by_cases hr : s.k < s.stop
    · rw [if_pos hr] at h ⊢
      simp only [] at h ⊢
      cases hs : step rlf s (att i) with
      | cont s' => simp only [hs] at h ⊢; exact ih _ _ h m
      | fail s' => simp only [hs] at h ⊢; exact h
      | crash s' => simp only [hs] at h ⊢; exact h
    · rw [if_neg hr] at h ⊢; exact h

theorem loop_done {fuel i : ℕ} {s : St Θ K} (h : ¬ s.k < s.stop) : loop rlf att fuel i s = some (.returned s i) := by
  cases fuel <;> rw [loop, if_neg h]

/-- Induction over the passes of a finished loop. -/
theorem loop_inv {P : ℕ → St Θ K → Prop} (hstep : ∀ i s s', P i s → s.k < s.stop → step rlf s (att i) = .cont s' → P (i + 1) s') {r : Res Θ K} :
    ∀ fuel i s, P i s → loop rlf att fuel i s = some r →
      match r with
      | .returned s' n => P n s' ∧ ¬ s'.k < s'.stop
      | .failed s' n => ∃ m s0, n = m + 1 ∧ P m s0 ∧ s0.k < s0.stop ∧ step rlf s0 (att m) = .fail s'
      | .crashed s' n => ∃ m s0, n = m + 1 ∧ P m s0 ∧ s0.k < s0.stop ∧ step rlf s0 (att m) = .crash s' := by
  intro fuel
  induction fuel with
  | zero =>
    intro i s hP h
    unfold loop at h
    by_cases hr : s.k < s.stop
    · rw [if_pos hr] at h; simp at h
    · rw [if_neg hr] at h
      obtain rfl := Option.some.inj h
      exact ⟨hP, hr⟩
  | succ fuel ih =>
    intro i s hP h
    unfold loop at h
    by_cases hr : s.k < s.stop
    · rw [if_pos hr] at h
      simp only [] at h
      cases hs : step rlf s (att i) with
      | cont s' => simp only [hs] at h; exact ih _ _ (hstep i s s' hP hr hs) h
      | fail s' => simp only [hs] at h; obtain rfl := Option.some.inj h; exact ⟨i, s, rfl, hP, hr, hs⟩
      | crash s' => simp only [hs] at h; obtain rfl := Option.some.inj h; exact ⟨i, s, rfl, hP, hr, hs⟩
    · rw [if_neg hr] at h
      obtain rfl := Option.some.inj h
      exact ⟨hP, hr⟩

/-- Meaning of the remembered and retained values, for the hyper-parameters `seen` so far. -/
structure Meaning (rlf : Θ → Val K) (floor : K) (seen : Θ → Prop) (s : St Θ K) : Prop where
  memNone : s.mem = none → ∀ θ, seen θ → ∀ v, rlf θ ≠ .fin v
  memSome : ∀ b θ, s.mem = some (b, θ) → seen θ ∧ rlf θ = .fin b ∧ ∀ θ', seen θ' → ∀ v, rlf θ' = .fin v → v ≤ b
  bestNone : s.best = none → s.bestVal = floor
  bestSome : ∀ θ, s.best = some θ → seen θ ∧ rlf θ = .fin s.bestVal

theorem finite_some {v : Val K} {a : K} : v.finite? = some a ↔ v = .fin a := by
  cases v <;> simp [Val.finite?]

theorem finite_none {v : Val K} : v.finite? = none ↔ ∀ a, v ≠ .fin a := by
  cases v <;> simp [Val.finite?]

theorem visit_meaning {floor : K} {seen : Θ → Prop} {s : St Θ K} (h : Meaning rlf floor seen s) (θ : Θ) : Meaning rlf floor (fun t => seen t ∨ t = θ) (visit rlf s θ) := by
  obtain ⟨f1, f2, f3, f4, f5⟩ := visit_fields (rlf := rlf) s θ
  have hbest : ∀ t, (visit rlf s θ).best = some t → (seen t ∨ t = θ) ∧ rlf t = .fin (visit rlf s θ).bestVal := fun t ht => by
    rw [f5] at ht; rw [f4]
    exact ⟨Or.inl (h.bestSome t ht).1, (h.bestSome t ht).2⟩
  have hnone : (visit rlf s θ).best = none → (visit rlf s θ).bestVal = floor := fun ht => by
    rw [f5] at ht; rw [f4]; exact h.bestNone ht
  cases hv : (rlf θ).finite? with
  | none =>
    have e : (visit rlf s θ).mem = s.mem := by simp [visit, hv]
    refine ⟨fun hm t ht v => ?_, fun b t hm => ?_, hnone, hbest⟩
    · rw [e] at hm
      rcases ht with ht | rfl
      · exact h.memNone hm t ht v
      · exact finite_none.1 hv v
    · rw [e] at hm
      obtain ⟨a1, a2, a3⟩ := h.memSome b t hm
      refine ⟨Or.inl a1, a2, fun t' ht' v hv' => ?_⟩
      rcases ht' with ht' | rfl
      · exact a3 t' ht' v hv'
      · exact absurd hv' (finite_none.1 hv v)
  | some w =>
    have hw := finite_some.1 hv
    cases hm0 : s.mem with
    | none =>
      have e : (visit rlf s θ).mem = some (w, θ) := by simp [visit, hv, hm0]
      refine ⟨fun hm => by rw [e] at hm; simp at hm, fun b t hm => ?_, hnone, hbest⟩
      rw [e] at hm
      simp only [Option.some.injEq, Prod.mk.injEq] at hm
      obtain ⟨rfl, rfl⟩ := hm
      refine ⟨Or.inr rfl, hw, fun t' ht' v hv' => ?_⟩
      rcases ht' with ht' | rfl
      · exact absurd hv' (h.memNone hm0 t' ht' v)
      · rw [hw] at hv'; injection hv' with hv'; exact hv'.symm.le
    | some p =>
      obtain ⟨b0, t0⟩ := p
      obtain ⟨a1, a2, a3⟩ := h.memSome b0 t0 hm0
      by_cases hlt : b0 < w
      · have e : (visit rlf s θ).mem = some (w, θ) := by simp [visit, hv, hm0, hlt]
        refine ⟨fun hm => by rw [e] at hm; simp at hm, fun b t hm => ?_, hnone, hbest⟩
        rw [e] at hm
        simp only [Option.some.injEq, Prod.mk.injEq] at hm
        obtain ⟨rfl, rfl⟩ := hm
        refine ⟨Or.inr rfl, hw, fun t' ht' v hv' => ?_⟩
        rcases ht' with ht' | rfl
        · exact (a3 t' ht' v hv').trans hlt.le
        · rw [hw] at hv'; injection hv' with hv'; exact hv'.symm.le
      · have e : (visit rlf s θ).mem = some (b0, t0) := by simp [visit, hv, hm0, hlt]
        refine ⟨fun hm => by rw [e] at hm; simp at hm, fun b t hm => ?_, hnone, hbest⟩
        rw [e] at hm
        simp only [Option.some.injEq, Prod.mk.injEq] at hm
        obtain ⟨rfl, rfl⟩ := hm
        refine ⟨Or.inl a1, a2, fun t' ht' v hv' => ?_⟩
        rcases ht' with ht' | rfl
        · exact a3 t' ht' v hv'
        · rw [hw] at hv'; injection hv' with hv'; exact hv' ▸ not_lt.1 hlt

theorem Meaning.congr {floor : K} {p q : Θ → Prop} {s : St Θ K} (h : Meaning rlf floor p s) (hpq : ∀ t, p t ↔ q t) : Meaning rlf floor q s := by
  have : p = q := funext fun t => propext (hpq t)
  exact this ▸ h

theorem visits_meaning {floor : K} : ∀ (vs : List Θ) {seen : Θ → Prop} {s : St Θ K}, Meaning rlf floor seen s → Meaning rlf floor (fun t => seen t ∨ t ∈ vs) (vs.foldl (visit rlf) s)
  | [], seen, s, h => h.congr fun t => by simp
  | θ :: vs, seen, s, h => (visits_meaning vs (visit_meaning h θ)).congr fun t => by simp [or_assoc]

theorem after_meaning {floor : K} {s : St Θ K} {i : ℕ} (h : Meaning rlf floor (Seen rlf att i) s) : Meaning rlf floor (Seen rlf att (i + 1)) (after rlf s (att i)) := by
  refine (visits_meaning _ h).congr fun t => ?_
  constructor
  · rintro (⟨j, hj, ht⟩ | ht)
    · exact ⟨j, by omega, ht⟩
    · exact ⟨i, by omega, ht⟩
  · rintro ⟨j, hj, ht⟩
    rcases Nat.lt_succ_iff_lt_or_eq.1 hj with hj | rfl
    · exact Or.inl ⟨j, hj, ht⟩
    · exact Or.inr ht

theorem Meaning.fields {floor : K} {seen : Θ → Prop} {s s' : St Θ K} (h : Meaning rlf floor seen s) (h1 : s'.mem = s.mem) (h2 : s'.best = s.best) (h3 : s'.bestVal = s.bestVal) :
    Meaning rlf floor seen s' :=
  ⟨fun hm => h.memNone (h1 ▸ hm), fun b θ hm => h.memSome b θ (h1 ▸ hm), fun hb => h3 ▸ h.bestNone (h2 ▸ hb), fun θ hb => h3.symm ▸ h.bestSome θ (h2 ▸ hb)⟩

theorem handler_meaning {floor : K} {seen : Θ → Prop} {s s' : St Θ K} (h : Meaning rlf floor seen s) (hc : handler s = .cont s') : Meaning rlf floor seen s' := by
  rcases handler_cont hc with ⟨-, -, -, -, hm, hb⟩ | ⟨-, -, rfl⟩
  · rcases hb with ⟨-, h2, h3⟩ | ⟨b, θ, hm', ⟨hlt, h2, h3⟩ | ⟨hle, h2, h3⟩⟩
    · exact h.fields hm h2 h3
    · obtain ⟨a1, a2, a3⟩ := h.memSome b θ hm'
      refine ⟨fun hn => h.memNone (hm ▸ hn), fun b θ hn => h.memSome b θ (hm ▸ hn), fun hb => by rw [h2] at hb; simp at hb, fun t ht => ?_⟩
      rw [h2] at ht
      obtain rfl := Option.some.inj ht
      exact ⟨a1, h3 ▸ a2⟩
    · exact h.fields hm h2 h3
  · exact h.fields rfl rfl rfl

theorem compare_meaning {floor : K} {seen : Θ → Prop} {s : St Θ K} {x : Θ} {v : K} (h : Meaning rlf floor seen s) (hx : seen x) (hv : rlf x = .fin v) : Meaning rlf floor seen (compare s x v) := by
  unfold compare
  cases hm : s.mem with
  | none => exact h
  | some p =>
    obtain ⟨b, θ⟩ := p
    obtain ⟨a1, a2, a3⟩ := h.memSome b θ hm
    simp only []
    by_cases h1 : b ≤ v
    · rw [if_pos h1]
      by_cases h2 : s.bestVal < v
      · rw [if_pos h2]
        exact ⟨fun hn => h.memNone (hm.trans hn), fun b θ hn => h.memSome b θ (hm.trans hn), fun hb => by simp at hb, fun t ht => by obtain rfl := Option.some.inj ht; exact ⟨hx, hv⟩⟩
      · rw [if_neg h2]
        by_cases h3 : s.bestVal < b
        · rw [if_pos h3]
          exact ⟨fun hn => h.memNone (hm.trans hn), fun b θ hn => h.memSome b θ (hm.trans hn), fun hb => by simp at hb, fun t ht => by obtain rfl := Option.some.inj ht; exact ⟨a1, a2⟩⟩
        · rw [if_neg h3]; exact h
    · rw [if_neg h1]; exact h

theorem step_meaning {floor : K} {s s' : St Θ K} {i : ℕ} (h : Meaning rlf floor (Seen rlf att i) s) (hc : step rlf s (att i) = .cont s') : Meaning rlf floor (Seen rlf att (i + 1)) s' := by
  have ha := after_meaning h
  have hpick : ∀ vs x1 x2, att i = .done vs x1 x2 → Seen rlf att (i + 1) (pick rlf x1 x2) := fun vs x1 x2 e => ⟨i, by omega, by rw [e]; simp [evaluated]⟩
  cases e : att i with
  | fatal vs => rw [e, step_fatal] at hc; simp at hc
  | raises vs => rw [e] at ha hc; rw [step_raises] at hc; exact handler_meaning ha hc
  | done vs x1 x2 =>
    rw [e] at ha hc
    rw [step_done] at hc
    simp only [] at hc
    have hp := hpick vs x1 x2 e
    by_cases hk : 0 < s.k
    · simp only [hk, if_true] at hc
      cases hv : (rlf (pick rlf x1 x2)).finite? with
      | none =>
        simp only [hv] at hc
        by_cases hs : maxRetry < s.stop + 1
        · rw [if_pos hs] at hc
          exact handler_meaning (ha.fields (s' := { after rlf s (.done vs x1 x2) with stop := s.stop + 1, k := s.k }) rfl rfl rfl) hc
        · rw [if_neg hs] at hc
          obtain rfl := Out.cont.inj hc
          exact ha.fields rfl rfl rfl
      | some v =>
        simp only [hv] at hc
        obtain rfl := Out.cont.inj hc
        exact (compare_meaning ha hp (finite_some.1 hv)).fields rfl rfl rfl
    · simp only [hk, if_false] at hc
      cases hv : (rlf (pick rlf x1 x2)).finite? with
      | none =>
        simp only [hv] at hc
        obtain rfl := Out.cont.inj hc
        exact ha.fields rfl rfl rfl
      | some v =>
        simp only [hv] at hc
        obtain rfl := Out.cont.inj hc
        exact ⟨fun hn => ha.memNone hn, fun b θ hn => ha.memSome b θ hn, fun hb => by simp at hb, fun t ht => by obtain rfl := Option.some.inj ht; exact ⟨hp, finite_some.1 hv⟩⟩

theorem init_meaning (floor : K) (nb : ℕ) : Meaning rlf floor (Seen rlf att 0) (init floor nb) :=
  ⟨fun _ θ ⟨i, hi, _⟩ => absurd hi (by omega), fun b θ h => by simp [init] at h, fun _ => rfl, fun θ h => by simp [init] at h⟩

/-! ## C65 -/

/-- **C65** Whatever the optimiser does, the loop ends after at most `2 * nb_ill_matrix + 10` attempts (20 for a new object); more would change nothing. -/
theorem C65_terminates (rlf : Θ → Val K) (floor : K) (nb : ℕ) (att : ℕ → Attempt Θ) :
    ∃ r, r.attempts ≤ 2 * nb + 10 ∧ ∀ fuel, 2 * nb + 10 ≤ fuel → optimize rlf floor nb fuel att = some r := by
  obtain ⟨r, h, hn⟩ := loop_ends (rlf := rlf) (att := att) (2 * nb + 10) 0 (init floor nb) (fun _ => rfl) (by simp [todo, init, maxRetry])
  refine ⟨r, by omega, fun fuel hf => ?_⟩
  obtain ⟨m, rfl⟩ := Nat.exists_eq_add_of_le hf
  exact loop_more _ _ _ h m

/-- **C65** Soundness: a returned hyper-parameter vector has been evaluated, and the returned value is its (finite) likelihood - so the returned parameters belong to it. -/
theorem C65_sound {floor : K} {nb fuel n : ℕ} {s : St Θ K} {θ : Θ} (h : optimize rlf floor nb fuel att = some (.returned s n)) (hb : s.best = some θ) :
    Seen rlf att n θ ∧ rlf θ = .fin s.bestVal :=
  ((loop_inv (P := fun i s => Meaning rlf floor (Seen rlf att i) s) (fun _ _ _ hP _ hc => step_meaning hP hc) fuel 0 _ (init_meaning floor nb) h).1).bestSome θ hb

/-- **C65** The usual case: if the first attempt gives a finite likelihood, its result - the better of the two runs - is returned after one attempt, even if a better vector was evaluated on
the way. -/
theorem C65_first_success {floor : K} {nb fuel : ℕ} {vs : List Θ} {x1 x2 : Θ} {v : K} (h0 : att 0 = .done vs x1 x2) (hv : rlf (pick rlf x1 x2) = .fin v) :
    ∃ s, optimize rlf floor nb (fuel + 1) att = some (.returned s 1) ∧ s.best = some (pick rlf x1 x2) ∧ s.bestVal = v ∧ s.nbIll = nb := by
  obtain ⟨f1, f2, f3, f4, f5⟩ := after_fields (rlf := rlf) (init floor nb) (.done vs x1 x2)
  refine ⟨{ after rlf (init floor nb) (.done vs x1 x2) with best := some (pick rlf x1 x2), bestVal := v, k := 1 }, ?_, rfl, rfl, f1⟩
  unfold optimize
  rw [loop]
  rw [if_pos (by simp [init])]
  simp only [h0, step_done, init, Nat.lt_irrefl, if_false, finite_some.2 hv]
  exact loop_done (by simp; exact f3.le)

/-- **C65** `pick` keeps the run with the larger likelihood. -/
theorem C65_better_run (x1 x2 : Θ) : (pick rlf x1 x2 = x1 ∨ pick rlf x1 x2 = x2) ∧ (rlf (pick rlf x1 x2)).lt (rlf x1) = false ∧ (rlf (pick rlf x1 x2)).lt (rlf x2) = false := by
  have irr : ∀ a : Val K, a.lt a = false := fun a => by cases a <;> simp [Val.lt]
  have asym : ∀ a b : Val K, a.lt b = true → b.lt a = false := fun a b h => by
    cases a <;> cases b <;> simp_all [Val.lt]
    exact le_of_lt h
  unfold pick
  by_cases h : (rlf x1).lt (rlf x2) = true
  · rw [if_pos h]; exact ⟨Or.inr rfl, asym _ _ h, irr _⟩
  · rw [if_neg h]; exact ⟨Or.inl rfl, irr _, by simpa using h⟩

/-- **C65** Two runs with finite likelihoods in the first attempt: the larger one is returned, with the vector it belongs to. If one run ended where the factorisation fails, the other is returned. -/
theorem C65_better_of_two {floor : K} {nb fuel : ℕ} {vs : List Θ} {x1 x2 : Θ} {v1 v2 : K} (h0 : att 0 = .done vs x1 x2) :
    (rlf x1 = .fin v1 → rlf x2 = .fin v2 → ∃ s θ, optimize rlf floor nb (fuel + 1) att = some (.returned s 1) ∧ s.best = some θ ∧ (θ = x1 ∨ θ = x2) ∧ rlf θ = .fin (max v1 v2) ∧ s.bestVal = max v1 v2) ∧
    (rlf x1 = .fin v1 → rlf x2 = .ninf → ∃ s, optimize rlf floor nb (fuel + 1) att = some (.returned s 1) ∧ s.best = some x1 ∧ s.bestVal = v1) ∧
    (rlf x1 = .ninf → rlf x2 = .fin v2 → ∃ s, optimize rlf floor nb (fuel + 1) att = some (.returned s 1) ∧ s.best = some x2 ∧ s.bestVal = v2) := by
  refine ⟨fun h1 h2 => ?_, fun h1 h2 => ?_, fun h1 h2 => ?_⟩
  · rcases lt_or_ge v1 v2 with h | h
    · have hp : pick rlf x1 x2 = x2 := by unfold pick; rw [h1, h2]; simp [Val.lt, h]
      obtain ⟨s, a, b, c, -⟩ := C65_first_success (rlf := rlf) (floor := floor) (nb := nb) (fuel := fuel) h0 (v := v2) (by rw [hp, h2])
      exact ⟨s, x2, a, by rw [b, hp], Or.inr rfl, by rw [h2, max_eq_right h.le], by rw [c, max_eq_right h.le]⟩
    · have hp : pick rlf x1 x2 = x1 := by unfold pick; rw [h1, h2]; simp [Val.lt, h]
      obtain ⟨s, a, b, c, -⟩ := C65_first_success (rlf := rlf) (floor := floor) (nb := nb) (fuel := fuel) h0 (v := v1) (by rw [hp, h1])
      exact ⟨s, x1, a, by rw [b, hp], Or.inl rfl, by rw [h1, max_eq_left h], by rw [c, max_eq_left h]⟩
  · have hp : pick rlf x1 x2 = x1 := by unfold pick; rw [h1, h2]; simp [Val.lt]
    obtain ⟨s, a, b, c, -⟩ := C65_first_success (rlf := rlf) (floor := floor) (nb := nb) (fuel := fuel) h0 (v := v1) (by rw [hp, h1])
    exact ⟨s, a, by rw [b, hp], c⟩
  · have hp : pick rlf x1 x2 = x2 := by unfold pick; rw [h1, h2]; simp [Val.lt]
    obtain ⟨s, a, b, c, -⟩ := C65_first_success (rlf := rlf) (floor := floor) (nb := nb) (fuel := fuel) h0 (v := v2) (by rw [hp, h2])
    exact ⟨s, a, by rw [b, hp], c⟩

example : ∃ s θ, optimize (fun x : ℕ => Val.fin x) 0 5 1 (fun _ => .done [] 3 7) = some (.returned s 1) ∧ s.best = some θ ∧ (θ = 3 ∨ θ = 7) ∧ (Val.fin θ) = Val.fin (max 3 7) ∧ s.bestVal = max 3 7 :=
  (C65_better_of_two (att := fun _ => .done [] 3 7) (fuel := 0) rfl).1 rfl rfl

theorem after_best_none {s : St Θ K} {a : Attempt Θ} (h : s.best = none) : (after rlf s a).best = none := (after_fields s a).2.2.2.2.trans h

/-- **C65** If no hyper-parameter vector has a finite likelihood, training never succeeds. -/
theorem C65_never_finite {floor : K} {nb fuel n : ℕ} {s : St Θ K} (hinf : ∀ θ v, rlf θ ≠ .fin v) : optimize rlf floor nb fuel att ≠ some (.returned s n) := by
  intro h
  have := loop_inv (P := fun i s => Meaning rlf floor (Seen rlf att i) s ∧ s.k < s.stop) (fun i s s' ⟨hP, hr⟩ _ hc => ?_) fuel 0 _ ⟨init_meaning floor nb, by simp [init]⟩ h
  · exact this.2 this.1.2
  refine ⟨step_meaning hP hc, ?_⟩
  have hnb : ∀ t : St Θ K, ∀ j, Meaning rlf floor (Seen rlf att j) t → t.best = none := fun t j ht => by
    cases hb : t.best with
    | none => rfl
    | some θ => exact absurd (ht.bestSome θ hb).2 (hinf _ _)
  have hh : ∀ t : St Θ K, t.best = none → t.k < t.stop → handler t = .cont s' → s'.k < s'.stop := fun t hb hr hc => by
    rcases handler_cont hc with ⟨-, -, h3, h4, -⟩ | ⟨-, h2, -⟩
    · omega
    · exact absurd hb h2
  have hb := hnb s i hP
  obtain ⟨f1, f2, f3, f4, f5⟩ := after_fields (rlf := rlf) s (att i)
  cases e : att i with
  | fatal vs => rw [e, step_fatal] at hc; simp at hc
  | raises vs =>
    rw [e] at hc f2 f3 f5
    exact hh _ (f5.trans hb) (by omega) hc
  | done vs x1 x2 =>
    rw [e] at hc f2 f3 f5
    rw [step_done] at hc
    have hv : (rlf (pick rlf x1 x2)).finite? = none := finite_none.2 (hinf _)
    simp only [hv] at hc
    split at hc
    · split at hc
      · exact hh { after rlf s (.done vs x1 x2) with stop := s.stop + 1, k := s.k } (f5.trans hb) (by simp; omega) hc
      · obtain rfl := Out.cont.inj hc; simp; omega
    · obtain rfl := Out.cont.inj hc; simp; omega

theorem all_inf_tail (hinf : ∀ θ v, rlf θ ≠ .fin v) (hd : ∀ i, ∃ vs x1 x2, att i = .done vs x1 x2) :
    ∀ (m fuel i : ℕ) (s : St Θ K), s.mem = none → s.best = none → 0 < s.k → s.k < s.stop → maxRetry < s.stop + 1 → s.nbIll = m → m + 1 ≤ fuel →
      ∃ s', loop rlf att fuel i s = some (.failed s' (i + m + 1)) := by
  have hv : ∀ θ, (rlf θ).finite? = none := fun θ => finite_none.2 (hinf _)
  have hmem : ∀ (vs : List Θ) (s : St Θ K), (vs.foldl (visit rlf) s) = s := fun vs => by
    induction vs with
    | nil => intro s; rfl
    | cons θ vs ih => intro s; rw [List.foldl_cons, show visit rlf s θ = s by simp [visit, hv]]; exact ih s
  intro m
  induction m with
  | zero =>
    intro fuel i s h1 h2 h3 h4 h5 h6 h7
    obtain ⟨vs, x1, x2, e⟩ := hd i
    obtain ⟨fuel, rfl⟩ : ∃ f, fuel = f + 1 := ⟨fuel - 1, by omega⟩
    refine ⟨{ s with stop := s.stop + 1 }, ?_⟩
    rw [loop, if_pos h4]
    simp only [e, step_done, h3, if_true, hv, after, hmem, h5, handler, h6, h2, Nat.lt_irrefl, if_false, Option.isNone_none]
  | succ m ih =>
    intro fuel i s h1 h2 h3 h4 h5 h6 h7
    obtain ⟨vs, x1, x2, e⟩ := hd i
    obtain ⟨fuel, rfl⟩ : ∃ f, fuel = f + 1 := ⟨fuel - 1, by omega⟩
    obtain ⟨s', hs'⟩ := ih fuel (i + 1) { s with nbIll := m, k := s.k + 1, stop := s.stop + 2 } h1 h2 (by simp) (by simp; omega) (by simp; omega) rfl (by omega)
    refine ⟨s', ?_⟩
    rw [loop, if_pos h4]
    simp only [e, step_done, h3, if_true, hv, after, hmem, h5, handler, h6, h1, Nat.succ_pos, Nat.add_sub_cancel]
    rw [show i + (m + 1) + 1 = i + 1 + m + 1 by omega]
    rw [h1] at hs'
    exact hs'

theorem all_inf_mid (hinf : ∀ θ v, rlf θ ≠ .fin v) (hd : ∀ i, ∃ vs x1 x2, att i = .done vs x1 x2) :
    ∀ (d fuel i : ℕ) (s : St Θ K), s.mem = none → s.best = none → 0 < s.k → s.k < s.stop → s.stop + d = maxRetry → d + s.nbIll + 1 ≤ fuel →
      ∃ s', loop rlf att fuel i s = some (.failed s' (i + d + s.nbIll + 1)) := by
  have hv : ∀ θ, (rlf θ).finite? = none := fun θ => finite_none.2 (hinf _)
  have hmem : ∀ (vs : List Θ) (s : St Θ K), (vs.foldl (visit rlf) s) = s := fun vs => by
    induction vs with
    | nil => intro s; rfl
    | cons θ vs ih => intro s; rw [List.foldl_cons, show visit rlf s θ = s by simp [visit, hv]]; exact ih s
  intro d
  induction d with
  | zero => intro fuel i s h1 h2 h3 h4 h5 h6; exact all_inf_tail hinf hd _ fuel i s h1 h2 h3 h4 (by omega) rfl (by omega)
  | succ d ih =>
    intro fuel i s h1 h2 h3 h4 h5 h6
    obtain ⟨vs, x1, x2, e⟩ := hd i
    obtain ⟨fuel, rfl⟩ : ∃ f, fuel = f + 1 := ⟨fuel - 1, by omega⟩
    obtain ⟨s', hs'⟩ := ih fuel (i + 1) { s with stop := s.stop + 1, k := s.k + 1 } h1 h2 (by simp) (by simp; omega) (by simp; omega) (by simp; omega)
    refine ⟨s', ?_⟩
    rw [loop, if_pos h4]
    simp only [e, step_done, h3, if_true, hv, after, hmem, if_neg (show ¬ maxRetry < s.stop + 1 by omega)]
    rw [show i + (d + 1) + s.nbIll + 1 = i + 1 + d + s.nbIll + 1 by omega]
    exact hs'

/-- **C65** "10 attempts to train the model failed" is raised inside the `try` whose `except` catches it: with an optimiser that always returns a point of infinite likelihood, the loop
raises after `10 + nb_ill_matrix` attempts (15 for a new object). -/
theorem C65_all_infinite {floor : K} {nb fuel : ℕ} (hinf : ∀ θ v, rlf θ ≠ .fin v) (hd : ∀ i, ∃ vs x1 x2, att i = .done vs x1 x2) (hf : 10 + nb ≤ fuel) :
    ∃ s, optimize rlf floor nb fuel att = some (.failed s (10 + nb)) := by
  have hv : ∀ θ, (rlf θ).finite? = none := fun θ => finite_none.2 (hinf _)
  have hmem : ∀ (vs : List Θ) (s : St Θ K), (vs.foldl (visit rlf) s) = s := fun vs => by
    induction vs with
    | nil => intro s; rfl
    | cons θ vs ih => intro s; rw [List.foldl_cons, show visit rlf s θ = s by simp [visit, hv]]; exact ih s
  obtain ⟨vs, x1, x2, e⟩ := hd 0
  obtain ⟨fuel, rfl⟩ : ∃ f, fuel = f + 1 := ⟨fuel - 1, by omega⟩
  obtain ⟨s', hs'⟩ := all_inf_mid hinf hd 8 fuel 1 { (init floor nb : St Θ K) with stop := 2, k := 1 } rfl rfl (by simp) (by simp) rfl (by simp [init]; omega)
  refine ⟨s', ?_⟩
  unfold optimize
  rw [loop, if_pos (by simp [init])]
  simp only [e, step_done, init, Nat.lt_irrefl, if_false, hv, after, hmem]
  rw [show 10 + nb = 1 + 8 + nb + 1 by omega]
  exact hs'

/-- **C65** A normal return without any parameters (`best_optimal_par = []`, the model is left unusable) happens only although a finite likelihood was found: the last attempt was worse than
a vector evaluated before. -/
theorem C65_untrained {floor : K} {nb fuel n : ℕ} {s : St Θ K} (h : optimize rlf floor nb fuel att = some (.returned s n)) (hb : s.best = none) :
    ∃ x v θ b, Seen rlf att n x ∧ rlf x = .fin v ∧ Seen rlf att n θ ∧ rlf θ = .fin b ∧ (v < b ∨ v ≤ floor) := by
  have mono : ∀ i t, Seen rlf att i t → Seen rlf att (i + 1) t := fun i t ⟨j, hj, ht⟩ => ⟨j, by omega, ht⟩
  have := loop_inv (P := fun i s => Meaning rlf floor (Seen rlf att i) s ∧ (s.best = none → s.k < s.stop ∨
      ∃ x v θ b, Seen rlf att i x ∧ rlf x = .fin v ∧ Seen rlf att i θ ∧ rlf θ = .fin b ∧ (v < b ∨ v ≤ floor)))
    (fun i s s' ⟨hP, hw⟩ hr hc => ?_) fuel 0 _ ⟨init_meaning floor nb, fun _ => Or.inl (by simp [init])⟩ h
  · exact (this.1.2 hb).resolve_left this.2
  refine ⟨step_meaning hP hc, fun hb' => ?_⟩
  have hh : ∀ t : St Θ K, t.k < t.stop → handler t = .cont s' → s'.k < s'.stop := fun t hr hc => by
    rcases handler_cont hc with ⟨-, -, h3, h4, -⟩ | ⟨-, h2, rfl⟩
    · omega
    · exact absurd hb' h2
  have ha := after_meaning hP
  obtain ⟨f1, f2, f3, f4, f5⟩ := after_fields (rlf := rlf) s (att i)
  cases e : att i with
  | fatal vs => rw [e, step_fatal] at hc; simp at hc
  | raises vs =>
    rw [e] at hc f2 f3 f5
    rw [step_raises] at hc
    exact Or.inl (hh _ (by omega) hc)
  | done vs x1 x2 =>
    rw [e] at hc f2 f3 f4 f5 ha
    rw [step_done] at hc
    simp only [] at hc
    have hp : Seen rlf att (i + 1) (pick rlf x1 x2) := ⟨i, by omega, by rw [e]; simp [evaluated]⟩
    by_cases hk : 0 < s.k
    · simp only [hk, if_true] at hc
      cases hv : (rlf (pick rlf x1 x2)).finite? with
      | none =>
        simp only [hv] at hc
        by_cases hs : maxRetry < s.stop + 1
        · rw [if_pos hs] at hc
          exact Or.inl (hh { after rlf s (.done vs x1 x2) with stop := s.stop + 1, k := s.k } (by simp; omega) hc)
        · rw [if_neg hs] at hc
          obtain rfl := Out.cont.inj hc
          exact Or.inl (by simp; omega)
      | some v =>
        simp only [hv] at hc
        obtain rfl := Out.cont.inj hc
        right
        have hfin := finite_some.1 hv
        have hcb : (compare (after rlf s (.done vs x1 x2)) (pick rlf x1 x2) v).best = none := hb'
        cases hm : (after rlf s (.done vs x1 x2)).mem with
        | none => exact absurd hfin (ha.memNone hm _ hp v)
        | some q =>
          obtain ⟨b, θ⟩ := q
          obtain ⟨a1, a2, a3⟩ := ha.memSome b θ hm
          refine ⟨pick rlf x1 x2, v, θ, b, hp, hfin, a1, a2, ?_⟩
          by_cases hbv : b ≤ v
          · right
            by_contra hlt
            have hs0 : s.best = none := by
              cases hsb : s.best with
              | none => rfl
              | some t =>
                exfalso
                unfold compare at hcb
                simp only [hm] at hcb
                rw [if_pos hbv] at hcb
                split at hcb
                · simp at hcb
                · split at hcb
                  · simp at hcb
                  · rw [f5, hsb] at hcb; simp at hcb
            have hbv2 : (after rlf s (.done vs x1 x2)).bestVal < v := by rw [f4, hP.bestNone hs0]; exact not_le.1 hlt
            unfold compare at hcb
            simp only [hm] at hcb
            rw [if_pos hbv, if_pos hbv2] at hcb
            simp at hcb
          · exact Or.inl (not_le.1 hbv)
    · simp only [hk, if_false] at hc
      cases hv : (rlf (pick rlf x1 x2)).finite? with
      | none =>
        simp only [hv] at hc
        obtain rfl := Out.cont.inj hc
        exact Or.inl (by simp; omega)
      | some v =>
        simp only [hv] at hc
        obtain rfl := Out.cont.inj hc
        simp at hb'

theorem raise_tail : ∀ (m fuel i : ℕ) (s : St Θ K) (floor : K), (∀ j, i ≤ j → ∃ vs, att j = .raises vs) → Meaning rlf floor (Seen rlf att i) s → (s.best ≠ none → floor < s.bestVal) →
    s.k < s.stop → s.nbIll = m → m + 1 ≤ fuel → (m = 0 → ∀ θ v, Seen rlf att i θ → rlf θ = .fin v → v ≤ s.bestVal) →
    ∃ s', loop rlf att fuel i s = some (if s'.best = none then .failed s' (i + m + 1) else .returned s' (i + m + 1)) ∧
      (∀ θ v, Seen rlf att (i + m) θ → rlf θ = .fin v → v ≤ s'.bestVal) ∧ (s'.best = none → s'.bestVal = floor) ∧
      (∀ θ, s'.best = some θ → Seen rlf att (i + m) θ ∧ rlf θ = .fin s'.bestVal ∧ floor < s'.bestVal) := by
  intro m
  induction m with
  | zero =>
    intro fuel i s floor hr hM hfl hk hnb hf hJ
    obtain ⟨vs, e⟩ := hr i le_rfl
    obtain ⟨fuel, rfl⟩ : ∃ f, fuel = f + 1 := ⟨fuel - 1, by omega⟩
    obtain ⟨f1, f2, f3, f4, f5⟩ := after_fields (rlf := rlf) s (.raises vs)
    cases hb : s.best with
    | none =>
      refine ⟨after rlf s (.raises vs), ?_, fun θ v h1 h2 => by rw [f4]; exact hJ rfl θ v h1 h2, fun _ => by rw [f4]; exact hM.bestNone hb, fun θ h => by rw [f5, hb] at h; simp at h⟩
      rw [if_pos (f5.trans hb), loop, if_pos hk]
      simp only [e, step_raises, handler, f1, hnb, Nat.lt_irrefl, if_false, f5, hb, Option.isNone_none, if_true]
    | some θ =>
      refine ⟨{ after rlf s (.raises vs) with k := (after rlf s (.raises vs)).stop + 1 }, ?_, fun θ v h1 h2 => ?_, fun h => by simp [f5, hb] at h, fun t h => ?_⟩
      · rw [if_neg (by simp [f5, hb]), loop, if_pos hk]
        simp only [e, step_raises, handler, f1, hnb, Nat.lt_irrefl, if_false, f5, hb, Option.isNone_some, Bool.false_eq_true]
        rw [loop_done (by simp)]
      · simp only [f4]; exact hJ rfl θ v h1 h2
      · simp only [f4]
        simp only [f5, hb] at h
        obtain rfl := Option.some.inj h
        exact ⟨(hM.bestSome θ hb).1, (hM.bestSome θ hb).2, hfl (by simp [hb])⟩
  | succ m ih =>
    intro fuel i s floor hr hM hfl hk hnb hf hJ
    obtain ⟨vs, e⟩ := hr i le_rfl
    obtain ⟨fuel, rfl⟩ : ∃ f, fuel = f + 1 := ⟨fuel - 1, by omega⟩
    obtain ⟨f1, f2, f3, f4, f5⟩ := after_fields (rlf := rlf) s (.raises vs)
    have ha := after_meaning hM
    rw [e] at ha
    have hc : ∃ s1, handler (after rlf s (.raises vs)) = .cont s1 := by
      cases hh : handler (after rlf s (.raises vs)) with
      | cont s1 => exact ⟨s1, rfl⟩
      | fail s1 => have := (handler_fail hh).1; omega
      | crash s1 => exact absurd hh handler_not_crash
    obtain ⟨s1, hc⟩ := hc
    have hM1 := handler_meaning ha hc
    rcases handler_cont hc with ⟨g1, g2, g3, g4, g5, g6⟩ | ⟨g1, -, -⟩
    · have hall : ∀ θ v, Seen rlf att (i + 1) θ → rlf θ = .fin v → v ≤ s1.bestVal := fun θ v h1 h2 => by
        rcases g6 with ⟨n1, -, -⟩ | ⟨b, t, n1, ⟨n2, -, n4⟩ | ⟨n2, -, n4⟩⟩
        · exact absurd h2 (ha.memNone n1 θ h1 v)
        · rw [n4]; exact (ha.memSome b t n1).2.2 θ h1 v h2
        · rw [n4]; exact ((ha.memSome b t n1).2.2 θ h1 v h2).trans n2
      have hfl1 : s1.best ≠ none → floor < s1.bestVal := fun hne => by
        have hle : floor ≤ (after rlf s (.raises vs)).bestVal := by
          rw [f4]
          cases hsb : s.best with
          | none => exact (hM.bestNone hsb).ge
          | some t => exact (hfl (by simp [hsb])).le
        rcases g6 with ⟨-, n2, n3⟩ | ⟨b, t, n1, ⟨n2, -, n4⟩ | ⟨n2, n3, n4⟩⟩
        · rw [n3, f4]; exact hfl (by rw [← f5, ← n2]; exact hne)
        · rw [n4]; exact hle.trans_lt n2
        · rw [n4, f4]; exact hfl (by rw [← f5, ← n3]; exact hne)
      obtain ⟨s', h1, h2, h3, h4⟩ := ih fuel (i + 1) s1 floor (fun j hj => hr j (by omega)) hM1 hfl1 (by omega) (by omega) (by omega) (fun _ => hall)
      refine ⟨s', ?_, ?_, h3, ?_⟩
      · rw [loop, if_pos hk]
        simp only [e, step_raises, hc]
        rw [h1, show i + 1 + m + 1 = i + (m + 1) + 1 by omega]
      · rw [show i + (m + 1) = i + 1 + m by omega]; exact h2
      · rw [show i + (m + 1) = i + 1 + m by omega]; exact h4
    · omega

/-- **C65** An optimiser that always raises: after `nb_ill_matrix + 1` attempts the loop returns a best vector among all those evaluated in the first `nb_ill_matrix` attempts, or raises if
none of these has a likelihood above `-1e20`. -/
theorem C65_all_raise {floor : K} {nb fuel : ℕ} (hr : ∀ j, ∃ vs, att j = .raises vs) (hf : nb + 1 ≤ fuel) :
    ∃ s, (optimize rlf floor nb fuel att = some (.failed s (nb + 1)) ∧ ∀ θ v, Seen rlf att nb θ → rlf θ = .fin v → v ≤ floor) ∨
      (∃ θ, optimize rlf floor nb fuel att = some (.returned s (nb + 1)) ∧ s.best = some θ ∧ Seen rlf att nb θ ∧ rlf θ = .fin s.bestVal ∧ floor < s.bestVal ∧
        ∀ θ' v, Seen rlf att nb θ' → rlf θ' = .fin v → v ≤ s.bestVal) := by
  obtain ⟨s, h1, h2, h3, h4⟩ := raise_tail nb fuel 0 (init floor nb) floor (fun j _ => hr j) (init_meaning floor nb) (fun h => absurd rfl h) (by simp [init]) rfl hf
    (fun _ θ v h => by obtain ⟨j, hj, _⟩ := h; omega)
  rw [zero_add] at h1 h2 h4
  refine ⟨s, ?_⟩
  cases hb : s.best with
  | none =>
    rw [if_pos hb] at h1
    exact Or.inl ⟨h1, fun θ v a b => h3 hb ▸ h2 θ v a b⟩
  | some θ =>
    rw [if_neg (by simp [hb])] at h1
    obtain ⟨a1, a2, a3⟩ := h4 θ hb
    exact Or.inr ⟨θ, h1, rfl, a1, a2, a3, h2⟩

/-- **C65** Once the budget is used up an attempt that raises before any success ends training at once, whatever it had found. -/
theorem C65_no_budget {floor : K} {fuel : ℕ} {vs : List Θ} (h0 : att 0 = .raises vs) : ∃ s, optimize rlf floor 0 (fuel + 1) att = some (.failed s 1) := by
  obtain ⟨f1, f2, f3, f4, f5⟩ := after_fields (rlf := rlf) (init floor 0) (.raises vs)
  refine ⟨after rlf (init floor 0) (.raises vs), ?_⟩
  unfold optimize
  rw [loop, if_pos (by simp [init])]
  simp only [h0, step_raises, handler, f1, f5]
  simp [init]

theorem handler_nb {s s' : St Θ K} (h : handler s = .cont s') : s'.nbIll ≤ s.nbIll := by
  rcases handler_cont h with ⟨-, h2, -⟩ | ⟨-, -, rfl⟩
  · omega
  · exact le_rfl

theorem step_nb {s : St Θ K} {a : Attempt Θ} : (∀ s', step rlf s a = .cont s' → s'.nbIll ≤ s.nbIll) ∧ (∀ s', step rlf s a = .fail s' → s.nbIll = 0 ∧ s'.nbIll = 0) ∧
    (∀ s', step rlf s a = .crash s' → s'.nbIll = s.nbIll) := by
  obtain ⟨f1, f2, f3, f4, f5⟩ := after_fields (rlf := rlf) s a
  have hh : ∀ t : St Θ K, t.nbIll = s.nbIll → (∀ s', handler t = .cont s' → s'.nbIll ≤ s.nbIll) ∧ (∀ s', handler t = .fail s' → s.nbIll = 0 ∧ s'.nbIll = 0) ∧
      (∀ s', handler t = .crash s' → s'.nbIll = s.nbIll) := fun t ht => by
    refine ⟨fun s' hc => ht ▸ handler_nb hc, fun s' hc => ?_, fun s' hc => absurd hc handler_not_crash⟩
    obtain ⟨h1, -, rfl⟩ := handler_fail hc
    exact ⟨ht ▸ h1, h1⟩
  cases a with
  | fatal vs => rw [step_fatal]; exact ⟨by simp, by simp, fun s' h => by obtain rfl := Out.crash.inj h; exact f1⟩
  | raises vs => rw [step_raises]; exact hh _ f1
  | done vs x1 x2 =>
    rw [step_done]
    simp only []
    by_cases hk : 0 < s.k
    · simp only [hk, if_true]
      cases hv : (rlf (pick rlf x1 x2)).finite? with
      | none =>
        simp only []
        by_cases hs : maxRetry < s.stop + 1
        · rw [if_pos hs]; exact hh { after rlf s (.done vs x1 x2) with stop := s.stop + 1, k := s.k } f1
        · rw [if_neg hs]; exact ⟨fun s' h => by obtain rfl := Out.cont.inj h; exact f1.le, by simp, by simp⟩
      | some v => exact ⟨fun s' h => by obtain rfl := Out.cont.inj h; exact ((compare_fields _ _ _).1.trans f1).le, by simp, by simp⟩
    · simp only [hk, if_false]
      cases hv : (rlf (pick rlf x1 x2)).finite? with
      | none => exact ⟨fun s' h => by obtain rfl := Out.cont.inj h; exact f1.le, by simp, by simp⟩
      | some v => exact ⟨fun s' h => by obtain rfl := Out.cont.inj h; exact f1.le, by simp, by simp⟩

/-- **C65** The budget is never restored: it does not grow in a training, and a training that ends in the `ValueError` leaves it at 0 ... -/
theorem C65_budget {floor : K} {nb fuel : ℕ} {r : Res Θ K} (h : optimize rlf floor nb fuel att = some r) : r.nbIll ≤ nb ∧ ∀ s n, r = .failed s n → r.nbIll = 0 := by
  have key := loop_inv (P := fun _ s => s.nbIll ≤ nb) (fun i s s' hP _ hc => (step_nb.1 s' hc).trans hP) fuel 0 _ (show (init floor nb : St Θ K).nbIll ≤ nb from le_rfl) h
  cases r with
  | returned s n => exact ⟨key.1, by simp⟩
  | failed s n =>
    obtain ⟨m, s0, -, -, -, hs⟩ := key
    have := step_nb.2.1 s hs
    exact ⟨by simp [Res.nbIll, this.2], fun s' n' e => by obtain ⟨rfl, rfl⟩ := Res.failed.inj e; exact this.2⟩
  | crashed s n =>
    obtain ⟨m, s0, -, h0, -, hs⟩ := key
    have h1 : s.nbIll = s0.nbIll := step_nb.2.2 s hs
    exact ⟨h1.le.trans h0, by simp⟩

/-- **C65** ... so after one failed training, all later trainings of the object run without any tolerance for exceptions. -/
theorem C65_after_failure {floor : K} {nb fuel n : ℕ} {s : St Θ K} (rest : List ((Θ → Val K) × ℕ × (ℕ → Attempt Θ))) (h : optimize rlf floor nb fuel att = some (.failed s n)) :
    trainings floor nb ((rlf, fuel, att) :: rest) = some (.failed s n) :: trainings floor 0 rest := by
  have := (C65_budget h).2 s n rfl
  simp only [trainings, h, Option.map_some, Option.getD_some, this]

/-! ## Starting points -/

/-- **C65** The start is within the bounds, whatever `theta0`. -/
theorem C65_start_in_bounds {F : Type} [Field F] [LinearOrder F] [IsStrictOrderedRing F] {lo hi rand : F} (h : lo ≤ hi) (h0 : 0 ≤ rand) (h1 : rand ≤ 1) (θ ν : F) :
    (lo ≤ startTheta lo hi rand θ ∧ startTheta lo hi rand θ ≤ hi) ∧ (lo ≤ startNoise lo hi ν ∧ startNoise lo hi ν ≤ hi) ∧
      (lo ≤ θ → θ ≤ hi → startTheta lo hi rand θ = θ) := by
  refine ⟨?_, ?_, fun a b => by rw [startTheta, if_neg (by rintro (c | c) <;> [exact absurd a (not_le.2 c); exact absurd b (not_le.2 c)])]⟩
  · unfold startTheta
    split
    · have := mul_nonneg h0 (sub_nonneg.2 h)
      have := mul_nonneg (sub_nonneg.2 h1) (sub_nonneg.2 h)
      constructor <;> nlinarith
    · rename_i hn
      push Not at hn
      exact hn
  · unfold startNoise
    simp only []
    split_ifs with c1 c2 c2
    · exact ⟨le_rfl, h⟩
    · exact ⟨le_rfl, h⟩
    · exact ⟨le_rfl, h⟩
    · push Not at c2; exact c2

/-- **C65** With noise estimation the start vector of attempt `j` has `j + 1` noise entries. -/
theorem C65_start_length {F : Type} (theta0 noise0 : List F) (j : ℕ) : (startVec theta0 noise0 j).length = theta0.length + (j + 1) * noise0.length := by
  induction j with
  | zero => simp [startVec]
  | succ j ih => rw [startVec, List.length_append, ih]; ring

/-- **C65** Hence with one noise parameter every evaluation of a retry raises a `ValueError` (unless the number of training points happens to be `j + 1`). -/
theorem C65_noise_retries {F : Type} (theta0 noise0 : List F) (hn : noise0.length = 1) {nt : ℕ} (ht : 2 ≤ nt) (j : ℕ) :
    shapeOk theta0.length nt (startVec theta0 noise0 j).length = decide (j = 0 ∨ j + 1 = nt) := by
  rw [C65_start_length, hn]
  simp only [shapeOk, decide_eq_decide]
  omega

/-- **C65** When all retries raise without evaluating anything - noise estimation - the retries only select the best vector evaluated in the first attempt, or fail. -/
theorem C65_retries_useless {floor : K} {nb fuel : ℕ} (hr : ∀ j, 1 ≤ j → att j = .raises []) {vs : List Θ} {x1 x2 : Θ} (h0 : att 0 = .done vs x1 x2) (hinf : ∀ v, rlf (pick rlf x1 x2) ≠ .fin v)
    (hf : nb + 3 ≤ fuel) :
    ∃ s, (optimize rlf floor (nb + 1) fuel att = some (.failed s (nb + 3)) ∧ ∀ θ v, θ ∈ vs → rlf θ = .fin v → v ≤ floor) ∨
      (∃ θ, optimize rlf floor (nb + 1) fuel att = some (.returned s (nb + 3)) ∧ s.best = some θ ∧ θ ∈ vs ∧ rlf θ = .fin s.bestVal ∧ ∀ θ' v, θ' ∈ vs → rlf θ' = .fin v → v ≤ s.bestVal) := by
  obtain ⟨fuel, rfl⟩ : ∃ f, fuel = f + 1 := ⟨fuel - 1, by omega⟩
  have ha := after_meaning (att := att) (init_meaning (rlf := rlf) (att := att) floor (nb + 1))
  obtain ⟨f1, f2, f3, f4, f5⟩ := after_fields (rlf := rlf) (init floor (nb + 1)) (att 0)
  obtain ⟨s, h1, h2, h3, h4⟩ := raise_tail (rlf := rlf) (att := att) (nb + 1) fuel 1 { after rlf (init floor (nb + 1)) (att 0) with stop := 2, k := 1 } floor (fun j hj => ⟨[], hr j hj⟩)
    (ha.fields rfl rfl rfl) (fun h => absurd (f5.trans rfl) h) (by simp) f1 (by omega) (fun h => by omega)
  have hopt : optimize rlf floor (nb + 1) (fuel + 1) att = loop rlf att fuel 1 { after rlf (init floor (nb + 1)) (att 0) with stop := 2, k := 1 } := by
    unfold optimize
    rw [loop, if_pos (by simp [init])]
    rw [h0, step_done]
    simp only [init, Nat.lt_irrefl, if_false, finite_none.2 hinf]
  have hseen : ∀ θ v, rlf θ = .fin v → (Seen rlf att (1 + (nb + 1)) θ ↔ θ ∈ vs) := fun θ v hv => by
    constructor
    · rintro ⟨j, hj, ht⟩
      rcases Nat.eq_zero_or_pos j with rfl | hj0
      · rw [h0] at ht
        simp only [evaluated, List.mem_append, List.mem_singleton] at ht
        rcases ht with ht | rfl
        · exact ht
        · exact absurd hv (hinf v)
      · rw [hr j hj0] at ht; simp [evaluated] at ht
    · intro ht; exact ⟨0, by omega, by rw [h0]; simp [evaluated, ht]⟩
  rw [hopt, h1, show 1 + (nb + 1) + 1 = nb + 3 by omega]
  refine ⟨s, ?_⟩
  cases hb : s.best with
  | none => exact Or.inl ⟨by rw [if_pos rfl], fun θ v a b => h3 hb ▸ h2 θ v ((hseen θ v b).2 a) b⟩
  | some θ =>
    obtain ⟨a1, a2, a3⟩ := h4 θ hb
    exact Or.inr ⟨θ, by rw [if_neg (by simp)], rfl, (hseen θ _ a2).1 a1, a2, fun t v c d => h2 t v ((hseen t v d).2 c) d⟩

/-! ## Concrete runs -/

/-- The bound of `C65_terminates` is attained: nine infinite results, five infinite results at the retry limit, six finite ones. -/
example : (optimize (Θ := ℤ) (K := ℤ) (fun θ => if θ = 0 then .ninf else .fin θ) (-100) 5 30 (fun i => .done [] (if i < 14 then 0 else 1) (if i < 14 then 0 else 1))).map Res.attempts = some 20 := by
  decide +kernel

/-- A normal return without parameters although a vector of likelihood 5 was evaluated. -/
example : optimize (Θ := ℤ) (K := ℤ) (fun θ => if θ = 0 then .ninf else .fin θ) (-100) 5 30 (fun i => if i = 0 then .done [5] 0 0 else .done [] 3 3)
    = some (.returned { mem := some (5, 5), nbIll := 5, k := 2, stop := 2, bestVal := -100, best := none } 2) := by
  decide +kernel

/-- An optimiser that raises after evaluating 5 and 7: 7 is returned. -/
example : optimize (Θ := ℤ) (K := ℤ) (fun θ => .fin θ) (-100) 5 30 (fun i => .raises [5, 7]) = some (.returned { mem := some (7, 7), nbIll := 0, k := 7, stop := 6, bestVal := 7, best := some 7 } 6) := by
  decide +kernel

/-- A first success returns the optimiser's result 3 although 5 was evaluated. -/
example : (optimize (Θ := ℤ) (K := ℤ) (fun θ => .fin θ) (-100) 5 30 (fun i => .done [5] 3 3)).map (fun r => match r with | .returned s n => (s.best, n) | _ => (none, 0)) = some (some 3, 1) := by
  decide +kernel

/-- Nothing finite: 15 attempts. -/
example : (optimize (Θ := ℤ) (K := ℤ) (fun θ => .pinf) (-100) 5 30 (fun i => .done [5] 3 3)).map Res.attempts = some 15 := by
  decide +kernel

end SMT.Krg.Optim
