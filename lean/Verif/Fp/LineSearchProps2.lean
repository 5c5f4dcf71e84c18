import Verif.Fp.LineSearchProps

/-!
# Property C107: bracketed searches and the training of regularised splines in IEEE arithmetic
-/
set_option linter.unusedSectionVars false
set_option linter.unusedSimpArgs false
set_option linter.unusedVariables false

namespace SMT.Fp
open Srch

section
variable {K : Type} [Field K] [LinearOrder K] [IsStrictOrderedRing K] {n : ℕ} (F : Format K) (L : Srch K n)

/-! ## Bracketed searches -/

theorem zoom_sound (cm : Tr K → Tr K → Option (Tr K)) (r : X K) : ∀ (fuel : ℕ) (s1 s2 : Tr K), L.zoom F cm fuel s1 s2 = .step r →
    L.funcDec F r = true ∧ L.gradDec F r = true := by
  intro fuel
  induction fuel with
  | zero => intro s1 s2 h; cases h
  | succ m ih =>
    intro s1 s2 h
    rw [Srch.zoom] at h
    cases hc : cm s1 s2 with
    | none => rw [hc] at h; cases h
    | some s =>
      rw [hc] at h
      dsimp only at h
      split_ifs at h with h1 h2 h3
      · exact ih _ _ h
      · injection h with h
        subst h
        simp only [Bool.or_eq_true, Bool.not_eq_true', not_or] at h1
        exact ⟨by simpa using h1.1, h2⟩
      · exact ih _ _ h
      · exact ih _ _ h

/-- **C107** A step returned by any of the bracketed searches passes both tests as computed (so, along a direction that does not ascend, the
computed objective has not grown). -/
theorem C107_bracketed_sound (cm : Tr K → Tr K → Option (Tr K)) (fuel : ℕ) (a r : X K) (h : L.bracketed F cm fuel a = .step r) :
    L.funcDec F r = true ∧ L.gradDec F r = true := by
  have main : ∀ (it : ℕ) (s1 s2 : Tr K), L.bracket F cm fuel it s1 s2 = .step r → L.funcDec F r = true ∧ L.gradDec F r = true := by
    intro it
    induction it with
    | zero => intro s1 s2 h; cases h
    | succ m ih =>
      intro s1 s2 h
      rw [Srch.bracket] at h
      split_ifs at h with h1 h2 h3
      · exact zoom_sound F L cm r _ _ _ h
      · injection h with h
        subst h
        simp only [Bool.or_eq_true, Bool.not_eq_true', not_or] at h1
        exact ⟨by simpa using h1.1, h2⟩
      · exact zoom_sound F L cm r _ _ _ h
      · exact ih _ _ h
  exact main _ _ _ h

/-- **C107** A state that the zoom maps to itself is never left: the upper end is proposed again and rejected again ... -/
theorem C107_zoom_stuck_high (cm : Tr K → Tr K → Option (Tr K)) (s1 s2 : Tr K) (hc : cm s1 s2 = some s2)
    (h : L.funcDec F s2.a = false ∨ s1.p.lt s2.p = true) : ∀ fuel, L.zoom F cm fuel s1 s2 = .fuel := by
  intro fuel
  induction fuel with
  | zero => rfl
  | succ m ih =>
    rw [Srch.zoom, hc]
    dsimp only
    rw [if_pos (by rcases h with h | h <;> simp [h])]
    exact ih

/-- **C107** ... or the lower end is proposed again, passes the first test and fails the second. -/
theorem C107_zoom_stuck_low (cm : Tr K → Tr K → Option (Tr K)) (s1 s2 : Tr K) (hc : cm s1 s2 = some s1)
    (h1 : L.funcDec F s1.a = true) (h2 : s1.p.lt s1.p = false) (h3 : L.gradDec F s1.a = false)
    (h4 : (X.fin 0).le (F.mulX s1.dp (F.subX s2.a s1.a)) = false) : ∀ fuel, L.zoom F cm fuel s1 s2 = .fuel := by
  intro fuel
  induction fuel with
  | zero => rfl
  | succ m ih =>
    rw [Srch.zoom, hc]
    dsimp only
    rw [if_neg (by simp [h1, h2]), if_neg (by simp [h3]), if_neg (by simp [h4])]
    exact ih

/-- One pass of the zoom, as a map on its state (`none` when it leaves the loop). -/
def zstep (cm : Tr K → Tr K → Option (Tr K)) (st : Tr K × Tr K) : Option (Tr K × Tr K) :=
  match cm st.1 st.2 with
  | none => none
  | some s =>
    if !L.funcDec F s.a || st.1.p.lt s.p then some (st.1, s)
    else if L.gradDec F s.a then none
    else if (X.fin 0).le (F.mulX s.dp (F.subX st.2.a st.1.a)) then some (s, st.1)
    else some (s, st.2)

/-- `k` passes. -/
def zsteps (cm : Tr K → Tr K → Option (Tr K)) : ℕ → Tr K × Tr K → Option (Tr K × Tr K)
  | 0, st => some st
  | k + 1, st => (zstep F L cm st).bind (zsteps cm k)

theorem zoom_zstep (cm : Tr K → Tr K → Option (Tr K)) {st st' : Tr K × Tr K} (h : zstep F L cm st = some st') (fuel : ℕ) :
    L.zoom F cm (fuel + 1) st.1 st.2 = L.zoom F cm fuel st'.1 st'.2 := by
  rw [Srch.zoom]
  unfold zstep at h
  cases hc : cm st.1 st.2 with
  | none => rw [hc] at h; cases h
  | some s =>
    rw [hc] at h
    dsimp only at h ⊢
    split_ifs at h ⊢ with h1 h2 h3 <;> first | (injection h with h; subst h; rfl) | cases h

theorem zoom_zsteps (cm : Tr K → Tr K → Option (Tr K)) : ∀ (k : ℕ) {st st' : Tr K × Tr K}, zsteps F L cm k st = some st' →
    (∀ fuel, L.zoom F cm fuel st'.1 st'.2 = .fuel) → ∀ fuel, L.zoom F cm fuel st.1 st.2 = .fuel := by
  intro k
  induction k with
  | zero =>
    intro st st' h hf
    injection h with h
    subst h
    exact hf
  | succ k ih =>
    intro st st' h hf fuel
    rw [zsteps] at h
    cases hz : zstep F L cm st with
    | none => rw [hz] at h; cases h
    | some s =>
      rw [hz] at h
      cases fuel with
      | zero => rfl
      | succ m => rw [zoom_zstep F L cm hz, ih h hf]

/-- **C107** The zoom either is left after some number of passes or a state returns and it never ends: if the state after `k` passes is the
state after `k + j + 1` passes, the search never returns. -/
theorem C107_zoom_cycle (cm : Tr K → Tr K → Option (Tr K)) (j : ℕ) (st : Tr K × Tr K) (h : zsteps F L cm (j + 1) st = some st) :
    ∀ fuel, L.zoom F cm fuel st.1 st.2 = .fuel := by
  have main : ∀ (k : ℕ) (st' : Tr K × Tr K), zsteps F L cm k st' = some st → ∀ fuel, (∀ f < fuel, L.zoom F cm f st.1 st.2 = .fuel) →
      L.zoom F cm fuel st'.1 st'.2 = .fuel ∨ k = 0 := by
    intro k
    induction k with
    | zero => intro st' _ fuel _; right; rfl
    | succ k ih =>
      intro st' h' fuel hf
      left
      rw [zsteps] at h'
      cases hz : zstep F L cm st' with
      | none => rw [hz] at h'; cases h'
      | some s =>
        rw [hz] at h'
        cases fuel with
        | zero => rfl
        | succ m =>
          rw [zoom_zstep F L cm hz]
          rcases ih s h' m (fun f hf' => hf f (by omega)) with h1 | h1
          · exact h1
          · subst h1
            injection h' with h'
            subst h'
            exact hf m (by omega)
  intro fuel
  induction fuel using Nat.strong_induction_on with
  | _ fuel ih =>
    rcases main (j + 1) st h fuel ih with h1 | h1
    · exact h1
    · omega

/-! ## Training -/

/-- **C107** If the norm of the gradient is NaN (for instance because a training output is), the Newton loop is not entered: the solution
stays as it was and no matrix is stored. -/
theorem C107_newton_nan (dot : Vec K n → Vec K n → X K) (ls : LsX K n) (tol : X K) (o : Obj K n) (it : ℕ) (st : NwSt K n) (h : o.norm st.sol = .nan) :
    newtonX F dot ls tol o it st = .done st := by
  cases it with
  | zero => rfl
  | succ m =>
    rw [newtonX, h, if_neg]
    cases tol <;> exact Bool.false_ne_true

theorem runX_nan (dot : Vec K n → Vec K n → X K) (ls : LsX K n) (tol : X K) (it : ℕ) (m : Bool) : ∀ (l : List (Obj K n × Vec K n)),
    (∀ os ∈ l, os.1.norm os.2 = .nan) → runX F dot ls tol it l m = .done (l.map (·.2), m) := by
  intro l
  induction l with
  | nil => intro _; rfl
  | cons os l ih =>
    intro h
    obtain ⟨o, s⟩ := os
    rw [runX, C107_newton_nan F dot ls tol o it ⟨s, fun _ => .fin 0, m⟩ (h (o, s) (List.mem_cons_self ..))]
    show Run.bind (runX F dot ls tol it l m) _ = _
    rw [ih (fun os hos => h os (List.mem_cons_of_mem _ hos))]
    rfl

/-- **C107** If the gradient norms of every output at zero are NaN, in the start-up problem and in the user's, training a new object raises an
exception (`self.mtx` does not exist) and training one that was trained before ends normally with all unknowns zero, for every line search,
solver and option. -/
theorem C107_train_all_nan (dot : Vec K n → Vec K n → X K) (ls : LsX K n) (tol : X K) (maxiter : ℕ) (start user : List (Obj K n))
    (hl : start.length = user.length) (h1 : ∀ o ∈ start, o.norm (fun _ => .fin 0) = .nan) (h2 : ∀ o ∈ user, o.norm (fun _ => .fin 0) = .nan) :
    trainX F dot ls tol maxiter start user false = .raised ∧
    trainX F dot ls tol maxiter start user true = .done (user.map fun _ => fun _ => .fin 0) := by
  have hs : ∀ m, solveX F dot ls tol maxiter start user m = .done (user.map fun _ => fun _ => .fin 0, m) := by
    intro m
    unfold solveX
    rw [runX_nan F dot ls tol 1 m]
    swap
    · intro os hos
      rw [List.mem_map] at hos
      obtain ⟨o, ho, rfl⟩ := hos
      exact h1 o ho
    rw [List.map_map]
    show runX F dot ls tol maxiter (List.zip user (start.map fun _ => fun _ => .fin 0)) m = _
    have hz : ∀ (u s : List (Obj K n)), s.length = u.length →
        List.zip u (s.map fun _ => (fun _ => .fin 0 : Vec K n)) = u.map fun o => (o, fun _ => .fin 0) := by
      intro u
      induction u with
      | nil => intro s _; rfl
      | cons a u ih =>
        intro s hs
        cases s with
        | nil => cases hs
        | cons b s =>
          simp only [List.map_cons, List.zip_cons_cons]
          rw [ih s (by simpa using hs)]
    rw [hz user start hl, runX_nan F dot ls tol maxiter m]
    · rw [List.map_map]; rfl
    · intro os hos
      rw [List.mem_map] at hos
      obtain ⟨o, ho, rfl⟩ := hos
      exact h2 o ho
  constructor
  · unfold trainX; rw [hs]; rfl
  · unfold trainX; rw [hs]; rfl

/-- The outputs are trained independently of each other, except that a matrix stored for one serves all. -/
theorem runX_spec (dot : Vec K n → Vec K n → X K) (ls : LsX K n) (tol : X K) (it : ℕ) : ∀ (l : List (Obj K n × Vec K n)) (m : Bool) (r : List (Vec K n) × Bool),
    runX F dot ls tol it l m = .done r → List.Forall₂ (fun os s => ∀ m', ∃ st, newtonX F dot ls tol os.1 it ⟨os.2, fun _ => .fin 0, m'⟩ = .done st ∧ st.sol = s) l r.1 := by
  have hm : ∀ (o : Obj K n) (it : ℕ) (s d : Vec K n) (m m' : Bool) (st : NwSt K n), newtonX F dot ls tol o it ⟨s, d, m⟩ = .done st →
      ∃ st', newtonX F dot ls tol o it ⟨s, d, m'⟩ = .done st' ∧ st'.sol = st.sol := by
    intro o it
    cases it with
    | zero => intro s d m m' st h; injection h with h; subst h; exact ⟨_, rfl, rfl⟩
    | succ it =>
      intro s d m m' st h
      rw [newtonX] at h ⊢
      dsimp only at h ⊢
      split_ifs at h ⊢ with h1
      · exact ⟨st, h, rfl⟩
      · injection h with h; subst h; exact ⟨_, rfl, rfl⟩
  intro l
  induction l with
  | nil => intro m r h; injection h with h; subst h; exact List.Forall₂.nil
  | cons os l ih =>
    intro m r h
    obtain ⟨o, s⟩ := os
    rw [runX] at h
    cases hn : newtonX F dot ls tol o it ⟨s, fun _ => .fin 0, m⟩ with
    | raised => rw [hn] at h; cases h
    | hang => rw [hn] at h; cases h
    | done st =>
      rw [hn] at h
      change Run.bind (runX F dot ls tol it l st.mtx) _ = _ at h
      cases hr : runX F dot ls tol it l st.mtx with
      | raised => rw [hr] at h; cases h
      | hang => rw [hr] at h; cases h
      | done r' =>
        rw [hr] at h
        injection h with h
        subst h
        exact List.Forall₂.cons (fun m' => hm o it s _ m m' st hn) (ih _ _ hr)

/-- **C107** One NaN output among several goes unnoticed: whenever training ends normally, every output whose gradient norm at zero is NaN (in the
start-up problem and the user's) has all its unknowns zero. -/
theorem C107_train_one_nan (dot : Vec K n → Vec K n → X K) (ls : LsX K n) (tol : X K) (maxiter : ℕ) (start user : List (Obj K n)) (m : Bool)
    (sols : List (Vec K n)) (h : trainX F dot ls tol maxiter start user m = .done sols) (l : ℕ) (o o' : Obj K n) (ho : start[l]? = some o)
    (ho' : user[l]? = some o') (h1 : o.norm (fun _ => .fin 0) = .nan) (h2 : o'.norm (fun _ => .fin 0) = .nan) : sols[l]? = some fun _ => .fin 0 := by
  unfold trainX solveX at h
  cases hr : runX F dot ls tol 1 (start.map fun o => (o, fun _ => .fin 0)) m with
  | raised => rw [hr] at h; cases h
  | hang => rw [hr] at h; cases h
  | done r =>
    rw [hr] at h
    change Run.bind (runX F dot ls tol maxiter (List.zip user r.1) r.2) _ = _ at h
    cases hr2 : runX F dot ls tol maxiter (List.zip user r.1) r.2 with
    | raised => rw [hr2] at h; cases h
    | hang => rw [hr2] at h; cases h
    | done r' =>
      rw [hr2] at h
      change (if r'.2 then Run.done r'.1 else .raised) = _ at h
      split_ifs at h with hm
      injection h with h
      subst h
      have f1 := runX_spec F dot ls tol 1 _ m r hr
      have f2 := runX_spec F dot ls tol maxiter _ r.2 r' hr2
      have get : ∀ {α β : Type} {R : α → β → Prop} {a : List α} {b : List β}, List.Forall₂ R a b → ∀ (i : ℕ) (x : α), a[i]? = some x →
          ∃ y, b[i]? = some y ∧ R x y := by
        intro α β R a b hab
        induction hab with
        | nil => intro i x hx; simp at hx
        | cons hxy _ ih =>
          intro i x hx
          cases i with
          | zero => simp at hx; subst hx; exact ⟨_, rfl, hxy⟩
          | succ i => simpa using ih i x (by simpa using hx)
      obtain ⟨s, hs, hn⟩ := get f1 l (o, fun _ => .fin 0) (by rw [List.getElem?_map, ho]; rfl)
      obtain ⟨st, hst, rfl⟩ := hn true
      rw [C107_newton_nan F dot ls tol o 1 _ h1] at hst
      injection hst with hst
      subst hst
      obtain ⟨s', hs', hn'⟩ := get f2 l (o', fun _ => .fin 0) (by rw [List.getElem?_zip_eq_some]; exact ⟨ho', hs⟩)
      obtain ⟨st, hst, rfl⟩ := hn' true
      rw [C107_newton_nan F dot ls tol o' maxiter _ h2] at hst
      injection hst with hst
      subst hst
      exact hs'

end
end SMT.Fp
