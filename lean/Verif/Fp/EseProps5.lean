import Verif.Fp.EseProps4

/-!
# Property C106: the ESE optimisation in rounded arithmetic. The choice among the exchanges, coincident points, lost distances.
-/
set_option linter.unusedSectionVars false
set_option linter.unusedSimpArgs false
set_option linter.unusedVariables false

namespace SMT.Fp.Ese

variable {K : Type} [Field K] [LinearOrder K] [IsStrictOrderedRing K] {n d : ℕ}

/-! ## Specification -/

/-- `r` is the first element of `l` with the least criterion: smaller than all the earlier ones, and not above any later one. -/
def FirstLeast (r : Design K n d × X K) (l : List (Design K n d × X K)) : Prop :=
  ∃ pre post, l = pre ++ r :: post ∧ (∀ a ∈ pre, r.2.lt a.2 = true) ∧ (∀ a ∈ post, a.2.lt r.2 = false)

theorem not_lt_of_lt {a b : X K} (h : a.lt b = true) : b.lt a = false := by
  cases a <;> cases b <;> simp_all [X.lt]
  rename_i s t
  exact h.le

theorem le_lt {a b c : X K} (h : a.lt b = true) (h' : c.lt b = false) (hc : c ≠ .nan) : a.lt c = true := by
  cases a <;> cases b <;> cases c <;> simp_all [X.lt]
  rename_i s t u
  exact lt_of_lt_of_le h h'

theorem takes_eq {b v : X K} (hb : b ≠ .nan) (hv : v ≠ .nan) : takes b v = v.lt b := by
  cases b <;> cases v <;> simp_all [takes]

theorem firstMin_first (cs : List (Design K n d × X K)) : ∀ c, c.2 ≠ .nan → (∀ a ∈ cs, a.2 ≠ .nan) → FirstLeast (firstMin c cs) (c :: cs) := by
  induction cs with
  | nil => exact fun c _ _ => ⟨[], [], rfl, by simp, by simp⟩
  | cons b cs ih =>
    intro c hc h
    have hb : b.2 ≠ .nan := h b (by simp)
    have hcs : ∀ a ∈ cs, a.2 ≠ .nan := fun a ha => h a (by simp [ha])
    rw [firstMin, takes_eq hc hb]
    by_cases hlt : b.2.lt c.2 = true
    · rw [if_pos hlt]
      obtain ⟨pre, post, e, h1, h2⟩ := ih b hb hcs
      refine ⟨c :: pre, post, by rw [e]; rfl, ?_, h2⟩
      intro a ha
      rcases List.mem_cons.1 ha with rfl | ha
      · rcases pre with _ | ⟨p, pre⟩
        · have : firstMin b cs = b := (List.cons.inj e).1.symm
          rw [this]
          exact hlt
        · have : b = p := (List.cons.inj e).1
          exact lt_trans' (h1 p (by simp)) (this ▸ hlt)
      · exact h1 a ha
    · rw [if_neg hlt]
      obtain ⟨pre, post, e, h1, h2⟩ := ih c hc hcs
      rcases pre with _ | ⟨p, pre⟩
      · have e1 : firstMin c cs = c := (List.cons.inj e).1.symm
        have e2 : cs = post := (List.cons.inj e).2
        refine ⟨[], b :: post, by rw [e1, ← e2]; rfl, by simp, ?_⟩
        intro a ha
        rcases List.mem_cons.1 ha with rfl | ha
        · rw [e1]
          simpa using hlt
        · exact h2 a ha
      · have e1 : c = p := (List.cons.inj e).1
        have e2 := (List.cons.inj e).2
        refine ⟨c :: b :: pre, post, congrArg (fun l => c :: b :: l) e2, ?_, h2⟩
        intro a ha
        rcases List.mem_cons.1 ha with rfl | ha
        · exact h1 _ (by rw [e1]; simp)
        rcases List.mem_cons.1 ha with rfl | ha
        · exact le_lt (h1 p (by simp)) (by rw [← e1]; simpa using hlt) hb
        · exact h1 a (by simp [ha])

variable (A : Arith K)

/-- **C106** One iteration, none of whose `J` exchanges has the criterion NaN: the candidate is the first exchange with the least criterion `v`, which follows
the criterion `w` of the current design; the run moves to it if and only if `v - w ≤ T * u`, `u` being the next random number; and the best design is
replaced, by the same candidate, if and only if besides `v` is below the criterion of the best design. -/
theorem C106_choice [NeZero d] (G : Rng K n) (fuel : ℕ) (fixed : List (Fin n)) (J : ℕ) (T : X K) (i : ℕ) (st st' : St K G d) (s : G.σ)
    (cs : List (Design K n d × X K)) (hc : candidates A G fuel fixed st.P (Fin.ofNat d (i + 1)) st.phi J st.rng = some (cs, s))
    (hn : ∀ c ∈ cs, c.2 ≠ .nan) (h : innerStep A G fuel fixed J T i st = some st') :
    ∃ r, FirstLeast r cs ∧
      let moves := (A.R.subR r.2 st.phi).le (A.R.mulR T (.fin (G.rand s).1))
      (st'.P, st'.phi) = (if moves then r else (st.P, st.phi)) ∧
      (st'.best, st'.phiBest) = (if moves && r.2.lt st.phiBest then r else (st.best, st.phiBest)) ∧
      st'.nAcc = st.nAcc + (if moves then 1 else 0) ∧
      st'.nImp = st.nImp + (if moves && r.2.lt st.phiBest then 1 else 0) ∧
      st'.hist = st.hist ++ [st'.phiBest] ∧ st'.rng = (G.rand s).2 := by
  unfold innerStep at h
  rw [hc] at h
  cases cs with
  | nil => simp at h
  | cons c cs =>
    refine ⟨firstMin c cs, firstMin_first cs c (hn c (by simp)) fun a ha => hn a (by simp [ha]), ?_⟩
    dsimp only at h ⊢
    by_cases hm : (A.R.subR (firstMin c cs).2 st.phi).le (A.R.mulR T (.fin (G.rand s).1)) = true
    · rw [if_pos hm] at h
      by_cases hb : (firstMin c cs).2.lt st.phiBest = true
      · rw [if_pos hb] at h
        have e := Option.some.inj h
        subst e
        simp [hm, hb]
      · rw [if_neg hb] at h
        have e := Option.some.inj h
        subst e
        simp [hm, hb]
    · rw [if_neg hm] at h
      have e := Option.some.inj h
      subst e
      simp [hm]

/-! ## Infinite and undefined criteria -/

theorem evalR_nan (R : Rounding K) (f : ℕ → X K) (t : Tree) (h : ∃ i ∈ t.leaves, f i = .nan) : t.evalR R f = .nan := by
  induction t with
  | leaf i =>
    obtain ⟨j, hj, e⟩ := h
    simp only [Tree.leaves, List.mem_singleton] at hj
    rw [← hj, Tree.evalR]
    exact e
  | node a b ha hb =>
    obtain ⟨j, hj, e⟩ := h
    rw [Tree.leaves, List.mem_append] at hj
    rw [Tree.evalR]
    rcases hj with hj | hj
    · rw [ha ⟨j, hj, e⟩, Rounding.addR.eq_1]
    · rw [hb ⟨j, hj, e⟩]
      cases Tree.evalR R f a <;> rfl

/-- A number or `+∞`. -/
def Up (v : X K) : Prop := (∃ x, v = .fin x) ∨ v = .inf false

theorem evalR_up (R : Rounding K) (f : ℕ → X K) (t : Tree) (h : ∀ i ∈ t.leaves, Up (f i)) :
    Up (t.evalR R f) ∧ ((∃ i ∈ t.leaves, f i = .inf false) → t.evalR R f = .inf false) := by
  induction t with
  | leaf i =>
    refine ⟨h i (by simp [Tree.leaves]), ?_⟩
    rintro ⟨j, hj, e⟩
    simp only [Tree.leaves, List.mem_singleton] at hj
    rw [← hj, Tree.evalR]
    exact e
  | node a b ha hb =>
    obtain ⟨ua, ia⟩ := ha fun i hi => h i (by simp [Tree.leaves, hi])
    obtain ⟨ub, ib⟩ := hb fun i hi => h i (by simp [Tree.leaves, hi])
    have key : ∀ x y : X K, Up x → Up y → Up (R.addR x y) ∧ (x = .inf false ∨ y = .inf false → R.addR x y = .inf false) := by
      rintro x y (⟨x, rfl⟩ | rfl) (⟨y, rfl⟩ | rfl)
      · exact ⟨.inl ⟨_, rfl⟩, by rintro (h | h) <;> cases h⟩
      · exact ⟨.inr rfl, fun _ => rfl⟩
      · exact ⟨.inr rfl, fun _ => rfl⟩
      · exact ⟨.inr (by simp [Rounding.addR]), fun _ => by simp [Rounding.addR]⟩
    rw [Tree.evalR]
    refine ⟨(key _ _ ua ub).1, ?_⟩
    rintro ⟨j, hj, e⟩
    rw [Tree.leaves, List.mem_append] at hj
    rcases hj with hj | hj
    · exact (key _ _ ua ub).2 (.inl (ia ⟨j, hj, e⟩))
    · exact (key _ _ ua ub).2 (.inr (ib ⟨j, hj, e⟩))

theorem leaf_of {t : Tree} {m i : ℕ} (h : t.Adds m) (hi : i < m) : i ∈ t.leaves := h.mem_iff.2 (by simpa using hi)

theorem lt_of_leaf {t : Tree} {m i : ℕ} (h : t.Adds m) (hi : i ∈ t.leaves) : i < m := by simpa using h.mem_iff.1 hi

variable {A} {q e : ℕ}

theorem sumX_nan (hA : ∀ m, 1 ≤ m → (A.tree m).Adds m) (l : List (X K)) (h : .nan ∈ l) : sumX A l = .nan := by
  have hne : l ≠ [] := List.ne_nil_of_mem h
  have ht := hA l.length (List.length_pos_iff.2 hne)
  obtain ⟨i, hi, e⟩ := List.mem_iff_getElem.1 h
  rw [sumX, if_neg hne]
  exact evalR_nan _ _ _ ⟨i, leaf_of ht hi, by simp [List.getD_eq_getElem?_getD, List.getElem?_eq_getElem hi, e]⟩

theorem sumX_inf (hA : Good A q e) (l : List (X K)) (hu : ∀ v ∈ l, Up v) (h : .inf false ∈ l) : sumX A l = .inf false := by
  have hne : l ≠ [] := List.ne_nil_of_mem h
  have ht := hA.tree l.length (List.length_pos_iff.2 hne)
  obtain ⟨i, hi, e⟩ := List.mem_iff_getElem.1 h
  rw [sumX, if_neg hne]
  refine (evalR_up _ _ _ ?_).2 ⟨i, leaf_of ht hi, by simp [List.getD_eq_getElem?_getD, List.getElem?_eq_getElem hi, e]⟩
  intro j hj
  have hj' := lt_of_leaf ht hj
  simp only [List.getD_eq_getElem?_getD, List.getElem?_eq_getElem hj', Option.getD_some]
  exact hu _ (List.getElem_mem hj')

theorem npowX_up (x : K) : Up (npowX A (.fin x)) := by
  rw [npowX]
  split
  · exact .inr rfl
  · exact .inl ⟨_, rfl⟩

theorem dist_self [NeZero d] (hA : Good A q e) (u : Fin d → K) : dist A u u = 0 := by
  have h := (dist_close hA u u).zero_iff.1 (by simp [sqd])
  exact mul_self_eq_zero.1 h

/-- **C106** Two points of the initial design coincide: the recorded criterion is `+∞`. -/
theorem C106_coincident [NeZero d] (hA : Good A q e) (P : Design K n d) {i j : Fin n} (hij : i ≠ j) (h : P i = P j) : phiP A P = .inf false := by
  have key : ∀ a b : Fin n, a < b → P a = P b → phiP A P = .inf false := by
    intro a b hab hP
    have hm : (.inf false : X K) ∈ (pairs n).map fun q => npowX A (.fin (dist A (P q.1) (P q.2))) := by
      refine List.mem_map.2 ⟨(a, b), by simp [pairs, hab], ?_⟩
      dsimp only
      rw [hP, dist_self hA, npowX, if_pos rfl]
    rw [phiP, sumX_inf hA _ ?_ hm]
    · rfl
    · intro v hv
      obtain ⟨a, _, rfl⟩ := List.mem_map.1 hv
      exact npowX_up _
  rcases lt_or_gt_of_ne hij with hlt | hlt
  · exact key i j hlt h
  · exact key j i hlt h.symm

/-- **C106** A new squared distance that comes out negative (the exact one is a square: rounding has lost it): the criterion of the exchange is NaN, so
the whole iteration is lost (`C106_nan_blocks`). `C106_not_lost` below: this needs a square root that is not correctly rounded. -/
theorem C106_lost (hA : ∀ m, 1 ≤ m → (A.tree m).Adds m) (P : Design K n d) (k : Fin d) (i1 i2 j : Fin n) (h1 : j ≠ i1) (h2 : j ≠ i2) (phi : X K)
    (h : A.R.rnd (A.R.rnd (sqr A (dist A (P i1) (P j)) + sqr A (A.R.rnd (P i2 k - P j k))) - sqr A (A.R.rnd (P i1 k - P j k))) < 0 ∨
      A.R.rnd (A.R.rnd (sqr A (dist A (P i2) (P j)) - sqr A (A.R.rnd (P i2 k - P j k))) + sqr A (A.R.rnd (P i1 k - P j k))) < 0) :
    exchangeVal A P k i1 i2 phi = .nan := by
  have ht : term A P k i1 i2 j = .nan := by
    rcases h with h | h
    · have e1 : d1 A P k i1 i2 j = .nan := by rw [d1, sqrtX, if_pos h]
      rw [term, e1]
      rfl
    · have e1 : d2 A P k i1 i2 j = .nan := by rw [d2, sqrtX, if_pos h]
      rw [term, e1, npowX]
      cases A.R.subR (npowX A (d1 A P k i1 i2 j)) (npowX A (.fin (dist A (P i1) (P j)))) <;> rfl
  rw [exchangeVal, sumX_nan hA _ (List.mem_map.2 ⟨j, mem_others.2 ⟨h1, h2⟩, ht⟩)]
  cases ppowX A phi <;> rfl

/-- A square root one rounding too small. -/
def roughSqrt : Arith ℚ := ⟨double, fun x => if x = 1 then 1 - 1 / 2 ^ 53 else x, fun x => x⁻¹, fun x => x, fun x => x, fun m => Tree.left (m - 1)⟩

example : exchangeVal roughSqrt (fun i _ => if i.1 = 0 then 0 else 1 : Design ℚ 3 1) 0 0 1 (.fin 1) = .nan := by
  refine C106_lost (fun m hm => ?_) _ 0 0 1 2 (by decide) (by decide) _ (.inl (by decide +kernel))
  have := left_adds (m - 1)
  rwa [show m - 1 + 1 = m by omega] at this

/-- **C106** A row that coincides with one of the two exchanged rows before the exchange contributes `∞ - ∞` or `-∞`: the criterion of the
exchange is then not a number, or `+∞` (the root of `-∞`), never an ordinary number. -/
theorem C106_coincident_exchange [NeZero d] (hA : Good A q e) (P : Design K n d) (k : Fin d) (i1 i2 j : Fin n) (h1 : j ≠ i1) (h2 : j ≠ i2) (hP : P j = P i1)
    (phi : X K) : ∀ x, exchangeVal A P k i1 i2 phi ≠ .fin x := by
  have hleft : ∀ x y : X K, (∀ v, x ≠ .fin v) → ∀ v, A.R.addR x y ≠ .fin v := by
    intro x y hx v
    cases x with
    | nan => intro h; cases y <;> cases h
    | fin a => exact absurd rfl (hx a)
    | inf s =>
      cases y with
      | nan => intro h; cases h
      | fin b => intro h; cases h
      | inf t =>
        rw [Rounding.addR.eq_6]
        split <;> (intro h; cases h)
  have hright : ∀ x y : X K, (∀ v, y ≠ .fin v) → ∀ v, A.R.addR x y ≠ .fin v := by
    intro x y hy v
    cases y with
    | fin b => exact absurd rfl (hy b)
    | nan => intro h; cases x <;> cases h
    | inf t =>
      cases x with
      | nan => intro h; cases h
      | fin a => intro h; cases h
      | inf s =>
        rw [Rounding.addR.eq_6]
        split <;> (intro h; cases h)
  have hroot : ∀ v : X K, (∀ x, v ≠ .fin x) → ∀ x, rootX A v ≠ .fin x := by
    intro v hv x
    cases v with
    | nan => intro h; cases h
    | inf s => intro h; cases h
    | fin a => exact absurd rfl (hv a)
  have hterm : ∀ v, term A P k i1 i2 j ≠ .fin v := by
    have e1 : npowX A (.fin (dist A (P i1) (P j))) = .inf false := by rw [hP, dist_self hA, npowX, if_pos rfl]
    rw [term, e1]
    refine hleft _ _ (hleft _ _ (hright _ _ ?_))
    intro v h
    cases h
  have hsum : ∀ (l : List (X K)), (∃ v ∈ l, ∀ x, v ≠ .fin x) → ∀ x, sumX A l ≠ .fin x := by
    rintro l ⟨v, hv, hvx⟩ x
    have hne : l ≠ [] := List.ne_nil_of_mem hv
    have ht := hA.tree l.length (List.length_pos_iff.2 hne)
    obtain ⟨i, hi, e⟩ := List.mem_iff_getElem.1 hv
    rw [sumX, if_neg hne]
    have : ∀ t : Tree, i ∈ t.leaves → ∀ x, t.evalR A.R (fun i => l.getD i .nan) ≠ .fin x := by
      intro t
      induction t with
      | leaf a =>
        intro hi' x
        simp only [Tree.leaves, List.mem_singleton] at hi'
        rw [Tree.evalR, ← hi']
        simp only [List.getD_eq_getElem?_getD, List.getElem?_eq_getElem hi, Option.getD_some, e]
        exact hvx x
      | node a b ha hb =>
        intro hi' x
        rw [Tree.leaves, List.mem_append] at hi'
        rw [Tree.evalR]
        rcases hi' with hi' | hi'
        · exact hleft _ _ (ha hi') x
        · exact hright _ _ (hb hi') x
    exact this _ (leaf_of ht hi) x
  rw [exchangeVal]
  exact hroot _ (hright _ _ (hsum _ ⟨_, List.mem_map.2 ⟨j, mem_others.2 ⟨h1, h2⟩, rfl⟩, hterm⟩))

/-! ## Accurate square roots -/

/-- The square root is monotone, and the root of a computed square is not below the number that was squared. -/
structure Accurate (A : Arith K) : Prop where
  mono : ∀ v w, 0 ≤ v → v ≤ w → A.sq v ≤ A.sq w
  nonneg : ∀ v, 0 ≤ v → 0 ≤ A.sq v
  square : ∀ x, |A.R.rnd x| ≤ A.sq (A.R.rnd (A.R.rnd x * A.R.rnd x))

theorem eval_nonneg (R : Rounding K) (f : ℕ → K) (t : Tree) (h : ∀ i ∈ t.leaves, 0 ≤ f i) : 0 ≤ t.eval R f := by
  induction t with
  | leaf i => exact h i (by simp [Tree.leaves])
  | node a b ha hb =>
    rw [Tree.eval]
    exact R.nonneg (add_nonneg (ha fun i hi => h i (by simp [Tree.leaves, hi])) (hb fun i hi => h i (by simp [Tree.leaves, hi])))

/-- A computed sum of numbers `≥ 0` of the format is not below any of them. -/
theorem le_eval (R : Rounding K) (f : ℕ → K) (t : Tree) (h : ∀ i ∈ t.leaves, 0 ≤ f i) (hr : ∀ i, R.rnd (f i) = f i) {i : ℕ} (hi : i ∈ t.leaves) :
    f i ≤ t.eval R f := by
  induction t with
  | leaf j =>
    simp only [Tree.leaves, List.mem_singleton] at hi
    rw [hi, Tree.eval]
  | node a b ha hb =>
    have ha0 := eval_nonneg R f a fun i hi => h i (by simp [Tree.leaves, hi])
    have hb0 := eval_nonneg R f b fun i hi => h i (by simp [Tree.leaves, hi])
    rw [Tree.eval]
    rw [Tree.leaves, List.mem_append] at hi
    rcases hi with hi | hi
    · exact R.rep_le (hr i) (by linarith [ha (fun i hi => h i (by simp [Tree.leaves, hi])) hi])
    · exact R.rep_le (hr i) (by linarith [hb (fun i hi => h i (by simp [Tree.leaves, hi])) hi])

/-- The square of a computed distance is not below the square of a computed coordinate difference. -/
theorem sqr_le_sqr_dist (hA : Good A q e) (hs : Accurate A) (u v : Fin d → K) (k : Fin d) : sqr A (A.R.rnd (u k - v k)) ≤ sqr A (dist A u v) := by
  have hd : 1 ≤ d := by have := k.2; omega
  have h0 : ∀ c, 0 ≤ (fun c => if h : c < d then sqr A (A.R.rnd (u ⟨c, h⟩ - v ⟨c, h⟩)) else 0) c := by
    intro c
    show 0 ≤ dite _ _ _
    split
    · exact A.R.nonneg (mul_self_nonneg _)
    · exact le_rfl
  have h1 : sqr A (A.R.rnd (u k - v k)) ≤ sqDist A u v := by
    have := le_eval A.R (fun c => if h : c < d then sqr A (A.R.rnd (u ⟨c, h⟩ - v ⟨c, h⟩)) else 0) (A.tree d) (fun i _ => h0 i) (fun i => by
      show A.R.rnd (dite _ _ _) = dite _ _ _
      split
      · exact A.R.idem _
      · exact A.R.zero) (leaf_of (hA.tree d hd) k.2)
    rw [dif_pos k.2] at this
    exact this
  have h2 : |A.R.rnd (u k - v k)| ≤ dist A u v := (hs.square (u k - v k)).trans (hs.mono _ _ (A.R.nonneg (mul_self_nonneg _)) h1)
  rw [sqr, sqr]
  refine A.R.mono _ _ ?_
  rw [← abs_mul_abs_self (A.R.rnd (u k - v k))]
  exact mul_self_le_mul_self (abs_nonneg _) h2

theorem sqr_comm (x y : K) : sqr A (A.R.rnd (x - y)) = sqr A (A.R.rnd (y - x)) := by
  rw [sqr, sqr, ← neg_sub, A.R.odd, neg_mul_neg]

/-- **C106** With an accurate square root (`C106_accurate`: the correctly rounded one is) no new squared distance comes out negative: all the new distances are
numbers `≥ 0`, whatever the design and the columns. -/
theorem C106_not_lost (hA : Good A q e) (hs : Accurate A) (P : Design K n d) (k : Fin d) (i1 i2 j : Fin n) :
    (∃ x, 0 ≤ x ∧ d1 A P k i1 i2 j = .fin x) ∧ ∃ x, 0 ≤ x ∧ d2 A P k i1 i2 j = .fin x := by
  have hp : ∀ x, 0 ≤ sqr A x := fun x => A.R.nonneg (mul_self_nonneg _)
  have hsq : ∀ v, 0 ≤ v → ∃ x, 0 ≤ x ∧ sqrtX A v = .fin x := fun v hv => ⟨A.sq v, hs.nonneg v hv, by rw [sqrtX, if_neg (not_lt.2 hv)]⟩
  constructor
  · refine hsq _ (A.R.nonneg ?_)
    have h1 := sqr_le_sqr_dist hA hs (P i1) (P j) k
    have h2 : sqr A (A.R.rnd (P i1 k - P j k)) ≤ A.R.rnd (sqr A (dist A (P i1) (P j)) + sqr A (A.R.rnd (P i2 k - P j k))) :=
      A.R.rep_le (A.R.idem _) (by linarith [hp (A.R.rnd (P i2 k - P j k))])
    linarith
  · refine hsq _ (A.R.nonneg (add_nonneg (A.R.nonneg ?_) (hp _)))
    linarith [sqr_le_sqr_dist hA hs (P i2) (P j) k]

/-- **C106** The only cause of an undefined criterion: no other row coincides with one of the exchanged ones, the recorded criterion is a number, the square root is
accurate. The criterion of the exchange is NaN exactly if its accumulated `p`-th power is a negative number. -/
theorem C106_nan_cause [NeZero d] (hA : Good A q e) (hs : Accurate A) (P : Design K n d) (k : Fin d) (i1 i2 : Fin n)
    (hP : ∀ j, j ≠ i1 → j ≠ i2 → P j ≠ P i1 ∧ P j ≠ P i2) (φ : K) :
    exchangeVal A P k i1 i2 (.fin φ) = .nan ↔
      ∃ S, sumX A ((others i1 i2).map (term A P k i1 i2)) = .fin S ∧ A.R.rnd (A.ppow φ + S) < 0 := by
  have hold : ∀ u v : Fin d → K, u ≠ v → ∃ w, npowX A (.fin (dist A u v)) = .fin w := by
    intro u v huv
    obtain ⟨w, h, _⟩ := oldPow_close hA u v (by
      refine lt_of_le_of_ne (sqd_nonneg u v) fun h => huv (funext fun c => ?_)
      have := (Finset.sum_eq_zero_iff_of_nonneg fun c _ => sq_nonneg (u c - v c)).1 h.symm c (Finset.mem_univ c)
      exact sub_eq_zero.1 (pow_eq_zero_iff (two_ne_zero) |>.1 this))
    exact ⟨w, h⟩
  have hadd : ∀ x y : X K, Up x → Up y → Up (A.R.addR x y) := by
    rintro x y (⟨x, rfl⟩ | rfl) (⟨y, rfl⟩ | rfl)
    · exact .inl ⟨_, rfl⟩
    · exact .inr rfl
    · exact .inr rfl
    · exact .inr (by simp [Rounding.addR])
  have hsub : ∀ (x : X K) (y : K), Up x → Up (A.R.subR x (.fin y)) := by
    rintro x y (⟨x, rfl⟩ | rfl)
    · exact .inl ⟨_, rfl⟩
    · exact .inr rfl
  have hterm : ∀ j ∈ others i1 i2, Up (term A P k i1 i2 j) := by
    intro j hj
    obtain ⟨hj1, hj2⟩ := mem_others.1 hj
    obtain ⟨⟨x, _, e1⟩, y, _, e2⟩ := C106_not_lost hA hs P k i1 i2 j
    obtain ⟨w1, f1⟩ := hold (P i1) (P j) (hP j hj1 hj2).1.symm
    obtain ⟨w2, f2⟩ := hold (P i2) (P j) (hP j hj1 hj2).2.symm
    rw [term, e1, e2, f1, f2]
    exact hsub _ _ (hadd _ _ (hsub _ _ (npowX_up _)) (npowX_up _))
  have hsum : Up (sumX A ((others i1 i2).map (term A P k i1 i2))) := by
    generalize hl : (others i1 i2).map (term A P k i1 i2) = l
    rw [sumX]
    split
    · exact .inl ⟨_, rfl⟩
    · rename_i hne
      have ht := hA.tree l.length (List.length_pos_iff.2 hne)
      refine (evalR_up _ _ _ ?_).1
      intro j hj
      have hj' := lt_of_leaf ht hj
      simp only [List.getD_eq_getElem?_getD, List.getElem?_eq_getElem hj', Option.getD_some]
      have : l[j] ∈ (others i1 i2).map (term A P k i1 i2) := by rw [hl]; exact List.getElem_mem hj'
      obtain ⟨a, ha, e⟩ := List.mem_map.1 this
      rw [← e]
      exact hterm a ha
  rw [exchangeVal]
  rcases hsum with ⟨S, e⟩ | e
  · rw [e]
    show rootX A (.fin (A.R.rnd (A.ppow φ + S))) = .nan ↔ _
    rw [rootX]
    constructor
    · intro h
      refine ⟨S, rfl, ?_⟩
      by_contra hn
      rw [if_neg hn] at h
      cases h
    · rintro ⟨S', e', h⟩
      rw [X.fin.inj e', if_pos h]
  · rw [e]
    constructor
    · intro h
      cases h
    · rintro ⟨S', e', h⟩
      cases e'

/-! ## The correctly rounded square root is accurate -/

theorem rne_sqrt_sq {p : ℕ} (hp : 1 ≤ p) {x : ℝ} (hx : 0 < x) (hr : rne p x = x) : x ≤ rne p (Real.sqrt (rne p (x * x))) := by
  have hy0 : 0 < rne p (x * x) := rne_pos hp (mul_pos hx hx)
  have hs0 : 0 < Real.sqrt (rne p (x * x)) := Real.sqrt_pos.2 hy0
  set y := rne p (x * x) with hy
  set r := Real.sqrt y with hrdef
  have hrr : r * r = y := Real.mul_self_sqrt hy0.le
  by_cases hle : x ≤ r
  · have := rne_mono hp hle
    rwa [hr] at this
  have hlt : r < x := not_le.1 hle
  -- `x` is `m` units in the last place
  have hU := ulp_pos p x
  set U := ulp p x with hUdef
  set m := SMT.MixedInt.roundHalfEven (x / U) with hmdef
  have hm : x = m * U := hr.symm
  have hxU : x / U = m := by rw [div_eq_iff hU.ne']; exact hm
  obtain ⟨hb1, hb2⟩ := quot_bounds (p := p) hx
  rw [← hUdef, hxU] at hb1 hb2
  rw [pred_cast hp, two_zpow_nat] at hb1
  rw [two_zpow_nat] at hb2
  have hm1 : (2 : ℤ) ^ (p - 1) ≤ m := by exact_mod_cast hb1
  have hm2 : m + 1 ≤ (2 : ℤ) ^ p := by
    have : m < (2 : ℤ) ^ p := by exact_mod_cast hb2
    omega
  have hm2' : (m : ℝ) + 1 ≤ (2 : ℝ) ^ p := by exact_mod_cast hm2
  have hlogU : (2 : ℝ) ^ (p - 1) * U = (2 : ℝ) ^ Int.log 2 x := by
    rw [hUdef, ulp, abs_of_pos hx, ← zpow_natCast, ← zpow_add₀ two_ne_zero, ← pred_cast hp]
    congr 1
    ring
  rcases hm1.lt_or_eq with hm3 | hm3
  · have hm3' : (2 : ℝ) ^ (p - 1) + 1 ≤ (m : ℝ) := by exact_mod_cast hm3
    have hpp : (2 : ℝ) ^ p = 2 * 2 ^ (p - 1) := by
      rw [← pow_succ']
      congr 1
      omega
    have hP : (0 : ℝ) < 2 ^ p := by positivity
    -- the error of the square
    have hrel := (abs_le.1 (rne_rel hp (x * x))).1
    rw [abs_of_pos (mul_pos hx hx), ← hy] at hrel
    set u : ℝ := (2 : ℝ) ^ (-(p : ℤ)) with hu
    have huP : u * 2 ^ p = 1 := by rw [hu, zpow_neg, zpow_natCast, inv_mul_cancel₀ hP.ne']
    have hu0 : 0 < u := by rw [hu]; positivity
    have hm0 : (0 : ℝ) < m := by
      have : (0 : ℝ) < 2 ^ (p - 1) := by positivity
      linarith
    have hmu : 1 / 2 < (m : ℝ) * u := by
      have h1 : (2 : ℝ) ^ (p - 1) * u = 1 / 2 := by
        have : 2 * ((2 : ℝ) ^ (p - 1) * u) = 1 := by rw [← mul_assoc, ← hpp, mul_comm]; exact huP
        linarith
      have h2 : ((2 : ℝ) ^ (p - 1) + 1) * u ≤ m * u := mul_le_mul_of_nonneg_right hm3' hu0.le
      rw [add_mul, h1] at h2
      linarith
    have hmmu : (m : ℝ) * m * u ≤ m - m * u := by
      have h1 : (m : ℝ) * u ≤ 1 - u := by
        have := mul_le_mul_of_nonneg_right hm2' hu0.le
        rw [mul_comm ((2 : ℝ) ^ p), huP] at this
        linarith
      have h2 := mul_le_mul_of_nonneg_left h1 hm0.le
      calc (m : ℝ) * m * u = m * (m * u) := by ring
        _ ≤ m * (1 - u) := h2
        _ = m - m * u := by ring
    -- the quotient of the root
    set w := r / U with hw
    have hrw : r = w * U := by rw [hw, div_mul_cancel₀ _ hU.ne']
    have hw0 : 0 < w := div_pos hs0 hU
    have hwm : (m : ℝ) - 1 / 2 < w := by
      by_contra hn
      have h1 : w ≤ (m : ℝ) - 1 / 2 := not_lt.1 hn
      have h2 : w * w ≤ ((m : ℝ) - 1 / 2) * ((m : ℝ) - 1 / 2) := mul_self_le_mul_self hw0.le h1
      have h3 : (m : ℝ) * m * (1 - u) * (U * U) ≤ w * w * (U * U) := by
        have e1 : w * w * (U * U) = y := by
          rw [← hrr, hrw]
          ring
        have e2 : (m : ℝ) * m * (1 - u) * (U * U) = x * x - u * (x * x) := by
          rw [hm]
          ring
        rw [e1, e2]
        linarith
      have h4 : (m : ℝ) * m * (1 - u) ≤ w * w := le_of_mul_le_mul_right h3 (mul_pos hU hU)
      have h5 : ((m : ℝ) - 1 / 2) * ((m : ℝ) - 1 / 2) = m * m - m + 1 / 4 := by ring
      have h6 : (m : ℝ) * m * (1 - u) = m * m - m * m * u := by ring
      linarith
    -- the same unit in the last place
    have hlog : Int.log 2 r = Int.log 2 x := by
      apply le_antisymm
      · exact Int.log_mono_right hs0 hlt.le
      · refine (Int.zpow_le_iff_le_log (b := 2) (by norm_num) hs0).1 ?_
        rw [two_cast, ← hlogU, hrw]
        exact mul_le_mul_of_nonneg_right (by linarith) hU.le
    have hUr : ulp p r = U := by rw [hUdef, ulp, ulp, abs_of_pos hs0, abs_of_pos hx, hlog]
    rw [rne, hUr]
    have hnear := (abs_le.1 (SMT.MixedInt.round_near (r / U))).2
    rw [← hw] at hnear
    have : (m : ℝ) - 1 < (SMT.MixedInt.roundHalfEven w : ℝ) := by linarith
    have hmi : m ≤ SMT.MixedInt.roundHalfEven w := by
      have : m - 1 < SMT.MixedInt.roundHalfEven w := by exact_mod_cast this
      omega
    rw [hm, ← hw]
    exact mul_le_mul_of_nonneg_right (by exact_mod_cast hmi) hU.le
  · -- a power of two
    exfalso
    have hxp : x = (2 : ℝ) ^ Int.log 2 x := by
      rw [← hlogU]
      refine hm.trans ?_
      rw [← hm3]
      push_cast
      rfl
    have : y = x * x := by
      rw [hy, hxp, ← zpow_add₀ two_ne_zero, rne_zpow hp]
    rw [hrdef, this, Real.sqrt_mul_self hx.le] at hlt
    exact lt_irrefl _ hlt

/-- **C106** The correctly rounded square root in binary floating point with any number of bits (unbounded exponent) is accurate. -/
theorem C106_accurate (p : ℕ) (hp : 1 ≤ p) (q : ℕ) : Accurate (realArith (binary p hp) q) where
  mono := fun v w _ h => rne_mono hp (Real.sqrt_le_sqrt h)
  nonneg := fun v _ => (binary p hp).nonneg (Real.sqrt_nonneg v)
  square := fun x => by
    show |rne p x| ≤ rne p (Real.sqrt (rne p (rne p x * rne p x)))
    rcases eq_or_ne (rne p x) 0 with h | h
    · rw [h, abs_zero]
      exact (binary p hp).nonneg (Real.sqrt_nonneg _)
    · rw [← abs_mul_abs_self (rne p x)]
      refine rne_sqrt_sq hp (abs_pos.2 h) ?_
      have h1 := abs_rnd (R := binary (K := ℝ) p hp) (rne p x)
      have h2 : |rne p (rne p x)| = |rne p x| := by rw [rne_idem hp]
      exact h1.trans h2

example (P : Design ℝ 4 2) : ∃ x, 0 ≤ x ∧ d1 (realArith (binary 53 (by norm_num)) 5) P 1 0 1 2 = .fin x :=
  (C106_not_lost (C106_good _ (by norm_num)) (C106_accurate 53 _ 5) P 1 0 1 2).1

example : phiP (realArith (binary 53 (by norm_num)) 5) (fun i _ => if i.1 = 0 then 0 else 1 : Design ℝ 3 1) = .inf false :=
  C106_coincident (C106_good _ (by norm_num)) _ (i := 1) (j := 2) (by decide) rfl

example (φ : ℝ) (h : exchangeVal (realArith (binary 53 (by norm_num)) 5) (fun i _ => (i.1 : ℝ) : Design ℝ 4 2) 0 0 1 (.fin φ) = .nan) :
    ∃ S, sumX (realArith (binary 53 (by norm_num)) 5) ((others 0 1).map (term (realArith (binary 53 (by norm_num)) 5) (fun i _ => (i.1 : ℝ) : Design ℝ 4 2) 0 0 1)) = .fin S ∧
      (binary 53 (by norm_num)).rnd ((realArith (binary 53 (by norm_num)) 5).ppow φ + S) < 0 :=
  (C106_nan_cause (C106_good _ (by norm_num)) (C106_accurate 53 _ 5) (fun i _ => (i.1 : ℝ) : Design ℝ 4 2) 0 0 1 (fun j h1 h2 =>
    ⟨fun h => h1 (Fin.ext (by exact_mod_cast congrFun h 0)), fun h => h2 (Fin.ext (by exact_mod_cast congrFun h 0))⟩) φ).1 h

example (φ x : ℝ) : exchangeVal (realArith (binary 53 (by norm_num)) 5) (fun i _ => if i.1 = 0 then 0 else 1 : Design ℝ 4 2) 0 1 0 (.fin φ) ≠ .fin x :=
  C106_coincident_exchange (C106_good _ (by norm_num)) _ 0 1 0 2 (by decide) (by decide) rfl _ x

end SMT.Fp.Ese
