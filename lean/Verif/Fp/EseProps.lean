import Verif.Fp.Ese
import Verif.Ese.Props

/-!
# Property C106: the ESE optimisation in rounded arithmetic. What holds whatever the arithmetic.
-/
set_option linter.unusedSectionVars false
set_option linter.unusedSimpArgs false
set_option linter.unusedVariables false

namespace SMT.Fp.Ese

variable {K : Type} [Field K] [LinearOrder K] [IsStrictOrderedRing K] {n d : ℕ}

/-! ## Specification -/

/-- Every column of `Q` is a rearrangement of the same column of `P`. -/
def ColumnsRearranged (P Q : Design K n d) : Prop := ∀ k, ∃ π : Equiv.Perm (Fin n), ∀ i, Q i k = P (π i) k

/-- The rows listed are the same in both designs. -/
def RowsKept (fixed : List (Fin n)) (P Q : Design K n d) : Prop := ∀ i ∈ fixed, Q i = P i

/-- `b` is `a`, or smaller (no statement about NaN except that it equals itself). -/
def NotAbove (a b : X K) : Prop := b = a ∨ b.lt a = true

/-! ## The exchange -/

theorem swapEntry_apply (P : Design K n d) (k : Fin d) (i1 i2 i : Fin n) (c : Fin d) :
    swapEntry P k i1 i2 i c = if c = k then P (Equiv.swap i1 i2 i) k else P i c := by
  unfold swapEntry
  by_cases h2 : i = i2
  · subst h2
    by_cases hc : c = k
    · subst hc; simp
    · simp [hc]
  · by_cases h1 : i = i1
    · subst h1
      by_cases hc : c = k
      · subst hc; simp [h2]
      · simp [h2, hc]
    · by_cases hc : c = k
      · subst hc; simp [h1, h2, Equiv.swap_apply_of_ne_of_ne]
      · simp [h1, h2, hc]

theorem rearranged_refl (P : Design K n d) : ColumnsRearranged P P := fun _ => ⟨1, fun _ => rfl⟩

theorem rearranged_swap (P0 P : Design K n d) (h : ColumnsRearranged P0 P) (k : Fin d) (i1 i2 : Fin n) :
    ColumnsRearranged P0 (swapEntry P k i1 i2) := by
  intro c
  obtain ⟨π, hπ⟩ := h c
  by_cases hc : c = k
  · subst hc
    exact ⟨(Equiv.swap i1 i2).trans π, fun i => by simp [swapEntry_apply, hπ]⟩
  · exact ⟨π, fun i => by simp [swapEntry_apply, hc, hπ]⟩

theorem rowsKept_swap (fixed : List (Fin n)) (P0 P : Design K n d) (h : RowsKept fixed P0 P) (k : Fin d)
    (i1 i2 : Fin n) (h1 : i1 ∉ fixed) (h2 : i2 ∉ fixed) : RowsKept fixed P0 (swapEntry P k i1 i2) := by
  intro i hi
  have e1 : i ≠ i1 := fun e => h1 (e ▸ hi)
  have e2 : i ≠ i2 := fun e => h2 (e ▸ hi)
  funext c
  rw [swapEntry_apply, Equiv.swap_apply_of_ne_of_ne e1 e2, ← h i hi]
  split
  · rename_i hc; rw [hc]
  · rfl

theorem drawRow_ok (G : Rng K n) (bad : Fin n → Bool) : ∀ fuel s i s', drawRow G bad fuel s = some (i, s') → bad i = false := by
  intro fuel
  induction fuel with
  | zero => intro s i s' h; simp [drawRow] at h
  | succ f ih =>
    intro s i s' h
    rw [drawRow] at h
    by_cases hb : bad (G.randint s).1 = true
    · rw [if_pos hb] at h
      exact ih _ _ _ h
    · rw [if_neg hb] at h
      have := Option.some.inj h
      rw [← show (G.randint s).1 = i by rw [this]]
      exact Bool.eq_false_iff.2 hb

variable (A : Arith K)

/-- What one exchange returns: two different rows outside `fixed` exchange their entries in column `k`. -/
theorem exchange_ok (G : Rng K n) (fuel : ℕ) (fixed : List (Fin n)) (P : Design K n d) (k : Fin d) (phi : X K) (s s' : G.σ) (c : Design K n d × X K)
    (h : exchange A G fuel fixed P k phi s = some (c, s')) :
    ∃ i1 i2, i1 ≠ i2 ∧ i1 ∉ fixed ∧ i2 ∉ fixed ∧ c = (swapEntry P k i1 i2, exchangeVal A P k i1 i2 phi) := by
  unfold exchange at h
  split at h
  · simp at h
  · rename_i i1 s1 h1
    split at h
    · simp at h
    · rename_i i2 s2 h2
      have b1 := drawRow_ok G _ _ _ _ _ h1
      have b2 := drawRow_ok G _ _ _ _ _ h2
      simp only [decide_eq_false_iff_not] at b1
      simp only [Bool.or_eq_false_iff, decide_eq_false_iff_not] at b2
      have := Option.some.inj h
      exact ⟨i1, i2, Ne.symm b2.1, b1, b2.2, (congrArg Prod.fst this).symm⟩

theorem candidates_ok (G : Rng K n) (fuel : ℕ) (fixed : List (Fin n)) (P : Design K n d) (k : Fin d) (phi : X K) :
    ∀ (J : ℕ) (s s' : G.σ) (cs : List (Design K n d × X K)), candidates A G fuel fixed P k phi J s = some (cs, s') →
      cs.length = J ∧ ∀ c ∈ cs, ∃ i1 i2, i1 ≠ i2 ∧ i1 ∉ fixed ∧ i2 ∉ fixed ∧ c = (swapEntry P k i1 i2, exchangeVal A P k i1 i2 phi) := by
  intro J
  induction J with
  | zero =>
    intro s s' cs h
    have := Option.some.inj h
    rw [← show ([] : List _) = cs from congrArg Prod.fst this]
    simp
  | succ J ih =>
    intro s s' cs h
    rw [candidates] at h
    split at h
    · simp at h
    · rename_i c s1 h1
      split at h
      · simp at h
      · rename_i cs' s2 h2
        have e := Option.some.inj h
        rw [← show c :: cs' = cs from congrArg Prod.fst e]
        obtain ⟨hl, hall⟩ := ih _ _ _ h2
        refine ⟨by simp [hl], ?_⟩
        intro c' hc'
        rcases List.mem_cons.1 hc' with rfl | hc'
        · exact exchange_ok A G fuel fixed P k phi _ _ _ h1
        · exact hall c' hc'

theorem firstMin_mem (cs : List (Design K n d × X K)) : ∀ c, firstMin c cs ∈ c :: cs := by
  induction cs with
  | nil => intro c; simp [firstMin]
  | cons b cs ih =>
    intro c
    rw [firstMin]
    have := ih (if takes c.2 b.2 then b else c)
    split at this <;> rename_i hb
    · rw [if_pos hb]
      exact List.mem_cons_of_mem _ this
    · rw [if_neg hb]
      rcases List.mem_cons.1 this with h | h
      · rw [h]; simp
      · exact List.mem_cons_of_mem _ (List.mem_cons_of_mem _ h)

theorem firstMin_nan_acc (cs : List (Design K n d × X K)) : ∀ c, c.2 = .nan → firstMin c cs = c := by
  induction cs with
  | nil => intro c _; rfl
  | cons b cs ih =>
    intro c hc
    rw [firstMin, hc]
    have : takes (.nan : X K) b.2 = false := rfl
    rw [this]
    exact ih c hc

/-- `np.argmin` returns a NaN if there is one. -/
theorem firstMin_nan (cs : List (Design K n d × X K)) : ∀ c, (∃ a ∈ c :: cs, a.2 = .nan) → (firstMin c cs).2 = .nan := by
  induction cs with
  | nil =>
    intro c ⟨a, ha, h⟩
    rw [List.mem_singleton.1 ha] at h
    exact h
  | cons b cs ih =>
    intro c ⟨a, ha, h⟩
    rcases List.mem_cons.1 ha with rfl | ha
    · rw [firstMin_nan_acc _ _ h]
      exact h
    · rw [firstMin]
      by_cases hc : c.2 = .nan
      · have : takes c.2 b.2 = false := by rw [hc]; rfl
        rw [this]
        rw [if_neg (by simp), firstMin_nan_acc _ _ hc]
        exact hc
      rcases List.mem_cons.1 ha with rfl | ha
      · have : takes c.2 a.2 = true := by
          rw [h]
          cases hc2 : c.2 with
          | nan => exact absurd hc2 hc
          | fin _ => rfl
          | inf _ => rfl
        rw [if_pos this, firstMin_nan_acc _ _ h]
        exact h
      · exact ih _ ⟨a, List.mem_cons_of_mem _ ha, h⟩

theorem lt_trans' {a b c : X K} (h : a.lt b = true) (h' : b.lt c = true) : a.lt c = true := by
  cases a with
  | nan => simp [X.lt] at h
  | fin a =>
    cases b with
    | nan => simp [X.lt] at h
    | fin b =>
      cases c with
      | nan => simp [X.lt] at h'
      | fin c =>
        simp only [X.lt, decide_eq_true_eq] at *
        exact h.trans h'
      | inf s => simpa [X.lt] using h'
    | inf s =>
      cases c with
      | nan => simp [X.lt] at h'
      | fin c => simp_all [X.lt]
      | inf t => simp_all [X.lt]
  | inf r =>
    cases b with
    | nan => simp [X.lt] at h
    | fin b =>
      cases c with
      | nan => simp [X.lt] at h'
      | fin c => simpa [X.lt] using h
      | inf s => simp_all [X.lt]
    | inf s =>
      cases c with
      | nan => simp [X.lt] at h'
      | fin c => simp_all [X.lt]
      | inf t => simp_all [X.lt]

theorem NotAbove.trans {a b c : X K} (h : NotAbove a b) (h' : NotAbove b c) : NotAbove a c := by
  rcases h' with rfl | h'
  · exact h
  · rcases h with rfl | h
    · exact .inr h'
    · exact .inr (lt_trans' h' h)

/-! ## The loops -/

/-- What one iteration of the inner loop does: nothing but to record the best criterion, or move to a candidate. -/
theorem innerStep_cases [NeZero d] (G : Rng K n) (fuel : ℕ) (fixed : List (Fin n)) (J : ℕ) (T : X K) (i : ℕ) (st st' : St K G d)
    (h : innerStep A G fuel fixed J T i st = some st') :
    (st'.P = st.P ∧ st'.phi = st.phi ∧ st'.best = st.best ∧ st'.phiBest = st.phiBest ∧ st'.hist = st.hist ++ [st.phiBest]) ∨
    ∃ i1 i2, i1 ≠ i2 ∧ i1 ∉ fixed ∧ i2 ∉ fixed ∧ st'.P = swapEntry st.P (Fin.ofNat d (i + 1)) i1 i2 ∧
      st'.phi = exchangeVal A st.P (Fin.ofNat d (i + 1)) i1 i2 st.phi ∧ st'.phi ≠ .nan ∧
      ((st'.phi.lt st.phiBest = true ∧ st'.best = st'.P ∧ st'.phiBest = st'.phi ∧ st'.hist = st.hist ++ [st'.phi]) ∨
       (st'.phi.lt st.phiBest = false ∧ st'.best = st.best ∧ st'.phiBest = st.phiBest ∧ st'.hist = st.hist ++ [st.phiBest])) := by
  unfold innerStep at h
  split at h
  · simp at h
  · simp at h
  · rename_i c cs s hc
    obtain ⟨_, hall⟩ := candidates_ok A G fuel fixed st.P _ st.phi _ _ _ _ hc
    obtain ⟨i1, i2, hne, h1, h2, he⟩ := hall _ (firstMin_mem cs c)
    dsimp only at h
    rw [he] at h
    dsimp only at h
    split at h
    · rename_i hacc
      have hnan : exchangeVal A st.P (Fin.ofNat d (i + 1)) i1 i2 st.phi ≠ .nan := by
        intro e
        rw [e] at hacc
        simp [Rounding.subR, Rounding.addR, X.le] at hacc
      split at h
      · rename_i hb
        have e := Option.some.inj h
        subst e
        exact .inr ⟨i1, i2, hne, h1, h2, rfl, rfl, hnan, .inl ⟨hb, rfl, rfl, rfl⟩⟩
      · rename_i hb
        have e := Option.some.inj h
        subst e
        exact .inr ⟨i1, i2, hne, h1, h2, rfl, rfl, hnan, .inr ⟨by simpa using hb, rfl, rfl, rfl⟩⟩
    · have e := Option.some.inj h
      subst e
      exact .inl ⟨rfl, rfl, rfl, rfl, rfl⟩

/-- Induction over a run. `I k st`: the invariant after `k` iterations of the inner loop. -/
theorem innerLoop_ind [NeZero d] (G : Rng K n) (fuel : ℕ) (fixed : List (Fin n)) (J : ℕ) (T : X K) (I : ℕ → St K G d → Prop)
    (step : ∀ k i st st', I k st → innerStep A G fuel fixed J T i st = some st' → I (k + 1) st') :
    ∀ m i k st st', I k st → innerLoop A G fuel fixed J T i m st = some st' → I (k + m) st' := by
  intro m
  induction m with
  | zero => intro i k st st' hI h; rw [← Option.some.inj h]; exact hI
  | succ m ih =>
    intro i k st st' hI h
    rw [innerLoop] at h
    split at h
    · simp at h
    · rename_i st1 h1
      rw [show k + (m + 1) = k + 1 + m by omega]
      exact ih _ _ _ _ (step k i st st1 hI h1) h

theorem outerLoop_ind [NeZero d] (G : Rng K n) (fuel : ℕ) (fixed : List (Fin n)) (J inner : ℕ) (tol : K) (I : ℕ → St K G d → Prop)
    (step : ∀ T k i st st', I k st → innerStep A G fuel fixed J T i st = some st' → I (k + 1) st')
    (reset : ∀ k st, I k st → I k { st with nAcc := 0, nImp := 0 }) :
    ∀ m T k st st', I k st → outerLoop A G fuel fixed J inner tol m T st = some st' → I (k + m * inner) st' := by
  intro m
  induction m with
  | zero => intro T k st st' hI h; rw [← Option.some.inj h]; simpa using hI
  | succ m ih =>
    intro T k st st' hI h
    rw [outerLoop] at h
    split at h
    · simp at h
    · rename_i st1 h1
      by_cases hi : inner = 0
      · rw [if_pos hi] at h; simp at h
      · rw [if_neg hi] at h
        rw [show k + (m + 1) * inner = k + inner + m * inner by rw [Nat.succ_mul]; omega]
        exact ih _ _ _ _ (innerLoop_ind A G fuel fixed J T I (step T) inner 0 k _ _ (reset k st hI) h1) h

/-- Induction over a whole run. -/
theorem run_ind [NeZero d] (G : Rng K n) (fuel : ℕ) (P0 : Design K n d) (T0 : Option (X K)) (outer inner J : ℕ) (tol : K) (fixed : List (Fin n))
    (seed : G.σ) (I : ℕ → St K G d → Prop)
    (init : I 0 ⟨P0, phiP A P0, P0, phiP A P0, 0, 0, [phiP A P0], seed⟩)
    (step : ∀ T k i st st', I k st → innerStep A G fuel fixed J T i st = some st' → I (k + 1) st')
    (reset : ∀ k st, I k st → I k { st with nAcc := 0, nImp := 0 })
    (Q : Design K n d) (hist : List (X K)) (h : maximinESE A G fuel P0 T0 outer inner J tol fixed seed = some (Q, hist)) :
    ∃ st, I (outer * inner) st ∧ st.best = Q ∧ st.hist = hist := by
  unfold maximinESE at h
  dsimp only at h
  split at h
  · simp at h
  · rename_i st hst
    have e := Option.some.inj h
    have := outerLoop_ind A G fuel fixed J inner tol I step reset outer _ 0 _ _ init hst
    rw [Nat.zero_add] at this
    exact ⟨st, this, congrArg Prod.fst e, congrArg Prod.snd e⟩

/-- What the run keeps, in any arithmetic. -/
structure Kept (G : Rng K n) (fixed : List (Fin n)) (P0 : Design K n d) (phi0 : X K) (k : ℕ) (st : St K G d) : Prop where
  cols : ColumnsRearranged P0 st.P
  rows : RowsKept fixed P0 st.P
  bcols : ColumnsRearranged P0 st.best
  brows : RowsKept fixed P0 st.best
  len : st.hist.length = k + 1
  head : st.hist.head? = some phi0
  last : st.hist.getLast? = some st.phiBest
  desc : st.hist.Pairwise NotAbove

theorem pairwise_append {l : List (X K)} {b v : X K} (h : l.Pairwise NotAbove) (hl : l.getLast? = some b) (hv : NotAbove b v) :
    (l ++ [v]).Pairwise NotAbove := by
  rw [List.pairwise_append]
  refine ⟨h, by simp, ?_⟩
  intro a ha c hc
  rw [List.mem_singleton.1 hc]
  obtain ⟨l', rfl⟩ : ∃ l', l = l' ++ [b] := by
    rw [List.getLast?_eq_some_iff] at hl
    exact hl
  rcases List.mem_append.1 ha with ha | ha
  · have := (List.pairwise_append.1 h).2.2 a ha b (by simp)
    exact this.trans hv
  · rw [List.mem_singleton.1 ha]; exact hv

theorem kept_step [NeZero d] (G : Rng K n) (fuel : ℕ) (fixed : List (Fin n)) (J : ℕ) (P0 : Design K n d) (phi0 : X K) (T : X K) (k i : ℕ) (st st' : St K G d)
    (hI : Kept G fixed P0 phi0 k st) (h : innerStep A G fuel fixed J T i st = some st') : Kept G fixed P0 phi0 (k + 1) st' := by
  have hne : st.hist ≠ [] := by
    intro e
    have := hI.len
    rw [e] at this
    simp at this
  have head : ∀ v, (st.hist ++ [v]).head? = some phi0 := by
    intro v
    rw [List.head?_append, hI.head]
    rfl
  rcases innerStep_cases A G fuel fixed J T i st st' h with ⟨a1, a2, a3, a4, a5⟩ | ⟨i1, i2, hne', h1, h2, e1, e2, hn, ⟨b1, b2, b3, b4⟩ | ⟨b1, b2, b3, b4⟩⟩
  · exact ⟨a1 ▸ hI.cols, a1 ▸ hI.rows, a3 ▸ hI.bcols, a3 ▸ hI.brows, by rw [a5]; simp [hI.len], by rw [a5]; exact head _,
      by rw [a5, a4]; simp, by rw [a5]; exact pairwise_append hI.desc hI.last (.inl rfl)⟩
  · have c1 := rearranged_swap P0 st.P hI.cols (Fin.ofNat d (i + 1)) i1 i2
    have c2 := rowsKept_swap fixed P0 st.P hI.rows (Fin.ofNat d (i + 1)) i1 i2 h1 h2
    rw [← e1] at c1 c2
    exact ⟨c1, c2, b2 ▸ c1, b2 ▸ c2, by rw [b4]; simp [hI.len], by rw [b4]; exact head _,
      by rw [b4, b3]; simp, by rw [b4]; exact pairwise_append hI.desc hI.last (.inr b1)⟩
  · have c1 := rearranged_swap P0 st.P hI.cols (Fin.ofNat d (i + 1)) i1 i2
    have c2 := rowsKept_swap fixed P0 st.P hI.rows (Fin.ofNat d (i + 1)) i1 i2 h1 h2
    rw [← e1] at c1 c2
    exact ⟨c1, c2, b2 ▸ hI.bcols, b2 ▸ hI.brows, by rw [b4]; simp [hI.len], by rw [b4]; exact head _,
      by rw [b4, b3]; simp, by rw [b4]; exact pairwise_append hI.desc hI.last (.inl rfl)⟩

theorem kept_init (G : Rng K n) (fixed : List (Fin n)) (P0 : Design K n d) (phi0 : X K) (seed : G.σ) :
    Kept G fixed P0 phi0 0 ⟨P0, phi0, P0, phi0, 0, 0, [phi0], seed⟩ :=
  ⟨rearranged_refl P0, fun _ _ => rfl, rearranged_refl P0, fun _ _ => rfl, rfl, rfl, rfl, by simp⟩

/-- **C106** Whatever the arithmetic (any rounding, any `sqrt` and powers, any order of addition, NaN and infinities included), the columns of the returned
design are rearrangements of the columns of the initial one, the fixed rows are unchanged, and the history of the criterion starts with that of the initial
design, has one entry per iteration, and never rises. -/
theorem C106_columns [NeZero d] (G : Rng K n) (fuel : ℕ) (P0 : Design K n d) (T0 : Option (X K)) (outer inner J : ℕ) (tol : K) (fixed : List (Fin n))
    (seed : G.σ) (Q : Design K n d) (hist : List (X K)) (h : maximinESE A G fuel P0 T0 outer inner J tol fixed seed = some (Q, hist)) :
    ColumnsRearranged P0 Q ∧ RowsKept fixed P0 Q ∧ hist.length = outer * inner + 1 ∧ hist.head? = some (phiP A P0) ∧ hist.Pairwise NotAbove := by
  obtain ⟨st, hI, rfl, rfl⟩ := run_ind A G fuel P0 T0 outer inner J tol fixed seed (Kept G fixed P0 (phiP A P0)) (kept_init G fixed P0 _ seed)
    (fun T k i st st' => kept_step A G fuel fixed J P0 _ T k i st st')
    (fun k st hI => ⟨hI.cols, hI.rows, hI.bcols, hI.brows, hI.len, hI.head, hI.last, hI.desc⟩) Q hist h
  exact ⟨hI.bcols, hI.brows, hI.len, hI.head, hI.desc⟩

/-- **C106** If the criterion of one of the `J` exchanges of an iteration is NaN, the iteration is lost: the design, the criterion and the best design stay as
they were, whatever the other exchanges are. -/
theorem C106_nan_blocks [NeZero d] (G : Rng K n) (fuel : ℕ) (fixed : List (Fin n)) (J : ℕ) (T : X K) (i : ℕ) (st st' : St K G d) (s : G.σ)
    (cs : List (Design K n d × X K)) (hc : candidates A G fuel fixed st.P (Fin.ofNat d (i + 1)) st.phi J st.rng = some (cs, s))
    (hn : ∃ c ∈ cs, c.2 = .nan) (h : innerStep A G fuel fixed J T i st = some st') :
    st'.P = st.P ∧ st'.phi = st.phi ∧ st'.best = st.best ∧ st'.phiBest = st.phiBest ∧ st'.nAcc = st.nAcc ∧ st'.nImp = st.nImp := by
  unfold innerStep at h
  rw [hc] at h
  cases cs with
  | nil => simp at h
  | cons c cs =>
    dsimp only at h
    rw [if_neg] at h
    · have e := Option.some.inj h
      subst e
      exact ⟨rfl, rfl, rfl, rfl, rfl, rfl⟩
    · rw [firstMin_nan cs c hn]
      simp [Rounding.subR, Rounding.addR, X.le]

theorem rootX_not_neg (hr : ∀ y, 0 ≤ y → 0 ≤ A.root y) (v : X K) : (rootX A v).lt (.fin 0) = false := by
  cases v with
  | nan => rfl
  | inf s => rfl
  | fin x =>
    rw [rootX]
    split
    · rfl
    · rename_i hx
      simpa [X.lt] using hr x (not_lt.1 hx)

/-- **C106** Once the recorded criterion of the best design is `0`, the best design is final. -/
theorem C106_zero_final [NeZero d] (hr : ∀ y, 0 ≤ y → 0 ≤ A.root y) (G : Rng K n) (fuel : ℕ) (fixed : List (Fin n)) (J inner : ℕ) (tol : K) (outer : ℕ) (T : X K)
    (st st' : St K G d) (h0 : st.phiBest = .fin 0) (h : outerLoop A G fuel fixed J inner tol outer T st = some st') :
    st'.best = st.best ∧ st'.phiBest = .fin 0 := by
  refine outerLoop_ind A G fuel fixed J inner tol (fun _ s => s.best = st.best ∧ s.phiBest = .fin 0) ?_ (fun k s hs => hs) outer T 0 st st' ⟨rfl, h0⟩ h
  intro T k i s s' ⟨h1, h2⟩ hstep
  rcases innerStep_cases A G fuel fixed J T i s s' hstep with ⟨a1, a2, a3, a4, a5⟩ | ⟨i1, i2, _, _, _, e1, e2, hn, ⟨b1, b2, b3, b4⟩ | ⟨b1, b2, b3, b4⟩⟩
  · exact ⟨a3.trans h1, a4.trans h2⟩
  · rw [e2, h2, exchangeVal, rootX_not_neg A hr] at b1
    simp at b1
  · exact ⟨b2.trans h1, b3.trans h2⟩

end SMT.Fp.Ese
