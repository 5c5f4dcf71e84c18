import Verif.Fp.CorrProps2

/-!
# C116: the Matérn kernels, where a product that overflows meets an exponential that underflows
-/
set_option linter.unusedSectionVars false
set_option linter.unusedSimpArgs false
set_option linter.unusedVariables false

namespace SMT.Fp.Corr
open SMT.Fp.Moe

variable {K : Type} [Field K] [LinearOrder K] [IsStrictOrderedRing K] {n m c : ℕ}
variable (F : Format K)

/-- At least one: a number or `+∞`. -/
def Ge1 : X K → Prop
  | .fin x => F.Fin x ∧ 1 ≤ x
  | .inf s => s = false
  | .nan => False

theorem Ge1.nn : ∀ {a : X K}, Ge1 F a → Nn F a
  | .fin a, h => ⟨h.1, zero_le_one.trans h.2⟩
  | .inf s, h => h
  | .nan, h => h

theorem add_ge1 : ∀ {a b : X K}, Ge1 F a → Nn F b → Ge1 F (F.addX a b)
  | .fin a, .fin b, ha, hb => by
    show Ge1 F (F.of (a + b))
    unfold Format.of
    have h1 : 1 ≤ a + b := by linarith [ha.2, hb.2]
    split
    · exact ⟨⟨F.idem _, by assumption⟩, F.rep_le F.one h1⟩
    · exact decide_eq_false (not_lt.2 (zero_le_one.trans h1))
  | .fin a, .inf s, ha, hb => hb
  | .inf s, .fin b, ha, hb => ha
  | .inf s, .inf t, ha, hb => by
    have hs : s = false := ha
    have ht : t = false := hb
    subst hs ht
    rfl
  | .nan, _, h, _ => h.elim
  | .fin _, .nan, _, h => h.elim
  | .inf _, .nan, _, h => h.elim

theorem mul_ge1 : ∀ {a b : X K}, Ge1 F a → Ge1 F b → Ge1 F (F.mulX a b) ∧ (F.mulX a b = .inf false ∨ ∃ x y, a = .fin x ∧ b = .fin y)
  | .fin a, .fin b, ha, hb => by
    refine ⟨?_, Or.inr ⟨a, b, rfl, rfl⟩⟩
    show Ge1 F (F.of (a * b))
    have h1 : 1 ≤ a * b := one_le_mul_of_one_le_of_one_le ha.2 hb.2
    unfold Format.of
    split
    · exact ⟨⟨F.idem _, by assumption⟩, F.rep_le F.one h1⟩
    · exact decide_eq_false (not_lt.2 (zero_le_one.trans h1))
  | .fin a, .inf s, ha, hb => by
    have h0 : 0 < a := lt_of_lt_of_le one_pos ha.2
    have hs : s = false := hb
    have : F.mulX (.fin a) (.inf s) = .inf false := by
      show (if a = 0 then X.nan else X.inf (decide (a < 0) != s)) = _
      rw [if_neg h0.ne', hs, decide_eq_false (not_lt.2 h0.le)]; rfl
    rw [this]; exact ⟨rfl, Or.inl rfl⟩
  | .inf s, .fin b, ha, hb => by
    have h0 : 0 < b := lt_of_lt_of_le one_pos hb.2
    have hs : s = false := ha
    have : F.mulX (.inf s) (.fin b) = .inf false := by
      show (if b = 0 then X.nan else X.inf (decide (b < 0) != s)) = _
      rw [if_neg h0.ne', hs, decide_eq_false (not_lt.2 h0.le)]; rfl
    rw [this]; exact ⟨rfl, Or.inl rfl⟩
  | .inf s, .inf t, ha, hb => by
    have hs : s = false := ha
    have ht : t = false := hb
    subst hs ht
    exact ⟨rfl, Or.inl rfl⟩
  | .nan, _, h, _ => h.elim
  | .fin _, .nan, _, h => h.elim
  | .inf _, .nan, _, h => h.elim

theorem evalM_ge1 (f : ℕ → X K) (t : Tree) (hf : ∀ i ∈ t.leaves, Ge1 F (f i)) :
    Ge1 F (evalM F f t) ∧ ((∃ i ∈ t.leaves, f i = .inf false) → evalM F f t = .inf false) := by
  induction t with
  | leaf i =>
    refine ⟨hf i (by simp [Tree.leaves]), ?_⟩
    rintro ⟨j, hj, e⟩
    simp [Tree.leaves] at hj
    subst hj
    exact e
  | node a b ha hb =>
    have la : ∀ i ∈ a.leaves, i ∈ (Tree.node a b).leaves := fun i hi => by simp [Tree.leaves, hi]
    have lb : ∀ i ∈ b.leaves, i ∈ (Tree.node a b).leaves := fun i hi => by simp [Tree.leaves, hi]
    have h1 := ha fun i hi => hf i (la i hi)
    have h2 := hb fun i hi => hf i (lb i hi)
    have h3 := mul_ge1 F h1.1 h2.1
    refine ⟨h3.1, ?_⟩
    rintro ⟨j, hj, e⟩
    rcases h3.2 with h | ⟨x, y, hx, hy⟩
    · exact h
    · rw [Tree.leaves, List.mem_append] at hj
      rcases hj with hj | hj
      · rw [h1.2 ⟨j, hj, e⟩] at hx; cases hx
      · rw [h2.2 ⟨j, hj, e⟩] at hy; cases hy

/-- The constants of the Matérn kernels are positive numbers. -/
structure Consts (L : Lib K) : Prop where
  s5 : 0 < L.s5
  c53 : 0 < L.c53
  s3 : 0 < L.s3

/-- A Matérn kernel. -/
def Kind.IsMatern : Kind → Prop
  | .matern52 | .matern32 => True
  | _ => False

/-- The polynomial part of a Matérn correlation: the product of the factors of the coordinates. -/
def polyPart (L : Lib K) (k : Kind) (theta : Fin m → K) (d : Fin m → X K) : X K :=
  match k with
  | .matern52 => rowProd F L.tp fun i => factor52 F L (F.mulX (.fin (theta i)) (d i).abs)
  | _ => rowProd F L.tp fun i => factor32 F L (F.mulX (.fin (theta i)) (d i).abs)

/-- The exponential part: `exp(-√5 Σ θ|d|)` or `exp(-√3 Σ θ|d|)`. -/
def expPart (L : Lib K) (k : Kind) (theta : Fin m → K) (d : Fin m → X K) : X K :=
  match k with
  | .matern52 => L.ex (F.mulX (.fin (-L.s5)) (rowSum F L.ts fun i => F.mulX (.fin (theta i)) (d i).abs))
  | _ => L.ex (F.mulX (.fin (-L.s3)) (rowSum F L.ts fun i => F.mulX (.fin (theta i)) (d i).abs))

theorem corr_matern (L : Lib K) (k : Kind) (hk : k.IsMatern) (theta : Fin m → K) (d : Fin m → X K) :
    corr F L k theta d = F.mulX (polyPart F L k theta d) (expPart F L k theta d) := by
  cases k
  · exact hk.elim
  · exact hk.elim
  · rfl
  · rfl

theorem ge1_one : Ge1 F (.fin 1) := ⟨F.fin_one, le_rfl⟩

theorem factor_ge1 {L : Lib K} (hc : Consts L) {l : X K} (hl : Nn F l) : Ge1 F (factor52 F L l) ∧ Ge1 F (factor32 F L l) := by
  have hl' : l ≠ .nan := fun e => by rw [e] at hl; exact hl
  exact ⟨add_ge1 F (add_ge1 F (ge1_one F) (mul_pos_nn F hc.s5 hl)) (mul_pos_nn F hc.c53 (mul_self_nn F hl')), add_ge1 F (ge1_one F) (mul_pos_nn F hc.s3 hl)⟩

theorem neg_fin_mul (a : K) (b : X K) : F.mulX (.fin (-a)) b = (F.mulX (.fin a) b).neg := mul_neg_left F (.fin a) b

theorem rowProd_ge1 {t : Tree} (ht : t.Adds m) (v : Fin m → X K) (hv : ∀ i, Ge1 F (v i)) :
    Ge1 F (rowProd F t v) ∧ ((∃ i, v i = .inf false) → rowProd F t v = .inf false) := by
  have h := evalM_ge1 F (fun i => if h : i < m then v ⟨i, h⟩ else .nan) t fun i hi => by rw [dif_pos ((mem_leaves ht).1 hi)]; exact hv _
  refine ⟨h.1, fun ⟨i, hi⟩ => h.2 ⟨i, (mem_leaves ht).2 i.2, ?_⟩⟩
  rw [dif_pos i.2]
  exact hi

theorem parts {L : Lib K} {cut : K} (hx : ExpOk F L.ex cut) (hr : Rows L m) (hc : Consts L) (k : Kind) (theta : Fin m → K) (hth : ∀ i, 0 < theta i)
    (d : Fin m → X K) (hd : ∀ i, d i ≠ .nan) (hv : ∀ i, F.Val (d i)) : Ge1 F (polyPart F L k theta d) ∧ Unit01 F (expPart F L k theta d) := by
  have hl : ∀ i, Nn F (F.mulX (.fin (theta i)) (d i).abs) := fun i => mul_pos_nn F (hth i) (compDist_nn F .absExp d hd hv i)
  have hs := rowSum_nn F hr.ts _ hl
  have e5 := ex_neg_range F hx (mul_pos_nn F hc.s5 hs)
  have e3 := ex_neg_range F hx (mul_pos_nn F hc.s3 hs)
  have p5 := (rowProd_ge1 F hr.tp (fun i => factor52 F L (F.mulX (.fin (theta i)) (d i).abs)) fun i => (factor_ge1 F hc (hl i)).1).1
  have p3 := (rowProd_ge1 F hr.tp (fun i => factor32 F L (F.mulX (.fin (theta i)) (d i).abs)) fun i => (factor_ge1 F hc (hl i)).2).1
  rw [← neg_fin_mul] at e5 e3
  cases k
  · exact ⟨p3, e3⟩
  · exact ⟨p3, e3⟩
  · exact ⟨p5, e5⟩
  · exact ⟨p3, e3⟩

/-- **C116** A Matérn correlation, with positive hyperparameters and differences that are not NaN: if the product of the factors is a number, the correlation is a number, not negative and not
above that product; if the product overflows, the correlation is NaN when the exponential has underflowed to zero and `+∞` when it has not. -/
theorem C116_matern {L : Lib K} {cut : K} (hx : ExpOk F L.ex cut) (hr : Rows L m) (hc : Consts L) (k : Kind) (hk : k.IsMatern) (theta : Fin m → K) (hth : ∀ i, 0 < theta i)
    (d : Fin m → X K) (hd : ∀ i, d i ≠ .nan) (hv : ∀ i, F.Val (d i)) :
    (∀ p, polyPart F L k theta d = .fin p → ∃ v, corr F L k theta d = .fin v ∧ F.Fin v ∧ 0 ≤ v ∧ v ≤ p) ∧
    ((∀ p, polyPart F L k theta d ≠ .fin p) → corr F L k theta d = if expPart F L k theta d = .fin 0 then .nan else .inf false) := by
  obtain ⟨h1, e, he, hef, he0, he1⟩ := parts F hx hr hc k theta hth d hd hv
  rw [corr_matern F L k hk, he]
  constructor
  · intro p hp
    rw [hp] at h1 ⊢
    have hp0 : 0 ≤ p := zero_le_one.trans h1.2
    have h2 : p * e ≤ p := mul_le_of_le_one_right hp0 he1
    have h0 := mul_nonneg hp0 he0
    have hb : |p * e| ≤ F.big := by
      rw [abs_of_nonneg h0]
      have := h1.1.2
      rw [abs_of_nonneg hp0] at this
      exact h2.trans this
    refine ⟨F.rnd (p * e), F.of_small hb, ?_, F.nonneg h0, F.le_rep h1.1.1 h2⟩
    refine ⟨F.idem _, ?_⟩
    rw [abs_of_nonneg (F.nonneg h0)]
    refine F.le_rep F.big_rep ?_
    rwa [abs_of_nonneg h0] at hb
  · intro hp
    cases hq : polyPart F L k theta d with
    | fin p => exact absurd hq (hp p)
    | nan => rw [hq] at h1; exact h1.elim
    | inf s =>
      rw [hq] at h1
      have hs : s = false := h1
      subst hs
      by_cases h : e = 0
      · rw [if_pos (by rw [h])]
        show (if e = 0 then X.nan else X.inf (decide (e < 0) != false)) = _
        rw [if_pos h]
      · rw [if_neg (fun q => h (X.fin.inj q))]
        show (if e = 0 then X.nan else X.inf (decide (e < 0) != false)) = _
        rw [if_neg h, decide_eq_false (not_lt.2 he0)]
        rfl

/-- The worst growth of a product by one rounding. -/
def grow : K := 1 + F.u + F.tiny

theorem evalM_fin (f : ℕ → X K) (g : ℕ → K) (t : Tree) (hf : ∀ i ∈ t.leaves, f i = .fin (g i) ∧ F.Fin (g i) ∧ 1 ≤ g i)
    (hb : grow F ^ (t.leaves.length - 1) * (t.leaves.map g).prod ≤ F.big) :
    ∃ p, evalM F f t = .fin p ∧ 1 ≤ p ∧ p ≤ grow F ^ (t.leaves.length - 1) * (t.leaves.map g).prod := by
  have g1 : 1 ≤ grow F := by unfold grow; linarith [F.u_nonneg, F.tiny_nonneg]
  have hprod : ∀ l : List ℕ, (∀ i ∈ l, 1 ≤ g i) → 1 ≤ (l.map g).prod := by
    intro l
    induction l with
    | nil => intro _; simp
    | cons a l ih =>
      intro h
      rw [List.map_cons, List.prod_cons]
      exact one_le_mul_of_one_le_of_one_le (h a (by simp)) (ih fun i hi => h i (by simp [hi]))
  induction t with
  | leaf i =>
    obtain ⟨h1, h2, h3⟩ := hf i (by simp [Tree.leaves])
    exact ⟨g i, h1, h3, by simp [Tree.leaves]⟩
  | node a b ha hb' =>
    have la : ∀ i ∈ a.leaves, i ∈ (Tree.node a b).leaves := fun i hi => by simp [Tree.leaves, hi]
    have lb : ∀ i ∈ b.leaves, i ∈ (Tree.node a b).leaves := fun i hi => by simp [Tree.leaves, hi]
    have pa := leaves_pos a
    have pb := leaves_pos b
    have qa := hprod a.leaves fun i hi => (hf i (la i hi)).2.2
    have qb := hprod b.leaves fun i hi => (hf i (lb i hi)).2.2
    set A := grow F ^ (a.leaves.length - 1) * (a.leaves.map g).prod with hA
    set B := grow F ^ (b.leaves.length - 1) * (b.leaves.map g).prod with hB
    have hA1 : 1 ≤ A := one_le_mul_of_one_le_of_one_le (one_le_pow₀ g1) qa
    have hB1 : 1 ≤ B := one_le_mul_of_one_le_of_one_le (one_le_pow₀ g1) qb
    have tot : grow F ^ ((Tree.node a b).leaves.length - 1) * ((Tree.node a b).leaves.map g).prod = grow F * (A * B) := by
      rw [Tree.leaves, List.length_append, List.map_append, List.prod_append]
      have : a.leaves.length + b.leaves.length - 1 = 1 + (a.leaves.length - 1) + (b.leaves.length - 1) := by omega
      rw [this, pow_add, pow_add, pow_one, hA, hB]
      ring
    rw [tot] at hb ⊢
    have hAB : A * B ≤ grow F * (A * B) := le_mul_of_one_le_left (by positivity) g1
    have hA' : A ≤ F.big := (le_mul_of_one_le_right (by linarith) hB1).trans (hAB.trans hb)
    have hB' : B ≤ F.big := (le_mul_of_one_le_left (by linarith) hA1).trans (hAB.trans hb)
    obtain ⟨p, e1, p1, p2⟩ := ha (fun i hi => hf i (la i hi)) hA'
    obtain ⟨q, e2, q1, q2⟩ := hb' (fun i hi => hf i (lb i hi)) hB'
    have hpq : p * q ≤ A * B := mul_le_mul p2 q2 (by linarith) (by linarith)
    have hpq1 : 1 ≤ p * q := one_le_mul_of_one_le_of_one_le p1 q1
    refine ⟨F.rnd (p * q), ?_, F.rep_le F.one hpq1, ?_⟩
    · rw [evalM, e1, e2]
      exact F.of_small (by rw [abs_of_nonneg (by linarith)]; exact hpq.trans (hAB.trans hb))
    · have h := (abs_le.1 (F.err (p * q))).2
      rw [abs_of_nonneg (by linarith : (0 : K) ≤ p * q)] at h
      have h4 : F.tiny ≤ F.tiny * (p * q) := le_mul_of_one_le_right F.tiny_nonneg hpq1
      have h5 : F.rnd (p * q) ≤ grow F * (p * q) := by unfold grow; linarith
      exact h5.trans (mul_le_mul_of_nonneg_left hpq (by linarith))

theorem prod_const (q : K) : ∀ l : List ℕ, (l.map fun _ => q).prod = q ^ l.length
  | [] => by simp
  | _ :: l => by rw [List.map_cons, List.prod_cons, prod_const q l, List.length_cons, pow_succ]; ring

/-- **C116** A Matérn correlation is a number as long as no factor exceeds some `q` with `(q (1 + u + tiny)) ^ m` below the largest number: in `m` dimensions there is room for factors up to
about the `m`-th root of `1.8e308`. -/
theorem C116_matern_number {L : Lib K} {cut : K} (hx : ExpOk F L.ex cut) (hr : Rows L m) (hc : Consts L) (k : Kind) (hk : k.IsMatern) (theta : Fin m → K) (hth : ∀ i, 0 < theta i)
    (d : Fin m → X K) (hd : ∀ i, d i ≠ .nan) (hv : ∀ i, F.Val (d i)) (q : K) (hq : F.Fin q) (hqm : (grow F * q) ^ m ≤ F.big)
    (hl : ∀ i, (match k with | .matern52 => factor52 F L (F.mulX (.fin (theta i)) (d i).abs) | _ => factor32 F L (F.mulX (.fin (theta i)) (d i).abs)).le (.fin q) = true) :
    ∃ v, corr F L k theta d = .fin v ∧ F.Fin v ∧ 0 ≤ v := by
  have g1 : 1 ≤ grow F := by unfold grow; linarith [F.u_nonneg, F.tiny_nonneg]
  have hn : ∀ i, Nn F (F.mulX (.fin (theta i)) (d i).abs) := fun i => mul_pos_nn F (hth i) (compDist_nn F .absExp d hd hv i)
  have key : ∀ v : Fin m → X K, (∀ i, Ge1 F (v i)) → (∀ i, (v i).le (.fin q) = true) → ∃ p, rowProd F L.tp v = .fin p := by
    intro v h1 h2
    have hv' : ∀ i, ∃ x, v i = .fin x ∧ F.Fin x ∧ 1 ≤ x ∧ x ≤ q := by
      intro i
      have a := h1 i
      have b := h2 i
      cases hh : v i with
      | fin x => rw [hh] at a b; exact ⟨x, rfl, a.1, a.2, of_decide_eq_true b⟩
      | inf s => rw [hh] at a b; have hs : s = false := a; subst hs; cases b
      | nan => rw [hh] at a; exact a.elim
    choose x hx1 hx2 hx3 hx4 using hv'
    have hpos := adds_pos hr.tp
    have q1 : 1 ≤ q := (hx3 ⟨0, hpos⟩).trans (hx4 ⟨0, hpos⟩)
    have hle : ∀ l : List ℕ, (∀ i ∈ l, i < m) → (l.map fun i => if h : i < m then x ⟨i, h⟩ else 1).prod ≤ q ^ l.length ∧ 0 ≤ (l.map fun i => if h : i < m then x ⟨i, h⟩ else 1).prod := by
      intro l
      induction l with
      | nil => intro _; simp
      | cons a l ih =>
        intro h
        obtain ⟨i1, i2⟩ := ih fun i hi => h i (by simp [hi])
        rw [List.map_cons, List.prod_cons, List.length_cons, pow_succ, mul_comm (q ^ l.length), dif_pos (h a (by simp))]
        exact ⟨mul_le_mul (hx4 _) i1 i2 (by linarith), mul_nonneg (by linarith [hx3 ⟨a, h a (by simp)⟩]) i2⟩
    obtain ⟨p, hp, _⟩ := evalM_fin F (fun i => if h : i < m then v ⟨i, h⟩ else .nan) (fun i => if h : i < m then x ⟨i, h⟩ else 1) L.tp (fun i hi => by
      have hi' := (mem_leaves hr.tp).1 hi
      rw [dif_pos hi', dif_pos hi']
      exact ⟨hx1 _, hx2 _, hx3 _⟩) (by
      refine le_trans ?_ hqm
      have hll := leaves_length hr.tp
      have h1 := (hle L.tp.leaves fun i hi => (mem_leaves hr.tp).1 hi).1
      rw [hll] at h1 ⊢
      rw [mul_pow]
      refine mul_le_mul (pow_le_pow_right₀ g1 (Nat.sub_le _ _)) h1 ?_ (by positivity)
      exact (hle L.tp.leaves fun i hi => (mem_leaves hr.tp).1 hi).2)
    exact ⟨p, hp⟩
  have hp : ∃ p, polyPart F L k theta d = .fin p := by
    cases k
    · exact hk.elim
    · exact hk.elim
    · exact key _ (fun i => (factor_ge1 F hc (hn i)).1) hl
    · exact key _ (fun i => (factor_ge1 F hc (hn i)).2) hl
  obtain ⟨p, hp⟩ := hp
  obtain ⟨v, h1, h2, h3, _⟩ := (C116_matern F hx hr hc k hk theta hth d hd hv).1 p hp
  exact ⟨v, h1, h2, h3⟩

/-- **C116** (violation) Far from the data the Matérn 5/2 correlation is NaN instead of zero: it is enough that in one coordinate the square of the scaled distance overflows. The prediction there is
NaN, not the trend, and `predict_variances` raises. -/
theorem C116_matern_far_nan {L : Lib K} {cut : K} (hx : ExpOk F L.ex cut) (hr : Rows L m) (hc : Consts L) (theta : Fin m → K) (hth : ∀ i, 0 < theta i)
    (d : Fin n → Fin m → X K) (a : Fin n) (hd : ∀ i, d a i ≠ .nan) (hv : ∀ i, F.Val (d a i)) (i : Fin m)
    (h2 : F.mulX (F.mulX (.fin (theta i)) (d a i).abs) (F.mulX (.fin (theta i)) (d a i).abs) = .inf false)
    (h1 : (X.fin (-cut)).le (F.mulX (.fin L.s5) (F.mulX (.fin (theta i)) (d a i).abs)) = true)
    {t : Tree} (ht : t.Adds n) (yMean yStd trend : X K) (gamma : Fin n → X K) {β : Type} (solve : (Fin n → X K) → β) :
    corr F L .matern52 theta (d a) = .nan ∧
    predictX F t yMean yStd trend (fun i => corr F L .matern52 theta (d i)) gamma = .nan ∧
    varSolve solve (fun i => corr F L .matern52 theta (d i)) = .error () := by
  have hn : ∀ i, Nn F (F.mulX (.fin (theta i)) (d a i).abs) := fun i => mul_pos_nn F (hth i) (compDist_nn F .absExp (d a) hd hv i)
  have main : corr F L .matern52 theta (d a) = .nan := by
    have hp : polyPart F L .matern52 theta (d a) = .inf false := by
      refine (rowProd_ge1 F hr.tp _ fun i => (factor_ge1 F hc (hn i)).1).2 ⟨i, ?_⟩
      unfold factor52
      rw [h2]
      have : F.mulX (.fin L.c53) (.inf false) = .inf false := by
        show (if L.c53 = 0 then X.nan else X.inf (decide (L.c53 < 0) != false)) = _
        rw [if_neg hc.c53.ne', decide_eq_false (not_lt.2 hc.c53.le)]; rfl
      rw [this]
      have hg := add_ge1 F (ge1_one F) (mul_pos_nn F hc.s5 (hn i))
      cases hh : F.addX (.fin 1) (F.mulX (.fin L.s5) (F.mulX (.fin (theta i)) (d a i).abs)) with
      | fin v => rfl
      | inf s => rw [hh] at hg; have hs : s = false := hg; subst hs; rfl
      | nan => rw [hh] at hg; exact hg.elim
    have he : expPart F L .matern52 theta (d a) = .fin 0 := by
      show L.ex (F.mulX (.fin (-L.s5)) (rowSum F L.ts fun i => F.mulX (.fin (theta i)) (d a i).abs)) = _
      rw [neg_fin_mul]
      refine ex_far F hx (le_trans' h1 ?_)
      exact mul_pos_mono F hc.s5 (hn i) (rowSum_nn F hr.ts _ hn) (rowSum_ge F hr.ts (fun i => F.mulX (.fin (theta i)) (d a i).abs) hn i)
    rw [(C116_matern F hx hr hc .matern52 trivial theta hth (d a) hd hv).2 (fun p q => by rw [hp] at q; cases q), if_pos he]
  exact ⟨main, C116_nan_spreads F ht yMean yStd trend _ gamma a main solve⟩

/-! ## Doubles -/

/-- A crude exponential for the examples: `1 + x / 746` on `[-746, 0]`. -/
def crude : X ℚ → X ℚ
  | .nan => .nan
  | .inf true => .fin 0
  | .inf false => .inf false
  | .fin x => if x ≤ -746 then .fin 0 else if x ≤ 0 then binary64.of (1 + x / 746) else .inf false

theorem crude_ok : ExpOk binary64 crude (-746) where
  nan := rfl
  ninf := rfl
  zero := by decide +kernel
  range := by
    intro x hx
    show ∃ v, (if x ≤ -746 then X.fin 0 else if x ≤ 0 then binary64.of (1 + x / 746) else X.inf false) = _ ∧ _
    by_cases h : x ≤ -746
    · rw [if_pos h]; exact ⟨0, rfl, binary64.fin_zero, le_rfl, zero_le_one⟩
    · rw [if_neg h, if_pos hx]
      push Not at h
      have h0 : 0 ≤ 1 + x / 746 := by linarith
      have h1 : 1 + x / 746 ≤ 1 := by linarith
      have hb : |1 + x / 746| ≤ binary64.big := by rw [abs_of_nonneg h0]; exact h1.trans binary64.one_le_big
      refine ⟨_, binary64.of_small hb, ⟨binary64.idem _, ?_⟩, binary64.nonneg h0, binary64.le_rep binary64.one h1⟩
      rw [abs_of_nonneg (binary64.nonneg h0)]
      exact (binary64.le_rep binary64.one h1).trans binary64.one_le_big
  under := by
    intro x hx
    exact if_pos hx

/-- NumPy's constants as doubles, with sums and products from the left. -/
def lib64 (m : ℕ) : Lib ℚ := ⟨crude, 5035336897937385 / 2 ^ 51, 7505999378950827 / 2 ^ 52, 7800463371553962 / 2 ^ 52, Tree.left (m - 1), Tree.left (m - 1)⟩

example : Consts (lib64 5) := ⟨by norm_num [lib64], by norm_num [lib64], by norm_num [lib64]⟩

theorem left_leaves : ∀ n, (Tree.left n).leaves = List.range (n + 1)
  | 0 => rfl
  | n + 1 => by rw [Tree.left, Tree.leaves, left_leaves n, List.range_succ (n := n + 1)]; rfl

theorem rows64 (m : ℕ) (hm : 1 ≤ m) : Rows (lib64 m) m := by
  have : (Tree.left (m - 1)).Adds m := by
    unfold Tree.Adds
    rw [left_leaves, Nat.sub_add_cancel hm]
  exact ⟨this, this⟩

/-- The squared exponential of two points in the plane, and the same point twice. -/
example : corr binary64 (lib64 2) .squarExp ![1, 2] (diff binary64 ![.fin 3, .fin 1] ![.fin 1, .fin 5]) = corr binary64 (lib64 2) .squarExp ![1, 2] (diff binary64 ![.fin 1, .fin 5] ![.fin 3, .fin 1]) := by decide +kernel
example : corr binary64 (lib64 2) .matern52 ![1, 2] ![.fin 0, .fin 0] = .fin 1 := by decide +kernel
example : (X.fin (0 : ℚ)).lt (corr binary64 (lib64 2) .squarExp ![1, 2] ![.fin 2, .fin 4]) = true ∧ (corr binary64 (lib64 2) .squarExp ![1, 2] ![.fin 2, .fin 4]).lt (.fin 1) = true := by
  constructor <;> decide +kernel

theorem crude_mono : ∀ x y : ℚ, x ≤ y → y ≤ 0 → (crude (.fin x)).le (crude (.fin y)) = true := by
  intro x y h hy
  obtain ⟨v, hv, _, h0, _⟩ := crude_ok.range y hy
  by_cases hx : x ≤ -746
  · have : crude (.fin x) = .fin 0 := if_pos hx
    rw [this, hv]
    exact decide_eq_true h0
  · have e1 : crude (.fin x) = binary64.of (1 + x / 746) := by
      show (if x ≤ -746 then X.fin 0 else if x ≤ 0 then binary64.of (1 + x / 746) else X.inf false) = _
      rw [if_neg hx, if_pos (h.trans hy)]
    push Not at hx
    have e2 : crude (.fin y) = binary64.of (1 + y / 746) := by
      show (if y ≤ -746 then X.fin 0 else if y ≤ 0 then binary64.of (1 + y / 746) else X.inf false) = _
      rw [if_neg (by push Not; linarith), if_pos hy]
    rw [e1, e2]
    exact of_mono binary64 (by linarith) (by linarith)

/-- The hypotheses are met: a correlation of points far apart, a growing difference, a Matérn correlation within its room, prediction at a training point, far away. -/
example : Unit01 binary64 (corr binary64 (lib64 2) .absExp ![1, 2] (diff binary64 ![.fin (10 ^ 308), .fin 1] ![.fin (-10 ^ 308), .fin 5])) :=
  C116_finite_points binary64 crude_ok (rows64 2 (by norm_num)) .absExp trivial ![1, 2] (by decide) _ _ (fun i => ⟨![10 ^ 308, 1] i, by fin_cases i <;> rfl⟩)
    (fun i => ⟨![-10 ^ 308, 5] i, by fin_cases i <;> rfl⟩)
example : (corr binary64 (lib64 2) .squarExp ![1, 2] ![.fin 2, .inf true]).le (corr binary64 (lib64 2) .squarExp ![1, 2] ![.fin (-1), .fin 7]) = true :=
  C116_monotone binary64 crude_ok crude_mono (rows64 2 (by norm_num)) .squarExp trivial ![1, 2] (by decide) ![.fin (-1), .fin 7] ![.fin 2, .inf true]
    (fun i => by fin_cases i <;> exact ⟨by decide +kernel, by decide +kernel⟩)
    (fun i => by fin_cases i; exact ⟨by decide +kernel, by decide +kernel⟩; trivial) (by decide)
example : ∃ v, corr binary64 (lib64 2) .matern52 ![1, 2] ![.fin 2, .fin (-4)] = .fin v ∧ binary64.Fin v ∧ 0 ≤ v :=
  C116_matern_number binary64 crude_ok (rows64 2 (by norm_num)) ⟨by norm_num [lib64], by norm_num [lib64], by norm_num [lib64]⟩ .matern52 trivial ![1, 2] (by decide) ![.fin 2, .fin (-4)]
    (fun i => by fin_cases i <;> simp) (fun i => by fin_cases i <;> exact ⟨by decide +kernel, by decide +kernel⟩) 200 ⟨by decide +kernel, by decide +kernel⟩ (by decide +kernel) (fun i => by fin_cases i <;> decide +kernel)
example : ∃ R, trainMatrix binary64 (corr binary64 (lib64 1) .matern32 ![3]) 0 (fun _ => 0) 3 (fun i => normX binary64 ![.fin 1] ![.fin 3] ![.fin i]) = some R ∧
    ∀ i j : Fin 3, predCorr binary64 (corr binary64 (lib64 1) .matern32 ![3]) ![.fin 1] ![.fin 3] (fun i : Fin 3 => normX binary64 ![.fin 1] ![.fin 3] ![.fin i]) ![.fin j] i = if i = j then .fin 1 else R i j :=
  C116_training_point binary64 crude_ok (rows64 1 (by norm_num)) .matern32 ![3] 0 (fun _ => 0) ![.fin 1] ![.fin 3] (fun j => ![.fin j]) (fun j hj i => by
    interval_cases j <;> fin_cases i
    · exact ⟨binary64.rnd (-1 / 3), by decide +kernel⟩
    · exact ⟨0, by decide +kernel⟩
    · exact ⟨binary64.rnd (1 / 3), by decide +kernel⟩)
example : corr binary64 (lib64 2) .absExp ![1, 2] ![.fin 2, .fin (-400)] = .fin 0 :=
  C116_far_zero binary64 crude_ok (rows64 2 (by norm_num)) .absExp trivial ![1, 2] (by decide) _ (fun i => by fin_cases i <;> simp)
    (fun i => by fin_cases i <;> exact ⟨by decide +kernel, by decide +kernel⟩) 1 (by decide +kernel)
example : predictX binary64 (Tree.left 1) (.fin 5) (.fin 2) (.fin 3) ![.fin 0, .fin 0] ![.fin (10 ^ 300), .fin (-7)] = .fin 11 := by decide +kernel
example : predictX binary64 (Tree.left 1) (.fin 5) (.fin 2) (.fin 3) (fun i => corr binary64 (lib64 1) .matern52 ![1] (![![.fin 0], ![.fin (2 ^ 512)]] i)) ![.fin 1, .fin (-7)] = .nan :=
  (C116_matern_far_nan binary64 crude_ok (rows64 1 (by norm_num)) ⟨by norm_num [lib64], by norm_num [lib64], by norm_num [lib64]⟩ ![1] (by decide) ![![.fin 0], ![.fin (2 ^ 512)]] 1
    (fun i => by fin_cases i; simp) (fun i => by fin_cases i; exact ⟨by decide +kernel, by decide +kernel⟩) 0 (by decide +kernel) (by decide +kernel) (rows64 2 (by norm_num)).ts _ _ _ _ (fun _ => ())).2.1

/-- Points at a distance of `2 ^ 512` (about `1.3e154`) in one coordinate: squared exponential `0`, Matérn 5/2 NaN. -/
example : corr binary64 (lib64 1) .squarExp ![1] ![.fin (2 ^ 512)] = .fin 0 ∧ corr binary64 (lib64 1) .matern52 ![1] ![.fin (2 ^ 512)] = .nan := by
  constructor <;> decide +kernel

/-- **C116** (violation) In 136 dimensions ordinary data are enough: with scaled distances of `10` in each coordinate the product of the Matérn 5/2 factors overflows and the correlation is NaN, though the
true one is about `1e-1011`; the squared exponential is zero. This is so for every exponential that underflows below `-746`. -/
theorem C116_matern_dimensions (ex : X ℚ → X ℚ) (hx : ExpOk binary64 ex (-746)) :
    corr (m := 136) binary64 { lib64 136 with ex := ex } .matern52 (fun _ => 10) (fun _ => .fin 1) = .nan ∧
    corr (m := 136) binary64 { lib64 136 with ex := ex } .squarExp (fun _ => 10) (fun _ => .fin 1) = .fin 0 := by
  have hr : Rows { lib64 136 with ex := ex } 136 := ⟨(rows64 136 (by norm_num)).ts, (rows64 136 (by norm_num)).tp⟩
  have hp : polyPart (m := 136) binary64 (lib64 136) .matern52 (fun _ => 10) (fun _ => .fin 1) = .inf false := by decide +kernel
  have hl : ((X.fin (746 : ℚ)).le (binary64.mulX (.fin (lib64 136).s5) (rowSum (m := 136) binary64 (lib64 136).ts fun i => binary64.mulX (.fin 10) (X.fin 1).abs))) = true := by decide +kernel
  have hl' : ((X.fin (746 : ℚ)).le (rowSum (m := 136) binary64 (lib64 136).ts fun i => binary64.mulX (.fin 10) (binary64.mulX (X.fin 1) (X.fin 1)))) = true := by decide +kernel
  constructor
  · rw [corr_matern binary64 _ .matern52 trivial]
    have e : expPart (m := 136) binary64 { lib64 136 with ex := ex } .matern52 (fun _ => 10) (fun _ => .fin 1) = .fin 0 := by
      show ex (binary64.mulX (.fin (-(lib64 136).s5)) _) = _
      rw [neg_fin_mul]
      exact ex_far binary64 hx (by rw [neg_neg]; exact hl)
    rw [e]
    have hp' : polyPart (m := 136) binary64 { lib64 136 with ex := ex } .matern52 (fun _ => 10) (fun _ => .fin 1) = .inf false := hp
    rw [hp']
    rfl
  · exact ex_far binary64 hx (by rw [neg_neg]; exact hl')

end SMT.Fp.Corr
