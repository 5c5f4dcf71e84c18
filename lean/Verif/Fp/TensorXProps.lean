import Verif.Fp.TensorX
import Verif.Fp.NetXProps2
import Verif.Fp.CorrProps3

/-!
# C125: TensorProduct in IEEE arithmetic
-/
set_option linter.unusedSectionVars false
set_option linter.unusedSimpArgs false
set_option linter.unusedVariables false

namespace SMT.Fp.Tensor
open SMT.Fp.Corr SMT.Fp.Moe

variable {K : Type} [Field K] [LinearOrder K] [IsStrictOrderedRing K] {n : ℕ}
variable (F : Format K)

/-! ## Values -/

/-- A number of absolute value at most `B`. -/
def Bounded (B : K) (v : X K) : Prop := ∃ a, v = .fin a ∧ |a| ≤ B

theorem Bounded.mul {B : K} (hB : F.Fin B) (h0 : 0 ≤ B) {v w : X K} (h : Bounded B v) (h' : Bounded 1 w) : Bounded B (F.mulX v w) := by
  obtain ⟨a, rfl, ha⟩ := h
  obtain ⟨b, rfl, hb⟩ := h'
  have hab : |a * b| ≤ B := by
    rw [abs_mul]
    exact (mul_le_mul ha hb (abs_nonneg _) h0).trans (by rw [mul_one])
  refine ⟨_, F.of_small (hab.trans ((le_abs_self B).trans hB.2)), ?_⟩
  rw [abs_le] at hab ⊢
  exact ⟨F.rep_le (by rw [F.odd, hB.1]) hab.1, F.le_rep hB.1 hab.2⟩

theorem Bounded.mul_comm' {B : K} (hB : F.Fin B) (h0 : 0 ≤ B) {v w : X K} (h : Bounded 1 v) (h' : Bounded B w) : Bounded B (F.mulX v w) := by
  rw [(C103_comm F v w).2]
  exact h'.mul F hB h0 h

theorem evalM_ind (P : X K → Prop) (hP : ∀ v w, P v → P w → P (F.mulX v w)) (f : ℕ → X K) (t : Tree) (h : ∀ i ∈ t.leaves, P (f i)) : P (evalM F f t) := by
  induction t with
  | leaf i => exact h i (by simp [Tree.leaves])
  | node a b ha hb => exact hP _ _ (ha fun i hi => h i (by simp [Tree.leaves, hi])) (hb fun i hi => h i (by simp [Tree.leaves, hi]))

/-- If every factor is a number between -1 and 1 (as for `cos`, `tanh` and `gaussian`), so is the value: the rounded product never leaves the interval. -/
theorem C125_value_bounded {t : Tree} (ht : t.Adds n) (f : Fin n → X K) (h : ∀ i, Bounded 1 (f i)) : Bounded 1 (value F t f) := by
  refine evalM_ind F _ (fun v w hv hw => hv.mul F F.fin_one zero_le_one hw) _ t fun i hi => ?_
  rw [dif_pos ((mem_leaves ht).1 hi)]
  exact h _

theorem zero_inf (f : ℕ → X K) (t : Tree) (h : ∀ i ∈ t.leaves, Nn F (f i)) :
    evalM F f t = .nan ∨ (Nn F (evalM F f t) ∧ ((∃ i ∈ t.leaves, f i = .fin 0) → evalM F f t = .fin 0) ∧ ((∃ i ∈ t.leaves, f i = .inf false) → evalM F f t = .inf false)) := by
  induction t with
  | leaf i =>
    refine .inr ⟨h i (by simp [Tree.leaves]), ?_, ?_⟩ <;>
    · rintro ⟨j, hj, e⟩
      have : j = i := by simpa [Tree.leaves] using hj
      rw [← this]; exact e
  | node a b ha hb =>
    have e : evalM F f (.node a b) = F.mulX (evalM F f a) (evalM F f b) := rfl
    have el : ∀ P : ℕ → Prop, (∃ i ∈ (Tree.node a b).leaves, P i) → (∃ i ∈ a.leaves, P i) ∨ ∃ i ∈ b.leaves, P i := by
      rintro P ⟨i, hi, hp⟩
      rcases List.mem_append.1 (show i ∈ a.leaves ++ b.leaves from hi) with hi | hi
      · exact .inl ⟨i, hi, hp⟩
      · exact .inr ⟨i, hi, hp⟩
    rw [e]
    rcases ha fun i hi => h i (by simp [Tree.leaves, hi]) with h1 | ⟨n1, z1, i1⟩
    · rw [h1]; exact .inl (F.mulX_nan_left _)
    rcases hb fun i hi => h i (by simp [Tree.leaves, hi]) with h2 | ⟨n2, z2, i2⟩
    · rw [h2]; exact .inl (F.mulX_nan_right _)
    cases ea : evalM F f a with
    | nan => exact .inl (F.mulX_nan_left _)
    | fin p =>
      cases eb : evalM F f b with
      | nan => exact .inl (F.mulX_nan_right _)
      | fin q =>
        rw [ea] at n1 z1 i1
        rw [eb] at n2 z2 i2
        refine .inr ⟨of_nn F (mul_nonneg n1.2 n2.2), fun hz => ?_, fun hi => ?_⟩
        · rcases el _ hz with hz | hz
          · rw [X.fin.inj (z1 hz)]; exact zero_mul' F _
          · rw [X.fin.inj (z2 hz)]; exact mul_zero' F _
        · rcases el _ hi with hi | hi
          · cases i1 hi
          · cases i2 hi
      | inf s =>
        rw [ea] at n1 z1 i1
        rw [eb] at n2 z2 i2
        have hs : s = false := n2
        subst hs
        by_cases hp : p = 0
        · exact .inl (if_pos hp)
        · have hm : F.mulX (.fin p) (.inf false) = .inf false := by
            show (if p = 0 then X.nan else .inf (decide (p < 0) != false)) = _
            rw [if_neg hp, decide_eq_false (not_lt.2 n1.2)]; rfl
          rw [hm]
          refine .inr ⟨Eq.refl false, fun hz => ?_, fun _ => rfl⟩
          rcases el _ hz with hz | hz
          · exact absurd (X.fin.inj (z1 hz)) hp
          · cases z2 hz
    | inf s =>
      rw [ea] at n1 z1 i1
      have hs : s = false := n1
      subst hs
      cases eb : evalM F f b with
      | nan => exact .inl (F.mulX_nan_right _)
      | fin q =>
        rw [eb] at n2 z2 i2
        by_cases hq : q = 0
        · exact .inl (if_pos hq)
        · have hm : F.mulX (.inf false) (.fin q) = .inf false := by
            show (if q = 0 then X.nan else .inf (decide (q < 0) != false)) = _
            rw [if_neg hq, decide_eq_false (not_lt.2 n2.2)]; rfl
          rw [hm]
          refine .inr ⟨Eq.refl false, fun hz => ?_, fun _ => rfl⟩
          rcases el _ hz with hz | hz
          · cases z1 hz
          · exact absurd (X.fin.inj (z2 hz)) hq
      | inf s' =>
        rw [eb] at n2 z2 i2
        have hs : s' = false := n2
        subst hs
        refine .inr ⟨Eq.refl false, fun hz => ?_, fun _ => rfl⟩
        rcases el _ hz with hz | hz
        · cases z1 hz
        · cases z2 hz

/-- Non-negative factors (`exp`, `gaussian`): if one has underflowed to zero and another overflowed, the value is NaN, whatever the others are and in whatever order they are multiplied; with a zero and no
NaN it is zero. -/
theorem C125_value_nan {t : Tree} (ht : t.Adds n) (f : Fin n → X K) (h : ∀ i, Nn F (f i)) :
    (∀ i j, f i = .fin 0 → f j = .inf false → value F t f = .nan) ∧
    (∀ i, f i = .fin 0 → value F t f = .nan ∨ value F t f = .fin 0) ∧ (∀ i, f i = .inf false → value F t f = .nan ∨ value F t f = .inf false) := by
  have hl : ∀ i : Fin n, (i : ℕ) ∈ t.leaves ∧ (fun i => if h : i < n then f ⟨i, h⟩ else X.nan) (i : ℕ) = f i := fun i =>
    ⟨(mem_leaves ht).2 i.2, dif_pos i.2⟩
  have hz := zero_inf F (fun i => if h : i < n then f ⟨i, h⟩ else X.nan) t fun i hi => by
    rw [dif_pos ((mem_leaves ht).1 hi)]; exact h _
  have key : value F t f = .nan ∨ ((∀ i, f i = .fin 0 → value F t f = .fin 0) ∧ ∀ i, f i = .inf false → value F t f = .inf false) := by
    rcases hz with hz | ⟨_, h1, h2⟩
    · exact .inl hz
    · exact .inr ⟨fun i e => h1 ⟨i, (hl i).1, (hl i).2.trans e⟩, fun i e => h2 ⟨i, (hl i).1, (hl i).2.trans e⟩⟩
  refine ⟨fun i j e1 e2 => ?_, fun i e => ?_, fun i e => ?_⟩
  · rcases key with k | ⟨k1, k2⟩
    · exact k
    · have := k1 i e1
      rw [k2 j e2] at this
      cases this
  · rcases key with k | ⟨k1, k2⟩
    · exact .inl k
    · exact .inr (k1 i e)
  · rcases key with k | ⟨k1, k2⟩
    · exact .inl k
    · exact .inr (k2 i e)

/-! ## Derivatives -/

/-- The product of the factors one after another, in real arithmetic. -/
def seqProd (cs : List (X K)) : X K := cs.foldl F.mulX (.fin 1)

/-- A number (neither infinite nor NaN). -/
def IsNumber (v : X K) : Prop := ∃ a, v = .fin a

theorem zero_zero : F.mulX (.fin 0) (.fin (0 : K)) = .fin 0 := mul_zero' F 0

theorem sub_zero' (v : X K) (h : F.Val v) : F.subX v (.fin 0) = v := by
  show F.addX v (.fin (-0)) = v
  rw [neg_zero]
  exact add_zero' F h

theorem step_re (p c : X K) : (mulC F (p, .fin 0) (c, .fin 0)).1 = F.mulX p c := by
  show F.subX (F.mulX p c) (F.mulX (.fin 0) (.fin 0)) = _
  rw [zero_zero, sub_zero' F _ (SMT.Fp.NetX.mulX_val F)]

theorem zero_zero_add : F.addX (.fin 0) (.fin (0 : K)) = .fin 0 := by
  show F.of (0 + 0) = _
  rw [add_zero, F.of_zero]

theorem step_im (p c : X K) : (IsNumber p ∧ IsNumber c → (mulC F (p, .fin 0) (c, .fin 0)).2 = .fin 0) ∧ (¬(IsNumber p ∧ IsNumber c) → (mulC F (p, .fin 0) (c, .fin 0)).2 = .nan) := by
  have e : (mulC F (p, .fin 0) (c, .fin 0)).2 = F.addX (F.mulX p (.fin 0)) (F.mulX (.fin 0) c) := rfl
  rw [e]
  constructor
  · rintro ⟨⟨a, rfl⟩, ⟨b, rfl⟩⟩
    rw [mul_zero', zero_mul', zero_zero_add]
  · intro h
    cases p with
    | nan => rw [F.mulX_nan_left]; exact F.addX_nan_left _
    | inf s => rw [show F.mulX (.inf s) (.fin (0 : K)) = .nan from if_pos rfl]; exact F.addX_nan_left _
    | fin a =>
      cases c with
      | nan => rw [F.mulX_nan_right]; exact F.addX_nan_right _
      | inf s => rw [show F.mulX (.fin (0 : K)) (.inf s) = .nan from if_pos rfl]; exact F.addX_nan_right _
      | fin b => exact absurd ⟨⟨a, rfl⟩, ⟨b, rfl⟩⟩ h

theorem step_nan (y : X K × X K) (h : y.2 = .nan) (c : X K) : (mulC F y (c, .fin 0)).1 = .nan ∧ (mulC F y (c, .fin 0)).2 = .nan := by
  constructor
  · show F.addX _ (F.mulX y.2 (.fin 0)).neg = _
    rw [h, F.mulX_nan_left]
    exact F.addX_nan_right _
  · show F.addX _ (F.mulX y.2 c) = _
    rw [h, F.mulX_nan_left]
    exact F.addX_nan_right _

theorem run_append (y : X K × X K) (a b : List (X K)) : run F y (a ++ b) = run F (run F y a) b := List.foldl_append

theorem run_nan (y : X K × X K) (h : y.2 = .nan) : ∀ b : List (X K), (run F y b).2 = .nan ∧ (b ≠ [] → (run F y b).1 = .nan) := by
  intro b
  induction b generalizing y with
  | nil => exact ⟨h, fun e => absurd rfl e⟩
  | cons c b ih =>
    obtain ⟨h1, h2⟩ := step_nan F y h c
    obtain ⟨i1, i2⟩ := ih (mulC F y (c, .fin 0)) h2
    refine ⟨i1, fun _ => ?_⟩
    by_cases hb : b = []
    · subst hb; exact h1
    · exact i2 hb

theorem run_state (p : X K) : ∀ a : List (X K), (run F (p, .fin 0) a = (a.foldl F.mulX p, .fin 0)) ∨ (run F (p, .fin 0) a).2 = .nan := by
  intro a
  induction a generalizing p with
  | nil => exact .inl rfl
  | cons c a ih =>
    by_cases h : IsNumber p ∧ IsNumber c
    · have : mulC F (p, .fin 0) (c, .fin 0) = (F.mulX p c, .fin 0) := Prod.ext (step_re F p c) ((step_im F p c).1 h)
      show run F (mulC F (p, .fin 0) (c, .fin 0)) a = _ ∨ (run F (mulC F (p, .fin 0) (c, .fin 0)) a).2 = _
      rw [this]
      exact ih _
    · exact .inr (run_nan F _ ((step_im F p c).2 h) a).1

theorem run_ok (p : X K) : ∀ a : List (X K), (∀ c ∈ a, IsNumber c) → (∀ b c d, a = b ++ c :: d → IsNumber (b.foldl F.mulX p)) → run F (p, .fin 0) a = (a.foldl F.mulX p, .fin 0) := by
  intro a
  induction a generalizing p with
  | nil => exact fun _ _ => rfl
  | cons c a ih =>
    intro h1 h2
    have h : IsNumber p ∧ IsNumber c := ⟨h2 [] c a rfl, h1 c List.mem_cons_self⟩
    have : mulC F (p, .fin 0) (c, .fin 0) = (F.mulX p c, .fin 0) := Prod.ext (step_re F p c) ((step_im F p c).1 h)
    show run F (mulC F (p, .fin 0) (c, .fin 0)) a = _
    rw [this]
    exact ih _ (fun d hd => h1 d (List.mem_cons_of_mem _ hd)) fun b d e he => h2 (c :: b) d e (by rw [he]; rfl)

/-- The derivative (with the factors `cs`, in the order of the columns): if all factors but the last are numbers, and all partial products but those of the last two steps are numbers, it is the product of
the factors rounded one after another; it is NaN if a factor before the last is infinite or NaN, or if a partial product is infinite or NaN at least two columns before the end: `inf * (b + 0i)` gives a
NaN imaginary part, and that a NaN real part. -/
theorem C125_derivative (f df : Fin n → X K) (kx : Fin n) :
    (∀ a c, factors f df kx = a ++ [c] → (∀ v ∈ a, IsNumber v) → (∀ b d e, a = b ++ d :: e → IsNumber (seqProd F b)) → deriv F f df kx = seqProd F (factors f df kx)) ∧
    (∀ a c b, factors f df kx = a ++ c :: b → b ≠ [] → ¬IsNumber c → deriv F f df kx = .nan) ∧
    (∀ a b, factors f df kx = a ++ b → 2 ≤ b.length → ¬IsNumber (seqProd F a) → deriv F f df kx = .nan) := by
  refine ⟨fun a c e h1 h2 => ?_, fun a c b e hb hc => ?_, fun a b e hb ha => ?_⟩
  · rw [deriv, e, run_append, run_ok F _ a h1 h2, seqProd, List.foldl_append]
    exact step_re F _ _
  · rw [deriv, e, run_append]
    have hi : (run F (run F (.fin 1, .fin 0) a) [c]).2 = .nan := by
      rcases run_state F (.fin 1) a with h | h
      · rw [h]; exact (step_im F _ c).2 fun k => hc k.2
      · exact (run_nan F _ h [c]).1
    rw [show c :: b = [c] ++ b from rfl, run_append]
    exact (run_nan F _ hi b).2 hb
  · rw [deriv, e, run_append]
    match b, hb with
    | c :: d :: b, _ =>
      have hi : (run F (run F (.fin 1, .fin 0) a) [c]).2 = .nan := by
        rcases run_state F (.fin 1) a with h | h
        · rw [h]; exact (step_im F _ c).2 fun k => ha k.1
        · exact (run_nan F _ h [c]).1
      rw [show c :: d :: b = [c] ++ d :: b from rfl, run_append]
      exact (run_nan F _ hi _).2 (by simp)

theorem fold_bounded {B : K} (hB : F.Fin B) (h0 : 0 ≤ B) : ∀ (l : List (X K)), (∀ v ∈ l, Bounded 1 v) → ∀ p, Bounded B p → Bounded B (l.foldl F.mulX p) := by
  intro l
  induction l with
  | nil => exact fun _ p hp => hp
  | cons c l ih => exact fun h p hp => ih (fun v hv => h v (List.mem_cons_of_mem _ hv)) _ (hp.mul F hB h0 (h c List.mem_cons_self))

/-- If the factors of the other columns are between -1 and 1 and the derivative of the factor is between `-B` and `B` (`cos`: `B = a π`; `tanh`: `B = a`), the derivative is a number between `-B` and `B`. -/
theorem C125_derivative_bounded (f df : Fin n → X K) (kx : Fin n) {B : K} (hB : F.Fin B) (h0 : 0 ≤ B) (hf : ∀ i, i ≠ kx → Bounded 1 (f i)) (hd : Bounded B (df kx)) :
    Bounded B (deriv F f df kx) := by
  set cs := factors f df kx with hcs
  have hlen : cs.length = n := by simp [hcs, factors]
  have hk : (kx : ℕ) < cs.length := by rw [hlen]; exact kx.2
  have hget : ∀ i (hi : i < cs.length), i ≠ kx → Bounded 1 cs[i] := fun i hi hne => by
    have e : cs[i] = if kx = ⟨i, by rw [← hlen]; exact hi⟩ then df ⟨i, by rw [← hlen]; exact hi⟩ else f ⟨i, by rw [← hlen]; exact hi⟩ := by
      simp only [hcs, factors, List.getElem_ofFn]
    rw [e, if_neg fun e => hne (congrArg Fin.val e).symm]
    exact hf _ fun e => hne (congrArg Fin.val e)
  have hgk : cs[(kx : ℕ)] = df kx := by simp [hcs, factors]
  have hsplit : cs = cs.take kx ++ df kx :: cs.drop (kx + 1) := by
    rw [← hgk, List.cons_getElem_drop_succ, List.take_append_drop]
  have hpre : ∀ v ∈ cs.take kx, Bounded 1 v := fun v hv => by
    obtain ⟨i, hi, rfl⟩ := List.getElem_of_mem hv
    have hi' : i < kx ∧ i < cs.length := by rw [List.length_take] at hi; omega
    rw [List.getElem_take]
    exact hget i hi'.2 (by omega)
  have hpost : ∀ v ∈ cs.drop (kx + 1), Bounded 1 v := fun v hv => by
    obtain ⟨i, hi, rfl⟩ := List.getElem_of_mem hv
    rw [List.length_drop] at hi
    rw [List.getElem_drop]
    exact hget _ (by omega) (by omega)
  have h1 : Bounded 1 (.fin (1 : K)) := ⟨1, rfl, by rw [abs_one]⟩
  have hnum : ∀ v ∈ cs, IsNumber v := fun v hv => by
    rw [hsplit] at hv
    rcases List.mem_append.1 hv with hv | hv
    · obtain ⟨a, e, _⟩ := hpre v hv; exact ⟨a, e⟩
    · rcases List.mem_cons.1 hv with rfl | hv
      · obtain ⟨a, e, _⟩ := hd; exact ⟨a, e⟩
      · obtain ⟨a, e, _⟩ := hpost v hv; exact ⟨a, e⟩
  have hpref : ∀ j, IsNumber (seqProd F (cs.take j)) ∧ ((kx : ℕ) < j → Bounded B (seqProd F (cs.take j))) := fun j => by
    by_cases hj : j ≤ kx
    · have : cs.take j = (cs.take kx).take j := by rw [List.take_take, min_eq_left hj]
      have hb : Bounded 1 (seqProd F (cs.take j)) := fold_bounded F F.fin_one zero_le_one _ (fun v hv => hpre v (by rw [this] at hv; exact List.mem_of_mem_take hv)) _ h1
      obtain ⟨a, e, _⟩ := hb
      exact ⟨⟨a, e⟩, fun h => absurd hj (by omega)⟩
    · have hb : Bounded B (seqProd F (cs.take j)) := by
        have e : cs.take j = cs.take kx ++ df kx :: (cs.drop (kx + 1)).take (j - kx - 1) := by
          conv_lhs => rw [hsplit]
          rw [List.take_append, List.take_of_length_le (by rw [List.length_take]; omega), List.length_take, min_eq_left hk.le,
            show j - (kx : ℕ) = (j - kx - 1) + 1 by omega, List.take_succ_cons]
          simp
        rw [e, seqProd, List.foldl_append, List.foldl_cons]
        refine fold_bounded F hB h0 _ (fun v hv => hpost v (List.mem_of_mem_take hv)) _ ?_
        exact Bounded.mul_comm' F hB h0 (fold_bounded F F.fin_one zero_le_one _ hpre _ h1) hd
      obtain ⟨a, e, ha⟩ := hb
      exact ⟨⟨a, e⟩, fun _ => ⟨a, e, ha⟩⟩
  have hrun := run_ok F (.fin 1) cs hnum fun b c d e => by
    have : b = cs.take b.length := by rw [e]; simp
    rw [this]
    exact (hpref _).1
  have hdv : deriv F f df kx = seqProd F cs := by rw [deriv, hrun]; rfl
  rw [hdv]
  have := (hpref cs.length).2 hk
  rwa [List.take_length] at this

/-- Examples: `exp(-800) exp(800)` is NaN (0 times infinity) although its value is 1; the derivative is NaN where the first of three factors overflows, and infinite where the last does. -/
example : value binary64 (.node (.leaf 0) (.leaf 1)) ![X.fin 0, .inf false] = .nan := by decide +kernel
example : deriv binary64 ![X.inf false, .fin 1] ![X.inf false, .fin 1] 0 = .nan ∧ deriv binary64 ![X.fin 1, .inf false] ![X.fin 1, .inf false] 0 = .inf false ∧
    value binary64 (.node (.leaf 0) (.leaf 1)) ![X.inf false, .fin 1] = .inf false := by decide +kernel
example : deriv binary64 ![X.fin (1 / 2), .fin (-1 / 4)] ![X.fin 3, .fin 5] 1 = .fin (5 / 2) := by decide +kernel
example : factors ![X.inf false, .fin (1 : ℚ)] ![X.inf false, .fin 1] 0 = [] ++ X.inf false :: [.fin 1] := by decide +kernel

end SMT.Fp.Tensor
