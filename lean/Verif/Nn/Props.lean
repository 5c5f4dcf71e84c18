import Verif.Nn.Model
import Verif.Common.MatDeriv
import Mathlib.Analysis.SpecialFunctions.ExpDeriv
import Mathlib.Analysis.Calculus.Deriv.Pow
import Mathlib.Algebra.BigOperators.Field
import Mathlib.Tactic.FieldSimp
import Mathlib.Tactic.Positivity
import Mathlib.Tactic.NormNum

set_option linter.unusedSectionVars false
set_option linter.unusedSimpArgs false
set_option linter.unusedVariables false

/-!
# C53, C66: neural network — activations, Jacobian pass, back-propagation, prediction
-/
namespace SMT.Nn
open Matrix SMT.Common

noncomputable section

/-! ## Specification -/

/-- The network with every parameter moved by `t` times the direction `δ`. -/
def Net.move : {n p : ℕ} → (net : Net n p) → Grads net → ℝ → Net n p
  | _, _, .done n, _, _ => .done n
  | _, _, .layer L rest, δ, t =>
    .layer { L with W := L.W + t • δ.1.1, b := fun i => L.b i + t * δ.1.2 i } (rest.move δ.2 t)

/-- Inner product of a gradient with a direction: sum over all weights and biases. -/
def inner : {n p : ℕ} → (net : Net n p) → Grads net → Grads net → ℝ
  | _, _, .done _, _, _ => 0
  | _, _, .layer _ rest, g, δ =>
    (∑ i, ∑ j, g.1.1 i j * δ.1.1 i j) + (∑ i, g.1.2 i * δ.1.2 i) + inner rest g.2 δ.2

/-! ## Activations -/

lemma tanh_den_ne (z : ℝ) : Real.exp z + Real.exp (-z) ≠ 0 := by positivity

/-- **C53** The two derivative methods of every activation class are the derivatives of `evaluate`. -/
theorem C53_activation (a : Act) (z : ℝ) : HasDerivAt a.eval (a.d1 z) z ∧ HasDerivAt a.d1 (a.d2 z) z := by
  have hn : HasDerivAt (fun z : ℝ => Real.exp (-z)) (-Real.exp (-z)) z := by
    simpa using (hasDerivAt_neg z).exp
  have he := Real.hasDerivAt_exp z
  cases a with
  | sigmoid =>
    have hp : (1 + Real.exp (-z)) ≠ 0 := by positivity
    have h1 : HasDerivAt (Act.eval .sigmoid) (Act.d1 .sigmoid z) z := by
      have := (hasDerivAt_const z (1 : ℝ)).fun_div (hn.const_add 1) hp
      refine this.congr_deriv ?_
      simp only [Act.d1, Act.eval]
      field_simp
      ring
    refine ⟨h1, ?_⟩
    have := h1.fun_mul (h1.const_sub 1)
    refine this.congr_deriv ?_
    simp only [Act.d2, Act.d1]
    ring
  | tanh =>
    have hp := tanh_den_ne z
    have h1 : HasDerivAt (Act.eval .tanh) (Act.d1 .tanh z) z := by
      have := (he.fun_sub hn).fun_div (he.fun_add hn) hp
      refine this.congr_deriv ?_
      simp only [Act.d1, Act.eval]
      field_simp
      ring
    refine ⟨h1, ?_⟩
    have := (h1.fun_pow 2).const_sub 1
    refine this.congr_deriv ?_
    simp only [Act.d2]
    push_cast
    ring
  | linear => exact ⟨hasDerivAt_id' z, hasDerivAt_const z _⟩

/-! ## The Jacobian pass -/

variable {nx m : ℕ}

lemma preact_mderiv {n k : ℕ} (L : Layer n k) {A : ℝ → Mat n m} {A' : Mat n m} {t : ℝ} (hA : MDeriv A A' t) :
    MDeriv (fun s => preact L (A s)) (L.W * A') t := by
  intro i e
  have := (MDeriv.mul (MDeriv.const L.W t) hA i e).add_const (L.b i)
  refine this.congr_deriv ?_
  simp

/-- The loop carries exact derivatives of the values along any path. -/
lemma gradsLoop_exact : ∀ {n p : ℕ} (net : Net n p) (A : ℝ → Mat n m) (Ap : Fin nx → Mat n m) (j : Fin nx) (t : ℝ), MDeriv A (Ap j) t →
    MDeriv (fun s => (forward net (A s)).1) ((gradsLoop net (A t) Ap).1 j) t
  | _, _, .done _, A, Ap, j, t, h => h
  | _, _, .layer L rest, A, Ap, j, t, h => by
    have hz := preact_mderiv L h
    have h2 := gradsLoop_exact rest (fun s => postact L.act (preact L (A s))) (fun j => Matrix.of fun i e => L.act.d1 (preact L (A t) i e) * (L.W * Ap j) i e) j t ?_
    · exact h2
    · intro i e
      exact (C53_activation L.act _).1.comp t (hz i e)

/-- Examples do not influence each other. -/
lemma forward_col : ∀ {n p : ℕ} (net : Net n p) (A B : Mat n m) (e : Fin m), (∀ q, A q e = B q e) → ∀ i, (forward net A).1 i e = (forward net B).1 i e
  | _, _, .done _, A, B, e, h => h
  | _, _, .layer L rest, A, B, e, h => by
    refine forward_col rest _ _ e fun q => ?_
    simp only [postact, preact, Matrix.mul_apply, Matrix.of_apply, h]

/-- **C53** For every depth, layer sizes, weights and inputs: the entry `JL[i, j, e]` of the Jacobian pass is the partial derivative of output `i` for example `e` with
respect to input `j` of that example. -/
theorem C53_jacobian {ny : ℕ} (net : Net nx ny) (X : Mat nx m) (j : Fin nx) (i : Fin ny) (e : Fin m) :
    HasDerivAt (fun s => (forward net (Matrix.of fun q e' => if q = j ∧ e' = e then s else X q e')).1 i e) ((gradsForward net X).1 j i e) (X j e) := by
  have hp : MDeriv (fun s : ℝ => (Matrix.of fun q e' => X q e' + if q = j then s - X j e else 0 : Mat nx m)) (Matrix.of fun q _ => if q = j then 1 else 0) (X j e) := by
    intro q e'
    by_cases hq : q = j
    · simp only [Matrix.of_apply, hq, if_true]
      exact ((hasDerivAt_id' (X j e)).sub_const _).const_add _
    · simp only [Matrix.of_apply, hq, if_false]
      exact hasDerivAt_const _ _
  have h := gradsLoop_exact net _ (fun j : Fin nx => (Matrix.of fun q _ => if q = j then 1 else 0 : Mat nx m)) j (X j e) hp i e
  have e1 : (Matrix.of fun q e' => X q e' + if q = j then X j e - X j e else 0 : Mat nx m) = X := by ext q e'; simp
  rw [e1] at h
  have e2 : (fun s => (forward net (Matrix.of fun q e' => if q = j ∧ e' = e then s else X q e')).1 i e) =
      fun s => (forward net (Matrix.of fun q e' => X q e' + if q = j then s - X j e else 0 : Mat nx m)).1 i e := by
    funext s
    refine forward_col net _ _ e (fun q => ?_) i
    by_cases hq : q = j
    · simp [hq]
    · simp [hq]
  rw [e2]
  exact h

/-! ## Back-propagation -/

/-- Sum of products of entries. -/
def frob {a b : ℕ} (M N : Mat a b) : ℝ := ∑ i, ∑ e, M i e * N i e

lemma frob_add_left {a b : ℕ} (M M' N : Mat a b) : frob (M + M') N = frob M N + frob M' N := by
  simp only [frob, Matrix.add_apply, add_mul, Finset.sum_add_distrib]

lemma frob_add_right {a b : ℕ} (M N N' : Mat a b) : frob M (N + N') = frob M N + frob M N' := by
  simp only [frob, Matrix.add_apply, mul_add, Finset.sum_add_distrib]

lemma frob_smul_left {a b : ℕ} (c : ℝ) (M N : Mat a b) : frob (c • M) N = c * frob M N := by
  simp only [frob, Matrix.smul_apply, smul_eq_mul, Finset.mul_sum, mul_assoc]

lemma frob_sum_left {a b : ℕ} {ι : Type} [Fintype ι] (M : ι → Mat a b) (N : Mat a b) : frob (∑ j, M j) N = ∑ j, frob (M j) N := by
  simp only [frob, Matrix.sum_apply, Finset.sum_mul]
  rw [Finset.sum_comm (s := Finset.univ (α := ι))]
  refine Finset.sum_congr rfl fun i _ => ?_
  rw [Finset.sum_comm]

lemma frob_mul_transpose {a b c : ℕ} (T : Mat a c) (A : Mat b c) (D : Mat a b) : frob (T * Aᵀ) D = frob T (D * A) := by
  simp only [frob, Matrix.mul_apply, Matrix.transpose_apply, Finset.sum_mul, Finset.mul_sum]
  refine Finset.sum_congr rfl fun i _ => ?_
  rw [Finset.sum_comm]
  refine Finset.sum_congr rfl fun e _ => Finset.sum_congr rfl fun q _ => ?_
  ring

lemma frob_transpose_mul {a b c : ℕ} (W : Mat a b) (T : Mat a c) (A : Mat b c) : frob (Wᵀ * T) A = frob T (W * A) := by
  simp only [frob, Matrix.mul_apply, Matrix.transpose_apply, Finset.sum_mul, Finset.mul_sum]
  rw [Finset.sum_comm]
  have : ∀ e : Fin c, (∑ x : Fin b, ∑ i : Fin a, W i x * T i e * A x e) = ∑ i : Fin a, ∑ x : Fin b, T i e * (W i x * A x e) := by
    intro e
    rw [Finset.sum_comm]
    refine Finset.sum_congr rfl fun i _ => Finset.sum_congr rfl fun q _ => ?_
    ring
  simp only [this]
  rw [Finset.sum_comm]

/-- Inner product of the weights with a direction, the derivative of the penalty. -/
def regInner : {n p : ℕ} → (net : Net n p) → Grads net → ℝ
  | _, _, .done _, _ => 0
  | _, _, .layer L rest, δ => frob L.W δ.1.1 + regInner rest δ.2

lemma Net.move_zero : ∀ {n p : ℕ} (net : Net n p) (δ : Grads net), net.move δ 0 = net
  | _, _, .done _, _ => rfl
  | _, _, .layer L rest, δ => by
    have h : L.W + (0 : ℝ) • δ.1.1 = L.W := by rw [zero_smul]; exact add_zero _
    simp only [Net.move, zero_mul, add_zero, Net.move_zero rest δ.2, h]

lemma frob_affine {n k : ℕ} (M : Mat k m) (D : Mat k n) (A : Mat n m) (W : Mat k n) (A' : Mat n m) (c : Fin k → ℝ) :
    frob M (Matrix.of fun i e => (D * A + W * A') i e + c i) = frob (M * Aᵀ) D + frob (Wᵀ * M) A' + ∑ i, (∑ e, M i e) * c i := by
  rw [frob_mul_transpose, frob_transpose_mul]
  simp only [frob, Matrix.of_apply, Matrix.add_apply, mul_add, Finset.sum_add_distrib, Finset.sum_mul]

lemma layer_identity (hm : m ≠ 0) (lam gam : ℝ) (hg : gam * gam = gam) {n k : ℕ} (L : Layer n k) (dA : Mat k m) (dAp : Fin nx → Mat k m) (A A' : Mat n m) (Z : Mat k m)
    (Ap Ap' : Fin nx → Mat n m) (D : Mat k n) (c : Fin k → ℝ) (b : Back nx m n k) (hb : b = layerBackward dA dAp A Z L (fun j => L.W * Ap j) Ap lam gam) :
    frob dA (Matrix.of fun i e => L.act.d1 (Z i e) * ((D * A + L.W * A') i e + c i)) + gam * ∑ j, frob (dAp j)
      (Matrix.of fun i e => L.act.d2 (Z i e) * ((D * A + L.W * A') i e + c i) * (L.W * Ap j) i e + L.act.d1 (Z i e) * (D * Ap j + L.W * Ap' j) i e) =
    frob b.dAprev A' + gam * (∑ j, frob (b.dApPrev j) (Ap' j)) + m * (frob b.dW D + ∑ i, b.db i * c i) - lam * frob L.W D := by
  have hm' : (m : ℝ) ≠ 0 := Nat.cast_ne_zero.2 hm
  set GdA : Mat k m := Matrix.of fun i e => L.act.d1 (Z i e) * dA i e with hGdA
  set T : Fin nx → Mat k m := fun j => Matrix.of fun i e => dAp j i e * L.act.d2 (Z i e) * (L.W * Ap j) i e with hT
  set S : Fin nx → Mat k m := fun j => Matrix.of fun i e => dAp j i e * L.act.d1 (Z i e) with hS
  have h0 : frob dA (Matrix.of fun i e => L.act.d1 (Z i e) * ((D * A + L.W * A') i e + c i)) = frob GdA (Matrix.of fun i e => (D * A + L.W * A') i e + c i) := by
    simp only [frob, hGdA, Matrix.of_apply]
    refine Finset.sum_congr rfl fun i _ => Finset.sum_congr rfl fun e _ => ?_
    ring
  have hj : ∀ j, frob (dAp j) (Matrix.of fun i e => L.act.d2 (Z i e) * ((D * A + L.W * A') i e + c i) * (L.W * Ap j) i e + L.act.d1 (Z i e) * (D * Ap j + L.W * Ap' j) i e) =
      frob (T j) (Matrix.of fun i e => (D * A + L.W * A') i e + c i) + (frob (S j * (Ap j)ᵀ) D + frob (L.Wᵀ * S j) (Ap' j)) := by
    intro j
    rw [frob_mul_transpose, frob_transpose_mul, ← frob_add_right]
    simp only [frob, hT, hS, Matrix.of_apply]
    rw [← Finset.sum_add_distrib]
    refine Finset.sum_congr rfl fun i _ => ?_
    rw [← Finset.sum_add_distrib]
    refine Finset.sum_congr rfl fun e _ => ?_
    ring
  rw [h0, frob_affine]
  by_cases hz : gam = 0
  · subst hz
    have hb' : b = { dAprev := L.Wᵀ * GdA, dW := (1 / (m : ℝ)) • (GdA * Aᵀ) + (lam / m) • L.W, db := (fun i => 1 / (m : ℝ) * ∑ e, GdA i e), dApPrev := fun _ => 0 } := by
      rw [hb, layerBackward, if_neg (by simp)]; rfl
    rw [hb']
    simp only [zero_mul, add_zero, frob_add_left, frob_smul_left]
    have hs : ∑ i, 1 / (m : ℝ) * (∑ e, GdA i e) * c i = 1 / (m : ℝ) * ∑ i, (∑ e, GdA i e) * c i := by
      rw [Finset.mul_sum]; exact Finset.sum_congr rfl fun i _ => by ring
    rw [hs]
    field_simp
    ring
  · have h1 : gam = 1 := by
      have : gam * (gam - 1) = 0 := by rw [mul_sub, hg, mul_one, sub_self]
      rcases mul_eq_zero.1 this with h | h
      · exact absurd h hz
      · linarith
    subst h1
    have hb' : b = { dAprev := (L.Wᵀ * GdA + ∑ j, (1 : ℝ) • (L.Wᵀ * T j)), dW := ((1 / (m : ℝ)) • (GdA * Aᵀ) + (lam / m) • L.W + ∑ j, ((1 : ℝ) / m) • (T j * Aᵀ + S j * (Ap j)ᵀ)), db := (fun i => 1 / (m : ℝ) * (∑ e, GdA i e) + ∑ j, (1 : ℝ) / m * ∑ e, T j i e), dApPrev := fun j => (1 : ℝ) • (L.Wᵀ * S j) } := by
      rw [hb, layerBackward, if_pos (by simp)]; rfl
    rw [hb']
    have hj2 : ∀ j, _ = _ := fun j => (hj j).trans (congrArg (· + _) (frob_affine (T j) D A L.W A' c))
    rw [Finset.sum_congr rfl fun j _ => hj2 j]
    simp only [one_mul, one_smul, frob_add_left, frob_smul_left, frob_sum_left, Finset.sum_add_distrib, mul_add, add_mul]
    have hs : ∑ i, 1 / (m : ℝ) * (∑ e, GdA i e) * c i = 1 / (m : ℝ) * ∑ i, (∑ e, GdA i e) * c i := by
      rw [Finset.mul_sum]; exact Finset.sum_congr rfl fun i _ => by ring
    have hs2 : ∑ i, (∑ j, 1 / (m : ℝ) * ∑ e, T j i e) * c i = 1 / (m : ℝ) * ∑ j, ∑ i, (∑ e, T j i e) * c i := by
      simp only [Finset.mul_sum, Finset.sum_mul]
      rw [Finset.sum_comm]
      refine Finset.sum_congr rfl fun i _ => Finset.sum_congr rfl fun e _ => Finset.sum_congr rfl fun q _ => ?_
      ring
    rw [hs, hs2]
    simp only [← Finset.mul_sum]
    field_simp
    ring

/-- The identity behind back-propagation: along any path of parameters and inputs, the outputs are differentiable and the weighted sum of their derivatives is what the backward
pass computes. `gam * gam = gam` is needed because the code multiplies by `gamma` once per layer. -/
lemma backLoop_exact (hm : m ≠ 0) (lam gam : ℝ) (hg : gam * gam = gam) : ∀ {n p : ℕ} (net : Net n p) (δ : Grads net) (A : ℝ → Mat n m) (A' : Mat n m) (Ap : ℝ → Fin nx → Mat n m)
    (Ap' : Fin nx → Mat n m), MDeriv A A' 0 → (∀ j, MDeriv (fun s => Ap s j) (Ap' j) 0) →
    ∃ (F' : Mat p m) (G' : Fin nx → Mat p m), MDeriv (fun s => (forward (net.move δ s) (A s)).1) F' 0 ∧
      (∀ j, MDeriv (fun s => (gradsLoop (net.move δ s) (A s) (Ap s)).1 j) (G' j) 0) ∧
      ∀ dAL dALp, frob dAL F' + gam * ∑ j, frob (dALp j) (G' j) =
        frob (backLoop lam gam net (forward net (A 0)).2 (gradsLoop net (A 0) (Ap 0)).2 dAL dALp).1.1 A' +
        gam * ∑ j, frob ((backLoop lam gam net (forward net (A 0)).2 (gradsLoop net (A 0) (Ap 0)).2 dAL dALp).1.2 j) (Ap' j) +
        m * inner net (backLoop lam gam net (forward net (A 0)).2 (gradsLoop net (A 0) (Ap 0)).2 dAL dALp).2 δ - lam * regInner net δ
  | _, _, .done _, δ, A, A', Ap, Ap', hA, hAp => ⟨A', Ap', hA, hAp, fun dAL dALp => by simp [backLoop, inner, regInner]⟩
  | n, p, .layer (k := k) L rest, δ, A, A', Ap, Ap', hA, hAp => by
    have hW : MDeriv (fun s => L.W + s • δ.1.1) δ.1.1 0 := by
      intro i j
      simpa using ((hasDerivAt_id' (0 : ℝ)).mul_const (δ.1.1 i j)).const_add (L.W i j)
    have hW0 : L.W + (0 : ℝ) • δ.1.1 = L.W := by simp
    set Ls : ℝ → Layer n k := fun s => { L with W := L.W + s • δ.1.1, b := fun i => L.b i + s * δ.1.2 i } with hLs
    have hL0 : Ls 0 = L := by simp [hLs]
    -- pre-activation
    set Z' : Mat k m := Matrix.of fun i e => (δ.1.1 * A 0 + L.W * A') i e + δ.1.2 i with hZ'
    have hZ : MDeriv (fun s => preact (Ls s) (A s)) Z' 0 := by
      intro i e
      have h1 := MDeriv.mul hW hA i e
      rw [hW0] at h1
      have h2 : HasDerivAt (fun s : ℝ => L.b i + s * δ.1.2 i) (δ.1.2 i) 0 := by
        simpa using ((hasDerivAt_id' (0 : ℝ)).mul_const (δ.1.2 i)).const_add (L.b i)
      exact h1.add h2
    have hact : MDeriv (fun s => postact L.act (preact (Ls s) (A s))) (Matrix.of fun i e => L.act.d1 (preact L (A 0) i e) * Z' i e) 0 := by
      intro i e
      have := (C53_activation L.act (preact (Ls 0) (A 0) i e)).1.comp 0 (hZ i e)
      rw [hL0] at this
      exact this
    -- derivative of the pre-activation with respect to input `j`
    have hZp : ∀ j, MDeriv (fun s => (Ls s).W * Ap s j) (δ.1.1 * Ap 0 j + L.W * Ap' j) 0 := by
      intro j
      have h1 := MDeriv.mul hW (hAp j)
      rw [hW0] at h1
      exact h1
    have hAp2 : ∀ j, MDeriv (fun s => (Matrix.of fun i e => L.act.d1 (preact (Ls s) (A s) i e) * ((Ls s).W * Ap s j) i e))
        (Matrix.of fun i e => L.act.d2 (preact L (A 0) i e) * Z' i e * (L.W * Ap 0 j) i e + L.act.d1 (preact L (A 0) i e) * (δ.1.1 * Ap 0 j + L.W * Ap' j) i e) 0 := by
      intro j i e
      have h1 := (C53_activation L.act (preact (Ls 0) (A 0) i e)).2.comp 0 (hZ i e)
      have h2 := h1.mul (hZp j i e)
      refine h2.congr_deriv ?_
      simp only [Function.comp, hL0, Matrix.of_apply]
    obtain ⟨F', G', hF, hG, hid⟩ := backLoop_exact hm lam gam hg rest δ.2 (fun s => postact L.act (preact (Ls s) (A s))) _
      (fun s j => Matrix.of fun i e => L.act.d1 (preact (Ls s) (A s) i e) * ((Ls s).W * Ap s j) i e) _ hact hAp2
    refine ⟨F', G', hF, hG, fun dAL dALp => ?_⟩
    have hid' := hid dAL dALp
    simp only [hL0] at hid'
    rw [hid']
    have hli := layer_identity hm lam gam hg L (backLoop lam gam rest (forward rest (postact L.act (preact L (A 0)))).2
      (gradsLoop rest (postact L.act (preact L (A 0))) fun j => Matrix.of fun i e => L.act.d1 (preact L (A 0) i e) * (L.W * Ap 0 j) i e).2 dAL dALp).1.1 (backLoop lam gam rest (forward rest (postact L.act (preact L (A 0)))).2
      (gradsLoop rest (postact L.act (preact L (A 0))) fun j => Matrix.of fun i e => L.act.d1 (preact L (A 0) i e) * (L.W * Ap 0 j) i e).2 dAL dALp).1.2 (A 0) A' (preact L (A 0)) (Ap 0) Ap' δ.1.1 δ.1.2 _ rfl
    have hi : inner (Net.layer L rest) (backLoop lam gam (Net.layer L rest) (forward (Net.layer L rest) (A 0)).2 (gradsLoop (Net.layer L rest) (A 0) (Ap 0)).2 dAL dALp).2 δ = _ := rfl
    rw [hi]
    simp only [regInner, hZ'] at hli ⊢
    simp only [backLoop, forward, gradsLoop, inner, frob, Matrix.of_apply] at hli ⊢
    linarith [hli]

lemma penalty_deriv {lam : ℝ} (hl : 0 ≤ lam) : ∀ {n p : ℕ} (net : Net n p) (δ : Grads net), HasDerivAt (fun s => penalty lam (net.move δ s)) (lam * regInner net δ) 0
  | _, _, .done _, δ => by simpa [penalty, Net.move, regInner] using hasDerivAt_const (0 : ℝ) (0 : ℝ)
  | _, _, .layer L rest, δ => by
    have h1 := penalty_deriv hl rest δ.2
    have h2 : HasDerivAt (fun s : ℝ => ∑ i, ∑ j, (L.W i j + s * δ.1.1 i j) ^ 2) (∑ i, ∑ j, 2 * (L.W i j * δ.1.1 i j)) 0 := by
      refine HasDerivAt.fun_sum fun i _ => HasDerivAt.fun_sum fun j _ => ?_
      have h3 : HasDerivAt (fun s : ℝ => L.W i j + s * δ.1.1 i j) (δ.1.1 i j) 0 := by
        simpa using ((hasDerivAt_id' (0 : ℝ)).mul_const (δ.1.1 i j)).const_add (L.W i j)
      refine (h3.fun_pow 2).congr_deriv ?_
      simp; ring
    have h4 := (h2.const_mul (0.5 * max 0 lam)).fun_add h1
    refine h4.congr_deriv ?_
    simp only [regInner, frob, max_eq_right hl, ← Finset.mul_sum]
    ring

lemma sq_deriv {a b : ℕ} (F : ℝ → Mat a b) (F' Y : Mat a b) (hF : MDeriv F F' 0) :
    HasDerivAt (fun s => ∑ k, ∑ e, (F s k e - Y k e) ^ 2) (2 * frob (F 0 - Y) F') 0 := by
  have : HasDerivAt (fun s => ∑ k, ∑ e, (F s k e - Y k e) ^ 2) (∑ k, ∑ e, 2 * ((F 0 k e - Y k e) * F' k e)) 0 := by
    refine HasDerivAt.fun_sum fun k _ => HasDerivAt.fun_sum fun e _ => ?_
    refine (((hF k e).sub_const (Y k e)).fun_pow 2).congr_deriv ?_
    push_cast; ring
  refine this.congr_deriv ?_
  simp only [frob, Finset.mul_sum, Matrix.sub_apply]

/-- **C53** Back-propagation, for every depth, layer sizes, activations, parameters and batch of at least two examples, `lambd ≥ 0` and `gamma` equal to 0 or 1: `grad` succeeds, the
cost is defined around the parameters, and its derivative in every direction of parameter space is the inner product of the direction with the returned gradients. -/
theorem C53_backprop {ny : ℕ} (net : Net nx ny) (X : Mat nx m) (Y : Mat ny m) (J : Fin nx → Mat ny m) (lam gam : ℝ) (hm : 2 ≤ m) (hl : 0 ≤ lam)
    (hg : gam = 0 ∨ gam = 1) : ∃ g, grad net X Y (some J) lam gam = .ok g ∧ ∀ δ, ∃ c : ℝ → ℝ, (∀ s, cost (net.move δ s) X Y (some J) lam gam = .ok (c s)) ∧
      HasDerivAt c (inner net g δ) 0 := by
  have hm1 : m ≠ 1 := by omega
  have hm0 : m ≠ 0 := by omega
  have hmR : (m : ℝ) ≠ 0 := Nat.cast_ne_zero.2 hm0
  have hgg : gam * gam = gam := by rcases hg with h | h <;> simp [h]
  have hclip : min (max 0 gam) 1 = gam := by rcases hg with h | h <;> simp [h]
  refine ⟨_, by simp only [grad, if_neg hm1]; rfl, fun δ => ⟨_, fun s => by simp only [cost, if_neg hm1]; rfl, ?_⟩⟩
  set I : Fin nx → Mat nx m := fun j => Matrix.of fun i _ => if i = j then 1 else 0 with hI
  obtain ⟨F', G', hF, hG, hid⟩ := backLoop_exact hm0 lam gam hgg net δ (fun _ => X) 0 (fun _ => I) 0 (MDeriv.const X 0) (fun j => MDeriv.const (I j) 0)
  have hid := hid ((forward net X).1 - Y) (fun j => (gradsForward net X).1 j - J j)
  have z1 : ∀ M : Mat nx m, frob M 0 = 0 := fun M => by simp [frob]
  simp only [z1, Pi.zero_apply, Finset.sum_const_zero, mul_zero, add_zero, zero_add] at hid
  have d1 := sq_deriv (fun s => (forward (net.move δ s) X).1) F' Y hF
  have d2 : ∀ j, HasDerivAt (fun s => ∑ k, ∑ e, ((gradsForward (net.move δ s) X).1 j k e - J j k e) ^ 2)
      (2 * frob ((gradsForward net X).1 j - J j) (G' j)) 0 := by
    intro j
    have := sq_deriv (fun s => (gradsForward (net.move δ s) X).1 j) (G' j) (J j) (hG j)
    rw [Net.move_zero] at this
    exact this
  rw [Net.move_zero] at d1
  have d3 := (HasDerivAt.fun_sum (u := Finset.univ) fun j _ => d2 j)
  have dd := (((d1.const_mul 0.5).fun_add (penalty_deriv hl net δ)).fun_add (d3.const_mul (0.5 * gam))).const_mul (1 / (m : ℝ))
  have efun : (fun s => 1 / (m : ℝ) * ((∑ k, 0.5 * ∑ e, ((forward (net.move δ s) X).1 k e - Y k e) ^ 2) + penalty lam (net.move δ s) +
      enhancement gam J (gradsForward (net.move δ s) X).1)) = fun s => 1 / (m : ℝ) * (0.5 * (∑ k, ∑ e, ((forward (net.move δ s) X).1 k e - Y k e) ^ 2) +
      penalty lam (net.move δ s) + 0.5 * gam * ∑ j, ∑ k, ∑ e, ((gradsForward (net.move δ s) X).1 j k e - J j k e) ^ 2) := by
    funext s
    have hcomm : (∑ k, ∑ j, ∑ e, ((gradsForward (net.move δ s) X).1 j k e - J j k e) ^ 2) = ∑ j, ∑ k, ∑ e, ((gradsForward (net.move δ s) X).1 j k e - J j k e) ^ 2 := Finset.sum_comm
    simp only [enhancement, hclip, ← Finset.mul_sum, hcomm]
  rw [efun]
  refine dd.congr_deriv ?_
  have hid2 : frob ((forward net X).1 - Y) F' + gam * ∑ j, frob ((gradsForward net X).1 j - J j) (G' j) + lam * regInner net δ =
      m * inner net (backLoop lam gam net (forward net X).2 (gradsForward net X).2 ((forward net X).1 - Y) (fun j => (gradsForward net X).1 j - J j)).2 δ := by
    have := hid
    simp only [gradsForward] at this ⊢
    linarith
  rw [← Finset.mul_sum]
  rw [one_div, inv_mul_eq_iff_eq_mul₀ hmR, ← hid2]
  ring

/-- **C53** Without partial derivatives of the training data the gradient fails with a `TypeError` although the cost is defined; with them, a batch of one example fails with a
`ValueError`, for every network. -/
theorem C53_failures {ny : ℕ} (net : Net nx ny) (X : Mat nx m) (Y : Mat ny m) (lam gam : ℝ) :
    (∃ c, cost net X Y none lam gam = .ok c) ∧ grad net X Y none lam gam = .error .typeError ∧
    (m = 1 → ∀ J, cost net X Y (some J) lam gam = .error .valueError ∧ grad net X Y (some J) lam gam = .error .valueError) := by
  refine ⟨⟨_, rfl⟩, rfl, fun h J => ⟨?_, ?_⟩⟩ <;> simp [cost, grad, h]

/-- The network `w2 * tanh(w1 * x + b1) + b2` with all weights 1 and biases 0, as built by `Model.initialize(1, 1, deep=1, wide=1)`. -/
def net11 : Net 1 1 := .layer (k := 1) ⟨Matrix.of fun _ _ => 1, fun _ => 0, .tanh⟩ (.layer (k := 1) ⟨Matrix.of fun _ _ => 1, fun _ => 0, .linear⟩ (.done 1))

/-- The direction that moves the first weight only. -/
def dir11 : Grads net11 := (((Matrix.of fun _ _ => 1 : Mat 1 1), (fun _ => 0 : Fin 1 → ℝ)), (((Matrix.of fun _ _ => 0 : Mat 1 1), (fun _ => 0 : Fin 1 → ℝ)), ()))

/-- The same network with first weight `w`. -/
def netw (w : ℝ) : Net 1 1 := .layer (k := 1) ⟨Matrix.of fun _ _ => w, fun _ => 0, .tanh⟩ (.layer (k := 1) ⟨Matrix.of fun _ _ => 1, fun _ => 0, .linear⟩ (.done 1))

lemma move11 (s : ℝ) : net11.move dir11 s = netw (1 + s) := by
  have h : net11.move dir11 s = .layer (k := 1) ⟨(Matrix.of fun _ _ => 1) + s • (Matrix.of fun _ _ => 1), fun _ => 0 + s * 0, .tanh⟩ (.layer (k := 1) ⟨(Matrix.of fun _ _ => 1) + s • (Matrix.of fun _ _ => 0), fun _ => 0 + s * 0, .linear⟩ (.done 1)) := rfl
  have e1 : ((Matrix.of fun _ _ => 1 : Mat 1 1) + s • (Matrix.of fun _ _ => 1 : Mat 1 1)) = Matrix.of fun _ _ => 1 + s := by ext i j; simp
  have e2 : ((Matrix.of fun _ _ => 1 : Mat 1 1) + s • (Matrix.of fun _ _ => 0 : Mat 1 1)) = Matrix.of fun _ _ => 1 := by ext i j; simp
  rw [h, netw, e1, e2]
  simp

lemma mul11 {m : ℕ} (w : ℝ) (N : Mat 1 m) (i : Fin 1) (e : Fin m) : ((Matrix.of fun _ _ => w : Mat 1 1) * N) i e = w * N 0 e := by
  rw [Matrix.mul_apply]; simp

lemma forward11 (w : ℝ) (i : Fin 1) (e : Fin 2) : (forward (netw w) (0 : Mat 1 2)).1 i e = 0 := by
  have h : (forward (netw w) (0 : Mat 1 2)).1 i e = ((Matrix.of fun _ _ => 1 : Mat 1 1) * (Matrix.of fun i e => Act.eval .tanh (((Matrix.of fun _ _ => w : Mat 1 1) * (0 : Mat 1 2)) i e + 0) : Mat 1 2)) i e + 0 := rfl
  rw [h, mul11, Matrix.of_apply, mul11]
  simp [Act.eval]

lemma grads11 (w : ℝ) (j i : Fin 1) (e : Fin 2) : (gradsForward (netw w) (0 : Mat 1 2)).1 j i e = w := by
  have h : (gradsForward (netw w) (0 : Mat 1 2)).1 j i e = 1 * ((Matrix.of fun _ _ => 1 : Mat 1 1) *
      (Matrix.of fun i e => Act.d1 .tanh (((Matrix.of fun _ _ => w : Mat 1 1) * (0 : Mat 1 2)) i e + 0) * ((Matrix.of fun _ _ => w : Mat 1 1) * (Matrix.of fun i _ => if i = j then 1 else 0 : Mat 1 2)) i e : Mat 1 2)) i e := rfl
  have hj : j = 0 := Subsingleton.elim _ _
  rw [h, mul11, Matrix.of_apply, mul11, mul11]
  simp [Act.d1, Act.eval, hj]

lemma penalty0 : ∀ {n p : ℕ} (net : Net n p), penalty 0 net = 0
  | _, _, .done _ => rfl
  | _, _, .layer L rest => by simp [penalty, penalty0 rest]

/-- First-weight entry of the backward step for one unit, two examples. -/
lemma layerBackward11 (gam : ℝ) (hg : gam ≠ 0) (dA : Mat 1 2) (dAp : Fin 1 → Mat 1 2) (A Z : Mat 1 2) (L : Layer 1 1) (Zp Ap : Fin 1 → Mat 1 2) :
    (layerBackward dA dAp A Z L Zp Ap 0 gam).dW 0 0 = 1 / 2 * (L.act.d1 (Z 0 0) * dA 0 0 * A 0 0 + L.act.d1 (Z 0 1) * dA 0 1 * A 0 1) +
      gam / 2 * (dAp 0 0 0 * L.act.d2 (Z 0 0) * Zp 0 0 0 * A 0 0 + dAp 0 0 1 * L.act.d2 (Z 0 1) * Zp 0 0 1 * A 0 1 +
        (dAp 0 0 0 * L.act.d1 (Z 0 0) * Ap 0 0 0 + dAp 0 0 1 * L.act.d1 (Z 0 1) * Ap 0 0 1)) := by
  simp [layerBackward, hg, Matrix.mul_apply, Fin.sum_univ_two]
  ring

lemma layerBackward11' (gam : ℝ) (hg : gam ≠ 0) (dA : Mat 1 2) (dAp : Fin 1 → Mat 1 2) (A Z : Mat 1 2) (L : Layer 1 1) (Zp Ap : Fin 1 → Mat 1 2) (e : Fin 2) :
    (layerBackward dA dAp A Z L Zp Ap 0 gam).dApPrev 0 0 e = gam * (L.W 0 0 * (dAp 0 0 e * L.act.d1 (Z 0 e))) := by
  simp [layerBackward, hg, Matrix.mul_apply]

/-- **C53** For every `gamma` strictly between 0 and 1 the back-propagated gradient is wrong: two examples at 0 with value and slope 0, and the two-layer network of weights 1. The
derivative of the cost with respect to the first weight is `gamma`, the code returns `gamma ** 2`. -/
theorem C53_gamma_wrong (gam : ℝ) (h0 : 0 < gam) (h1 : gam < 1) : ∃ g c, grad net11 (0 : Mat 1 2) 0 (some 0) 0 gam = .ok g ∧
    (∀ s, cost (net11.move dir11 s) (0 : Mat 1 2) 0 (some 0) 0 gam = .ok (c s)) ∧ HasDerivAt c gam 0 ∧ inner net11 g dir11 = gam ^ 2 ∧ gam ^ 2 ≠ gam := by
  refine ⟨_, fun s => gam / 2 * (1 + s) ^ 2, by simp only [grad, if_neg (by norm_num : ¬ (2 : ℕ) = 1)]; rfl, fun s => ?_, ?_, ?_, ?_⟩
  · rw [move11]
    simp only [cost, if_neg (by norm_num : ¬ (2 : ℕ) = 1)]
    congr 1
    have hc : min (max 0 gam) 1 = gam := by rw [max_eq_right h0.le, min_eq_left h1.le]
    simp only [enhancement, penalty0, forward11, grads11, hc]
    simp
    ring
  · have : HasDerivAt (fun s : ℝ => gam / 2 * (1 + s) ^ 2) (gam / 2 * (2 * (1 + 0) ^ 1 * 1)) 0 := by
      have := (((hasDerivAt_id' (0 : ℝ)).const_add 1).fun_pow 2).const_mul (gam / 2)
      simpa using this
    exact this.congr_deriv (by ring)
  · set dAL : Mat 1 2 := (forward net11 (0 : Mat 1 2)).1 - 0
    set dALp : Fin 1 → Mat 1 2 := fun j => (gradsForward net11 (0 : Mat 1 2)).1 j - (0 : Fin 1 → Mat 1 2) j
    set g := (backLoop 0 gam net11 (forward net11 (0 : Mat 1 2)).2 (gradsForward net11 (0 : Mat 1 2)).2 dAL dALp).2 with hgdef
    have hi : inner net11 g dir11 = (∑ i : Fin 1, ∑ j : Fin 1, g.1.1 i j * 1) + (∑ i : Fin 1, g.1.2 i * 0) +
      ((∑ i : Fin 1, ∑ j : Fin 1, g.2.1.1 i j * 0) + (∑ i : Fin 1, g.2.1.2 i * 0) + 0) := rfl
    rw [hi]
    simp only [mul_zero, Finset.sum_const_zero, add_zero, mul_one, Finset.univ_unique, Finset.sum_singleton]
    set L1 : Layer 1 1 := ⟨Matrix.of fun _ _ => 1, fun _ => 0, .tanh⟩
    set L2 : Layer 1 1 := ⟨Matrix.of fun _ _ => 1, fun _ => 0, .linear⟩
    set Z1 : Mat 1 2 := Matrix.of fun i e => ((Matrix.of fun _ _ => 1 : Mat 1 1) * (0 : Mat 1 2)) i e + 0 with hZ1
    set A1 : Mat 1 2 := Matrix.of fun i e => Act.eval .tanh (Z1 i e)
    set Z2 : Mat 1 2 := Matrix.of fun i e => ((Matrix.of fun _ _ => 1 : Mat 1 1) * A1) i e + 0
    set P0 : Fin 1 → Mat 1 2 := fun j => Matrix.of fun i _ => if i = j then 1 else 0 with hP0
    set P1 : Fin 1 → Mat 1 2 := fun j => Matrix.of fun i e => Act.d1 .tanh (Z1 i e) * ((Matrix.of fun _ _ => 1 : Mat 1 1) * P0 j) i e
    set b2 := layerBackward dAL dALp A1 Z2 L2 (fun j => (Matrix.of fun _ _ => 1 : Mat 1 1) * P1 j) P1 0 gam
    have hb : g.1.1 = (layerBackward b2.dAprev b2.dApPrev (0 : Mat 1 2) Z1 L1 (fun j => (Matrix.of fun _ _ => 1 : Mat 1 1) * P0 j) P0 0 gam).dW := rfl
    have hd : ∀ e, dALp 0 0 e = 1 := fun e => by
      show (gradsForward (netw 1) (0 : Mat 1 2)).1 0 0 e - 0 = 1
      rw [grads11]; simp
    have hz : ∀ e, Z1 0 e = 0 := fun e => by simp [hZ1]
    show g.1.1 0 0 = gam ^ 2
    rw [hb, layerBackward11 gam h0.ne', layerBackward11' gam h0.ne', layerBackward11' gam h0.ne']
    simp [hd, hz, L1, L2, Act.d1, Act.eval, hP0]
    ring
  · intro h
    have : gam * (gam - 1) = 0 := by ring_nf; linarith
    rcases mul_eq_zero.1 this with h | h <;> linarith

/-- The hypotheses of `C53_backprop` are met by the defaults of GENN (`gamma = 1`, `lambd = 0.1`). -/
example : ∃ g, grad net11 (0 : Mat 1 2) 0 (some 0) 0.1 1 = .ok g :=
  let ⟨g, h, _⟩ := C53_backprop net11 (0 : Mat 1 2) 0 0 0.1 1 (le_refl 2) (by norm_num) (Or.inr rfl)
  ⟨g, h⟩

/-! ## Prediction -/

lemma evaluate_apply {ny : ℕ} (s : Scale nx ny) (net : Net nx ny) (X : Mat nx m) (i : Fin ny) (e : Fin m) :
    evaluate s net X i e = (forward net (Matrix.of fun q e => (X q e - s.muX q) / s.sdX q)).1 i e * s.sdY i + s.muY i := rfl

/-- The exact derivative of a prediction: the Jacobian entry of the normalised network times the ratio of the scales. -/
theorem C66_exact_derivative {ny : ℕ} (s : Scale nx ny) (net : Net nx ny) (X : Mat nx m) (j : Fin nx) (i : Fin ny) (e : Fin m) (hs : s.sdX j ≠ 0) :
    HasDerivAt (fun t => evaluate s net (Matrix.of fun q e' => if q = j ∧ e' = e then t else X q e') i e)
      ((gradsForward net (Matrix.of fun q e => (X q e - s.muX q) / s.sdX q)).1 j i e * s.sdY i / s.sdX j) (X j e) := by
  set Xn : Mat nx m := Matrix.of fun q e => (X q e - s.muX q) / s.sdX q with hXn
  have h1 := C53_jacobian net Xn j i e
  have h2 : HasDerivAt (fun t : ℝ => (t - s.muX j) / s.sdX j) (1 / s.sdX j) (X j e) := ((hasDerivAt_id' (X j e)).sub_const _).div_const _
  have hx : Xn j e = (X j e - s.muX j) / s.sdX j := rfl
  rw [hx] at h1
  have h3 := ((h1.comp (X j e) h2).mul_const (s.sdY i)).add_const (s.muY i)
  have e1 : (fun t => evaluate s net (Matrix.of fun q e' => if q = j ∧ e' = e then t else X q e') i e) =
      fun t => (forward net (Matrix.of fun q e' => if q = j ∧ e' = e then (t - s.muX j) / s.sdX j else Xn q e')).1 i e * s.sdY i + s.muY i := by
    funext t
    rw [evaluate_apply]
    have e2 : (Matrix.of fun q e_1 => ((Matrix.of fun q e' => if q = j ∧ e' = e then t else X q e' : Mat nx m) q e_1 - s.muX q) / s.sdX q) =
        (Matrix.of fun q e' => if q = j ∧ e' = e then (t - s.muX j) / s.sdX j else Xn q e' : Mat nx m) := by
      ext q e'
      by_cases h : q = j ∧ e' = e
      · obtain ⟨rfl, rfl⟩ := h; simp
      · simp [h, hXn]
    rw [e2]
  rw [e1]
  refine h3.congr_deriv ?_
  field_simp

lemma ravel3 (a b c i j e : ℕ) : ravel [a, b, c] [i, j, e] = i * (b * c) + (j * c + e) := by
  simp [ravel]

lemma unravel3 (a b c i j e : ℕ) (hj : j < b) (he : e < c) : unravel [a, b, c] (i * (b * c) + (j * c + e)) = [i, j, e] := by
  have h1 : j * c + e < b * c := by
    calc j * c + e < j * c + c := by omega
      _ = (j + 1) * c := by ring
      _ ≤ b * c := Nat.mul_le_mul_right _ hj
  have hbc : 0 < b * c := by omega
  simp only [unravel, List.prod_cons, List.prod_nil, mul_one]
  have e1 : (i * (b * c) + (j * c + e)) / (b * c) = i := by
    rw [mul_comm i, Nat.mul_add_div hbc, Nat.div_eq_of_lt h1, add_zero]
  have e2 : (i * (b * c) + (j * c + e)) % (b * c) = j * c + e := by
    rw [mul_comm i, Nat.mul_add_mod, Nat.mod_eq_of_lt h1]
  have e3 : (j * c + e) / c = j := by rw [mul_comm j, Nat.mul_add_div (by omega), Nat.div_eq_of_lt he, add_zero]
  have e4 : (j * c + e) % c = e := by rw [mul_comm j, Nat.mul_add_mod, Nat.mod_eq_of_lt he]
  rw [e1, e2, e3, e4]
  simp

/-- **C66** One output, at least two prediction points: `predict_derivatives` is the exact derivative of `predict_values`, for every network, scales and points. -/
theorem C66_predict_derivatives (s : Scale nx 1) (net : Net nx 1) (X : Mat nx m) (hm : 2 ≤ m) (j : Fin nx) (e : Fin m) (hs : s.sdX j ≠ 0) :
    ∃ d, predictDeriv s net X j e 0 = .ok d ∧ HasDerivAt (fun t => evaluate s net (Matrix.of fun q e' => if q = j ∧ e' = e then t else X q e') 0 e) d (X j e) := by
  have hm1 : m ≠ 1 := by omega
  refine ⟨_, ?_, C66_exact_derivative s net X j 0 e hs⟩
  set Xn : Mat nx m := Matrix.of fun q e => (X q e - s.muX q) / s.sdX q with hXn
  have hnx : ¬ nx = 0 := by have := j.isLt; omega
  by_cases hn1 : nx = 1
  · subst hn1
    have hj : j = 0 := Subsingleton.elim _ _
    subst hj
    simp [predictDeriv, gradientArr, jlArr, hm1, Arr.bop, bshape, bidx, colArr, Arr.reshape, ravel, unravel, Except.map, ← hXn, readMat, Nat.mod_eq_of_lt, Nat.div_eq_of_lt]
  · have hu := unravel3 1 nx m 0 j e j.isLt e.isLt
    rw [zero_mul, zero_add] at hu
    simp [predictDeriv, gradientArr, jlArr, hm1, hn1, Arr.bop, bshape, bidx, colArr, Arr.reshape, ravel3, Except.map, ← hXn, hu, readMat]

/-- **C66** One output, at least two inputs, a single prediction point: `predict_derivatives` always fails. -/
theorem C66_single_point (s : Scale nx 1) (net : Net nx 1) (X : Mat nx 1) (hn : 2 ≤ nx) (kx e i : ℕ) : predictDeriv s net X kx e i = .error .valueError := by
  have hn1 : nx ≠ 1 := by omega
  have hsq : nx * nx ≠ nx := fun h => by
    have : nx * nx = nx * 1 := by rw [h, mul_one]
    exact hn1 (Nat.eq_of_mul_eq_mul_left (by omega) this)
  simp [predictDeriv, gradientArr, jlArr, hn1, Arr.bop, bshape, colArr, Arr.reshape, Except.map, hsq, Ne.symm hn1]

/-- **C66** Several outputs and several points: when the numbers of inputs and outputs differ, `predict_derivatives` always fails. -/
theorem C66_outputs_ne_inputs {ny : ℕ} (s : Scale nx ny) (net : Net nx ny) (X : Mat nx m) (hm : 2 ≤ m) (hy : 2 ≤ ny) (hne : nx ≠ ny) (kx e i : ℕ) :
    predictDeriv s net X kx e i = .error .valueError := by
  have hm1 : m ≠ 1 := by omega
  have hy1 : ny ≠ 1 := by omega
  by_cases hx1 : nx = 1
  · subst hx1
    have h1 : ¬ (1 = ny) := fun h => hy1 h.symm
    have hsz : ¬ (ny * (ny * m) = ny * m) := fun h => by
      have h2 : ny * (ny * m) = ny * (1 * m) := by rw [h, one_mul]
      have h3 := Nat.eq_of_mul_eq_mul_left (by omega) h2
      have h4 := Nat.eq_of_mul_eq_mul_right (by omega) h3
      omega
    simp [predictDeriv, gradientArr, jlArr, hm1, hy1, h1, Arr.bop, bshape, colArr, Arr.reshape, Except.map, hsz]
  · simp [predictDeriv, gradientArr, jlArr, hm1, hy1, hx1, hne, Arr.bop, bshape, colArr, Except.map]

/-- **C66** As many outputs as inputs: the derivative of output `i` is returned with the scale of output `j` instead of `i` (`j` the input), so it is wrong whenever the two scales
differ and the derivative is not zero. -/
theorem C66_outputs_eq_inputs (s : Scale nx nx) (net : Net nx nx) (X : Mat nx m) (hm : 2 ≤ m) (hx : 2 ≤ nx) (j i : Fin nx) (e : Fin m) :
    predictDeriv s net X j e i = .ok ((gradsForward net (Matrix.of fun q e => (X q e - s.muX q) / s.sdX q)).1 j i e * s.sdY j / s.sdX j) := by
  have hm1 : m ≠ 1 := by omega
  have hx1 : nx ≠ 1 := by omega
  have hu := unravel3 nx nx m i j e j.isLt e.isLt
  simp [predictDeriv, gradientArr, jlArr, hm1, hx1, Arr.bop, bshape, bidx, colArr, Arr.reshape, ravel3, Except.map, hu, readMat]

/-- The two-layer network of weights 1 predicts derivatives at two points. -/
example : ∃ d, predictDeriv ⟨fun _ => 0, fun _ => 1, fun _ => 0, fun _ => 2⟩ net11 (0 : Mat 1 2) 0 0 0 = .ok d :=
  let ⟨d, h, _⟩ := C66_predict_derivatives ⟨fun _ => 0, fun _ => 1, fun _ => 0, fun _ => 2⟩ net11 (0 : Mat 1 2) (le_refl 2) 0 0 one_ne_zero
  ⟨d, h⟩

/-! ## Normalisation and the goodness-of-fit measure -/

/-- **C66** Normalising is undone by the scale factors, and normalised partials are the partials of the normalised data: rows with non-zero spread. -/
theorem C66_normalise {ny : ℕ} (X : Mat nx m) (Y : Mat ny m) (J : Fin nx → Mat ny m) (j : Fin nx) (i : Fin ny) (e : Fin m) (hx : rowStd X j ≠ 0) (hy : rowStd Y i ≠ 0) :
    normRows X j e * rowStd X j + rowMean X j = X j e ∧ normRows Y i e * rowStd Y i + rowMean Y i = Y i e ∧
    normPartials X Y J j i e * rowStd Y i / rowStd X j = J j i e := by
  simp only [normRows, normPartials, Matrix.of_apply]
  refine ⟨by field_simp; ring, by field_simp; ring, by field_simp⟩

/-- **C66** A normalised row has mean 0 and standard deviation 1. -/
theorem C66_standardised (X : Mat nx m) (j : Fin nx) (hx : rowStd X j ≠ 0) : rowMean (normRows X) j = 0 ∧ rowStd (normRows X) j = 1 := by
  have hm : (m : ℝ) ≠ 0 := by
    intro h
    apply hx
    simp [rowStd, h]
  have h0 : rowMean (normRows X) j = 0 := by
    simp only [rowMean, normRows, Matrix.of_apply]
    rw [← Finset.sum_div, Finset.sum_sub_distrib, Finset.sum_const, Finset.card_univ, Fintype.card_fin, nsmul_eq_mul]
    have : ∑ e, X j e - m * ((∑ e, X j e) / m) = 0 := by field_simp; ring
    rw [this]; simp
  refine ⟨h0, ?_⟩
  have h1 : rowStd (normRows X) j = √((∑ e, (normRows X j e) ^ 2) / m) := by
    simp only [rowStd, h0, sub_zero]
  rw [h1]
  have h2 : (∑ e, (normRows X j e) ^ 2) / m = 1 := by
    have h3 : rowStd X j ^ 2 = (∑ e, (X j e - rowMean X j) ^ 2) / m := Real.sq_sqrt (by positivity)
    simp only [normRows, Matrix.of_apply, div_pow]
    rw [← Finset.sum_div, div_right_comm, ← h3]
    exact div_self (pow_ne_zero 2 hx)
  rw [h2, Real.sqrt_one]

/-- **C66** The goodness-of-fit measure is at most 1, and 1 exactly when every prediction is right (one example or more). -/
theorem C66_rsquare {m : ℕ} (hm : m ≠ 0) (yp yt : Fin m → ℝ) : rsquare yp yt ≤ 1 ∧ (rsquare yp yt = 1 ↔ yp = yt) := by
  have hpos : 0 < ∑ e, ((yt e - (∑ e, yt e) / m) ^ 2 + 1 / 100000000) := by
    haveI : Nonempty (Fin m) := ⟨⟨0, Nat.pos_of_ne_zero hm⟩⟩
    exact Finset.sum_pos (fun e _ => by positivity) Finset.univ_nonempty
  have hnn : 0 ≤ ∑ e, (yp e - yt e) ^ 2 := Finset.sum_nonneg fun e _ => sq_nonneg _
  refine ⟨?_, ?_⟩
  · have := div_nonneg hnn hpos.le
    unfold rsquare
    linarith
  · unfold rsquare
    constructor
    · intro h
      have h1 : (∑ e, (yp e - yt e) ^ 2) / ∑ e, ((yt e - (∑ e, yt e) / m) ^ 2 + 1 / 100000000) = 0 := by linarith
      rcases div_eq_zero_iff.1 h1 with h2 | h2
      · funext e
        have := (Finset.sum_eq_zero_iff_of_nonneg fun i _ => sq_nonneg _).1 h2 e (Finset.mem_univ e)
        exact sub_eq_zero.1 (pow_eq_zero_iff (by norm_num) |>.1 this)
      · exact absurd h2 hpos.ne'
    · rintro rfl
      simp

end
end SMT.Nn
