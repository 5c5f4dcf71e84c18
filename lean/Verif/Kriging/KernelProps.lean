import Verif.Kriging.Kernels
import Mathlib.Analysis.Calculus.Deriv.Add
import Mathlib.Analysis.Calculus.Deriv.Mul
import Mathlib.Analysis.Calculus.Deriv.Pow
import Mathlib.Analysis.Calculus.Deriv.Inv
import Mathlib.Analysis.Calculus.Deriv.Abs
import Mathlib.Analysis.Calculus.Deriv.MeanValue
import Mathlib.Analysis.SpecialFunctions.ExpDeriv
import Mathlib.Analysis.SpecialFunctions.Log.Deriv
import Mathlib.Tactic.Ring
import Mathlib.Tactic.Linarith
import Mathlib.Tactic.FieldSimp
import Mathlib.Tactic.Positivity
import Mathlib.Tactic.LinearCombination

/-!
# Properties C34 (kernel bounds), C35 (hyper-parameter derivatives), C36 (chunk loops), C58 (spatial Jacobians)
-/
namespace SMT.Krg
set_option linter.unusedSectionVars false
set_option linter.unusedSimpArgs false
set_option linter.unusedVariables false

variable {α β : Type} {m : ℕ}

/-! ## C36: chunk loops -/

theorem setSlice_take (lim i : ℕ) (l new : List α) (h : new.length = (slice lim i l).length) :
    (setSlice lim i l new).take ((i + 1) * lim) = l.take (i * lim) ++ new := by
  have e : (i + 1) * lim = i * lim + lim := by rw [Nat.add_mul, Nat.one_mul]
  unfold setSlice slice at *
  rw [List.length_take, List.length_drop] at h
  rw [← List.append_assoc, List.take_append]
  rcases Nat.le_total l.length (i * lim) with hl | hl
  · have hn : new = [] := List.eq_nil_of_length_eq_zero (by omega)
    subst hn
    rw [List.drop_eq_nil_of_le (by omega), List.take_nil, List.append_nil, List.take_of_length_le]
    simp; omega
  · rcases Nat.le_total ((i + 1) * lim) l.length with h2 | h2
    · have hlen : (l.take (i * lim) ++ new).length = (i + 1) * lim := by simp; omega
      rw [hlen, Nat.sub_self, List.take_zero, List.append_nil, List.take_of_length_le (by omega)]
    · rw [List.drop_eq_nil_of_le h2, List.take_nil, List.append_nil, List.take_of_length_le]
      simp; omega

theorem setSlice_drop (lim i : ℕ) (l new : List α) (h : new.length = (slice lim i l).length) :
    (setSlice lim i l new).drop ((i + 1) * lim) = l.drop ((i + 1) * lim) := by
  have e : (i + 1) * lim = i * lim + lim := by rw [Nat.add_mul, Nat.one_mul]
  unfold setSlice slice at *
  rw [List.length_take, List.length_drop] at h
  rw [← List.append_assoc, List.drop_append]
  rcases Nat.le_total ((i + 1) * lim) l.length with h2 | h2
  · have hlen : (l.take (i * lim) ++ new).length = (i + 1) * lim := by simp; omega
    rw [hlen, Nat.sub_self, List.drop_of_length_le (by omega)]; rfl
  · rw [List.drop_eq_nil_of_le h2, List.drop_of_length_le, List.drop_nil]; · rfl
    simp; omega

theorem chunkLoop_gen (lim : ℕ) (hl : 0 < lim) (f : β → α → α) (d : List β) (i : ℕ) (r : List α) (hlen : r.length = d.length) :
    chunkLoop lim hl f d i r = r.take (i * lim) ++ List.zipWith f (d.drop (i * lim)) (r.drop (i * lim)) := by
  fun_induction chunkLoop lim hl f d i r with
  | case1 i r hle ih =>
    have e : (i + 1) * lim = i * lim + lim := by rw [Nat.add_mul, Nat.one_mul]
    have hs : (List.zipWith f (slice lim i d) (slice lim i r)).length = (slice lim i r).length := by
      simp [slice, hlen]
    have hlen' : (setSlice lim i r (List.zipWith f (slice lim i d) (slice lim i r))).length = d.length := by
      have h1 := congrArg List.length (setSlice_take lim i r _ hs)
      have h2 := congrArg List.length (setSlice_drop lim i r _ hs)
      have h3 := congrArg List.length (List.take_append_drop ((i + 1) * lim) (setSlice lim i r (List.zipWith f (slice lim i d) (slice lim i r))))
      rw [List.length_append, h1, h2] at h3
      rw [← h3, List.length_append, hs]
      simp only [slice, List.length_take, List.length_drop]
      omega
    rw [ih hlen', setSlice_take _ _ _ _ hs, setSlice_drop _ _ _ _ hs, List.append_assoc]
    congr 1
    conv_rhs => rw [← List.take_append_drop lim (d.drop (i * lim)), ← List.take_append_drop lim (r.drop (i * lim))]
    rw [List.zipWith_append (by simp [hlen]), List.drop_drop, List.drop_drop, e]
    rfl
  | case2 i r hle =>
    rw [List.drop_of_length_le (by omega : d.length ≤ i * lim), List.take_of_length_le (by omega)]
    simp

/-- **C36** For every row count (0, exact multiples of the chunk size, ...) and every positive chunk size, the loop applies
the row expression exactly once to each row, with the row's own distance. -/
theorem C36_chunks (lim : ℕ) (hl : 0 < lim) (f : β → α → α) (d : List β) (r : List α) (hlen : r.length = d.length) :
    chunkLoop lim hl f d 0 r = List.zipWith f d r := by
  rw [chunkLoop_gen lim hl f d 0 r hlen]; simp

/-- Number of chunks the loop executes. -/
def chunkCount (lim n : ℕ) : ℕ → ℕ → ℕ
  | 0, _ => 0
  | fuel + 1, i => if i * lim ≤ n then 1 + chunkCount lim n fuel (i + 1) else 0

/-- **C36** The loop stops after `n / nb_limit + 1` chunks (the last one empty when `nb_limit` divides `n`). -/
theorem C36_chunk_count (lim n : ℕ) (hl : 0 < lim) (fuel : ℕ) (hf : n / lim + 1 ≤ fuel) :
    chunkCount lim n fuel 0 = n / lim + 1 := by
  have : ∀ fuel i, i ≤ n / lim + 1 → n / lim + 1 - i ≤ fuel → chunkCount lim n fuel i = n / lim + 1 - i := by
    intro fuel
    induction fuel with
    | zero =>
      intro i h' h
      simp only [chunkCount]
      generalize n / lim = q at *
      omega
    | succ fuel ih =>
      intro i hi h
      unfold chunkCount
      by_cases hc : i * lim ≤ n
      · have := (Nat.le_div_iff_mul_le hl).2 hc
        rw [if_pos hc, ih (i + 1) (by omega) (by omega)]; omega
      · have : ¬ i ≤ n / lim := fun h' => hc ((Nat.le_div_iff_mul_le hl).1 h')
        rw [if_neg hc]; omega
  have := this fuel 0 (Nat.zero_le _) (by rw [Nat.sub_zero]; exact hf)
  simpa using this

theorem chunk_fresh (lim : ℕ) (hl : 0 < lim) (f : β → ℝ) (D : List β) :
    chunkLoop lim hl (fun d _ => f d) D 0 (zeros D) = D.map f := by
  rw [C36_chunks _ _ _ _ _ (by simp [zeros])]
  unfold zeros
  induction D with
  | nil => rfl
  | cons a D ih => simp only [List.length_cons, List.replicate_succ, List.zipWith_cons_cons, List.map_cons, ih]

theorem chunk_map (lim : ℕ) (hl : 0 < lim) (f : β → ℝ → ℝ) (g : β → ℝ) (D : List β) :
    chunkLoop lim hl f D 0 (D.map g) = D.map fun d => f d (g d) := by
  rw [C36_chunks _ _ _ _ _ (by simp)]
  induction D with
  | nil => rfl
  | cons a D ih => simp only [List.zipWith_cons_cons, List.map_cons, ih]

theorem chunk_zip (lim : ℕ) (hl : 0 < lim) (f : β × ℝ → ℝ → ℝ) (h g : β → ℝ) (D : List β) :
    chunkLoop lim hl f (D.zip (D.map h)) 0 (D.map g) = D.map fun d => f (d, h d) (g d) := by
  rw [C36_chunks _ _ _ _ _ (by simp)]
  induction D with
  | nil => rfl
  | cons a D ih => simp only [List.zip_cons_cons, List.zipWith_cons_cons, List.map_cons, ih]

/-! ## Row-wise forms -/

/-- Specification of the exponential kernels on one row. -/
noncomputable def expRow (θ d : Fin m → ℝ) : ℝ := Real.exp (-∑ k, θ k * d k)

/-- Log-derivative factor of the Matérn 5/2 kernel as the code writes it. -/
noncomputable def m52K (t d : ℝ) : ℝ := m52f1 t d / m52f2 t d - m52f3 d

noncomputable def m32K (t d : ℝ) : ℝ := m32f t d * √3 * d

/-- **C36** Every kernel is row-wise, independently of the chunk size: values, gradient and Hessian entries of a row depend on
that row only, for every number of rows. -/
theorem C36_rowwise (lim : ℕ) (hl : 0 < lim) (θ : Fin m → ℝ) (D : List (Fin m → ℝ)) (g h : Fin m) :
    absExp lim hl θ D none none = D.map (expRow θ) ∧
    absExp lim hl θ D (some g) none = D.map (fun d => -d g * expRow θ d) ∧
    absExp lim hl θ D (some g) (some h) = D.map (fun d => -d h * (-d g * expRow θ d)) ∧
    squarExp lim hl θ D none none = D.map (expRow θ) ∧
    squarExp lim hl θ D (some g) none = D.map (fun d => -d g * expRow θ d) ∧
    squarExp lim hl θ D (some g) (some h) = D.map (fun d => -d h * (-d g * expRow θ d)) ∧
    matern52 lim hl θ D none none = some (D.map (m52val θ)) ∧
    matern52 lim hl θ D (some g) none = some (D.map fun d => m52K (θ g) (d g) * m52val θ d) ∧
    matern52 lim hl θ D (some g) (some h) = some (D.map fun d =>
      (if h = g then (10 / 3 * d h ^ 2 * m52f2 (θ h) (d h) - m52f1 (θ h) (d h) ^ 2) / m52f2 (θ h) (d h) ^ 2 * m52val θ d else 0) +
        m52K (θ h) (d h) * (m52K (θ g) (d g) * m52val θ d)) ∧
    matern32 lim hl θ D none none = D.map (m32val θ) ∧
    matern32 lim hl θ D (some g) none = D.map (fun d => m32K (θ g) (d g) * m32val θ d) ∧
    matern32 lim hl θ D (some g) (some h) = D.map fun d =>
      m32K (θ h) (d h) * (m32K (θ g) (d g) * m32val θ d) -
        if g = h then 3 * d h ^ 2 / (1 + √3 * θ h * d h) ^ 2 * m32val θ d else 0 := by
  refine ⟨?_, ?_, ?_, ?_, ?_, ?_, ?_, ?_, ?_, ?_, ?_, ?_⟩
  · simp only [absExp, expLoop, chunk_fresh]; rfl
  · simp only [absExp, expLoop, chunk_fresh, chunk_map]; rfl
  · simp only [absExp, expLoop, chunk_fresh, chunk_map]; rfl
  · simp only [squarExp, expLoop, chunk_fresh]; rfl
  · simp only [squarExp, expLoop, chunk_fresh, chunk_map]; rfl
  · simp only [squarExp, expLoop, chunk_fresh, chunk_map]; rfl
  · simp only [matern52, chunk_fresh]
  · simp only [matern52, chunk_fresh, chunk_map]; rfl
  · simp only [matern52, chunk_fresh, chunk_map, chunk_zip, m52K]
    congr 1
    refine List.map_congr_left fun d _ => ?_
    split_ifs <;> simp
  · simp only [matern32, chunk_fresh]
  · simp only [matern32, chunk_fresh, chunk_map, m32K]
    refine List.map_congr_left fun d _ => ?_
    ring
  · simp only [matern32, chunk_fresh, chunk_map, chunk_zip, m32K, Option.some.injEq]
    refine List.map_congr_left fun d _ => ?_
    split_ifs <;> ring

/-! ## C35: derivatives with respect to the hyper-parameters -/

theorem sum_update (θ d : Fin m → ℝ) (g : Fin m) (u : ℝ) :
    ∑ k, Function.update θ g u k * d k = ∑ k, θ k * d k + (u - θ g) * d g := by
  have : ∀ k, Function.update θ g u k * d k = θ k * d k + if k = g then (u - θ g) * d g else 0 := by
    intro k
    by_cases hk : k = g
    · subst hk; simp; ring
    · simp [hk]
  simp only [this, Finset.sum_add_distrib]; simp

theorem expRow_deriv (θ d : Fin m → ℝ) (g : Fin m) :
    HasDerivAt (fun u => expRow (Function.update θ g u) d) (-d g * expRow θ d) (θ g) := by
  have e : (fun u => expRow (Function.update θ g u) d) = fun u => Real.exp (-(∑ k, θ k * d k + (u - θ g) * d g)) := by
    funext u; rw [expRow, sum_update]
  rw [e]
  have h0 : HasDerivAt (fun u : ℝ => -(∑ k, θ k * d k + (u - θ g) * d g)) (-(1 * d g)) (θ g) :=
    ((((hasDerivAt_id (θ g)).sub_const (θ g)).mul_const (d g)).const_add _).neg
  refine h0.exp.congr_deriv ?_
  unfold expRow
  simp only [id, sub_self, zero_mul, add_zero]; ring

/-- A product kernel `(∏ₖ p(θₖ dₖ)) exp(-c ∑ₖ θₖ dₖ)`. -/
noncomputable def prodKernel (p : ℝ → ℝ) (c : ℝ) (θ d : Fin m → ℝ) : ℝ :=
  (∏ k, p (θ k * d k)) * Real.exp (-c * ∑ k, θ k * d k)

theorem prod_split (p : ℝ → ℝ) (θ d : Fin m → ℝ) (g : Fin m) :
    ∏ k, p (θ k * d k) = p (θ g * d g) * ∏ k ∈ Finset.univ.erase g, p (θ k * d k) :=
  (Finset.mul_prod_erase Finset.univ (fun k => p (θ k * d k)) (Finset.mem_univ g)).symm

theorem prod_update (p : ℝ → ℝ) (θ d : Fin m → ℝ) (g : Fin m) (u : ℝ) :
    ∏ k, p (Function.update θ g u k * d k) = p (u * d g) * ∏ k ∈ Finset.univ.erase g, p (θ k * d k) := by
  rw [prod_split p (Function.update θ g u) d g]
  congr 1
  · simp
  · refine Finset.prod_congr rfl fun k hk => ?_
    rw [Function.update_of_ne (Finset.ne_of_mem_erase hk)]

theorem prodKernel_deriv (p : ℝ → ℝ) (p' c : ℝ) (θ d : Fin m → ℝ) (g : Fin m) (hp : HasDerivAt p p' (θ g * d g))
    (h0 : p (θ g * d g) ≠ 0) :
    HasDerivAt (fun u => prodKernel p c (Function.update θ g u) d)
      ((p' * d g / p (θ g * d g) - c * d g) * prodKernel p c θ d) (θ g) := by
  have e : (fun u => prodKernel p c (Function.update θ g u) d) = fun u =>
      (p (u * d g) * ∏ k ∈ Finset.univ.erase g, p (θ k * d k)) * Real.exp (-c * (∑ k, θ k * d k + (u - θ g) * d g)) := by
    funext u; rw [prodKernel, prod_update, sum_update]
  rw [e]
  have h1 : HasDerivAt (fun u : ℝ => p (u * d g)) (p' * d g) (θ g) :=
    (HasDerivAt.comp (θ g) (h₂ := p) hp ((hasDerivAt_id (θ g)).mul_const (d g))).congr_deriv (by simp)
  have h2 : HasDerivAt (fun u : ℝ => -c * (∑ k, θ k * d k + (u - θ g) * d g)) (-c * (1 * d g)) (θ g) :=
    ((((hasDerivAt_id (θ g)).sub_const (θ g)).mul_const (d g)).const_add _).const_mul _
  refine ((h1.mul_const _).mul h2.exp).congr_deriv ?_
  unfold prodKernel
  rw [prod_split p θ d g]
  simp only [sub_self, zero_mul, add_zero]
  generalize p (θ g * d g) = P at *
  field_simp
  ring

theorem m52val_eq (θ d : Fin m → ℝ) : m52val θ d = prodKernel (fun t => 1 + √5 * t + 5 / 3 * t ^ 2) √5 θ d := rfl
theorem m32val_eq (θ d : Fin m → ℝ) : m32val θ d = prodKernel (fun t => 1 + √3 * t) √3 θ d := rfl

theorem m52p_pos (t : ℝ) : 0 < 1 + √5 * t + 5 / 3 * t ^ 2 := by
  have h5 : √5 ^ 2 = (5 : ℝ) := Real.sq_sqrt (by norm_num)
  nlinarith [sq_nonneg (√5 * t + 3 / 2), sq_nonneg t]

theorem m52f2_eq (t d : ℝ) : m52f2 t d = 1 + √5 * (t * d) + 5 / 3 * (t * d) ^ 2 := by unfold m52f2; ring

theorem m52f2_pos (t d : ℝ) : 0 < m52f2 t d := by rw [m52f2_eq]; exact m52p_pos _

theorem m52p_deriv (t : ℝ) : HasDerivAt (fun t : ℝ => 1 + √5 * t + 5 / 3 * t ^ 2) (√5 + 10 / 3 * t) t := by
  have h1 : HasDerivAt (fun t : ℝ => √5 * t) (√5 * 1) t := (hasDerivAt_id t).const_mul √5
  have h2 : HasDerivAt (fun t : ℝ => 5 / 3 * t ^ 2) (5 / 3 * (((2 : ℕ) : ℝ) * t ^ (2 - 1) * 1)) t :=
    (((hasDerivAt_id t).fun_pow 2).const_mul (5 / 3))
  refine ((h1.const_add 1).fun_add h2).congr_deriv ?_
  norm_num; ring

theorem m32p_deriv (t : ℝ) : HasDerivAt (fun t : ℝ => 1 + √3 * t) √3 t := by
  have h1 : HasDerivAt (fun t : ℝ => √3 * t) (√3 * 1) t := (hasDerivAt_id t).const_mul √3
  exact (h1.const_add 1).congr_deriv (by ring)

theorem m52val_deriv (θ d : Fin m → ℝ) (g : Fin m) :
    HasDerivAt (fun u => m52val (Function.update θ g u) d) (m52K (θ g) (d g) * m52val θ d) (θ g) := by
  refine (prodKernel_deriv _ _ √5 θ d g (m52p_deriv _) (m52p_pos _).ne').congr_deriv ?_
  rw [← m52val_eq]
  congr 1
  unfold m52K
  rw [m52f2_eq]
  unfold m52f1 m52f3
  congr 2; ring

theorem m32val_deriv (θ d : Fin m → ℝ) (g : Fin m) (h0 : 1 + √3 * (θ g * d g) ≠ 0) :
    HasDerivAt (fun u => m32val (Function.update θ g u) d) (m32K (θ g) (d g) * m32val θ d) (θ g) := by
  refine (prodKernel_deriv _ _ √3 θ d g (m32p_deriv _) h0).congr_deriv ?_
  rw [← m32val_eq]
  congr 1
  unfold m32K m32f
  rw [mul_assoc √3]
  ring

/-- **C35** First derivatives: for every kernel, row, dimension and index, the `grad_ind` output is the derivative of the
value output with respect to that component of `theta`. (Matérn 3/2 needs `1 + √3 θ d ≠ 0`, true for the non-negative
distances the code passes.) -/
theorem C35_gradient (lim : ℕ) (hl : 0 < lim) (θ d : Fin m → ℝ) (g : Fin m) :
    HasDerivAt (fun u => (absExp lim hl (Function.update θ g u) [d] none none).headD 0)
      ((absExp lim hl θ [d] (some g) none).headD 0) (θ g) ∧
    HasDerivAt (fun u => (squarExp lim hl (Function.update θ g u) [d] none none).headD 0)
      ((squarExp lim hl θ [d] (some g) none).headD 0) (θ g) ∧
    HasDerivAt (fun u => ((matern52 lim hl (Function.update θ g u) [d] none none).getD []).headD 0)
      (((matern52 lim hl θ [d] (some g) none).getD []).headD 0) (θ g) ∧
    (1 + √3 * (θ g * d g) ≠ 0 → HasDerivAt (fun u => (matern32 lim hl (Function.update θ g u) [d] none none).headD 0)
      ((matern32 lim hl θ [d] (some g) none).headD 0) (θ g)) := by
  obtain ⟨a1, a2, _, a3, a4, _, a5, a6, _, a7, a8, _⟩ := C36_rowwise lim hl θ [d] g g
  have b := fun u => C36_rowwise lim hl (Function.update θ g u) [d] g g
  refine ⟨?_, ?_, ?_, fun h0 => ?_⟩
  · simp only [fun u => (b u).1, a2, List.map_cons, List.headD_cons]
    exact expRow_deriv θ d g
  · simp only [fun u => (b u).2.2.2.1, a4, List.map_cons, List.headD_cons]
    exact expRow_deriv θ d g
  · simp only [fun u => (b u).2.2.2.2.2.2.1, a6, List.map_cons, List.headD_cons, Option.getD_some]
    exact m52val_deriv θ d g
  · simp only [fun u => (b u).2.2.2.2.2.2.2.2.2.1, a8, List.map_cons, List.headD_cons]
    exact m32val_deriv θ d g h0

theorem m52K_deriv (t d : ℝ) : HasDerivAt (fun u => m52K u d)
    ((10 / 3 * d ^ 2 * m52f2 t d - m52f1 t d ^ 2) / m52f2 t d ^ 2) t := by
  have h1 : HasDerivAt (fun u => m52f1 u d) (10 / 3 * d ^ 2) t := by
    have : HasDerivAt (fun u : ℝ => 10 / 3 * u * d ^ 2) (10 / 3 * 1 * d ^ 2) t :=
      ((hasDerivAt_id t).const_mul (10 / 3)).mul_const (d ^ 2)
    exact (this.const_add (√5 * d)).congr_deriv (by ring)
  have h2 : HasDerivAt (fun u => m52f2 u d) (m52f1 t d) t := by
    have e : (fun u => m52f2 u d) = fun u => (fun t : ℝ => 1 + √5 * t + 5 / 3 * t ^ 2) (u * d) := by
      funext u; exact m52f2_eq u d
    rw [e]
    refine (HasDerivAt.comp t (h₂ := fun t : ℝ => 1 + √5 * t + 5 / 3 * t ^ 2) (m52p_deriv (t * d))
      ((hasDerivAt_id t).mul_const d)).congr_deriv ?_
    unfold m52f1; ring
  refine ((h1.fun_div h2 (m52f2_pos t d).ne').sub_const (m52f3 d)).congr_deriv ?_
  ring

theorem m32K_deriv (t d : ℝ) (h0 : 1 + √3 * t * d ≠ 0) : HasDerivAt (fun u => m32K u d)
    (-(3 * d ^ 2 / (1 + √3 * t * d) ^ 2)) t := by
  have h3 : √3 ^ 2 = (3 : ℝ) := Real.sq_sqrt (by norm_num)
  have h2 : HasDerivAt (fun u : ℝ => 1 + √3 * u * d) (√3 * 1 * d) t :=
    ((((hasDerivAt_id t).const_mul √3).mul_const d).const_add 1)
  have h4 : HasDerivAt (fun u : ℝ => 1 / (1 + √3 * u * d)) (-(√3 * 1 * d) / (1 + √3 * t * d) ^ 2) t := by
    simpa only [one_div] using h2.fun_inv h0
  refine (((h4.sub_const 1).mul_const √3).mul_const d).congr_deriv ?_
  field_simp
  rw [h3]
  ring

/-- **C35** Second derivatives: the `(grad_ind, hess_ind)` output is the derivative, with respect to component `h`, of the
`grad_ind = g` output, for all `g`, `h` including `g = h`. -/
theorem C35_hessian (lim : ℕ) (hl : 0 < lim) (θ d : Fin m → ℝ) (g h : Fin m) :
    HasDerivAt (fun u => (absExp lim hl (Function.update θ h u) [d] (some g) none).headD 0)
      ((absExp lim hl θ [d] (some g) (some h)).headD 0) (θ h) ∧
    HasDerivAt (fun u => (squarExp lim hl (Function.update θ h u) [d] (some g) none).headD 0)
      ((squarExp lim hl θ [d] (some g) (some h)).headD 0) (θ h) ∧
    HasDerivAt (fun u => ((matern52 lim hl (Function.update θ h u) [d] (some g) none).getD []).headD 0)
      (((matern52 lim hl θ [d] (some g) (some h)).getD []).headD 0) (θ h) ∧
    (1 + √3 * (θ h * d h) ≠ 0 → HasDerivAt (fun u => (matern32 lim hl (Function.update θ h u) [d] (some g) none).headD 0)
      ((matern32 lim hl θ [d] (some g) (some h)).headD 0) (θ h)) := by
  obtain ⟨_, _, a1, _, _, a2, _, _, a3, _, _, a4⟩ := C36_rowwise lim hl θ [d] g h
  have b := fun u => C36_rowwise lim hl (Function.update θ h u) [d] g h
  refine ⟨?_, ?_, ?_, fun h0 => ?_⟩
  · simp only [fun u => (b u).2.1, a1, List.map_cons, List.headD_cons]
    exact ((expRow_deriv θ d h).const_mul (-d g)).congr_deriv (by ring)
  · simp only [fun u => (b u).2.2.2.2.1, a2, List.map_cons, List.headD_cons]
    exact ((expRow_deriv θ d h).const_mul (-d g)).congr_deriv (by ring)
  · simp only [fun u => (b u).2.2.2.2.2.2.2.1, a3, List.map_cons, List.headD_cons, Option.getD_some]
    by_cases hgh : h = g
    · subst hgh
      simp only [Function.update_self, if_true]
      exact ((m52K_deriv (θ h) (d h)).fun_mul (m52val_deriv θ d h)).congr_deriv (by simp only [Function.update_eq_self])
    · simp only [Function.update_of_ne (Ne.symm hgh), if_neg hgh, zero_add]
      exact ((m52val_deriv θ d h).const_mul (m52K (θ g) (d g))).congr_deriv (by ring)
  · simp only [fun u => (b u).2.2.2.2.2.2.2.2.2.2.1, a4, List.map_cons, List.headD_cons]
    by_cases hgh : g = h
    · subst hgh
      simp only [Function.update_self, if_true]
      exact ((m32K_deriv (θ g) (d g) (by rwa [mul_assoc])).fun_mul (m32val_deriv θ d g h0)).congr_deriv
        (by simp only [Function.update_eq_self]; ring)
    · simp only [Function.update_of_ne hgh, if_neg hgh, sub_zero]
      exact ((m32val_deriv θ d h h0).const_mul (m32K (θ g) (d g))).congr_deriv (by ring)

/-! ### act_exp -/

theorem dA_update (m : ℕ) (θ d : ℕ → ℝ) (g l : ℕ) (hm : 0 < m) (u : ℝ) :
    dA m (Function.update θ g u) d l = dA m θ d l + if l = g / m then (u - θ g) * d (g % m) else 0 := by
  unfold dA
  have : ∀ k ∈ Finset.range m, d k * Function.update θ g u (l * m + k) =
      d k * θ (l * m + k) + if k = g % m ∧ l = g / m then (u - θ g) * d (g % m) else 0 := by
    intro k hk
    have hk := Finset.mem_range.1 hk
    by_cases hc : l * m + k = g
    · have h1 : l = g / m := by
        rw [← hc, Nat.add_comm, Nat.add_mul_div_right _ _ hm, Nat.div_eq_of_lt hk, Nat.zero_add]
      have h2 : k = g % m := by rw [← hc, Nat.add_comm, Nat.add_mul_mod_self_right, Nat.mod_eq_of_lt hk]
      rw [if_pos ⟨h2, h1⟩, hc, Function.update_self, ← h2]; ring
    · rw [Function.update_of_ne hc, if_neg, add_zero]
      rintro ⟨h2, h1⟩
      apply hc
      rw [h1, h2, Nat.mul_comm]; exact Nat.div_add_mod g m
  rw [Finset.sum_congr rfl this, Finset.sum_add_distrib]
  congr 1
  by_cases hl : l = g / m
  · simp [hl, Nat.mod_lt g hm]
  · simp [hl]

theorem dA_deriv (m : ℕ) (θ d : ℕ → ℝ) (g l : ℕ) (hm : 0 < m) :
    HasDerivAt (fun u => dA m (Function.update θ g u) d l) (if l = g / m then d (g % m) else 0) (θ g) := by
  simp only [dA_update m θ d g l hm]
  by_cases hl : l = g / m
  · simp only [if_pos hl]
    exact ((((hasDerivAt_id (θ g)).sub_const (θ g)).mul_const (d (g % m))).const_add _).congr_deriv (by ring)
  · simp only [if_neg hl, add_zero]
    exact hasDerivAt_const _ _

/-- **C35** `act_exp`: gradient and Hessian with respect to the entries of `theta` are exact for every pair of valid indices;
and the function raises exactly when the length of `theta` is not a multiple of the number of components. -/
theorem C35_act_exp (m len : ℕ) (hm : 0 < m) (θ d : ℕ → ℝ) (g h : ℕ) (hg : g < len) (hh : h < len) (hlen : len % m = 0) :
    HasDerivAt (fun u => (actExp m len (Function.update θ g u) d none none).getD 0) ((actExp m len θ d (some g) none).getD 0) (θ g) ∧
    HasDerivAt (fun u => (actExp m len (Function.update θ h u) d (some g) none).getD 0) ((actExp m len θ d (some g) (some h)).getD 0) (θ h) := by
  have hlm : len = len / m * m := (Nat.div_mul_cancel (Nat.dvd_of_mod_eq_zero hlen)).symm
  have hmem : ∀ q, q < len → q / m ∈ Finset.range (len / m) := by
    intro q hq
    rw [Finset.mem_range, Nat.div_lt_iff_lt_mul hm]; omega
  have hr : ∀ q, q < len → HasDerivAt (fun u => Real.exp (-(1 / 2) * ∑ l ∈ Finset.range (len / m), dA m (Function.update θ q u) d l ^ 2))
      (-d (q % m) * dA m θ d (q / m) * Real.exp (-(1 / 2) * ∑ l ∈ Finset.range (len / m), dA m θ d l ^ 2)) (θ q) := by
    intro q hq
    have hs : HasDerivAt (fun u => ∑ l ∈ Finset.range (len / m), dA m (Function.update θ q u) d l ^ 2)
        (2 * dA m θ d (q / m) * d (q % m)) (θ q) := by
      refine (HasDerivAt.fun_sum fun l _ => (dA_deriv m θ d q l hm).fun_pow 2).congr_deriv ?_
      simp only [Function.update_eq_self]
      rw [Finset.sum_eq_single (q / m)]
      · simp
      · intro l _ hl; simp [hl]
      · intro hn; exact absurd (hmem q hq) hn
    refine ((hs.const_mul (-(1 / 2))).exp).congr_deriv ?_
    simp only [Function.update_eq_self]; ring
  unfold actExp
  simp only [hlen, ne_eq, not_true_eq_false, if_false, Option.getD_some]
  constructor
  · exact hr g hg
  · refine (((dA_deriv m θ d h (g / m) hm).const_mul (-d (g % m))).fun_mul (hr h hh)).congr_deriv ?_
    simp only [Function.update_eq_self]
    by_cases hc : g / m = h / m
    · rw [if_pos hc, if_pos hc.symm, hc]; ring
    · rw [if_neg hc, if_neg (fun e => hc e.symm)]; ring

theorem C35_act_exp_raises (m len : ℕ) (θ d : ℕ → ℝ) (g h : Option ℕ) : actExp m len θ d g h = none ↔ len % m ≠ 0 := by
  unfold actExp
  by_cases hc : len % m ≠ 0
  · simp [hc]
  · rw [if_neg hc]
    cases g <;> cases h <;> simp [hc]

/-! ## C34: normalisation and bounds -/

theorem m52p_antitone : AntitoneOn (fun t : ℝ => (1 + √5 * t + 5 / 3 * t ^ 2) * Real.exp (-√5 * t)) (Set.Ici 0) := by
  have h5 : √5 ^ 2 = (5 : ℝ) := Real.sq_sqrt (by norm_num)
  have hd : ∀ t : ℝ, HasDerivAt (fun t : ℝ => (1 + √5 * t + 5 / 3 * t ^ 2) * Real.exp (-√5 * t))
      ((√5 + 10 / 3 * t) * Real.exp (-√5 * t) + (1 + √5 * t + 5 / 3 * t ^ 2) * (Real.exp (-√5 * t) * (-√5 * 1))) t :=
    fun t => (m52p_deriv t).fun_mul (((hasDerivAt_id t).const_mul (-√5)).exp)
  refine antitoneOn_of_deriv_nonpos (convex_Ici 0) (fun t _ => (hd t).continuousAt.continuousWithinAt)
    (fun t _ => (hd t).differentiableAt.differentiableWithinAt) fun t ht => ?_
  rw [interior_Ici] at ht
  have ht : 0 < t := ht
  rw [(hd t).deriv]
  have : (√5 + 10 / 3 * t) * Real.exp (-√5 * t) + (1 + √5 * t + 5 / 3 * t ^ 2) * (Real.exp (-√5 * t) * (-√5 * 1)) =
      -(Real.exp (-√5 * t) * (5 / 3 * t + 5 / 3 * √5 * t ^ 2)) := by
    linear_combination (-(Real.exp (-√5 * t)) * t) * h5
  rw [this]
  have := Real.exp_pos (-√5 * t)
  have h6 := Real.sqrt_nonneg 5
  have : 0 ≤ Real.exp (-√5 * t) * (5 / 3 * t + 5 / 3 * √5 * t ^ 2) := by positivity
  linarith

theorem m32p_antitone : AntitoneOn (fun t : ℝ => (1 + √3 * t) * Real.exp (-√3 * t)) (Set.Ici 0) := by
  have h3 : √3 ^ 2 = (3 : ℝ) := Real.sq_sqrt (by norm_num)
  have hd : ∀ t : ℝ, HasDerivAt (fun t : ℝ => (1 + √3 * t) * Real.exp (-√3 * t))
      (√3 * Real.exp (-√3 * t) + (1 + √3 * t) * (Real.exp (-√3 * t) * (-√3 * 1))) t :=
    fun t => (m32p_deriv t).fun_mul (((hasDerivAt_id t).const_mul (-√3)).exp)
  refine antitoneOn_of_deriv_nonpos (convex_Ici 0) (fun t _ => (hd t).continuousAt.continuousWithinAt)
    (fun t _ => (hd t).differentiableAt.differentiableWithinAt) fun t ht => ?_
  rw [interior_Ici] at ht
  have ht : 0 < t := ht
  rw [(hd t).deriv]
  have : √3 * Real.exp (-√3 * t) + (1 + √3 * t) * (Real.exp (-√3 * t) * (-√3 * 1)) = -(Real.exp (-√3 * t) * (3 * t)) := by
    linear_combination (-(Real.exp (-√3 * t)) * t) * h3
  rw [this]
  have := Real.exp_pos (-√3 * t)
  have : 0 ≤ Real.exp (-√3 * t) * (3 * t) := by positivity
  linarith

theorem prodKernel_prod (p : ℝ → ℝ) (c : ℝ) (θ d : Fin m → ℝ) :
    prodKernel p c θ d = ∏ k, (p (θ k * d k) * Real.exp (-c * (θ k * d k))) := by
  unfold prodKernel
  rw [Finset.prod_mul_distrib, Finset.mul_sum, Real.exp_sum]

theorem prodKernel_bounds (p : ℝ → ℝ) (c : ℝ) (hp0 : p 0 = 1) (hpos : ∀ t, 0 ≤ t → 0 < p t)
    (hanti : AntitoneOn (fun t => p t * Real.exp (-c * t)) (Set.Ici 0)) (θ d : Fin m → ℝ) (hθ : ∀ k, 0 ≤ θ k) (hd : ∀ k, 0 ≤ d k) :
    prodKernel p c θ (fun _ => 0) = 1 ∧ 0 < prodKernel p c θ d ∧ prodKernel p c θ d ≤ 1 ∧
    ∀ d', (∀ k, d k ≤ d' k) → prodKernel p c θ d' ≤ prodKernel p c θ d := by
  have hmono : ∀ d d' : Fin m → ℝ, (∀ k, 0 ≤ d k) → (∀ k, d k ≤ d' k) → prodKernel p c θ d' ≤ prodKernel p c θ d := by
    intro d d' hd h
    rw [prodKernel_prod, prodKernel_prod]
    refine Finset.prod_le_prod (fun k _ => ?_) fun k _ => ?_
    · exact (mul_pos (hpos _ (mul_nonneg (hθ k) ((hd k).trans (h k)))) (Real.exp_pos _)).le
    · exact hanti (Set.mem_Ici.2 (mul_nonneg (hθ k) (hd k))) (Set.mem_Ici.2 (mul_nonneg (hθ k) ((hd k).trans (h k))))
        (mul_le_mul_of_nonneg_left (h k) (hθ k))
  have h1 : prodKernel p c θ (fun _ => 0) = 1 := by rw [prodKernel_prod]; simp [hp0]
  refine ⟨h1, ?_, ?_, fun d' h => hmono d d' hd h⟩
  · rw [prodKernel_prod]
    exact Finset.prod_pos fun k _ => mul_pos (hpos _ (mul_nonneg (hθ k) (hd k))) (Real.exp_pos _)
  · rw [← h1]; exact hmono _ d (fun _ => le_rfl) hd

theorem expRow_eq (θ d : Fin m → ℝ) : expRow θ d = prodKernel (fun _ => 1) 1 θ d := by
  unfold expRow prodKernel; simp

theorem expRow_bounds (θ d : Fin m → ℝ) (hθ : ∀ k, 0 ≤ θ k) (hd : ∀ k, 0 ≤ d k) :
    expRow θ (fun _ => 0) = 1 ∧ 0 < expRow θ d ∧ expRow θ d ≤ 1 ∧ ∀ d', (∀ k, d k ≤ d' k) → expRow θ d' ≤ expRow θ d := by
  simp only [expRow_eq]
  refine prodKernel_bounds _ _ rfl (fun _ _ => one_pos) ?_ θ d hθ hd
  intro a _ b _ hab
  simp only [one_mul]
  exact Real.exp_le_exp.2 (by linarith)

/-- **C34** For non-negative hyper-parameters and distances, every kernel is 1 at distance zero, lies in `(0, 1]`, and does not
increase when any component distances increase. -/
theorem C34_bounds (lim : ℕ) (hl : 0 < lim) (θ d : Fin m → ℝ) (hθ : ∀ k, 0 ≤ θ k) (hd : ∀ k, 0 ≤ d k)
    (kern : (Fin m → ℝ) → ℝ)
    (hk : (∀ d, kern d = (absExp lim hl θ [d] none none).headD 0) ∨ (∀ d, kern d = (squarExp lim hl θ [d] none none).headD 0) ∨
      (∀ d, kern d = ((matern52 lim hl θ [d] none none).getD []).headD 0) ∨ (∀ d, kern d = (matern32 lim hl θ [d] none none).headD 0)) :
    kern (fun _ => 0) = 1 ∧ 0 < kern d ∧ kern d ≤ 1 ∧ ∀ d', (∀ k, d k ≤ d' k) → kern d' ≤ kern d := by
  rcases isEmpty_or_nonempty (Fin m) with hm | ⟨⟨g⟩⟩
  · -- no components: the kernels are empty products
    have hall : ∀ d, kern d = 1 := by
      intro d
      have c1 : absExp lim hl θ [d] none none = [d].map (expRow θ) := by simp only [absExp, expLoop, chunk_fresh]; rfl
      have c2 : squarExp lim hl θ [d] none none = [d].map (expRow θ) := by simp only [squarExp, expLoop, chunk_fresh]; rfl
      have c3 : matern52 lim hl θ [d] none none = some ([d].map (m52val θ)) := by simp only [matern52, chunk_fresh]
      have c4 : matern32 lim hl θ [d] none none = [d].map (m32val θ) := by simp only [matern32, chunk_fresh]
      rcases hk with h | h | h | h <;> rw [h]
      · rw [c1]; simp [expRow]
      · rw [c2]; simp [expRow]
      · rw [c3]; simp [m52val]
      · rw [c4]; simp [m32val]
    simp [hall]
  have a := fun d => C36_rowwise lim hl θ [d] g g
  rcases hk with h | h | h | h
  · have e : kern = expRow θ := by funext d; rw [h d, (a d).1]; simp
    rw [e]; exact expRow_bounds θ d hθ hd
  · have e : kern = expRow θ := by funext d; rw [h d, (a d).2.2.2.1]; simp
    rw [e]; exact expRow_bounds θ d hθ hd
  · have e : kern = m52val θ := by funext d; rw [h d, (a d).2.2.2.2.2.2.1]; simp
    rw [e]
    exact prodKernel_bounds _ √5 (by norm_num) (fun t _ => m52p_pos t) m52p_antitone θ d hθ hd
  · have e : kern = m32val θ := by funext d; rw [h d, (a d).2.2.2.2.2.2.2.2.2.1]; simp
    rw [e]
    refine prodKernel_bounds _ √3 (by norm_num) (fun t ht => ?_) m32p_antitone θ d hθ hd
    have := Real.sqrt_nonneg 3
    positivity

/-! ## C58: spatial Jacobians -/

theorem sum_update_gen {n : ℕ} (q : Fin n → ℝ → ℝ) (x : Fin n → ℝ) (k : Fin n) (t : ℝ) :
    ∑ j, q j (Function.update x k t j) = ∑ j, q j (x j) + (q k t - q k (x k)) := by
  have : ∀ j, q j (Function.update x k t j) = q j (x j) + if j = k then q k t - q k (x k) else 0 := by
    intro j
    by_cases hj : j = k
    · subst hj; simp
    · simp [hj]
  simp only [this, Finset.sum_add_distrib]; simp

theorem sq_deriv (t : ℝ) : HasDerivAt (fun u : ℝ => u ^ 2) (2 * t) t :=
  ((hasDerivAt_id t).fun_pow 2).congr_deriv (by simp)

theorem der_abs {t : ℝ} (h : t ≠ 0) : HasDerivAt (fun u : ℝ => |u|) (der t) t := by
  unfold der
  rcases lt_or_gt_of_ne h with h | h
  · rw [if_pos h]; exact hasDerivAt_abs_neg h
  · rw [if_neg (not_lt.2 h.le)]; exact hasDerivAt_abs_pos h

/-- The kernel value as a function of the difference vector `x - x'`, for the value path of the code
(`_componentwise_distance`, then the kernel). -/
noncomputable def kernOf (lim : ℕ) (hl : 0 < lim) (c : Corr) (θ dx : Fin m → ℝ) : ℝ :=
  match c with
  | .absExp => (absExp lim hl θ [compDist .absExp dx] none none).headD 0
  | .squarExp => (squarExp lim hl θ [compDist .squarExp dx] none none).headD 0
  | .matern52 => ((matern52 lim hl θ [compDist .matern52 dx] none none).getD []).headD 0
  | .matern32 => (matern32 lim hl θ [compDist .matern32 dx] none none).headD 0
  | .actExp => 0

theorem kernOf_eq (lim : ℕ) (hl : 0 < lim) (θ dx : Fin m → ℝ) :
    kernOf lim hl .absExp θ dx = expRow θ (fun k => |dx k|) ∧ kernOf lim hl .squarExp θ dx = expRow θ (fun k => dx k ^ 2) ∧
    kernOf lim hl .matern52 θ dx = m52val θ (fun k => |dx k|) ∧ kernOf lim hl .matern32 θ dx = m32val θ (fun k => |dx k|) := by
  refine ⟨?_, ?_, ?_, ?_⟩
  · simp only [kernOf, absExp, expLoop, chunk_fresh, compDist]; rfl
  · simp only [kernOf, squarExp, expLoop, chunk_fresh, compDist]; rfl
  · simp only [kernOf, matern52, chunk_fresh, compDist]; rfl
  · simp only [kernOf, matern32, chunk_fresh, compDist]; rfl

theorem expRow_spatial (θ : Fin m → ℝ) (q : ℝ → ℝ) (q' : ℝ) (dx : Fin m → ℝ) (k : Fin m) (hq : HasDerivAt q q' (dx k)) :
    HasDerivAt (fun t => expRow θ (fun l => q (Function.update dx k t l))) (-(expRow θ (fun l => q (dx l)) * (θ k * q'))) (dx k) := by
  have e : (fun t => expRow θ (fun l => q (Function.update dx k t l))) = fun t =>
      Real.exp (-(∑ l, θ l * q (dx l) + (θ k * q t - θ k * q (dx k)))) := by
    funext t; rw [expRow, sum_update_gen (fun l u => θ l * q u)]
  rw [e]
  refine (((((hq.const_mul (θ k)).sub_const _).const_add _).neg).exp).congr_deriv ?_
  unfold expRow
  simp only [Pi.neg_apply, sub_self, add_zero]; ring

/-- **C58** Exponential kernels: the `dr` returned with `derivative_params` (where `dd` is the derivative flavour of
`componentwise_distance`) is the partial derivative of the kernel value with respect to `x_k`: everywhere for the squared
exponential, and where the component difference is non-zero for the absolute exponential. -/
theorem C58_exponential (lim : ℕ) (hl : 0 < lim) (θ dx : Fin m → ℝ) (k : Fin m) :
    (∃ dd, compDistDeriv .squarExp θ dx = some dd ∧
      HasDerivAt (fun t => kernOf lim hl .squarExp θ (Function.update dx k t)) (expDr (kernOf lim hl .squarExp θ dx) dd k) (dx k)) ∧
    (dx k ≠ 0 → ∃ dd, compDistDeriv .absExp θ dx = some dd ∧
      HasDerivAt (fun t => kernOf lim hl .absExp θ (Function.update dx k t)) (expDr (kernOf lim hl .absExp θ dx) dd k) (dx k)) := by
  constructor
  · refine ⟨_, rfl, ?_⟩
    simp only [(kernOf_eq lim hl θ _).2.1]
    refine (expRow_spatial θ (fun t => t ^ 2) _ dx k (sq_deriv (dx k))).congr_deriv ?_
    unfold expDr
    ring
  · intro h0
    refine ⟨_, rfl, ?_⟩
    simp only [(kernOf_eq lim hl θ _).1]
    exact (expRow_spatial θ (fun t => |t|) _ dx k (der_abs h0)).congr_deriv rfl

theorem abs_flat (f : ℝ → ℝ) (h : HasDerivAt f 0 0) : HasDerivAt (fun t : ℝ => f |t|) 0 0 := by
  rw [hasDerivAt_iff_isLittleO_nhds_zero] at h ⊢
  have ht : Filter.Tendsto (fun t : ℝ => |t|) (nhds 0) (nhds 0) := by
    have := (continuous_abs (G := ℝ)).tendsto 0
    simpa using this
  have := h.comp_tendsto ht
  have h2 := this.trans_isBigO (g := fun t : ℝ => |t|) (k := fun t : ℝ => t) (Asymptotics.isBigO_refl _ _ |>.abs_left)
  refine h2.congr_left fun t => ?_
  simp

/-- A product kernel in the differences, written through `|dxₖ|`. -/
theorem prodKernel_spatial (p : ℝ → ℝ) (p' : ℝ → ℝ) (c : ℝ) (hp : ∀ t, HasDerivAt p (p' t) t) (h0 : p' 0 = c * p 0)
    (θ dx : Fin m → ℝ) (k : Fin m) :
    HasDerivAt (fun t => prodKernel p c θ (fun l => |Function.update dx k t l|))
      (-c * θ k * der (dx k) * prodKernel p c θ (fun l => |dx l|) +
        Real.exp (-c * ∑ l, θ l * |dx l|) * ((p' (θ k * |dx k|) * θ k * der (dx k)) * ∏ l ∈ Finset.univ.erase k, p (θ l * |dx l|))) (dx k) := by
  -- one factor
  have hφ : ∀ s : ℝ, HasDerivAt (fun s => p (θ k * s) * Real.exp (-c * (θ k * s)))
      ((p' (θ k * s) - c * p (θ k * s)) * θ k * Real.exp (-c * (θ k * s))) s := by
    intro s
    have h1 : HasDerivAt (fun s : ℝ => θ k * s) (θ k * 1) s := (hasDerivAt_id s).const_mul (θ k)
    have h2 : HasDerivAt (fun s : ℝ => p (θ k * s)) (p' (θ k * s) * (θ k * 1)) s := HasDerivAt.comp s (h₂ := p) (hp _) h1
    refine (h2.fun_mul ((h1.const_mul (-c)).exp)).congr_deriv ?_
    ring
  have hq : HasDerivAt (fun t : ℝ => p (θ k * |t|) * Real.exp (-c * (θ k * |t|)))
      ((p' (θ k * |dx k|) - c * p (θ k * |dx k|)) * θ k * Real.exp (-c * (θ k * |dx k|)) * der (dx k)) (dx k) := by
    by_cases hz : dx k = 0
    · rw [hz]
      have hflat : HasDerivAt (fun s => p (θ k * s) * Real.exp (-c * (θ k * s))) 0 0 :=
        (hφ 0).congr_deriv (by rw [mul_zero, h0]; ring)
      refine (abs_flat _ hflat).congr_deriv ?_
      rw [abs_zero, mul_zero, h0]; ring
    · exact HasDerivAt.comp (dx k) (h₂ := fun s => p (θ k * s) * Real.exp (-c * (θ k * s))) (hφ |dx k|) (der_abs hz)
  have e : (fun t => prodKernel p c θ (fun l => |Function.update dx k t l|)) = fun t =>
      (p (θ k * |t|) * Real.exp (-c * (θ k * |t|))) * ∏ l ∈ Finset.univ.erase k, (p (θ l * |dx l|) * Real.exp (-c * (θ l * |dx l|))) := by
    funext t
    rw [prodKernel_prod, ← Finset.mul_prod_erase Finset.univ _ (Finset.mem_univ k)]
    congr 1
    · simp
    · refine Finset.prod_congr rfl fun l hl => ?_
      rw [Function.update_of_ne (Finset.ne_of_mem_erase hl)]
  rw [e]
  refine (hq.mul_const _).congr_deriv ?_
  rw [prodKernel_prod, ← Finset.mul_prod_erase Finset.univ _ (Finset.mem_univ k), Finset.mul_sum, Real.exp_sum,
    ← Finset.mul_prod_erase Finset.univ (fun l => Real.exp (-c * (θ l * |dx l|))) (Finset.mem_univ k), Finset.prod_mul_distrib]
  ring

/-- **C58** Matérn kernels: the returned `dr` is the partial derivative of the kernel value with respect to `x_k` at every
point, including points sharing a coordinate with the training point (where `der = 1` is used). -/
theorem C58_matern (lim : ℕ) (hl : 0 < lim) (θ dx : Fin m → ℝ) (k : Fin m) :
    HasDerivAt (fun t => kernOf lim hl .matern52 θ (Function.update dx k t)) (m52dr (kernOf lim hl .matern52 θ dx) θ dx k) (dx k) ∧
    HasDerivAt (fun t => kernOf lim hl .matern32 θ (Function.update dx k t)) (m32dr (kernOf lim hl .matern32 θ dx) θ dx k) (dx k) := by
  constructor
  · simp only [(kernOf_eq lim hl θ _).2.2.1, m52val_eq]
    refine (prodKernel_spatial _ (fun t => √5 + 10 / 3 * t) √5 m52p_deriv (by norm_num) θ dx k).congr_deriv ?_
    unfold m52dr m52dB
    have e1 : ∑ l, |dx l| * θ l = ∑ l, θ l * |dx l| := Finset.sum_congr rfl fun l _ => mul_comm _ _
    have e2 : ∏ l ∈ Finset.univ.erase k, (1 + √5 * |dx l| * θ l + 5 / 3 * dx l ^ 2 * θ l ^ 2) =
        ∏ l ∈ Finset.univ.erase k, (1 + √5 * (θ l * |dx l|) + 5 / 3 * (θ l * |dx l|) ^ 2) := by
      refine Finset.prod_congr rfl fun l _ => ?_
      rw [mul_pow, sq_abs]; ring
    rw [e1, e2]; ring
  · simp only [(kernOf_eq lim hl θ _).2.2.2, m32val_eq]
    refine (prodKernel_spatial _ (fun _ => √3) √3 m32p_deriv (by norm_num) θ dx k).congr_deriv ?_
    unfold m32dr m32dB
    have e1 : ∑ l, |dx l| * θ l = ∑ l, θ l * |dx l| := Finset.sum_congr rfl fun l _ => mul_comm _ _
    have e2 : ∏ l ∈ Finset.univ.erase k, (1 + √3 * |dx l| * θ l) = ∏ l ∈ Finset.univ.erase k, (1 + √3 * (θ l * |dx l|)) :=
      Finset.prod_congr rfl fun l _ => by ring
    rw [e1, e2]

/-- **C58** At a point sharing coordinate `k` with a training point the absolute-exponential kernel has no derivative when
`θ_k ≠ 0`, while the code returns a number. -/
theorem C58_abs_exp_kink (lim : ℕ) (hl : 0 < lim) (θ dx : Fin m → ℝ) (k : Fin m) (h0 : dx k = 0) (hθ : θ k ≠ 0) :
    ¬ DifferentiableAt ℝ (fun t => kernOf lim hl .absExp θ (Function.update dx k t)) (dx k) := by
  intro hd
  simp only [(kernOf_eq lim hl θ _).1] at hd
  have e : (fun t => expRow θ (fun l => |Function.update dx k t l|)) = fun t =>
      Real.exp (-(∑ l, θ l * |dx l| + (θ k * |t| - θ k * |dx k|))) := by
    funext t; rw [expRow, sum_update_gen (fun l u => θ l * |u|)]
  rw [e] at hd
  have hlog := DifferentiableAt.log hd (Real.exp_pos _).ne'
  simp only [Real.log_exp] at hlog
  have h2 : DifferentiableAt ℝ (fun t : ℝ => |t|) (dx k) := by
    have h3 := ((hlog.const_add (∑ l, θ l * |dx l| - θ k * |dx k|)).neg).const_mul (θ k)⁻¹
    refine h3.congr_of_eventuallyEq (Filter.Eventually.of_forall fun t => ?_)
    simp only [Pi.neg_apply]
    field_simp
    ring
  rw [h0] at h2
  exact not_differentiableAt_abs_zero h2

/-- **C58** PLS distances: with the distance `∑ⱼ Dⱼ² cⱼₗ²` and its derivative flavour, `dr` is exact everywhere (squared
exponential). -/
theorem C58_pls {p : ℕ} (θ : Fin p → ℝ) (coeff : Fin m → Fin p → ℝ) (dx : Fin m → ℝ) (k : Fin m) :
    HasDerivAt (fun t => expRow θ (compDistPLS .squarExp coeff (Function.update dx k t)))
      (expDr (expRow θ (compDistPLS .squarExp coeff dx)) (compDistPLSDeriv .squarExp coeff θ dx) k) (dx k) ∧
    (dx k ≠ 0 → HasDerivAt (fun t => expRow θ (compDistPLS .absExp coeff (Function.update dx k t)))
      (expDr (expRow θ (compDistPLS .absExp coeff dx)) (compDistPLSDeriv .absExp coeff θ dx) k) (dx k)) := by
  have gen : ∀ (q w : ℝ → ℝ) (q' : ℝ), HasDerivAt q q' (dx k) →
      HasDerivAt (fun t => expRow θ (fun l => ∑ j, q (Function.update dx k t j) * w (coeff j l)))
        (-(expRow θ (fun l => ∑ j, q (dx j) * w (coeff j l)) * ((∑ l, θ l * w (coeff k l)) * q'))) (dx k) := by
    intro q w q' hq
    have e : (fun t => expRow θ (fun l => ∑ j, q (Function.update dx k t j) * w (coeff j l))) = fun t =>
        Real.exp (-(∑ l, θ l * (∑ j, q (dx j) * w (coeff j l)) + (q t - q (dx k)) * ∑ l, θ l * w (coeff k l))) := by
      funext t
      unfold expRow
      congr 2
      simp only [fun l => sum_update_gen (fun j u => q u * w (coeff j l)) dx k t]
      rw [Finset.mul_sum, ← Finset.sum_add_distrib]
      refine Finset.sum_congr rfl fun l _ => by ring
    rw [e]
    refine (((((hq.sub_const (q (dx k))).mul_const (∑ l, θ l * w (coeff k l))).const_add _).neg).exp).congr_deriv ?_
    unfold expRow
    simp only [Pi.neg_apply, sub_self, zero_mul, add_zero]; ring
  constructor
  · refine (gen (fun t => t ^ 2) (fun t => t ^ 2) _ (sq_deriv (dx k))).congr_deriv ?_
    unfold expDr compDistPLSDeriv compDistPLS
    simp only []; ring
  · intro h0
    exact gen (fun t => |t|) (fun t => |t|) _ (der_abs h0)

/-- **C36** `componentwise_distance` is row-wise for every chunk size. -/
theorem C36_componentwise (lim : ℕ) (hl : 0 < lim) (c : Corr) (D : List (Fin m → ℝ)) :
    compDistAll lim hl c D = D.map (compDist c) := by
  unfold compDistAll
  rw [C36_chunks _ _ _ _ _ (by simp)]
  induction D with
  | nil => rfl
  | cons a D ih => simp only [List.length_cons, List.replicate_succ, List.zipWith_cons_cons, List.map_cons, ih]

/-! ## Non-vacuity -/

/-- Hypotheses of C34/C35 at a concrete point, with an interesting conclusion: the Matérn 5/2 gradient is strictly negative. -/
example : m52K 1 1 < 0 := by
  have h5 : √5 ^ 2 = (5 : ℝ) := Real.sq_sqrt (by norm_num)
  have h6 := Real.sqrt_nonneg 5
  unfold m52K
  rw [sub_neg, div_lt_iff₀ (m52f2_pos 1 1)]
  unfold m52f1 m52f2 m52f3
  nlinarith

example : chunkCount 3 7 10 0 = 3 ∧ chunkCount 3 6 10 0 = 3 ∧ chunkCount 3 0 10 0 = 1 := by decide

example : (1 : ℝ) + √3 * (2 * 1) ≠ 0 := by have := Real.sqrt_nonneg 3; positivity

end SMT.Krg
