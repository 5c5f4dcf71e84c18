import Verif.Nn.FiniteDiffProps
import Mathlib.Analysis.Calculus.Deriv.MeanValue
import Mathlib.Analysis.Calculus.Deriv.Add
import Mathlib.Analysis.Calculus.Deriv.Mul
import Mathlib.Analysis.Calculus.Deriv.Pow
import Mathlib.Analysis.Calculus.Deriv.Comp

set_option linter.unusedSectionVars false
set_option linter.unusedSimpArgs false
set_option linter.unusedVariables false

/-!
# C97: the run of the optimiser without a user gradient, accuracy, `grad_check`
-/
namespace SMT.Nn.FD
open Filter Topology

section run
variable {K : Type} [Field K]

/-- The designs visited: each follows from the values of the previous one and its central differences. -/
def visited (f : View K → K) (dx : K) (move : View K → View K → View K) (V0 : View K) : ℕ → View K
  | 0 => V0
  | t + 1 => move (visited f dx move V0 t) (centralDifferences f dx (visited f dx move V0 t))

/-- A design with entry `(0, 0)` of every non-empty array increased by `dx`. -/
def shiftedView (dx : K) (V : View K) : View K := V.map fun q => (q.1, shifted dx q.2)

theorem view_fst (h : Heap K) (d : Dict) : (view h d).map Prod.fst = d.map Prod.fst := by unfold view; rw [List.map_map]; rfl

theorem assign_spec (V : View K) : ∀ (h : Heap K), view (assign h V).1 (assign h V).2 = V ∧ h.next ≤ (assign h V).1.next ∧ (∀ c, c < h.next → (assign h V).1.mem c = h.mem c) ∧
    (∀ q ∈ (assign h V).2, h.next ≤ q.2 ∧ q.2 < (assign h V).1.next) ∧ ((assign h V).2.map Prod.snd).Nodup := by
  induction V with
  | nil => intro h; exact ⟨rfl, le_refl _, fun _ _ => rfl, by simp [assign], by simp [assign]⟩
  | cons q V ih =>
    intro h
    obtain ⟨i1, i2, i3, i4, i5⟩ := ih (h.alloc q.2)
    have hn : (h.alloc q.2).next = h.next + 1 := rfl
    rw [hn] at i2 i3 i4
    refine ⟨?_, ?_, ?_, ?_, ?_⟩
    · show (q.1, (assign (h.alloc q.2) V).1.mem h.next) :: view (assign (h.alloc q.2) V).1 (assign (h.alloc q.2) V).2 = q :: V
      rw [i1, i3 h.next (by omega)]
      simp [Heap.alloc]
    · show h.next ≤ (assign (h.alloc q.2) V).1.next
      omega
    · intro c hc
      show (assign (h.alloc q.2) V).1.mem c = h.mem c
      rw [i3 c (by omega)]
      simp [Heap.alloc, hc.ne]
    · intro r hr
      show h.next ≤ r.2 ∧ r.2 < (assign (h.alloc q.2) V).1.next
      have hr : r ∈ (q.1, h.next) :: (assign (h.alloc q.2) V).2 := hr
      rcases List.mem_cons.1 hr with rfl | hr
      · exact ⟨le_refl _, by omega⟩
      · have := i4 r hr; omega
    · show (h.next :: (assign (h.alloc q.2) V).2.map Prod.snd).Nodup
      rw [List.nodup_cons]
      refine ⟨fun hm => ?_, i5⟩
      obtain ⟨r, hr, he⟩ := List.mem_map.1 hm
      have := i4 r hr; omega

/-- **C97** A run without a user gradient, any number of iterations, any line search: the designs it visits are the ones determined by the central differences, and the current design is the last of
them; but `design_history` shows, for every iteration but the last, entry `(0, 0)` of every array shifted by `dx` - not the design whose cost stands in `cost_history` - and so does the initial guess
the user passed. -/
theorem C97_history {f : View K → K} {dx : K} {move : View K → View K → View K} (hmove : ∀ V G, (move V G).map Prod.fst = V.map Prod.fst) {h : Heap K} {guess : Dict} (hs : WF (h, guess)) (T : ℕ) :
    ∃ st, optimize f dx move h guess T = some st ∧ view st.1 st.2.1 = visited f dx move (view h guess) T ∧
      st.2.2.map (view st.1) = ((List.range T).map fun t => shiftedView dx (visited f dx move (view h guess) t)) ++ [visited f dx move (view h guess) T] ∧
      (0 < T → view st.1 guess = shiftedView dx (view h guess)) := by
  suffices H : ∃ h' cur past, optimize f dx move h guess T = some (h', cur, past ++ [cur]) ∧ WF (h', cur) ∧ view h' cur = visited f dx move (view h guess) T ∧
      (∀ d ∈ past, ∀ q ∈ d, q.2 < h'.next ∧ ∀ q' ∈ cur, q'.2 ≠ q.2) ∧ past.map (view h') = ((List.range T).map fun t => shiftedView dx (visited f dx move (view h guess) t)) ∧
      (past ++ [cur]).head? = some guess by
    obtain ⟨h', cur, past, e, w, v, -, vp, hg⟩ := H
    refine ⟨_, e, v, ?_, fun hT => ?_⟩
    · rw [List.map_append, vp]
      simp only [List.map_cons, List.map_nil, v]
    · cases past with
      | nil =>
        have := congrArg List.length vp
        simp at this
        omega
      | cons d past =>
        simp only [List.cons_append, List.head?_cons, Option.some.injEq] at hg
        subst hg
        cases T with
        | zero => omega
        | succ T =>
          rw [List.range_succ_eq_map] at vp
          simp only [List.map_cons, List.cons.injEq] at vp
          exact vp.1
  induction T with
  | zero => exact ⟨h, guess, [], rfl, hs, rfl, by simp, rfl, rfl⟩
  | succ T ih =>
    obtain ⟨h', cur, past, e, w, v, dis, vp, hg⟩ := ih
    obtain ⟨s1, e1, w1, k1, n1, v1, m1, o1⟩ := finiteDifference_spec (f := f) (dx := dx) w
    have hca := C97_callers_arrays w e1
    simp only at hca v1 n1
    obtain ⟨a1, a2, a3, a4, a5⟩ := assign_spec (move (view s1.1 s1.2) (centralDifferences f dx (view h' cur))) s1.1
    set A := assign s1.1 (move (view s1.1 s1.2) (centralDifferences f dx (view h' cur))) with hA
    have hkeys : (A.2.map Prod.fst) = cur.map Prod.fst := by
      rw [← view_fst A.1 A.2, a1, hmove, view_fst, k1]
    have hold : ∀ d : Dict, (∀ q ∈ d, q.2 < s1.1.next) → view A.1 d = view s1.1 d := fun d hd =>
      List.map_congr_left fun q hq => by rw [a3 _ (hd q hq)]
    have hcur : ∀ q ∈ cur, q.2 < s1.1.next := fun q hq => lt_of_lt_of_le (w.alloc q hq) n1
    have hpast : ∀ d ∈ past, ∀ q ∈ d, q.2 < s1.1.next := fun d hd q hq => lt_of_lt_of_le (dis d hd q hq).1 n1
    refine ⟨A.1, A.2, past ++ [cur], ?_, ⟨?_, a5, fun q hq => (a4 q hq).2⟩, ?_, ?_, ?_, ?_⟩
    · show (optimize f dx move h guess T).bind (iteration f dx move) = _
      rw [e]
      simp only [Option.bind_some]
      unfold iteration
      simp only
      rw [e1]
      rfl
    · show (A.2.map Prod.fst).Nodup
      rw [hkeys]; exact w.keys
    · rw [a1, v1, v]; rfl
    · intro d hd q hq
      have hlt : q.2 < s1.1.next := by
        rcases List.mem_append.1 hd with hd | hd
        · exact hpast d hd q hq
        · rw [List.mem_singleton.1 hd] at hq; exact hcur q hq
      exact ⟨lt_of_lt_of_le hlt a2, fun q' hq' => by have := (a4 q' hq').1; omega⟩
    · rw [List.map_append, List.range_succ, List.map_append]
      congr 1
      · rw [← vp]
        refine List.map_congr_left fun d hd => ?_
        rw [hold d (hpast d hd), hca.2 d fun q hq => dis d hd q hq]
      · simp only [List.map_cons, List.map_nil]
        rw [hold cur hcur, hca.1, v]
        rfl
    · rw [List.head?_append]
      rw [hg]
      rfl

end run

/-! ## Accuracy -/

section accuracy

/-- **C97** The quotient is exact when the cost is quadratic along the entry. -/
theorem C97_exact_quadratic {K : Type} [Field K] {f : View K → K} {dx : K} (h2 : (2 : K) * dx ≠ 0) {V : View K} {k : String} {A : Arr K} {i j : ℕ} {c0 c1 c2 : K}
    (hf : ∀ t, f (put V k (bump A i j t)) = c0 + c1 * t + c2 * t ^ 2) : quotient f dx V k A i j = c1 := by
  unfold quotient
  rw [hf, hf, div_eq_iff h2]
  ring

theorem nonneg_of_deriv {g g' : ℝ → ℝ} (hg : ∀ t, HasDerivAt g (g' t) t) (h0 : g 0 = 0) (hn : ∀ t, 0 ≤ t → 0 ≤ g' t) : ∀ t, 0 ≤ t → 0 ≤ g t := by
  have hm : MonotoneOn g (Set.Ici 0) := by
    refine monotoneOn_of_deriv_nonneg (convex_Ici 0) (fun t _ => (hg t).continuousAt.continuousWithinAt) (fun t _ => (hg t).differentiableAt.differentiableWithinAt) fun t ht => ?_
    rw [(hg t).deriv]
    exact hn t (interior_subset ht)
  intro t ht
  rw [← h0]
  exact hm (Set.mem_Ici.2 (le_refl 0)) ht ht

/-- **C97** Error bound: if the third derivative of the cost along the entry is at most `M` in size, the quotient is within `M dx² / 6` of the derivative. -/
theorem C97_accuracy {f : View ℝ → ℝ} {dx : ℝ} (hdx : 0 < dx) {V : View ℝ} {k : String} {A : Arr ℝ} {i j : ℕ} {F1 F2 F3 : ℝ → ℝ} {M : ℝ}
    (h1 : ∀ t, HasDerivAt (fun t => f (put V k (bump A i j t))) (F1 t) t) (h2 : ∀ t, HasDerivAt F1 (F2 t) t) (h3 : ∀ t, HasDerivAt F2 (F3 t) t) (hM : ∀ t, |F3 t| ≤ M) :
    |quotient f dx V k A i j - F1 0| ≤ M * dx ^ 2 / 6 := by
  set F : ℝ → ℝ := fun t => f (put V k (bump A i j t)) with hF
  have neg : ∀ {G G' : ℝ → ℝ}, (∀ t, HasDerivAt G (G' t) t) → ∀ t, HasDerivAt (fun t => G (-t)) (-G' (-t)) t := by
    intro G G' h t
    exact ((h (-t)).comp t (hasDerivAt_neg t)).congr_deriv (by ring)
  have key : ∀ s : ℝ, (s = 1 ∨ s = -1) → ∀ t, 0 ≤ t → 0 ≤ M * t ^ 3 / 3 - s * (F t - F (-t) - 2 * t * F1 0) := by
    intro s hs
    refine nonneg_of_deriv (g' := fun t => M * t ^ 2 - s * (F1 t + F1 (-t) - 2 * F1 0)) (fun t => ?_) (by simp) ?_
    · have hp : HasDerivAt (fun t : ℝ => M * t ^ 3 / 3) (M * t ^ 2) t := by
        exact (((hasDerivAt_pow 3 t).const_mul M).div_const 3).congr_deriv (by norm_num; ring)
      have hl : HasDerivAt (fun t : ℝ => 2 * t * F1 0) (2 * F1 0) t := by
        have := ((hasDerivAt_id t).const_mul 2).mul_const (F1 0)
        simpa using this
      exact (hp.sub ((((h1 t).sub (neg h1 t)).sub hl).const_mul s)).congr_deriv (by ring)
    refine nonneg_of_deriv (g' := fun t => 2 * M * t - s * (F2 t - F2 (-t))) (fun t => ?_) (by norm_num; ring_nf; simp) ?_
    · have hp : HasDerivAt (fun t : ℝ => M * t ^ 2) (2 * M * t) t := by
        exact ((hasDerivAt_pow 2 t).const_mul M).congr_deriv (by norm_num; ring)
      exact (hp.sub ((((h2 t).add (neg h2 t)).sub (hasDerivAt_const t (2 * F1 0))).const_mul s)).congr_deriv (by ring)
    refine nonneg_of_deriv (g' := fun t => 2 * M - s * (F3 t + F3 (-t))) (fun t => ?_) (by simp) ?_
    · have hp : HasDerivAt (fun t : ℝ => 2 * M * t) (2 * M) t := by
        have := (hasDerivAt_id t).const_mul (2 * M)
        simpa using this
      exact (hp.sub (((h3 t).sub (neg h3 t)).const_mul s)).congr_deriv (by ring)
    · intro t _
      have a1 := abs_le.1 (hM t)
      have a2 := abs_le.1 (hM (-t))
      rcases hs with rfl | rfl <;> linarith [a1.1, a1.2, a2.1, a2.2]
  have k1 := key 1 (Or.inl rfl) dx hdx.le
  have k2 := key (-1) (Or.inr rfl) dx hdx.le
  have hq : quotient f dx V k A i j - F1 0 = (F dx - F (-dx) - 2 * dx * F1 0) / (2 * dx) := by
    have : quotient f dx V k A i j = (F dx - F (-dx)) / (2 * dx) := rfl
    rw [this]
    field_simp
  rw [hq, abs_div, abs_of_pos (by linarith : 0 < 2 * dx), div_le_iff₀ (by linarith), abs_le]
  constructor <;> nlinarith [k1, k2]

/-- **C97** The quotients tend to the partial derivative as the step tends to 0, for every cost that has one. -/
theorem C97_limit {f : View ℝ → ℝ} {V : View ℝ} {k : String} {A : Arr ℝ} {i j : ℕ} {d : ℝ} (hd : HasDerivAt (fun t => f (put V k (bump A i j t))) d 0) :
    Tendsto (fun dx => quotient f dx V k A i j) (𝓝[≠] 0) (𝓝 d) := by
  set F : ℝ → ℝ := fun t => f (put V k (bump A i j t)) with hF
  have h2 : HasDerivAt (fun t => F (-t)) (-d) 0 := by
    exact ((show HasDerivAt F d (-0) by simpa using hd).comp (0 : ℝ) (hasDerivAt_neg 0)).congr_deriv (by ring)
  have h3 := ((hd.sub h2).div_const 2).tendsto_slope_zero
  have e : (d - -d) / 2 = d := by ring
  rw [e] at h3
  refine h3.congr' ?_
  filter_upwards [self_mem_nhdsWithin] with t ht
  have ht : t ≠ 0 := ht
  unfold quotient
  simp only [smul_eq_mul, zero_add, Pi.sub_apply, neg_zero, sub_self, zero_div, sub_zero]
  show t⁻¹ * ((F t - F (-t)) / 2) = (F t - F (-t)) / (2 * t)
  field_simp

end accuracy

/-! ## grad_check -/

section check

theorem norm_nonneg' (A : Arr ℝ) : 0 ≤ A.norm := Real.sqrt_nonneg _

theorem verdict_iff {tol eps : ℝ} (he : 0 < eps) (g fd : Arr ℝ) : verdict tol eps g fd = true ↔ (g.sub fd).norm ≤ tol * (g.norm + fd.norm + eps) ∨ (g.sub fd).norm ≤ tol := by
  unfold verdict
  simp only [decide_eq_true_eq]
  rw [div_le_iff₀ (by have := norm_nonneg' g; have := norm_nonneg' fd; linarith)]

theorem getArr_map {V : View ℝ} (hV : (V.map Prod.fst).Nodup) (F : String → Arr ℝ → Arr ℝ) {k : String} {A : Arr ℝ} (hA : (k, A) ∈ V) : getArr (V.map fun q => (q.1, F q.1 q.2)) k = some (F k A) := by
  induction V with
  | nil => simp at hA
  | cons q V ih =>
    simp only [List.map_cons, List.nodup_cons] at hV
    unfold getArr at ih ⊢
    rw [List.map_cons, List.find?_cons]
    by_cases h : q.1 = k
    · have : q = (k, A) := by
        rcases List.mem_cons.1 hA with h' | h'
        · exact h'.symm
        · exact absurd (List.mem_map.2 ⟨_, h', h.symm⟩) hV.1
      subst this
      simp
    · simp only [h, decide_false]
      refine ih hV.2 ?_
      rcases List.mem_cons.1 hA with h' | h'
      · exact absurd (by rw [← h']) h
      · exact h'

theorem mapM_some {α β : Type} (F : α → Option β) (G : α → β) : ∀ l : List α, (∀ x ∈ l, F x = some (G x)) → l.mapM F = some (l.map G) := by
  intro l
  induction l with
  | nil => intro _; rfl
  | cons x l ih =>
    intro h
    rw [List.mapM_cons, h x (by simp), ih fun y hy => h y (by simp [hy])]
    rfl

/-- **C97** `grad_check` with a user gradient that has an array for every key: one verdict per array, in the order of the dictionary; it is "correct" exactly when the array differs from the
central differences by at most `tol`, or by at most `tol` times the sum of their norms plus machine epsilon. -/
theorem C97_grad_check {f : View ℝ → ℝ} {G : String → Arr ℝ} {grad : View ℝ → View ℝ} {dx tol eps : ℝ} (he : 0 < eps) {s : Heap ℝ × Dict} (hs : WF s)
    (hg : ∀ V, grad V = V.map fun q => (q.1, G q.1)) :
    ∃ l, gradCheck f (some grad) dx tol eps s = some l ∧ l.map Prod.fst = s.2.map Prod.fst ∧
      ∀ k b, (k, b) ∈ l → ∃ a, (k, a) ∈ s.2 ∧ (b = true ↔ ((G k).sub (quotients f dx (view s.1 s.2) k (s.1.mem a))).norm ≤ tol ∨
        ((G k).sub (quotients f dx (view s.1 s.2) k (s.1.mem a))).norm ≤ tol * ((G k).norm + (quotients f dx (view s.1 s.2) k (s.1.mem a)).norm + eps)) := by
  obtain ⟨s', e, w, k', -, v, -⟩ := finiteDifference_spec (f := f) (dx := dx) hs
  have hV : ((view s.1 s.2).map Prod.fst).Nodup := by rw [view_fst]; exact hs.keys
  have hmem : ∀ q ∈ s.2, (q.1, s.1.mem q.2) ∈ view s.1 s.2 := fun q hq => List.mem_map.2 ⟨q, hq, rfl⟩
  have hl : gradCheck f (some grad) dx tol eps s = some (s.2.map fun q => (q.1, verdict tol eps (G q.1) (quotients f dx (view s.1 s.2) q.1 (s.1.mem q.2)))) := by
    unfold gradCheck
    simp only [Option.bind_some]
    rw [e]
    simp only [Option.bind_some, k']
    rw [List.mapM_map]
    rw [mapM_some _ (fun q => (q.1, verdict tol eps (G q.1) (quotients f dx (view s.1 s.2) q.1 (s.1.mem q.2)))) s.2 fun q hq => ?_]
    simp only [Function.comp]
    rw [hg, getArr_map hV (fun k _ => G k) (hmem q hq)]
    unfold centralDifferences
    rw [getArr_map hV (fun k A => quotients f dx (view s.1 s.2) k A) (hmem q hq)]
    rfl
  refine ⟨_, hl, by rw [List.map_map]; rfl, fun k b hb => ?_⟩
  obtain ⟨q, hq, hqe⟩ := List.mem_map.1 hb
  obtain ⟨rfl, rfl⟩ := Prod.ext_iff.1 hqe
  exact ⟨q.2, hq, by simp only; rw [verdict_iff he, or_comm]⟩

/-- **C97** Without a user gradient `grad_check` compares finite differences with themselves and always says "correct". -/
theorem C97_grad_check_no_gradient {f : View ℝ → ℝ} {dx tol eps : ℝ} (ht : 0 ≤ tol) {s : Heap ℝ × Dict} (hs : WF s) :
    gradCheck f none dx tol eps s = some (s.2.map fun q => (q.1, true)) := by
  obtain ⟨s1, e1, w1, k1, -, v1, -⟩ := finiteDifference_spec (f := f) (dx := dx) hs
  obtain ⟨s2, e2, w2, k2, -, v2, -⟩ := finiteDifference_spec (f := f) (dx := dx) w1
  have hV : ((view s.1 s.2).map Prod.fst).Nodup := by rw [view_fst]; exact hs.keys
  have hmem : ∀ q ∈ s.2, (q.1, s.1.mem q.2) ∈ view s.1 s.2 := fun q hq => List.mem_map.2 ⟨q, hq, rfl⟩
  unfold gradCheck
  simp only
  rw [e1]
  simp only [Option.bind_some]
  rw [e2]
  simp only [Option.bind_some, k2, k1, v1]
  rw [List.mapM_map]
  rw [mapM_some _ (fun q => (q.1, true)) s.2 fun q hq => ?_]
  simp only [Function.comp]
  unfold centralDifferences
  rw [getArr_map hV (fun k A => quotients f dx (view s.1 s.2) k A) (hmem q hq)]
  simp only [Option.bind_some, Option.map_some, Option.some.injEq, Prod.mk.injEq, true_and]
  unfold verdict
  simp only [decide_eq_true_eq]
  right
  have : ((quotients f dx (view s.1 s.2) q.1 (s.1.mem q.2)).sub (quotients f dx (view s.1 s.2) q.1 (s.1.mem q.2))).norm = 0 := by
    unfold Arr.norm Arr.sub
    simp
  rw [this]
  exact ht

/-- **C97** A gradient that is identically 0 passes the check (default tolerance) exactly where the true central differences have norm at most `tol`: the relative test never rescues it. -/
theorem C97_zero_gradient {tol eps : ℝ} (he : 0 < eps) (ht : 0 ≤ tol) (h1 : tol + eps ≤ 1) (fd : Arr ℝ) : verdict tol eps { n := fd.n, p := fd.p, e := fun _ _ => 0 } fd = true ↔ fd.norm ≤ tol := by
  have hz : Arr.norm { n := fd.n, p := fd.p, e := fun _ _ => 0 } = 0 := by unfold Arr.norm; simp
  have hs : (Arr.sub { n := fd.n, p := fd.p, e := fun _ _ => 0 } fd).norm = fd.norm := by unfold Arr.norm Arr.sub; simp
  rw [verdict_iff he, hz, hs]
  have := norm_nonneg' fd
  constructor
  · rintro (h | h)
    · nlinarith
    · exact h
  · exact Or.inr

end check

/-! ## Examples -/

/-- Two arrays, the cost `x₀₀² + 3 y₀₁`. -/
def exCost (V : View ℚ) : ℚ := (V.map fun q => if q.1 = "x" then q.2.e 0 0 ^ 2 else 3 * q.2.e 0 1).sum
def exHeap : Heap ℚ := { next := 2, mem := fun c => if c = 0 then ⟨1, 1, fun _ _ => 5⟩ else ⟨1, 2, fun _ j => j⟩ }
def exDict : Dict := [("x", 0), ("y", 1)]

example : WF (exHeap, exDict) := ⟨by decide, by decide, by decide⟩

/-- Gradient `10, (0, 3)`, exact; the dictionary shows the old values, the old arrays do not. -/
example : (finiteDifference exCost (1 / 10) (exHeap, exDict)).map (fun r => (r.2.map fun q => (q.2.e 0 0, q.2.e 0 1))) = some [(10, 0), (0, 3)] := by decide +kernel
example : (finiteDifference exCost (1 / 10) (exHeap, exDict)).map (fun r => ((view r.1.1 r.1.2).map fun q => q.2.e 0 0)) = some [5, 0] := by decide +kernel
example : (finiteDifference exCost (1 / 10) (exHeap, exDict)).map (fun r => ((view r.1.1 exDict).map fun q => q.2.e 0 0)) = some [51 / 10, 1 / 10] := by decide +kernel

/-- A run: gradient descent with step 1/2, two iterations. -/
def exMove (V G : View ℚ) : View ℚ := (V.zip G).map fun q => (q.1.1, { n := q.1.2.n, p := q.1.2.p, e := fun i j => q.1.2.e i j - q.2.2.e i j / 2 })
example : (optimize exCost (1 / 10) exMove exHeap exDict 2).map (fun st => st.2.2.map fun d => (view st.1 d).map fun q => q.2.e 0 0) = some [[51 / 10, 1 / 10], [1 / 10, 1 / 10], [0, 0]] := by decide +kernel

/-- The hypothesis of C97_history holds for updates that keep the keys. -/
example : ∀ V G : View ℚ, ((fun V _ => V : View ℚ → View ℚ → View ℚ) V G).map Prod.fst = V.map Prod.fst := fun _ _ => rfl

end SMT.Nn.FD
