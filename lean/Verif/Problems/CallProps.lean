import Verif.Problems.Call
import Verif.Problems.Props

set_option linter.unusedSectionVars false
set_option linter.unusedSimpArgs false
set_option linter.unusedVariables false

/-!
# C94: calling a problem with any array and any index

`Points`, `KxMeans` and `Listed` are the specification; everything else is about `callProblem` and `reducedZ`.
-/
namespace SMT.Problems

open SMT.Surrogate (NdArray PyObj ensure2d)

noncomputable section

/-- Specification: the array `x` stands for `n` points with `d` coordinates: it has shape `(n, d)`, or shape `(n,)` with `d = 1`, or is a single number. -/
def Points (x : PyObj ℝ) (n d : ℕ) (p : ℕ → ℕ → ℝ) : Prop :=
  ∃ a, x = .nd a ∧ (a.shape = [n, d] ∨ a.shape = [n] ∧ d = 1 ∨ a.shape = [] ∧ n = 1 ∧ d = 1) ∧ p = fun i j => a.data.getD (i * d + j) 0

/-- Specification: what an accepted `kx` argument stands for: the value, or a non-negative index (booleans count as 0 and 1). -/
def KxMeans : KArg → Option ℤ → Prop
  | .none, k => k = Option.none
  | .int i, k => 0 ≤ i ∧ k = some i
  | .bool b, k => k = some (if b then 1 else 0)
  | .other, _ => False

lemma ensure_points {x : PyObj ℝ} {a : NdArray ℝ} (h : ensure2d x = .ok a) : Points x a.nrows a.ncols fun i j => a.data.getD (i * a.ncols + j) 0 := by
  cases x with
  | other => simp [ensure2d] at h
  | nd b =>
    obtain ⟨s, dt⟩ := b
    match s with
    | [] => simp only [ensure2d, Except.ok.injEq] at h; subst h; exact ⟨_, rfl, by simp [NdArray.nrows, NdArray.ncols], rfl⟩
    | [n] => simp only [ensure2d, Except.ok.injEq] at h; subst h; exact ⟨_, rfl, by simp [NdArray.nrows, NdArray.ncols], rfl⟩
    | [n, m] => simp only [ensure2d, Except.ok.injEq] at h; subst h; exact ⟨_, rfl, by simp [NdArray.nrows, NdArray.ncols], rfl⟩
    | _ :: _ :: _ :: _ => simp [ensure2d] at h

lemma points_ensure {x : PyObj ℝ} {n d : ℕ} {p : ℕ → ℕ → ℝ} (h : Points x n d p) :
    ∃ a, ensure2d x = .ok a ∧ a.nrows = n ∧ a.ncols = d ∧ rowsOf a = (List.range n).map p := by
  obtain ⟨b, rfl, hs, rfl⟩ := h
  obtain ⟨s, dt⟩ := b
  rcases hs with h | ⟨h, h'⟩ | ⟨h, h', h''⟩ <;> simp only at h <;> subst h
  · exact ⟨_, rfl, rfl, rfl, rfl⟩
  · subst h'; exact ⟨_, rfl, rfl, rfl, rfl⟩
  · subst h' h''; exact ⟨_, rfl, rfl, rfl, rfl⟩

lemma checkK_ok {kx : KArg} {k : Option ℤ} : checkK kx = .ok k ↔ KxMeans kx k := by
  cases kx with
  | none => simp [checkK, KxMeans, eq_comm]
  | int i =>
    by_cases h : i < 0
    · simp [checkK, KxMeans, h]
    · simp only [checkK, KxMeans, h, if_false, Except.ok.injEq]
      exact ⟨fun e => ⟨by omega, e.symm⟩, fun e => e.2.symm⟩
  | bool b => simp [checkK, KxMeans, eq_comm]
  | other => simp [checkK, KxMeans]

lemma checkK_err {kx : KArg} {e : Exc} (h : checkK kx = .error e) : e = .type := by
  cases kx with
  | none => simp [checkK] at h
  | int i => by_cases hi : i < 0 <;> simp [checkK, hi] at h; exact h.symm
  | bool b => simp [checkK] at h
  | other => simp [checkK] at h; exact h.symm

lemma mapM_ok {α β : Type} (f : α → Except Exc β) (l : List α) (ys : List β) :
    l.mapM f = .ok ys ↔ List.Forall₂ (fun a y => f a = .ok y) l ys := by
  induction l generalizing ys with
  | nil => simp [pure, Except.pure, eq_comm]
  | cons a l ih =>
    rw [List.mapM_cons]
    cases hf : f a with
    | error e =>
      simp only [bind, Except.bind]
      constructor
      · intro h; cases h
      · intro h; cases h with | cons h1 h2 => rw [hf] at h1; cases h1
    | ok y =>
      simp only [bind, Except.bind]
      cases hl : l.mapM f with
      | error e =>
        simp only []
        constructor
        · intro h; cases h
        · intro h; cases h with | cons h1 h2 => have := (ih _).2 h2; rw [hl] at this; cases this
      | ok zs =>
        simp only [pure, Except.pure, Except.ok.injEq]
        constructor
        · rintro rfl; exact .cons hf ((ih zs).1 hl)
        · intro h
          cases h with
          | cons h1 h2 =>
            rw [hf] at h1; cases h1
            have := (ih _).2 h2; rw [hl] at this; cases this; rfl

lemma mapM_err {α β : Type} (f : α → Except Exc β) (l : List α) (e : Exc) (a : α) (ha : a ∈ l) (hf : ∀ b ∈ l, f b = .error e) : l.mapM f = .error e := by
  cases l with
  | nil => simp at ha
  | cons b l => rw [List.mapM_cons, hf b List.mem_cons_self]; rfl

lemma forall2_range {p : ℕ → ℕ → ℝ} {n : ℕ} {f : (ℕ → ℝ) → Except Exc ℝ} {ys : List ℝ} :
    List.Forall₂ (fun a y => f a = .ok y) ((List.range n).map p) ys ↔ ys.length = n ∧ ∀ i (h : i < ys.length), f (p i) = .ok ys[i] := by
  rw [List.forall₂_iff_get]
  constructor
  · rintro ⟨h1, h2⟩
    simp only [List.length_map, List.length_range] at h1
    refine ⟨h1.symm, fun i h => ?_⟩
    have := h2 i (by simpa [h1] using h) h
    simpa using this
  · rintro ⟨h1, h2⟩
    refine ⟨by simp [h1], fun i h h' => ?_⟩
    simpa using h2 i h'

/-- **C94** A call that returns was given points with as many coordinates as the problem has inputs and an acceptable index, and returns an array of shape `(n, 1)` whose entry `i` is
determined by point `i` (and the index) alone. -/
theorem C94_returns (o : Obj) (x : PyObj ℝ) (kx : KArg) (y : NdArray ℝ) (h : callProblem o x kx = .ok y) :
    ∃ n p k, Points x n o.ndim p ∧ KxMeans kx k ∧ y.shape = [n, 1] ∧ y.data.length = n ∧ ∀ i (hi : i < y.data.length), o.eval (p i) k = .ok y.data[i] := by
  unfold callProblem at h
  cases ha : ensure2d x with
  | error e => rw [ha] at h; cases h
  | ok a =>
    rw [ha] at h
    simp only at h
    by_cases hc : a.ncols = o.ndim
    · rw [if_neg (not_not.2 hc)] at h
      cases hk : checkK kx with
      | error e => rw [hk] at h; cases h
      | ok k =>
        rw [hk] at h
        simp only at h
        cases hv : evaluateAll o (rowsOf a) k with
        | error e => rw [hv] at h; cases h
        | ok ys =>
          rw [hv] at h
          simp only [Except.ok.injEq] at h
          subst h
          refine ⟨a.nrows, _, k, hc ▸ ensure_points ha, checkK_ok.1 hk, rfl, ?_⟩
          obtain ⟨a', ha', hn', -, hr'⟩ := points_ensure (ensure_points ha)
          rw [ha] at ha'; cases ha'
          show ys.length = a.nrows ∧ _
          cases hn : a.nrows with
          | zero =>
            have : rowsOf a = [] := by rw [hr', hn]; rfl
            rw [this] at hv
            unfold evaluateAll at hv
            simp only at hv
            cases ho : o.onEmpty k with
            | error e => rw [ho] at hv; cases hv
            | ok u => rw [ho] at hv; simp only [Except.map, Except.ok.injEq] at hv; subst hv; exact ⟨rfl, fun i hi => by simp at hi⟩
          | succ m =>
            have hne : rowsOf a ≠ [] := by rw [hr', hn]; simp
            have hv' : (rowsOf a).mapM (fun r => o.eval r k) = .ok ys := by
              rw [← hv]; unfold evaluateAll; cases hro : rowsOf a with
              | nil => exact absurd hro hne
              | cons b l => rfl
            rw [mapM_ok, hr', forall2_range, hn] at hv'
            rw [← hc]; exact hv'
    · rw [if_pos hc] at h; cases h

/-- **C94** Conversely, a call with at least one point of the right dimension and an acceptable index returns whenever the problem can be evaluated at every point, and raises the
problem's exception when it raises at every point. -/
theorem C94_call (o : Obj) (x : PyObj ℝ) (kx : KArg) (n : ℕ) (p : ℕ → ℕ → ℝ) (k : Option ℤ) (hp : Points x n o.ndim p) (hk : KxMeans kx k) (hn : 0 < n) :
    (∀ v : ℕ → ℝ, (∀ i < n, o.eval (p i) k = .ok (v i)) → callProblem o x kx = .ok ⟨[n, 1], (List.range n).map v⟩) ∧
    (∀ e, (∀ i < n, o.eval (p i) k = .error e) → callProblem o x kx = .error e) := by
  obtain ⟨a, ha, hr, hc, hro⟩ := points_ensure hp
  have hne : rowsOf a ≠ [] := by rw [hro]; simp; omega
  have hv' : evaluateAll o (rowsOf a) k = (rowsOf a).mapM (fun r => o.eval r k) := by
    unfold evaluateAll; cases hro : rowsOf a with
    | nil => exact absurd hro hne
    | cons b l => rfl
  have hcall : callProblem o x kx = match (rowsOf a).mapM (fun r => o.eval r k) with | .error e => .error e | .ok ys => .ok ⟨[n, 1], ys⟩ := by
    unfold callProblem
    rw [ha]
    simp only [hc, checkK_ok.2 hk, hv', hr, ne_eq, not_true_eq_false, if_false]
    rfl
  constructor
  · intro v hv
    have : (rowsOf a).mapM (fun r => o.eval r k) = .ok ((List.range n).map v) := by
      rw [mapM_ok, hro, forall2_range]
      refine ⟨by simp, fun i hi => ?_⟩
      simp only [List.length_map, List.length_range] at hi
      simpa using hv i hi
    rw [hcall, this]
  · intro e he
    rw [hcall, mapM_err _ _ e (p 0) (by rw [hro]; exact List.mem_map.2 ⟨0, by simpa using hn, rfl⟩) ?_]
    intro b hb
    rw [hro] at hb
    obtain ⟨i, hi, rfl⟩ := List.mem_map.1 hb
    exact he i (by simpa using hi)

/-- **C94** What is refused: anything that is not an array of at most two axes with the right number of coordinates (`ValueError`, whatever the index), then an index that is negative or
not a Python integer (`TypeError`). -/
theorem C94_refused (o : Obj) (x : PyObj ℝ) (kx : KArg) :
    ((¬ ∃ n p, Points x n o.ndim p) → callProblem o x kx = .error .value) ∧
    ((∃ n p, Points x n o.ndim p) → (¬ ∃ k, KxMeans kx k) → callProblem o x kx = .error .type) := by
  constructor
  · intro h
    unfold callProblem
    cases ha : ensure2d x with
    | error e => rfl
    | ok a =>
      simp only
      rw [if_pos]
      intro hc
      exact h ⟨_, _, hc ▸ ensure_points ha⟩
  · rintro ⟨n, p, hp⟩ hk
    obtain ⟨a, ha, hr, hc, hro⟩ := points_ensure hp
    unfold callProblem
    rw [ha]
    simp only [hc, ne_eq, not_true_eq_false, if_false]
    cases hx : checkK kx with
    | error e => rw [checkK_err hx]
    | ok k => exact absurd ⟨k, checkK_ok.1 hx⟩ hk

/-- **C94** In particular: lists and numbers, arrays of rank three or more, and *one point given as a one-dimensional array* (of a problem with at least two inputs) are refused; for a
problem with one input a one-dimensional array is read as a column of points. -/
theorem C94_shapes (o : Obj) (kx : KArg) :
    callProblem o .other kx = .error .value ∧
    (∀ a : NdArray ℝ, 3 ≤ a.shape.length → callProblem o (.nd a) kx = .error .value) ∧
    (∀ (n m : ℕ) (d : List ℝ), m ≠ o.ndim → callProblem o (.nd ⟨[n, m], d⟩) kx = .error .value) ∧
    (∀ d : List ℝ, 2 ≤ o.ndim → callProblem o (.nd ⟨[o.ndim], d⟩) kx = .error .value) ∧
    (∀ (n : ℕ) (d : List ℝ), o.ndim = 1 → callProblem o (.nd ⟨[n], d⟩) kx = callProblem o (.nd ⟨[n, 1], d⟩) kx) := by
  refine ⟨rfl, fun a ha => ?_, fun n m d hm => ?_, fun d hd => ?_, fun n d h1 => rfl⟩
  · obtain ⟨s, dt⟩ := a
    match s, ha with
    | _ :: _ :: _ :: _, _ => rfl
  · exact if_pos hm
  · exact if_pos (show 1 ≠ o.ndim by omega)

/-- **C94** The index: negative integers, NumPy integers and other objects raise `TypeError`; `True` and `False` are taken as 1 and 0. -/
theorem C94_index (o : Obj) (x : PyObj ℝ) (hx : ∃ n p, Points x n o.ndim p) :
    (∀ k < 0, callProblem o x (.int k) = .error .type) ∧ callProblem o x .other = .error .type ∧
    callProblem o x (.bool true) = callProblem o x (.int 1) ∧ callProblem o x (.bool false) = callProblem o x (.int 0) := by
  refine ⟨fun k hk => (C94_refused o x _).2 hx ?_, (C94_refused o x _).2 hx ?_, rfl, rfl⟩
  · rintro ⟨j, h, -⟩; omega
  · rintro ⟨j, h⟩; exact h

/-! ## Indices in range -/

/-- Specification: at every point, the object returns the value and the derivatives (`kx < ndim`) that the evaluation `e` gives. -/
def Listed (o : Obj) (e : Eval) : Prop := ∀ x, o.eval x none = .ok (e x none) ∧ ∀ k < o.ndim, o.eval x (some (k : ℤ)) = .ok (e x (some k))

lemma pyIdx_nat (n k : ℕ) (h : k < n) : pyIdx n (k : ℤ) = .ok k := by
  unfold pyIdx; rw [if_pos ⟨by omega, by exact_mod_cast h⟩]; simp

lemma pyIdx_big (n : ℕ) (k : ℤ) (h : (n : ℤ) ≤ k) : pyIdx n k = .error .index := by
  unfold pyIdx; rw [if_neg (by omega), if_neg (by omega)]

lemma pyIdx_neg (n : ℕ) (k : ℤ) (h : k < 0) (h' : -(n : ℤ) ≤ k) : pyIdx n k = .ok (k + n).toNat := by
  unfold pyIdx; rw [if_neg (by omega), if_pos ⟨h, h'⟩]

lemma pyIdx_of {n : ℕ} {k : ℤ} {j : ℕ} (h : k = j) (hj : j < n) : pyIdx n k = .ok j := by rw [h]; exact pyIdx_nat n j hj

/-- **C94** With points of the right dimension and an index in range, the call returns value or derivative at every point, in a column. -/
theorem C94_in_range (o : Obj) (e : Eval) (ho : Listed o e) (x : PyObj ℝ) (n : ℕ) (p : ℕ → ℕ → ℝ) (hp : Points x n o.ndim p) (hn : 0 < n) :
    callProblem o x .none = .ok ⟨[n, 1], (List.range n).map fun i => e (p i) none⟩ ∧
    ∀ k < o.ndim, callProblem o x (.int k) = .ok ⟨[n, 1], (List.range n).map fun i => e (p i) (some k)⟩ :=
  ⟨(C94_call o x .none n p none hp rfl hn).1 _ fun i _ => (ho (p i)).1,
   fun k hk => (C94_call o x (.int k) n p (some k) hp ⟨by omega, rfl⟩ hn).1 _ fun i _ => (ho (p i)).2 k hk⟩

/-- **C94** Sphere: in range, value and derivatives are those of the model of C51/C62. -/
theorem C94_sphere (n : ℕ) : Listed (sphereO n) (sphere n) := by
  intro x
  refine ⟨rfl, fun k hk => ?_⟩
  change k < n at hk
  simp only [sphereO, sphereZ, pyIdx_nat n k hk]; rfl

/-- **C94** Rosenbrock: in range, value and derivatives are those of the model of C51/C62. -/
theorem C94_rosenbrock (n : ℕ) : Listed (rosenbrockO n) (rosenbrock n) := by
  intro x
  refine ⟨rfl, fun k hk => ?_⟩
  change k < n at hk
  have hA : rosenA n x k = .ok (if k < n - 1 then -400 * (x (k + 1) - x k ^ 2) * x k - 2 * (1 - x k) else 0) := by
    unfold rosenA
    by_cases h : k < n - 1
    · rw [if_pos (by omega), if_pos h, pyIdx_of (j := k + 1) (by push_cast; rfl) (by omega), pyIdx_nat n k hk]
    · rw [if_neg (by omega), if_neg h]
  have hB : rosenB n x k = .ok (if k > 0 then 200 * (x k - x (k - 1) ^ 2) else 0) := by
    unfold rosenB
    by_cases h : k > 0
    · rw [if_pos (by omega), if_pos h, pyIdx_nat n k hk, pyIdx_of (j := k - 1) (by omega) (by omega)]
    · rw [if_neg (by omega), if_neg h]
  show rosenbrockZ n x (some k) = _
  simp only [rosenbrockZ, hA, hB, rosenbrock]
  congr 1
  split_ifs <;> ring

/-- **C94** Branin: in range, value and derivatives are those of the model of C51/C62. -/
theorem C94_branin : Listed braninO branin := by
  intro x
  refine ⟨rfl, fun k hk => ?_⟩
  change k < 2 at hk
  show braninZ x (some k) = _
  simp only [braninZ]
  rw [if_pos (by omega)]; simp

/-- **C94** Tensor products: in range, value and derivatives are those of the model of C51/C62. -/
theorem C94_tensor_product (fn : Func) (a : ℝ) (n : ℕ) : Listed (tensorO fn a n) (tensorProduct fn a n) := by
  intro x
  refine ⟨rfl, fun k hk => ?_⟩
  show tensorZ fn a n x (some k) = _
  simp only [tensorZ, tensorProduct, Nat.cast_inj]

lemma sliceBound_nat (n s : ℕ) : sliceBound n (s : ℤ) = min s n := by unfold sliceBound; rw [if_neg (by omega)]; simp

lemma strideSum_min (s n m : ℕ) (x : ℕ → ℝ) : strideSum (min s n) n (m + 1) x = strideSum s n (m + 1) x := by
  rcases Nat.le_total s n with h | h
  · rw [min_eq_left h]
  · rw [min_eq_right h]
    unfold strideSum
    congr 1
    refine List.filterMap_congr fun i hi => ?_
    have : i < n := by simpa using hi
    rw [if_neg (by omega), if_neg (by omega)]

lemma tailSum_nat (n : ℕ) (x : ℕ → ℝ) (s : ℕ) : tailSum n x (s : ℤ) = strideSum s n 3 x := by
  unfold tailSum; rw [sliceBound_nat, strideSum_min]

lemma beamStep_nat (n : ℕ) (x : ℕ → ℝ) (k e : ℕ) (y : ℝ) (h : 3 * e + 1 < n) : beamStep n x k (.ok y) e =
    .ok (let y := y + 36 / x (3 * e + 0) / x (3 * e + 1) ^ 3 * strideSum (2 + 3 * e) n 3 x ^ 2
      if k > e then y - 36 / x (3 * e + 0) / x (3 * e + 1) ^ 3 * strideSum (5 + 3 * e) n 3 x ^ 2 else y) := by
  unfold beamStep
  rw [pyIdx_of (j := 3 * e) (by push_cast; rfl) (by omega), pyIdx_of (j := 3 * e + 1) (by push_cast; rfl) h]
  have e1 : (2 + 3 * (e : ℤ)) = ((2 + 3 * e : ℕ) : ℤ) := by push_cast; rfl
  have e2 : (5 + 3 * (e : ℤ)) = ((5 + 3 * e : ℕ) : ℤ) := by push_cast; rfl
  simp only [e1, e2, tailSum_nat, Nat.add_zero, gt_iff_lt, Nat.cast_lt]

lemma beam_fold (n : ℕ) (x : ℕ → ℝ) (k m : ℕ) (y : ℝ) (h : 3 * m ≤ n) (hn : n % 3 = 0) : (List.range m).foldl (beamStep n x k) (.ok y) =
    .ok ((List.range m).foldl (fun y e =>
        let y := y + 36 / x (3 * e + 0) / x (3 * e + 1) ^ 3 * strideSum (2 + 3 * e) n 3 x ^ 2
        if k > e then y - 36 / x (3 * e + 0) / x (3 * e + 1) ^ 3 * strideSum (5 + 3 * e) n 3 x ^ 2 else y) y) := by
  induction m with
  | zero => rfl
  | succ m ih =>
    rw [List.range_succ, List.foldl_append, List.foldl_append, ih (by omega)]
    exact beamStep_nat n x k m _ (by omega)

/-- **C94** The cantilever beam (dimension a multiple of 3, as the problem requires): in range, value and derivatives are those of the model of C51/C62. -/
theorem C94_cantilever (P E : ℝ) (n : ℕ) (h3 : n % 3 = 0) : Listed (cantileverO P E n) (cantilever P E n) := by
  intro x
  refine ⟨rfl, fun k hk => ?_⟩
  change k < n at hk
  show cantileverZ P E n x (some k) = _
  simp only [cantileverZ, cantilever, beamD]
  have hd : ((k : ℤ) / 3) = ((k / 3 : ℕ) : ℤ) := by push_cast; rfl
  have e1 : (2 + 3 * ((k / 3 : ℕ) : ℤ)) = ((2 + 3 * (k / 3) : ℕ) : ℤ) := by push_cast; rfl
  have e2 : (5 + 3 * ((k / 3 : ℕ) : ℤ)) = ((5 + 3 * (k / 3) : ℕ) : ℤ) := by push_cast; rfl
  have i0 : pyIdx n (3 * ((k / 3 : ℕ) : ℤ)) = .ok (3 * (k / 3)) := pyIdx_of (by push_cast; rfl) (by omega)
  have i1 : pyIdx n (3 * ((k / 3 : ℕ) : ℤ) + 1) = .ok (3 * (k / 3) + 1) := pyIdx_of (by push_cast; rfl) (by omega)
  rw [hd]
  by_cases h0 : k % 3 = 0
  · rw [if_pos (by omega), if_pos h0, i0, i1]
    simp only [e1, e2, tailSum_nat, Nat.add_zero]; rfl
  · rw [if_neg (by omega), if_neg h0]
    by_cases h1 : k % 3 = 1
    · rw [if_pos (by omega), if_pos h1, i0, i1]
      simp only [e1, e2, tailSum_nat, Nat.add_zero]; rfl
    · rw [if_neg (by omega), if_neg h1]
      have : (((k / 3 : ℕ) : ℤ) + 1).toNat = k / 3 + 1 := by omega
      rw [this, beam_fold n x (k / 3) (k / 3 + 1) 0 (by omega) h3]
      rfl

lemma angle_nat (n : ℕ) (x : ℕ → ℝ) (k : ℕ) (h : 2 * k + 2 ≤ n) : angle n x k = strideSum 1 (2 * k + 2) 2 x := by
  unfold angle
  have e1 : (2 * (k : ℤ) + 2) = ((2 * k + 2 : ℕ) : ℤ) := by push_cast; rfl
  rw [e1, sliceBound_nat, min_eq_left h]

/-- **C94** The robot arm (even dimension, as the problem requires): in range, value and derivatives are those of the model of C51/C62. -/
theorem C94_robot_arm (n : ℕ) (h2 : n % 2 = 0) : Listed (robotArmO n) (robotArm n) := by
  intro x
  refine ⟨rfl, fun k hk => ?_⟩
  change k < n at hk
  show robotArmZ n x (some k) = _
  have hd : ((k : ℤ) / 2) = ((k / 2 : ℕ) : ℤ) := by push_cast; rfl
  simp only [robotArmZ, robotArm, hd, Nat.cast_le]
  by_cases h0 : k % 2 = 0
  · rw [if_pos (by omega), if_pos h0, angle_nat n x _ (by omega)]
  · rw [if_neg (by omega), if_neg h0]

/-- For the Lp norm, `none` of the model of C51 is an exception. -/
theorem C94_lp_norm (p n : ℕ) (x : ℕ → ℝ) (k : Option ℕ) (hk : ∀ i, k = some i → i < n) :
    (∀ v, lpNorm p n x k = some v → (lpO p n).eval x (k.map (↑)) = .ok v) ∧ (lpNorm p n x k = none → ∃ e, (lpO p n).eval x (k.map (↑)) = .error e) := by
  show (∀ v, lpNorm p n x k = some v → lpZ p n x (k.map (↑)) = .ok v) ∧ (lpNorm p n x k = none → ∃ e, lpZ p n x (k.map (↑)) = .error e)
  unfold lpZ lpNorm
  by_cases hp : p = 0
  · simp [hp]
  · simp only [hp, if_false]
    cases k with
    | none => simp
    | some i =>
      simp only [Option.map_some, pyIdx_nat n i (hk i rfl)]
      by_cases h2 : p ≤ 2 <;> simp [h2]

/-- **C94** The problems with complex-step derivatives: in range, value and derivatives are those of the model of C51/C62. -/
theorem C94_complex_step {n : ℕ} (e : CStep.Expr n) (lo hi : Fin n → ℝ) (useFD : Bool) (ch dx : ℝ) (x : ℕ → ℝ) :
    (stepO e lo hi useFD ch dx).eval x none = .ok (CStep.evaluate e useFD ch dx (fun i => x i) none) ∧
    ∀ k : Fin n, (stepO e lo hi useFD ch dx).eval x (some (k : ℕ)) = .ok (CStep.evaluate e useFD ch dx (fun i => x i) (some k)) := by
  refine ⟨rfl, fun k => ?_⟩
  show stepZ e useFD ch dx x (some (k : ℕ)) = _
  simp only [stepZ, pyIdx_nat n k k.2, k.2, dif_pos]

/-! ## Indices out of range -/

/-- **C94** An index `kx ≥ ndim` raises for Sphere, Rosenbrock, the Lp norm (orders 1 and 2) and the problems with complex-step derivatives (`IndexError`), for Branin (`AssertionError`) and
for the cantilever beam (`IndexError`). -/
theorem C94_out_of_range (x : ℕ → ℝ) (n : ℕ) (k : ℤ) (hk : (n : ℤ) ≤ k) :
    (sphereO n).eval x (some k) = .error .index ∧
    (0 < n → (rosenbrockO n).eval x (some k) = .error .index) ∧
    (2 ≤ k → braninO.eval x (some k) = .error .assertion) ∧
    (n % 3 = 0 → 0 < n → ∀ P E, (cantileverO P E n).eval x (some k) = .error .index) ∧
    (∀ p, p = 1 ∨ p = 2 → (lpO p n).eval x (some k) = .error .index) ∧
    (∀ (e : CStep.Expr n) (lo hi : Fin n → ℝ) (useFD : Bool) (ch dx : ℝ), (stepO e lo hi useFD ch dx).eval x (some k) = .error .index) := by
  refine ⟨?_, fun hn => ?_, fun h2 => ?_, fun h3 hn P E => ?_, fun p hp => ?_, fun e lo hi useFD ch dx => ?_⟩
  · show sphereZ n x (some k) = _
    simp only [sphereZ, pyIdx_big n k hk]
  · show rosenbrockZ n x (some k) = _
    have hB : rosenB n x k = .error .index := by
      unfold rosenB; rw [if_pos (by omega), pyIdx_big n k hk]
    simp only [rosenbrockZ, hB]
    cases rosenA n x k <;> rfl
  · show braninZ x (some k) = _
    simp only [braninZ]; rw [if_neg (by omega)]
  · show cantileverZ P E n x (some k) = _
    have herr : ∀ (l : List ℕ) (q : ℤ), l.foldl (beamStep n x q) (.error .index) = .error .index := by
      intro l q
      induction l with
      | nil => rfl
      | cons a l ih => rw [List.foldl_cons]; exact ih
    simp only [cantileverZ, beamD]
    by_cases h0 : k % 3 = 0
    · rw [if_pos h0, pyIdx_big n (3 * (k / 3)) (by omega)]; rfl
    · rw [if_neg h0]
      by_cases h1 : k % 3 = 1
      · rw [if_pos h1, pyIdx_big n (3 * (k / 3)) (by omega)]; rfl
      · rw [if_neg h1]
        obtain ⟨m, hm⟩ : ∃ m, (k / 3 + 1).toNat = n / 3 + 1 + m := ⟨(k / 3 + 1).toNat - (n / 3 + 1), by omega⟩
        rw [hm, List.range_add, List.foldl_append, List.range_succ, List.foldl_append]
        have hstep : ∀ acc, List.foldl (beamStep n x (k / 3)) acc [n / 3] = .error .index := by
          intro acc
          show beamStep n x (k / 3) acc (n / 3) = _
          unfold beamStep
          rw [pyIdx_big n (3 * ((n / 3 : ℕ) : ℤ)) (by omega)]
          cases acc <;> rfl
        rw [hstep, herr]; rfl
  · show lpZ p n x (some k) = _
    simp only [lpZ, pyIdx_big n k hk]
    rw [if_neg (by omega), if_pos (by omega)]
  · show stepZ e useFD ch dx x (some k) = _
    simp only [stepZ, pyIdx_big n k hk]

/-- **C94** … but a tensor product answers with the *function value*, and the robot arm with 0 for odd indices; both are wrong numbers without any error. -/
theorem C94_out_of_range_silent (n : ℕ) (k : ℕ) (hk : n ≤ k) (x : ℕ → ℝ) :
    (∀ fn a, (tensorO fn a n).eval x (some k) = (tensorO fn a n).eval x none) ∧
    (n % 2 = 0 → k % 2 = 1 → (robotArmO n).eval x (some k) = .ok 0) := by
  refine ⟨fun fn a => ?_, fun h2 ho => ?_⟩
  · show tensorZ fn a n x (some k) = tensorZ fn a n x none
    simp only [tensorZ, Nat.cast_inj]
    congr 1
    exact C51_tensor_product_out_of_range fn a n k hk x
  · rw [← C51_robot_arm_out_of_range n k h2 hk ho x]
    show robotArmZ n x (some k) = _
    have hd : ((k : ℤ) / 2) = ((k / 2 : ℕ) : ℤ) := by push_cast; rfl
    simp only [robotArmZ, robotArm, hd, Nat.cast_le]
    rw [if_neg (by omega), if_neg (by omega)]

end
end SMT.Problems
