import Verif.Ge.Model
import Verif.Kriging.Definite
import Verif.Kriging.DerivProps
import Mathlib.Analysis.Calculus.MeanValue
import Mathlib.Tactic

set_option linter.unusedSectionVars false
set_option linter.unusedSimpArgs false
set_option linter.unusedVariables false

/-!
# C78: GEKPLS uses the gradients as first-order data
-/
namespace SMT.Ge

variable {K : Type} [Field K] [LinearOrder K] [IsStrictOrderedRing K] {h d n : ℕ}

/-! ## Specification -/

/-- A training set as the list of rows the code iterates over. -/
def rows (X : Fin n → Fin d → K) (y : Fin n → K) : List ((Fin d → K) × K) := List.ofFn fun i => (X i, y i)

/-- Derivatives given for every input at every training point (`set_training_derivatives` for each `kx`, with as many rows). -/
def allGrads (g : Fin n → Fin d → K) : Fin d → Option (List K) := fun j => some (List.ofFn fun i => g i j)

/-- What `np.argsort` promises: a rearrangement of the indices along which the keys do not decrease. -/
def ArgsortOk (E : Ext K h) : Prop := ∀ d (f : Fin d → K), (E.argsort d f).Perm (List.finRange d) ∧ (E.argsort d f).Pairwise fun a b => f a ≤ f b

/-- First-order Taylor value at `p` from value `y` and gradient `g` at `x`. -/
def taylor (x : Fin d → K) (y : K) (g : Fin d → K) (p : Fin d → K) : K := y + ∑ j, g j * (p j - x j)

/-- The training point moved by `delta_x` times the range of input `j` in direction `j`. -/
def moved (delta : K) (lim : Fin d → K × K) (x : Fin d → K) (j : Fin d) : Fin d → K := Function.update x j (x j + delta * ((lim j).2 - (lim j).1))

/-! ## The loop -/

lemma gradAt_all (g : Fin n → Fin d → K) (i : Fin n) : gradAt (allGrads g) i = some (g i) := by
  have hi : ∀ j, ((allGrads g j).bind fun l => l[(i : ℕ)]?) = some (g i j) := fun j => by simp [allGrads]
  unfold gradAt
  simp [hi]

lemma taylor_moved (delta : K) (lim : Fin d → K × K) (x : Fin d → K) (y : K) (g : Fin d → K) (j : Fin d) :
    taylor x y g (moved delta lim x j) = y + g j * delta * ((lim j).2 - (lim j).1) := by
  unfold taylor moved
  rw [Finset.sum_eq_single j]
  · simp; ring
  · intro b _ hb; simp [Function.update_of_ne hb]
  · simp

lemma extraPt_eq (delta : K) (lim : Fin d → K × K) (x : Fin d → K) (y : K) (g : Fin d → K) (j : Fin d) :
    extraPt delta lim x y g j = (moved delta lim x j, taylor x y g (moved delta lim x j)) := by
  rw [taylor_moved]; rfl

lemma localPts_some (hd : 2 ≤ d) (bb : List (Fin d → K)) (delta : K) (lim : Fin d → K × K) (x : Fin d → K) (y : K) (g : Fin d → K) :
    ∃ L, localPts d bb delta lim x y g = some L ∧ (∀ q ∈ L, q.2 = taylor x y g q.1) ∧
      (L.map fun q j => q.1 j - x j) = (if d = 2 then ([(0, 0), (1, 0), (0, 1), (-1, 0), (0, -1), (1, 1), (-1, 1), (-1, -1), (1, -1)] : List (K × K)).map
        fun s (j : Fin d) => (if (j : ℕ) = 0 then s.1 else s.2) * (delta * ((lim j).2 - (lim j).1)) else (roll bb).map fun s (j : Fin d) => s j * (delta * ((lim j).2 - (lim j).1))) := by
  match d, hd, bb, lim, x, g with
  | 2, _, bb, lim, x, g =>
    refine ⟨_, rfl, ?_, ?_⟩
    · intro q hq
      simp only [ninePts, List.mem_cons, List.not_mem_nil, or_false] at hq
      rcases hq with rfl | rfl | rfl | rfl | rfl | rfl | rfl | rfl | rfl <;> simp [taylor, Fin.sum_univ_two] <;> ring
    · simp only [ninePts, if_true, List.map_cons, List.map_nil, List.cons.injEq, and_true]
      refine ⟨?_, ?_, ?_, ?_, ?_, ?_, ?_, ?_, ?_⟩ <;> funext j <;> fin_cases j <;> simp
  | d + 3, _, bb, lim, x, g =>
    refine ⟨_, rfl, ?_, ?_⟩
    · intro q hq
      simp only [boxPts, List.mem_map] at hq
      obtain ⟨s, -, rfl⟩ := hq
      simp only [taylor]
      congr 1
      exact Finset.sum_congr rfl fun j _ => by ring
    · simp only [boxPts, List.map_map]
      rw [if_neg (by omega)]
      refine List.map_congr_left fun s _ => ?_
      funext j
      simp; ring

lemma points_some (E : Ext K h) (delta : K) (lim : Fin d → K × K) (e : ℤ) (pts : Fin d → Option (List K)) :
    ∀ (n k : ℕ) (w : Fin n → (Fin d → K) × K) (f : Fin n → (Fin d → Fin (h + 1) → K) × List ((Fin d → K) × K)),
      (∀ i : Fin n, point E delta lim e pts (k + i) (w i).1 (w i).2 = some (f i)) → points E delta lim e pts k (List.ofFn w) = some (List.ofFn f)
  | 0, _, _, _, _ => by simp [points]
  | n + 1, k, w, f, H => by
    rw [List.ofFn_succ, List.ofFn_succ]
    have h0 := H 0
    simp only [Fin.val_zero, Nat.add_zero] at h0
    have ih := points_some E delta lim e pts n (k + 1) (fun i => w i.succ) (fun i => f i.succ) fun i => by
      have := H i.succ
      rwa [Fin.val_succ, Nat.add_comm (i : ℕ) 1, ← Nat.add_assoc] at this
    show ((point E delta lim e pts k (w 0).1 (w 0).2).bind fun a => (points E delta lim e pts (k + 1) (List.ofFn fun i => w i.succ)).map fun l => a :: l) = _
    rw [h0, ih]; rfl

/-- The local rows and values of training point `i`, as chosen by the code. -/
noncomputable def locals (hd : 2 ≤ d) (E : Ext K h) (delta : K) (lim : Fin d → K × K) (X : Fin n → Fin d → K) (y : Fin n → K) (g : Fin n → Fin d → K) (i : Fin n) :
    List ((Fin d → K) × K) := (localPts_some hd (E.bb d) delta lim (X i) (y i) (g i)).choose

/-- The directions chosen for training point `i`. -/
noncomputable def dirs (hd : 2 ≤ d) (E : Ext K h) (delta : K) (lim : Fin d → K × K) (e : ℤ) (X : Fin n → Fin d → K) (y : Fin n → K) (g : Fin n → Fin d → K) (i : Fin n) :
    List (Fin d) :=
  let L := locals hd E delta lim X y g i
  if e = 0 then [] else lastSlice (E.argsort d fun j => |E.pls d (L.map Prod.fst) (L.map Prod.snd) j 0|) e

lemma gePls_eq (hd : 2 ≤ d) (E : Ext K h) (delta : K) (lim : Fin d → K × K) (e : ℤ) (X : Fin n → Fin d → K) (y : Fin n → K) (g : Fin n → Fin d → K) :
    gePls E delta lim e (allGrads g) (rows X y) = some
      (fun j c => (∑ i, |E.pls d ((locals hd E delta lim X y g i).map Prod.fst) ((locals hd E delta lim X y g i).map Prod.snd) j c|) / n,
        (List.finRange n).flatMap fun i => (dirs hd E delta lim e X y g i).map fun j => (moved delta lim (X i) j, taylor (X i) (y i) (g i) (moved delta lim (X i) j))) := by
  have hp : ∀ i : Fin n, point E delta lim e (allGrads g) (0 + i) (X i) (y i) = some
      (E.pls d ((locals hd E delta lim X y g i).map Prod.fst) ((locals hd E delta lim X y g i).map Prod.snd),
        (dirs hd E delta lim e X y g i).map (extraPt delta lim (X i) (y i) (g i))) := fun i => by
    have hL := (localPts_some hd (E.bb d) delta lim (X i) (y i) (g i)).choose_spec.1
    unfold point
    rw [Nat.zero_add, gradAt_all, Option.bind_some, hL, Option.map_some]
    simp only [dirs, locals]
    by_cases he : e = 0
    · simp [he]
    · simp [he]
  have := points_some E delta lim e (allGrads g) n 0 (fun i => (X i, y i)) _ hp
  unfold gePls rows
  rw [this, Option.map_some]
  congr 2
  · funext j c
    rw [List.map_ofFn, List.sum_ofFn, List.length_ofFn]; rfl
  · rw [List.ofFn_eq_map, List.flatMap_map]
    congr 1
    funext i
    exact List.map_congr_left fun j _ => extraPt_eq _ _ _ _ _ _

/-! ## C78 -/

lemma roll_eq {α : Type} (l : List α) : roll l = l.rotate (l.length - 1) := by
  rcases List.eq_nil_or_concat l with rfl | ⟨l', a, rfl⟩
  · rfl
  · unfold roll
    simp [List.rotate_eq_drop_append_take]

lemma lastSlice_pos {α : Type} (l : List α) (e : ℕ) (he : 0 < e) : lastSlice l (e : ℤ) = l.drop (l.length - e) := by
  unfold lastSlice
  rw [if_pos (by exact_mod_cast he)]; simp

/-- **C78** With derivatives given for all (two or more) inputs at all training points, `ge_compute_pls` succeeds. There are, for each training point, a list of local points whose values are first-order Taylor
values, at displacements given by the nine-point pattern (two inputs) or the rolled Box-Behnken design times `delta_x` times the ranges, and a list of `min(extra_points, d)` different directions in which no
absolute first PLS coefficient is smaller than one in an unused direction; the coefficients returned are the means over the training points of the absolute PLS coefficients of the local points; the extra points
are, training point after training point, the moved training points with their first-order Taylor values. -/
theorem C78_result (hd : 2 ≤ d) (E : Ext K h) (hE : ArgsortOk E) (delta : K) (lim : Fin d → K × K) (e : ℕ) (X : Fin n → Fin d → K) (y : Fin n → K) (g : Fin n → Fin d → K) :
    ∃ (L : Fin n → List ((Fin d → K) × K)) (D : Fin n → List (Fin d)),
      let co := fun i => E.pls d ((L i).map Prod.fst) ((L i).map Prod.snd)
      gePls E delta lim e (allGrads g) (rows X y) = some (fun j c => (∑ i, |co i j c|) / n,
        (List.finRange n).flatMap fun i => (D i).map fun j => (moved delta lim (X i) j, taylor (X i) (y i) (g i) (moved delta lim (X i) j))) ∧
      (∀ i, ∀ q ∈ L i, q.2 = taylor (X i) (y i) (g i) q.1) ∧
      (∀ i, ((L i).map fun q j => q.1 j - X i j) =
        (if d = 2 then ([(0, 0), (1, 0), (0, 1), (-1, 0), (0, -1), (1, 1), (-1, 1), (-1, -1), (1, -1)] : List (K × K)).map fun s (j : Fin d) => (if (j : ℕ) = 0 then s.1 else s.2) * (delta * ((lim j).2 - (lim j).1))
          else ((E.bb d).rotate ((E.bb d).length - 1)).map fun s (j : Fin d) => s j * (delta * ((lim j).2 - (lim j).1)))) ∧
      (∀ i, (D i).Nodup ∧ (D i).length = min e d ∧ ∀ a ∈ D i, ∀ b ∉ D i, |co i b 0| ≤ |co i a 0|) := by
  refine ⟨locals hd E delta lim X y g, dirs hd E delta lim e X y g, gePls_eq hd E delta lim e X y g, fun i => ?_, fun i => ?_, fun i => ?_⟩
  · exact (localPts_some hd (E.bb d) delta lim (X i) (y i) (g i)).choose_spec.2.1
  · rw [← roll_eq]
    exact (localPts_some hd (E.bb d) delta lim (X i) (y i) (g i)).choose_spec.2.2
  · set f : Fin d → K := fun j => |E.pls d ((locals hd E delta lim X y g i).map Prod.fst) ((locals hd E delta lim X y g i).map Prod.snd) j 0| with hf
    obtain ⟨hp, hs⟩ := hE d f
    have hlen : (E.argsort d f).length = d := by rw [hp.length_eq, List.length_finRange]
    rcases Nat.eq_zero_or_pos e with rfl | he
    · simp [dirs]
    · have hD : dirs hd E delta lim e X y g i = (E.argsort d f).drop (d - e) := by
        show (if (e : ℤ) = 0 then [] else lastSlice (E.argsort d f) e) = _
        rw [if_neg (by omega), lastSlice_pos _ _ he, hlen]
      rw [hD]
      have hn : (E.argsort d f).Nodup := hp.symm.nodup (List.nodup_finRange d)
      refine ⟨hn.sublist (List.drop_sublist _ _), by rw [List.length_drop, hlen]; omega, fun a ha b hb => ?_⟩
      have hbt : b ∈ (E.argsort d f).take (d - e) := by
        have : b ∈ E.argsort d f := hp.symm.mem_iff.1 (List.mem_finRange b)
        rw [← List.take_append_drop (d - e) (E.argsort d f), List.mem_append] at this
        exact this.resolve_right hb
      rw [← List.take_append_drop (d - e) (E.argsort d f), List.pairwise_append] at hs
      exact hs.2.2 b hbt a ha

/-- **C78** The coefficients do not depend on the signs the PLS routine gives to components: two routines whose coefficients agree up to sign give the same coefficients and the same extra points. -/
theorem C78_sign (E E' : Ext K h) (hbb : E.bb = E'.bb) (has : E.argsort = E'.argsort) (hpls : ∀ d P v j c, |E.pls d P v j c| = |E'.pls d P v j c|)
    (delta : K) (lim : Fin d → K × K) (e : ℤ) (pts : Fin d → Option (List K)) (data : List ((Fin d → K) × K)) :
    gePls E delta lim e pts data = gePls E' delta lim e pts data := by
  have key : ∀ (l : List ((Fin d → K) × K)) k, (points E delta lim e pts k l).map (fun r => r.map fun a => ((fun j c => |a.1 j c| : Fin d → Fin (h + 1) → K), a.2)) =
      (points E' delta lim e pts k l).map (fun r => r.map fun a => ((fun j c => |a.1 j c| : Fin d → Fin (h + 1) → K), a.2)) := by
    intro l
    induction l with
    | nil => intro k; rfl
    | cons w l ih =>
      intro k
      have ih' := ih (k + 1)
      simp only [points, point, hbb, has]
      cases gradAt pts k with
      | none => rfl
      | some g =>
        simp only [Option.bind_some]
        cases localPts d (E'.bb d) delta lim w.1 w.2 g with
        | none => rfl
        | some L =>
          simp only [Option.bind_some, Option.map_some, hpls]
          generalize points E delta lim e pts (k + 1) l = p at ih' ⊢
          generalize points E' delta lim e pts (k + 1) l = p' at ih' ⊢
          cases p with
          | none => cases p' with
            | none => rfl
            | some r' => simp at ih'
          | some r => cases p' with
            | none => simp at ih'
            | some r' =>
              simp only [Option.map_some, Option.some.injEq] at ih'
              simp only [Option.map_some, List.map_cons, ih', hpls]
  have h0 := key data 0
  unfold gePls
  generalize points E delta lim e pts 0 data = p at h0 ⊢
  generalize points E' delta lim e pts 0 data = p' at h0 ⊢
  cases p with
  | none => cases p' with
    | none => rfl
    | some r' => simp at h0
  | some r => cases p' with
    | none => simp at h0
    | some r' =>
      simp only [Option.map_some, Option.some.injEq] at h0 ⊢
      refine Prod.ext ?_ ?_
      · funext j c
        have : r.map (fun a => |a.1 j c|) = r'.map fun a => |a.1 j c| := by
          have := congrArg (List.map fun a : (Fin d → Fin (h + 1) → K) × List ((Fin d → K) × K) => a.1 j c) h0
          simpa [List.map_map, Function.comp_def] using this
        simp only [this]
      · have := congrArg (List.flatMap fun a : (Fin d → Fin (h + 1) → K) × List ((Fin d → K) × K) => a.2) h0
        simpa [List.flatMap_map] using this

/-- **C78** With one input, or when a derivative was not given, or was given at fewer points, `ge_compute_pls` raises (if there is a training point). -/
theorem C78_raises (E : Ext K h) (delta : K) (lim : Fin d → K × K) (e : ℤ) (pts : Fin d → Option (List K)) (data : List ((Fin d → K) × K)) (hn : data ≠ [])
    (hbad : d ≤ 1 ∨ ∃ j, pts j = none ∨ ∃ l, pts j = some l ∧ l.length < data.length) : gePls E delta lim e pts data = none := by
  have hg : ∀ k j, (pts j = none ∨ ∃ l, pts j = some l ∧ l.length ≤ k) → gradAt pts k = none := by
    intro k j hj
    unfold gradAt
    rw [if_neg]
    intro hall
    have := List.all_eq_true.1 hall j (List.mem_finRange j)
    rcases hj with hj | ⟨l, hj, hl⟩
    · simp [hj] at this
    · simp [hj] at this; omega
  have hloc : d ≤ 1 → ∀ k x y, point E delta lim e pts k x y = none := by
    intro hd k x y
    unfold point
    cases gradAt pts k with
    | none => rfl
    | some g =>
      match d, hd with
      | 0, _ => rfl
      | 1, _ => rfl
  have key : ∀ (l : List ((Fin d → K) × K)) k, l ≠ [] → (d ≤ 1 ∨ ∃ j, pts j = none ∨ ∃ q, pts j = some q ∧ q.length < k + l.length) → points E delta lim e pts k l = none := by
    intro l
    induction l with
    | nil => intro k h0; exact absurd rfl h0
    | cons w l ih =>
      intro k _ hb
      simp only [points]
      rcases hb with hb | ⟨j, hj⟩
      · rw [hloc hb]; rfl
      · by_cases hnow : pts j = none ∨ ∃ q, pts j = some q ∧ q.length ≤ k
        · rw [point, hg k j hnow]; rfl
        · push Not at hnow
          obtain ⟨q, hq, hlen⟩ := hj.resolve_left hnow.1
          have := hnow.2 q hq
          have hl : l ≠ [] := by
            rintro rfl
            simp at hlen; omega
          rw [ih (k + 1) hl (Or.inr ⟨j, Or.inr ⟨q, hq, by simp at hlen; omega⟩⟩)]
          cases point E delta lim e pts k w.1 w.2 <;> rfl
  unfold gePls
  rw [key data 0 hn (by simpa using hbad)]; rfl

/-- **C78** For data of an affine function with its exact gradient all local values and all extra values are exact. -/
theorem C78_affine (a : K) (b : Fin d → K) (x p : Fin d → K) : taylor x (a + ∑ j, b j * x j) b p = a + ∑ j, b j * p j := by
  unfold taylor
  rw [add_assoc, ← Finset.sum_add_distrib]
  congr 1
  exact Finset.sum_congr rfl fun j _ => by ring

/-- **C78** For a function that is twice differentiable along the direction with second derivative bounded by `M`, the value of an extra point misses the function by at most half of `M` times the squared step. -/
theorem C78_taylor_error {delta M : ℝ} {lim : Fin d → ℝ × ℝ} (x : Fin d → ℝ) (g : Fin d → ℝ) (j : Fin d) (f : (Fin d → ℝ) → ℝ) (φ' φ'' : ℝ → ℝ) (hs : 0 ≤ delta * ((lim j).2 - (lim j).1))
    (h1 : ∀ t, HasDerivAt (fun s => f (Function.update x j s)) (φ' t) t) (h2 : ∀ t, HasDerivAt φ' (φ'' t) t) (hg : g j = φ' (x j)) (hM : ∀ t, |φ'' t| ≤ M) :
    |taylor x (f x) g (moved delta lim x j) - f (moved delta lim x j)| ≤ M / 2 * (delta * ((lim j).2 - (lim j).1)) ^ 2 := by
  set s := delta * ((lim j).2 - (lim j).1) with hsd
  set φ := fun t => f (Function.update x j t) with hφ
  have e1 : taylor x (f x) g (moved delta lim x j) = φ (x j) + φ' (x j) * s := by
    rw [taylor_moved, hg, hφ, hsd]; simp; ring
  have e2 : f (moved delta lim x j) = φ (x j + s) := rfl
  have hM0 : 0 ≤ M := (abs_nonneg _).trans (hM 0)
  have hlip : ∀ t, |φ' t - φ' (x j)| ≤ M * |t - x j| := fun t => by
    have := Convex.norm_image_sub_le_of_norm_hasDerivWithin_le (f := φ') (f' := φ'') (s := Set.univ) (x := x j) (y := t) (C := M)
      (fun z _ => (h2 z).hasDerivWithinAt) (fun z _ => by rw [Real.norm_eq_abs]; exact hM z) convex_univ trivial trivial
    simpa [Real.norm_eq_abs] using this
  have hψ : ∀ t, HasDerivAt (fun t => φ t - φ (x j) - φ' (x j) * (t - x j)) (φ' t - φ' (x j)) t := fun t =>
    (((h1 t).sub_const _).sub (((hasDerivAt_id' t).sub_const _).const_mul (φ' (x j)))).congr_deriv (by ring)
  have hB : ∀ t, HasDerivAt (fun t => M / 2 * (t - x j) ^ 2) (M * (t - x j)) t := fun t =>
    ((((hasDerivAt_id' t).sub_const (x j)).pow 2).const_mul (M / 2)).congr_deriv (by simp; ring)
  have := image_norm_le_of_norm_deriv_right_le_deriv_boundary (f := fun t => φ t - φ (x j) - φ' (x j) * (t - x j)) (f' := fun t => φ' t - φ' (x j)) (a := x j) (b := x j + s)
    (fun t _ => (hψ t).continuousAt.continuousWithinAt) (fun t _ => (hψ t).hasDerivWithinAt) (B := fun t => M / 2 * (t - x j) ^ 2) (B' := fun t => M * (t - x j)) (by simp)
    (fun t => hB t) (fun t ht => by
      rw [Real.norm_eq_abs]
      have := hlip t
      rwa [abs_of_nonneg (sub_nonneg.2 ht.1)] at this) (x := x j + s) ⟨by linarith, le_rfl⟩
  rw [e1, e2, abs_sub_comm]
  simp only [Real.norm_eq_abs, add_sub_cancel_left] at this
  convert this using 2
  ring

/-- **C78** An extra point differs from its training point in one input only; with a training point on the upper bound (and positive step) it lies outside the design space. -/
theorem C78_outside (delta : K) (lim : Fin d → K × K) (x : Fin d → K) (j : Fin d) (hδ : 0 < delta) (hr : (lim j).1 < (lim j).2) (hx : x j = (lim j).2) :
    (∀ k, k ≠ j → moved delta lim x j k = x k) ∧ (lim j).2 < moved delta lim x j j := by
  refine ⟨fun k hk => by simp [moved, hk], ?_⟩
  simp only [moved, Function.update_self, hx]
  have := mul_pos hδ (sub_pos.2 hr)
  linarith

/-! ### Training, once and again -/

lemma extras_length (hd : 2 ≤ d) (E : Ext K h) (hE : ArgsortOk E) (delta : K) (lim : Fin d → K × K) (e : ℤ) (X : Fin n → Fin d → K) (y : Fin n → K) (g : Fin n → Fin d → K) :
    ∃ co l, gePls E delta lim e (allGrads g) (rows X y) = some (co, l) ∧ (l.length : ℤ) = n * (if 0 ≤ e then min e d else max (d + e) 0) := by
  refine ⟨_, _, gePls_eq hd E delta lim e X y g, ?_⟩
  have hD : ∀ i, ((dirs hd E delta lim e X y g i).length : ℤ) = if 0 ≤ e then min e d else max (d + e) 0 := fun i => by
    unfold dirs
    have hlen : ∀ f : Fin d → K, (E.argsort d f).length = d := fun f => by rw [(hE d f).1.length_eq, List.length_finRange]
    by_cases he : e = 0
    · subst he; simp
    · simp only [he, if_false]
      unfold lastSlice
      split_ifs <;> simp only [List.length_drop, hlen] <;> omega
  rw [List.length_flatMap]
  simp only [List.length_map]
  have : ((List.finRange n).map fun i => (dirs hd E delta lim e X y g i).length).sum = ∑ i, (dirs hd E delta lim e X y g i).length := by
    rw [← List.ofFn_eq_map, List.sum_ofFn]
  rw [this, Nat.cast_sum, Finset.sum_congr rfl fun i _ => hD i]
  simp

/-- **C78** After `set_training_values` the preparation of the first training succeeds exactly when `0 ≤ extra_points ≤ d`; the data trained on then are the training data followed by the extra points, and the
number of points has become their number. -/
theorem C78_prepare (hd : 2 ≤ d) (hn : 0 < n) (E : Ext K h) (hE : ArgsortOk E) (o : Obj K d) (X : Fin n → Fin d → K) (y : Fin n → K) (g : Fin n → Fin d → K) (hp : o.pts = allGrads g) :
    ((((o.setValues (rows X y)).prepare E).2.isSome) ↔ (0 ≤ o.extra ∧ o.extra ≤ d)) ∧
    ∀ co r, ((o.setValues (rows X y)).prepare E).2 = some (co, r) → ∃ l, gePls E o.delta o.lim o.extra (allGrads g) (rows X y) = some (co, l) ∧ r = rows X y ++ l ∧
      ((o.setValues (rows X y)).prepare E).1.nt = r.length := by
  obtain ⟨co, l, hl, hlen⟩ := extras_length hd E hE o.delta o.lim o.extra X y g
  have hrl : (rows X y).length = n := by simp [rows]
  have hcomp : (o.setValues (rows X y)).computePls E = some (if o.extra ≠ 0 then ({ o.setValues (rows X y) with nt := n * (o.extra + 1) }, co, rows X y ++ l) else (o.setValues (rows X y), co, rows X y)) := by
    unfold Obj.computePls
    simp only [Obj.setValues, hp, hl, Option.map_some, hrl]
  have hn' : (0 : ℤ) < n := by exact_mod_cast hn
  by_cases he : o.extra = 0
  · have l0 : l = [] := by
      rw [he] at hlen
      simp at hlen
      exact hlen
    have hprep : (o.setValues (rows X y)).prepare E = (o.setValues (rows X y), some (co, rows X y)) := by
      unfold Obj.prepare
      rw [hcomp]
      simp [he, Obj.setValues]
    rw [hprep]
    refine ⟨by simp [he], fun co' r hr => ?_⟩
    simp only [Option.some.injEq, Prod.mk.injEq] at hr
    obtain ⟨rfl, rfl⟩ := hr
    exact ⟨l, hl, by simp [l0], by simp [Obj.setValues]⟩
  · have hprep : (o.setValues (rows X y)).prepare E = ({ o.setValues (rows X y) with nt := n * (o.extra + 1) },
        if ((rows X y ++ l).length : ℤ) = n * (o.extra + 1) then some (co, rows X y ++ l) else none) := by
      unfold Obj.prepare
      rw [hcomp]
      simp [he]
    rw [hprep]
    have hlen' : ((rows X y ++ l).length : ℤ) = n + n * (if 0 ≤ o.extra then min o.extra d else max (d + o.extra) 0) := by
      rw [List.length_append, hrl, Nat.cast_add, hlen]
    refine ⟨?_, fun co' r hr => ?_⟩
    · rw [hlen']
      constructor
      · intro hs
        by_contra hbad
        rw [if_neg] at hs
        · simp at hs
        · intro heq
          have h3 : (if 0 ≤ o.extra then min o.extra (d : ℤ) else max (d + o.extra) 0) = o.extra := by
            have : (n : ℤ) * (if 0 ≤ o.extra then min o.extra (d : ℤ) else max (d + o.extra) 0) = n * o.extra := by linarith
            exact mul_left_cancel₀ hn'.ne' this
          split_ifs at h3 <;> omega
      · rintro ⟨h0, h1⟩
        rw [if_pos h0, min_eq_left h1, if_pos (by ring)]; rfl
    · simp only at hr
      split_ifs at hr with hc
      simp only [Option.some.injEq, Prod.mk.injEq] at hr
      obtain ⟨rfl, rfl⟩ := hr
      exact ⟨l, hl, rfl, by rw [hc]⟩

/-- **C78** Training again without setting the values anew raises as soon as extra points are used (and works without them). -/
theorem C78_train_twice (hd : 2 ≤ d) (hn : 0 < n) (E : Ext K h) (hE : ArgsortOk E) (o : Obj K d) (X : Fin n → Fin d → K) (y : Fin n → K) (g : Fin n → Fin d → K) (hp : o.pts = allGrads g)
    (h0 : 0 ≤ o.extra) : ((((o.setValues (rows X y)).prepare E).1.prepare E).2.isSome ↔ o.extra = 0) ∧
      ((((o.setValues (rows X y)).prepare E).1.setValues (rows X y)).prepare E).2 = ((o.setValues (rows X y)).prepare E).2 := by
  obtain ⟨co, l, hl, hlen⟩ := extras_length hd E hE o.delta o.lim o.extra X y g
  have hrl : (rows X y).length = n := by simp [rows]
  have hn' : (0 : ℤ) < n := by exact_mod_cast hn
  have hcomp : ∀ m : ℤ, ({ o with data := rows X y, nt := m } : Obj K d).computePls E =
      some (if o.extra ≠ 0 then ({ o with data := rows X y, nt := m * (o.extra + 1) }, co, rows X y ++ l) else ({ o with data := rows X y, nt := m }, co, rows X y)) := fun m => by
    unfold Obj.computePls
    simp only [hp, hl, Option.map_some]
  by_cases he : o.extra = 0
  · have hprep : ∀ m : ℤ, (({ o with data := rows X y, nt := m } : Obj K d).prepare E) =
        ({ o with data := rows X y, nt := m }, if (n : ℤ) = m then some (co, rows X y) else none) := fun m => by
      unfold Obj.prepare
      rw [hcomp]
      simp [he, hrl]
    have e1 : o.setValues (rows X y) = { o with data := rows X y, nt := n } := by simp [Obj.setValues, hrl]
    rw [e1, hprep]
    refine ⟨?_, ?_⟩
    · rw [hprep]; simp [he]
    · have : (({ o with data := rows X y, nt := n } : Obj K d).setValues (rows X y)) = { o with data := rows X y, nt := n } := by simp [Obj.setValues, hrl]
      rw [this, hprep]
  · have hprep : ∀ m : ℤ, (({ o with data := rows X y, nt := m } : Obj K d).prepare E) =
        ({ o with data := rows X y, nt := m * (o.extra + 1) }, if ((rows X y ++ l).length : ℤ) = m * (o.extra + 1) then some (co, rows X y ++ l) else none) := fun m => by
      unfold Obj.prepare
      rw [hcomp]
      simp [he]
    have e1 : o.setValues (rows X y) = { o with data := rows X y, nt := n } := by simp [Obj.setValues, hrl]
    rw [e1, hprep]
    refine ⟨?_, ?_⟩
    · rw [hprep]
      simp only [he, iff_false]
      rw [if_neg]
      · simp
      · rw [List.length_append, hrl, Nat.cast_add, hlen, if_pos h0]
        intro heq
        have h3 : 1 + min o.extra (d : ℤ) = (o.extra + 1) * (o.extra + 1) := by
          have : (n : ℤ) * (1 + min o.extra (d : ℤ)) = n * ((o.extra + 1) * (o.extra + 1)) := by linarith
          exact mul_left_cancel₀ hn'.ne' this
        have h4 : min o.extra (d : ℤ) ≤ o.extra := min_le_left _ _
        have h5 : 1 ≤ o.extra := by omega
        nlinarith
    · have : (({ o with data := rows X y, nt := (n : ℤ) * (o.extra + 1) } : Obj K d).setValues (rows X y)) = { o with data := rows X y, nt := n } := by simp [Obj.setValues, hrl]
      rw [this, hprep]

end SMT.Ge
