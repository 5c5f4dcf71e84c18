import Verif.Moe.Model
import Mathlib.Algebra.Order.BigOperators.Ring.Finset
import Mathlib.Algebra.Order.Field.Basic
import Mathlib.Algebra.Order.Chebyshev
import Mathlib.Algebra.BigOperators.Field
import Mathlib.Data.Real.Sqrt
import Mathlib.Data.List.Permutation
import Mathlib.Topology.Algebra.Monoid
import Mathlib.Topology.Algebra.Field
import Mathlib.Topology.Instances.Real.Lemmas
import Mathlib.Tactic.Linarith
import Mathlib.Tactic.Ring
import Mathlib.Tactic.FieldSimp
import Mathlib.Tactic.NormNum

set_option linter.unusedSectionVars false
set_option linter.unusedSimpArgs false
set_option linter.unusedVariables false

/-!
# C47, C48, C60: mixture of experts
-/
namespace SMT.Moe

/-! ## C47: splits and clusters -/
section data
variable {S : Type}

lemma filter_zip_every (q : ℕ) (hq : 0 < q) : ∀ (values : List S) (k j : ℕ),
    (((values.zipIdx k).filter fun p => p.2 % q == 0).map (·.1))[j]? = values[(q - k % q) % q + j * q]?
  | [], k, j => by simp
  | v :: vs, k, j => by
    have ih := filter_zip_every q hq vs (k + 1)
    rw [List.zipIdx_cons]
    by_cases hk : k % q = 0
    · have e0 : (q - k % q) % q = 0 := by rw [hk]; simp
      have hf : (((v, k) :: vs.zipIdx (k + 1)).filter fun p => p.2 % q == 0) = (v, k) :: ((vs.zipIdx (k + 1)).filter fun p => p.2 % q == 0) := by
        rw [List.filter_cons_of_pos]; simpa using hk
      rw [hf, List.map_cons, e0]
      cases j with
      | zero => simp
      | succ j =>
        rw [List.getElem?_cons_succ, ih j]
        have e1 : 0 + (j + 1) * q = ((q - (k + 1) % q) % q + j * q) + 1 := by
          have : (q - (k + 1) % q) % q + 1 = q := by
            rcases Nat.lt_or_ge 1 q with h1 | h1
            · have : (k + 1) % q = 1 := by rw [Nat.add_mod, hk, zero_add, Nat.mod_mod, Nat.mod_eq_of_lt h1]
              rw [this, Nat.mod_eq_of_lt (by omega)]; omega
            · have : q = 1 := by omega
              subst this; simp [Nat.mod_one]
          rw [Nat.succ_mul]; omega
        rw [e1, List.getElem?_cons_succ]
    · have hf : (((v, k) :: vs.zipIdx (k + 1)).filter fun p => p.2 % q == 0) = ((vs.zipIdx (k + 1)).filter fun p => p.2 % q == 0) := by
        rw [List.filter_cons_of_neg]; simpa using hk
      rw [hf, ih j]
      have hlt : k % q < q := Nat.mod_lt _ hq
      have e1 : (q - k % q) % q + j * q = ((q - (k + 1) % q) % q + j * q) + 1 := by
        have h1 : (q - k % q) % q = q - k % q := Nat.mod_eq_of_lt (by omega)
        have h2 : (k + 1) % q = if k % q + 1 = q then 0 else k % q + 1 := by
          rw [Nat.add_mod]
          split
          · rename_i h
            rcases Nat.lt_or_ge 1 q with h1 | h1
            · rw [Nat.mod_eq_of_lt h1, h, Nat.mod_self]
            · omega
          · rename_i h
            rw [Nat.mod_eq_of_lt (show 1 < q by omega), Nat.mod_eq_of_lt (by omega)]
        rw [h1, h2]
        split
        · rw [Nat.sub_zero, Nat.mod_self]; omega
        · rename_i hne
          have h3 : (q - (k % q + 1)) % q = q - (k % q + 1) := Nat.mod_eq_of_lt (by omega)
          rw [h3]; omega
      rw [e1, List.getElem?_cons_succ]

lemma mask_eq (values : List S) (q : ℕ) (p : S × ℕ) (hp : p ∈ values.zipIdx) :
    decide (p.2 ∈ (List.range values.length).filter fun i => i % q == 0) = (p.2 % q == 0) := by
  have : p.2 < values.length := by
    have := List.snd_lt_of_mem_zipIdx hp; simpa using this
  simp [List.mem_filter, this]
  by_cases h : p.2 % q = 0 <;> simp [h]

lemma extract_fst (values : List S) (q : ℕ) :
    (extractPart values q).1 = (values.zipIdx.filter fun p => p.2 % q == 0).map (·.1) := by
  unfold extractPart
  simp only
  congr 1
  exact List.filter_congr fun p hp => mask_eq values q p hp

lemma extract_snd (values : List S) (q : ℕ) :
    (extractPart values q).2 = (values.zipIdx.filter fun p => !(p.2 % q == 0)).map (·.1) := by
  unfold extractPart
  simp only
  congr 1
  exact List.filter_congr fun p hp => by rw [mask_eq values q p hp]

lemma zipIdx_fst (values : List S) : values.zipIdx.map (·.1) = values := List.zipIdx_map_fst 0 values

/-- **C47** The test/training split of any sample list with any step `q ≥ 1` is a partition: both parts keep the order of the samples, together they are
exactly the samples, and the test part consists of the samples number `0, q, 2q, …`. -/
theorem C47_split_partition (values : List S) (q : ℕ) (hq : 0 < q) :
    ((extractPart values q).1 ++ (extractPart values q).2).Perm values ∧
    (extractPart values q).1.Sublist values ∧ (extractPart values q).2.Sublist values ∧
    ∀ j, (extractPart values q).1[j]? = values[j * q]? := by
  refine ⟨?_, ?_, ?_, ?_⟩
  · rw [extract_fst, extract_snd, ← List.map_append]
    have h := (List.filter_append_perm (fun p : S × ℕ => p.2 % q == 0) values.zipIdx).map (·.1)
    rwa [zipIdx_fst] at h
  · rw [extract_fst]
    conv_rhs => rw [← zipIdx_fst values]
    exact List.filter_sublist.map _
  · rw [extract_snd]
    conv_rhs => rw [← zipIdx_fst values]
    exact List.filter_sublist.map _
  · intro j
    rw [extract_fst, filter_zip_every q hq]
    simp

/-- **C47** So one sample in `q` (rounded up) is set aside for testing. -/
theorem C47_split_sizes (values : List S) (q : ℕ) (hq : 0 < q) :
    (extractPart values q).1.length = (values.length + q - 1) / q ∧
    (extractPart values q).1.length + (extractPart values q).2.length = values.length := by
  obtain ⟨h1, -, -, h4⟩ := C47_split_partition values q hq
  refine ⟨?_, by rw [← List.length_append]; exact h1.length_eq⟩
  have key : ∀ j, j < (extractPart values q).1.length ↔ j * q < values.length := by
    intro j
    rw [← not_le, ← List.getElem?_eq_none_iff, h4, List.getElem?_eq_none_iff, not_le]
  have key2 : ∀ j, j < (values.length + q - 1) / q ↔ j * q < values.length := by
    intro j
    rw [Nat.lt_iff_add_one_le, Nat.le_div_iff_mul_le hq, Nat.add_mul, one_mul]
    omega
  apply Nat.le_antisymm
  · by_contra hc
    push Not at hc
    have := (key _).1 hc
    have := (key2 _).2 this
    omega
  · by_contra hc
    push Not at hc
    have := (key2 _).1 hc
    have := (key _).2 this
    omega

lemma fold_none (l : List (S × ℕ)) :
    l.foldl (fun (st : Option (List (List S))) vc => st.bind fun cl => appendTo cl vc.2 vc.1) none = none := by
  induction l with
  | nil => rfl
  | cons a l ih => exact ih

lemma cluster_fold : ∀ (l : List (S × ℕ)) (cl : List (List S)),
    ((∀ p ∈ l, p.2 < cl.length) → ∃ r, l.foldl (fun st vc => st.bind fun cl => appendTo cl vc.2 vc.1) (some cl) = some r ∧ r.length = cl.length ∧
      ∀ c, r[c]? = cl[c]?.map fun old => old ++ (l.filter fun p => p.2 == c).map (·.1)) ∧
    ((∃ p ∈ l, cl.length ≤ p.2) → l.foldl (fun st vc => st.bind fun cl => appendTo cl vc.2 vc.1) (some cl) = none)
  | [], cl => by
    refine ⟨fun _ => ⟨cl, rfl, rfl, fun c => by simp⟩, by simp⟩
  | (v, c0) :: l, cl => by
    simp only [List.foldl_cons, Option.bind_some]
    by_cases h0 : c0 < cl.length
    · have ha : appendTo cl c0 v = some (cl.modify c0 (· ++ [v])) := by simp [appendTo, h0]
      rw [ha]
      obtain ⟨ih1, ih2⟩ := cluster_fold l (cl.modify c0 (· ++ [v]))
      constructor
      · intro h
        obtain ⟨r, hr, hl, hc⟩ := ih1 (fun p hp => by
          have := h p (by simp [hp]); simpa using this)
        refine ⟨r, hr, by simpa using hl, fun c => ?_⟩
        rw [hc c, List.getElem?_modify]
        by_cases hcc : c0 = c
        · subst hcc
          simp [List.filter_cons, Option.map_map, Function.comp_def]
        · have : (c0 == c) = false := by simpa using hcc
          simp [List.filter_cons, this, hcc]
      · rintro ⟨p, hp, hle⟩
        apply ih2
        rcases List.mem_cons.1 hp with rfl | hp
        · simp at hle; omega
        · exact ⟨p, hp, by simpa using hle⟩
    · have ha : appendTo cl c0 v = none := by simp [appendTo, h0]
      rw [ha, fold_none]
      constructor
      · intro h; exact absurd (h (v, c0) (by simp)) h0
      · intro _; rfl

lemma filter_flatten_perm : ∀ (n : ℕ) (l : List (S × ℕ)), (∀ p ∈ l, p.2 < n) →
    (((List.range n).map fun c => (l.filter fun p => p.2 == c).map (·.1)).flatten).Perm (l.map (·.1)) := by
  intro n
  induction n with
  | zero =>
    intro l h
    cases l with
    | nil => simp
    | cons p l => exact absurd (h p (by simp)) (by omega)
  | succ n ih =>
    intro l h
    rw [List.range_succ, List.map_append, List.flatten_append]
    simp only [List.map_cons, List.map_nil, List.flatten_cons, List.flatten_nil, List.append_nil]
    have h1 := ih (l.filter fun p => !(p.2 == n)) (fun p hp => by
      have hm := List.mem_filter.1 hp
      have := h p hm.1
      have h2 : p.2 ≠ n := by simpa using hm.2
      omega)
    have e : ∀ c ∈ List.range n, ((l.filter fun p => !(p.2 == n)).filter fun p => p.2 == c).map (·.1) = (l.filter fun p => p.2 == c).map (·.1) := by
      intro c hc
      rw [List.filter_filter]
      congr 1
      apply List.filter_congr
      intro p _
      have : c < n := by simpa using hc
      by_cases hpc : p.2 = c
      · have : ¬ p.2 = n := by omega
        simp [hpc] ; omega
      · simp [hpc]
    rw [List.map_congr_left e] at h1
    have h2 := (List.filter_append_perm (fun p : S × ℕ => !(p.2 == n)) l).map (·.1)
    rw [List.map_append] at h2
    refine List.Perm.trans ?_ h2
    refine (h1.append (List.Perm.refl _)).trans ?_
    have : (l.filter fun p => p.2 == n) = l.filter fun p => !(!(p.2 == n)) := by
      apply List.filter_congr; intro p _; simp
    rw [this]

/-- **C47** Clustering puts every sample in exactly one cluster: whenever it succeeds, cluster `c` consists of the samples labelled `c` in their original order, and the clusters
together are exactly the samples. It succeeds exactly when there is one label per sample and all labels are valid. -/
theorem C47_clusters_partition (n : ℕ) (values : List S) (labels : List ℕ) :
    (∀ r, clusterValues n values labels = some r → r.length = n ∧ r.flatten.Perm values ∧
      ∀ c < n, r[c]? = some (((values.zip labels).filter fun p => p.2 == c).map (·.1))) ∧
    ((clusterValues n values labels).isSome ↔ values.length = labels.length ∧ ∀ l ∈ labels, l < n) := by
  have hmem : values.length = labels.length → ((∀ p ∈ values.zip labels, p.2 < n) ↔ ∀ l ∈ labels, l < n) := by
    intro hl
    constructor
    · intro h l hlm
      obtain ⟨i, hi, rfl⟩ := List.getElem_of_mem hlm
      exact h (values[i]'(by omega), labels[i]) (by
        rw [List.mem_iff_getElem]; exact ⟨i, by simp [hl, hi], by simp⟩)
    · intro h p hp
      exact h _ (List.of_mem_zip hp).2
  obtain ⟨f1, f2⟩ := cluster_fold (values.zip labels) (List.replicate n [])
  constructor
  · intro r hr
    unfold clusterValues at hr
    split at hr
    · rename_i hl
      have hok : ∀ p ∈ values.zip labels, p.2 < n := by
        by_contra hc
        push Not at hc
        obtain ⟨p, hp, hle⟩ := hc
        rw [f2 ⟨p, hp, by simpa using hle⟩] at hr
        simp at hr
      obtain ⟨r', h1, h2, h3⟩ := f1 (by simpa using hok)
      rw [h1] at hr; simp at hr; subst hr
      have hget : ∀ c < n, r'[c]? = some (((values.zip labels).filter fun p => p.2 == c).map (·.1)) := by
        intro c hc
        rw [h3 c]
        simp [List.getElem?_replicate, hc]
      refine ⟨by simpa using h2, ?_, hget⟩
      have e : r' = (List.range n).map fun c => ((values.zip labels).filter fun p => p.2 == c).map (·.1) := by
        apply List.ext_getElem?
        intro c
        by_cases hc : c < n
        · rw [hget c hc]; simp [hc]
        · rw [List.getElem?_eq_none (by simp at h2; omega), List.getElem?_eq_none (by simp; omega)]
      rw [e]
      have := filter_flatten_perm n (values.zip labels) hok
      rwa [List.map_fst_zip (by omega)] at this
    · simp at hr
  · unfold clusterValues
    split
    · rename_i hl
      rw [hmem hl |>.symm.eq] at *
      constructor
      · intro h
        refine ⟨hl, ?_⟩
        by_contra hc
        push Not at hc
        obtain ⟨p, hp, hle⟩ := hc
        rw [f2 ⟨p, hp, by simpa using hle⟩] at h
        simp at h
      · intro h
        obtain ⟨r', h1, -⟩ := f1 (by simpa using h.2)
        rw [h1]; rfl
    · rename_i hl
      simp [hl]

/-- **C47 (violation)** A clustering criterion `ct` of two or more samples can never be used: training raises. Without it, the outputs are used. -/
theorem C47_criterion_unusable (t : S → Bool) (y ct : List S) (h : 2 ≤ ct.length) :
    criterion (some ct) t y = none ∧ criterion none t y = some y := by
  match ct, h with
  | _ :: _ :: _, _ => exact ⟨rfl, rfl⟩

/-- **C47** The number of clusters is accepted exactly when the row numbers agree and it is at most `⌊n/10⌋ + 1`. -/
theorem C47_check_inputs (nx ny nc k : ℕ) : checkInputs nx ny nc k = true ↔ nx = ny ∧ ny = nc ∧ k ≤ nx / 10 + 1 := by
  simp [checkInputs, and_assoc]

end data

/-! ## C48: recombination -/
section recomb
variable {X K : Type} [Field K] [LinearOrder K] [IsStrictOrderedRing K]

/-- **C48** Cluster probabilities are non-negative, and sum to 1 as soon as some weighted density is positive (or there is one cluster). -/
theorem C48_probabilities {k : ℕ} (weights : Fin k → K) (pdf : Fin k → X → K) (hw : ∀ j, 0 ≤ weights j) (hp : ∀ j x, 0 ≤ pdf j x) (x : X) :
    (∀ j, 0 ≤ proba weights pdf x j) ∧
    ((k = 1 ∨ ∃ j, 0 < weights j * pdf j x) → ∑ j, proba weights pdf x j = 1) ∧
    (k ≠ 1 → (∀ j, weights j * pdf j x = 0) → ∀ j, proba weights pdf x j = 0) := by
  have hnn : ∀ j, 0 ≤ weights j * pdf j x := fun j => mul_nonneg (hw j) (hp j x)
  refine ⟨fun j => ?_, ?_, ?_⟩
  · unfold proba
    split
    · exact zero_le_one
    · unfold probaOne
      dsimp only
      split
      · rename_i h; exact div_nonneg (hnn j) h.le
      · exact hnn j
  · intro h
    unfold proba
    by_cases hk : k = 1
    · subst hk; simp
    · simp only [hk, if_false]
      obtain ⟨j, hj⟩ := h.resolve_left hk
      have hpos : 0 < ∑ j, weights j * pdf j x := Finset.sum_pos' (fun j _ => hnn j) ⟨j, Finset.mem_univ _, hj⟩
      unfold probaOne
      simp only [gt_iff_lt, hpos, if_true]
      rw [← Finset.sum_div, div_self hpos.ne']
  · intro hk h j
    unfold proba probaOne
    simp [hk, h]

/-- **C48** The smooth prediction lies between any bounds that hold for all expert predictions at that point: it is a convex combination. -/
theorem C48_smooth_convex {k : ℕ} (weights : Fin k → K) (pdf : Fin k → X → K) (experts : Fin k → X → K) (hw : ∀ j, 0 ≤ weights j)
    (hp : ∀ j x, 0 ≤ pdf j x) (x : X) (h : k = 1 ∨ ∃ j, 0 < weights j * pdf j x) (lo hi : K) (hlo : ∀ j, lo ≤ experts j x) (hhi : ∀ j, experts j x ≤ hi) :
    lo ≤ smooth weights pdf experts x ∧ smooth weights pdf experts x ≤ hi := by
  obtain ⟨h0, h1, -⟩ := C48_probabilities weights pdf hw hp x
  have hs := h1 h
  unfold smooth
  constructor
  · calc lo = ∑ j, lo * proba weights pdf x j := by rw [← Finset.mul_sum, hs, mul_one]
      _ ≤ _ := Finset.sum_le_sum fun j _ => mul_le_mul_of_nonneg_right (hlo j) (h0 j)
  · calc ∑ j, experts j x * proba weights pdf x j ≤ ∑ j, hi * proba weights pdf x j :=
        Finset.sum_le_sum fun j _ => mul_le_mul_of_nonneg_right (hhi j) (h0 j)
      _ = hi := by rw [← Finset.mul_sum, hs, mul_one]

/-- **C48 (limit)** Far from all clusters (every density underflows to 0) the smooth prediction is 0, whatever the experts say. -/
theorem C48_smooth_zero_far {k : ℕ} (weights : Fin k → K) (pdf : Fin k → X → K) (experts : Fin k → X → K) (x : X) (hk : k ≠ 1)
    (h : ∀ j, weights j * pdf j x = 0) : smooth weights pdf experts x = 0 := by
  unfold smooth proba probaOne
  simp [hk, h]

/-- **C48** The smooth variance is non-negative and at most the largest expert variance. -/
theorem C48_smooth_variance {k : ℕ} (weights : Fin k → K) (pdf : Fin k → X → K) (vars : Fin k → X → K) (hw : ∀ j, 0 ≤ weights j)
    (hp : ∀ j x, 0 ≤ pdf j x) (x : X) (hv : ∀ j, 0 ≤ vars j x) :
    0 ≤ smoothVar weights pdf vars x ∧
    ((k = 1 ∨ ∃ j, 0 < weights j * pdf j x) → ∀ hi, (∀ j, vars j x ≤ hi) → smoothVar weights pdf vars x ≤ hi) := by
  obtain ⟨h0, h1, -⟩ := C48_probabilities weights pdf hw hp x
  unfold smoothVar
  refine ⟨Finset.sum_nonneg fun j _ => mul_nonneg (hv j) (sq_nonneg _), fun h hi hhi => ?_⟩
  have hs := h1 h
  have hle : ∀ j, proba weights pdf x j ≤ 1 := fun j => by
    rw [← hs]; exact Finset.single_le_sum (fun i _ => h0 i) (Finset.mem_univ j)
  have hhi0 : 0 ≤ hi := by
    by_contra hc; push Not at hc
    have hk : ∃ j : Fin k, True := by
      rcases h with h | ⟨j, _⟩
      · subst h; exact ⟨0, trivial⟩
      · exact ⟨j, trivial⟩
    obtain ⟨j, -⟩ := hk
    linarith [hv j, hhi j]
  calc ∑ j, vars j x * proba weights pdf x j ^ 2 ≤ ∑ j, hi * proba weights pdf x j := by
        refine Finset.sum_le_sum fun j _ => ?_
        have : proba weights pdf x j ^ 2 ≤ proba weights pdf x j := by nlinarith [h0 j, hle j]
        calc _ ≤ hi * proba weights pdf x j ^ 2 := mul_le_mul_of_nonneg_right (hhi j) (sq_nonneg _)
          _ ≤ _ := mul_le_mul_of_nonneg_left this hhi0
    _ = hi := by rw [← Finset.mul_sum, hs, mul_one]

lemma argmax_fold {k : ℕ} (f : Fin (k + 1) → K) : ∀ (l : List (Fin (k + 1))) (b : Fin (k + 1)),
    (∀ i ∈ l, f i ≤ f (l.foldl (fun b i => if f b < f i then i else b) b)) ∧ f b ≤ f (l.foldl (fun b i => if f b < f i then i else b) b)
  | [], b => by simp
  | a :: l, b => by
    simp only [List.foldl_cons, List.mem_cons, forall_eq_or_imp]
    obtain ⟨h1, h2⟩ := argmax_fold f l (if f b < f a then a else b)
    have h3 : f a ≤ f (if f b < f a then a else b) := by split; exact le_rfl; rename_i h; exact not_lt.1 h
    have h4 : f b ≤ f (if f b < f a then a else b) := by split; rename_i h; exact h.le; exact le_rfl
    exact ⟨⟨h3.trans h2, h1⟩, h4.trans h2⟩

lemma argmax_ge {k : ℕ} (f : Fin (k + 1) → K) (j : Fin (k + 1)) : f j ≤ f (argmax f) :=
  (argmax_fold f (List.finRange (k + 1)) 0).1 j (List.mem_finRange j)

/-- **C48** The hard prediction (value or variance) is that of an expert whose cluster is most probable at the point. -/
theorem C48_hard_most_probable {k : ℕ} (weights : Fin (k + 1) → K) (pdf : Fin (k + 1) → X → K) (pred : Fin (k + 1) → X → K) (x : X) :
    ∃ j, hard weights pdf pred x = pred j x ∧ ∀ i, proba weights pdf x i ≤ proba weights pdf x j :=
  ⟨_, rfl, argmax_ge _⟩

/-- **C48** Where densities are positive this is the largest weighted density. -/
theorem C48_hard_largest_density {k : ℕ} (weights : Fin (k + 2) → K) (pdf : Fin (k + 2) → X → K) (pred : Fin (k + 2) → X → K) (x : X) :
    ∃ j, hard weights pdf pred x = pred j x ∧ ∀ i, weights i * pdf i x ≤ weights j * pdf j x := by
  obtain ⟨j, h1, h2⟩ := C48_hard_most_probable weights pdf pred x
  refine ⟨j, h1, fun i => ?_⟩
  have := h2 i
  unfold proba probaOne at this
  simp only [show ¬ (k + 2 = 1) by omega, if_false] at this
  split at this
  · rename_i h
    exact (div_le_div_iff_of_pos_right h).1 this
  · exact this

/-- **C48** With one cluster both predictions are those of the single expert. -/
theorem C48_single_cluster (weights : Fin 1 → K) (pdf : Fin 1 → X → K) (pred : Fin 1 → X → K) (x : X) :
    smooth weights pdf pred x = pred 0 x ∧ smoothVar weights pdf pred x = pred 0 x ∧ hard weights pdf pred x = pred 0 x := by
  refine ⟨by simp [smooth, proba], by simp [smoothVar, proba], ?_⟩
  unfold hard
  have h0 : ∀ a : Fin 1, a = 0 := Fin.eq_zero
  exact congrArg (fun a => pred a x) (h0 _)

/-- **C48** If all experts agree at a point the smooth prediction is their common value. -/
theorem C48_experts_agree {k : ℕ} (weights : Fin k → K) (pdf : Fin k → X → K) (experts : Fin k → X → K) (hw : ∀ j, 0 ≤ weights j)
    (hp : ∀ j x, 0 ≤ pdf j x) (x : X) (h : k = 1 ∨ ∃ j, 0 < weights j * pdf j x) (v : K) (hv : ∀ j, experts j x = v) :
    smooth weights pdf experts x = v := by
  obtain ⟨h1, h2⟩ := C48_smooth_convex weights pdf experts hw hp x h v v (fun j => (hv j).ge) (fun j => (hv j).le)
  exact le_antisymm h2 h1

end recomb

/-- **C48** Smooth recombination is continuous ("continuous cluster transition"): at every point where some weighted density is positive, if the
densities and the experts are continuous there. -/
theorem C48_smooth_continuous {X : Type} [TopologicalSpace X] {k : ℕ} (weights : Fin k → ℝ) (pdf : Fin k → X → ℝ) (experts : Fin k → X → ℝ)
    (hw : ∀ j, 0 ≤ weights j) (hp : ∀ j x, 0 ≤ pdf j x) (x : X) (h : ∃ j, 0 < weights j * pdf j x)
    (hc : ∀ j, ContinuousAt (pdf j) x) (he : ∀ j, ContinuousAt (experts j) x) : ContinuousAt (smooth weights pdf experts) x := by
  have hprob : ∀ j, ContinuousAt (fun y => proba weights pdf y j) x := by
    intro j
    by_cases hk : k = 1
    · unfold proba; simp only [hk, if_true]; exact continuousAt_const
    · have hsum : ContinuousAt (fun y => ∑ j, weights j * pdf j y) x :=
        tendsto_finsetSum _ fun j _ => (hc j).const_mul (weights j)
      obtain ⟨j0, hj0⟩ := h
      have hpos : 0 < ∑ j, weights j * pdf j x :=
        Finset.sum_pos' (fun j _ => mul_nonneg (hw j) (hp j x)) ⟨j0, Finset.mem_univ _, hj0⟩
      have hev : (fun y => proba weights pdf y j) =ᶠ[nhds x] fun y => weights j * pdf j y / ∑ j, weights j * pdf j y := by
        filter_upwards [hsum.eventually_const_lt hpos] with y hy
        unfold proba probaOne
        simp [hk, hy]
      rw [continuousAt_congr hev]
      exact ((hc j).const_mul _).div hsum hpos.ne'
  unfold smooth
  exact tendsto_finsetSum _ fun j _ => (he j).mul (hprob j)

/-! ## C60: choice of experts and of the Heaviside factor -/
section choice
variable {K : Type} [Field K] [LinearOrder K] [IsStrictOrderedRing K]

lemma bestOf_fold : ∀ (l : List (String × K)) (b : String × K),
    ∃ r, l.foldl bestStep (some b) = some r ∧
      (r = b ∨ (r.2 < b.2 ∧ ∃ pre post, l = pre ++ r :: post ∧ ∀ s ∈ pre, r.2 < s.2)) ∧ r.2 ≤ b.2 ∧ (∀ s ∈ l, r.2 ≤ s.2)
  | [], b => ⟨b, rfl, Or.inl rfl, le_rfl, by simp⟩
  | a :: l, b => by
    simp only [List.foldl_cons]
    by_cases h : a.2 < b.2
    · obtain ⟨r, h1, h2, h3, h4⟩ := bestOf_fold l a
      refine ⟨r, by rw [← h1]; simp [bestStep, h], ?_, h3.trans h.le, List.forall_mem_cons.2 ⟨h3, h4⟩⟩
      rcases h2 with rfl | ⟨h2, pre, post, he, hp⟩
      · exact Or.inr ⟨h, [], l, rfl, by simp⟩
      · exact Or.inr ⟨h2.trans h, a :: pre, post, by rw [he]; rfl, List.forall_mem_cons.2 ⟨h2, hp⟩⟩
    · obtain ⟨r, h1, h2, h3, h4⟩ := bestOf_fold l b
      refine ⟨r, by rw [← h1]; simp [bestStep, h], ?_, h3, List.forall_mem_cons.2 ⟨h3.trans (not_lt.1 h), h4⟩⟩
      rcases h2 with rfl | ⟨h2, pre, post, he, hp⟩
      · exact Or.inl rfl
      · exact Or.inr ⟨h2, a :: pre, post, by rw [he]; rfl, List.forall_mem_cons.2 ⟨lt_of_lt_of_le h2 (not_lt.1 h), hp⟩⟩

/-- **C60** The chosen expert has the least score, and is the first tried among those; there is one exactly when some expert was tried. -/
theorem C60_best_has_least_score (scores : List (String × K)) :
    (scores = [] ↔ bestOf scores = none) ∧
    ∀ b, bestOf scores = some b → (∀ s ∈ scores, b.2 ≤ s.2) ∧ ∃ pre post, scores = pre ++ b :: post ∧ ∀ s ∈ pre, b.2 < s.2 := by
  cases scores with
  | nil => exact ⟨by simp [bestOf], by simp [bestOf]⟩
  | cons s t =>
    obtain ⟨r, h1, h2, h3, h4⟩ := bestOf_fold t s
    have hb : bestOf (s :: t) = some r := h1
    rw [hb]
    refine ⟨by simp, fun b hbr => ?_⟩
    have hbr : r = b := by simpa using hbr
    subst hbr
    refine ⟨List.forall_mem_cons.2 ⟨h3, h4⟩, ?_⟩
    rcases h2 with rfl | ⟨h2, pre, post, he, hp⟩
    · exact ⟨[], t, rfl, by simp⟩
    · exact ⟨s :: pre, post, by rw [he]; rfl, List.forall_mem_cons.2 ⟨h2, hp⟩⟩

/-- **C60** Exactly the registered experts that pass every restriction are tried. -/
theorem C60_enabled (registered : List (String × Bool × Bool)) (names : List String) (derivs vars : Bool) (allow deny : List String) (n : String) :
    n ∈ enabledExperts registered names derivs vars allow deny ↔
      n ∈ names ∧ (allow = [] ∨ n ∈ allow) ∧ n ∉ deny ∧
      ∃ d v, (n, d, v) ∈ registered ∧ (derivs = true → d = true) ∧ (vars = true → v = true) := by
  unfold enabledExperts
  simp only [List.mem_map]
  constructor
  · rintro ⟨⟨m, d, v⟩, hm, rfl⟩
    have step : ∀ (c : Prop) [Decidable c] (l : List (String × Bool × Bool)) (f : String × Bool × Bool → Bool),
        (m, d, v) ∈ (if c then l.filter f else l) ↔ (m, d, v) ∈ l ∧ (c → f (m, d, v) = true) := by
      intro c _ l f
      by_cases hc : c
      · rw [if_pos hc, List.mem_filter]; simp [hc]
      · rw [if_neg hc]; simp [hc]
    rw [step, step, step, step, List.mem_filter] at hm
    obtain ⟨⟨⟨⟨⟨m1, m2⟩, m3⟩, m4⟩, m5⟩, m6⟩ := hm
    refine ⟨of_decide_eq_true m2, ?_, ?_, d, v, m1, m3, m4⟩
    · by_cases ha : allow = []
      · exact Or.inl ha
      · exact Or.inr (of_decide_eq_true (m5 ha))
    · intro hc
      have hne : deny ≠ [] := by rintro rfl; simp at hc
      have := m6 hne
      simp [hc] at this
  · rintro ⟨h1, h2, h3, d, v, h4, h5, h6⟩
    refine ⟨(n, d, v), ?_, rfl⟩
    by_cases ha : allow = [] <;> by_cases hd : deny = [] <;> cases derivs <;> cases vars <;> simp_all [List.mem_filter]

/-- **C60 (violation)** When the restrictions exclude every expert, nothing is raised at that point: the list is simply empty (the choice then fails, see
`C60_best_has_least_score`). -/
theorem C60_empty_selection_not_reported (registered : List (String × Bool × Bool)) (names : List String) (derivs vars : Bool) (allow : List String) :
    enabledExperts registered names derivs vars allow names = [] := by
  rw [List.eq_nil_iff_forall_not_mem]
  intro n hn
  rw [C60_enabled] at hn
  exact hn.2.2.1 hn.1

lemma firstLeast_spec (err : K → K) : ∀ (l : List K) (b : K),
    (firstLeast err b l = b ∨ firstLeast err b l ∈ l) ∧ err (firstLeast err b l) ≤ err b ∧ ∀ h ∈ l, err (firstLeast err b l) ≤ err h
  | [], b => ⟨Or.inl rfl, le_rfl, by simp⟩
  | a :: l, b => by
    unfold firstLeast
    obtain ⟨h1, h2, h3⟩ := firstLeast_spec err l (if err a < err b then a else b)
    by_cases h : err a < err b
    · simp only [h, if_true] at h1 h2 h3 ⊢
      refine ⟨?_, h2.trans h.le, List.forall_mem_cons.2 ⟨h2, h3⟩⟩
      rcases h1 with h1 | h1
      · right; rw [h1]; simp
      · right; simp [h1]
    · simp only [h, if_false] at h1 h2 h3 ⊢
      refine ⟨?_, h2, List.forall_mem_cons.2 ⟨h2.trans (not_lt.1 h), h3⟩⟩
      rcases h1 with h1 | h1
      · left; exact h1
      · right; simp [h1]

lemma one_mem_hfactors : (1 : K) ∈ hfactors (K := K) := by
  unfold hfactors
  rw [List.mem_map]
  exact ⟨9, by simp, by norm_num⟩

/-- **C60** Optimising the Heaviside factor never makes the test error worse than leaving it at 1; unless all tested factors are already accurate to `1e-6`, the chosen
one is best among `0.1, 0.2, …, 2.1`. -/
theorem C60_heaviside_never_worse (k : ℕ) (err : K → K) :
    err (bestHeaviside k err) ≤ err 1 ∧
    (1 < k → (∃ h ∈ hfactors, 1 / 10 ^ 6 ≤ err h) → ∀ i < 21, err (bestHeaviside k err) ≤ err (((i : ℕ) + 1 : K) / 10)) := by
  have main : (¬ ∀ h ∈ hfactors (K := K), err h < 1 / 10 ^ 6) → 1 < k → ∀ h ∈ hfactors (K := K), err (bestHeaviside k err) ≤ err h := by
    intro hn hk h hh
    unfold bestHeaviside
    rw [if_pos hk, if_neg hn]
    cases hf : hfactors (K := K) with
    | nil => rw [hf] at hh; simp at hh
    | cons a l =>
      rw [hf] at hh
      obtain ⟨-, h2, h3⟩ := firstLeast_spec err l a
      rcases List.mem_cons.1 hh with rfl | hh
      · exact h2
      · exact h3 h hh
  constructor
  · by_cases hk : 1 < k
    · by_cases hn : ∀ h ∈ hfactors (K := K), err h < 1 / 10 ^ 6
      · unfold bestHeaviside; rw [if_pos hk, if_pos hn]
      · exact main hn hk 1 one_mem_hfactors
    · unfold bestHeaviside; rw [if_neg hk]
  · rintro hk ⟨h, hh, hle⟩ i hi
    refine main (fun hn => absurd (hn h hh) (not_lt.2 hle)) hk _ ?_
    unfold hfactors
    rw [List.mem_map]
    exact ⟨i, by simpa using hi, by norm_num; ring⟩

end choice

/-- Specification: `s` is the largest singular value (`np.linalg.norm(M, 2)`) of the square matrix `M`. -/
def IsNorm2 {n : ℕ} (M : Fin n → Fin n → ℝ) (s : ℝ) : Prop :=
  0 ≤ s ∧ (∀ v : Fin n → ℝ, ∑ i, (∑ j, M i j * v j) ^ 2 ≤ s ^ 2 * ∑ j, v j ^ 2) ∧
  ∃ v : Fin n → ℝ, v ≠ 0 ∧ ∑ i, (∑ j, M i j * v j) ^ 2 = s ^ 2 * ∑ j, v j ^ 2

/-- There is only one such value. -/
theorem isNorm2_unique {n : ℕ} (M : Fin n → Fin n → ℝ) (s t : ℝ) (hs : IsNorm2 M s) (ht : IsNorm2 M t) : s = t := by
  have aux : ∀ s t, IsNorm2 M s → IsNorm2 M t → s ≤ t := by
    rintro s t ⟨hs0, -, v, hv, he⟩ ⟨ht0, hle, -⟩
    have h1 := hle v
    rw [he] at h1
    have hpos : 0 < ∑ j, v j ^ 2 := by
      obtain ⟨j, hj⟩ : ∃ j, v j ≠ 0 := by
        by_contra hc; push Not at hc; exact hv (funext hc)
      exact Finset.sum_pos' (fun i _ => sq_nonneg _) ⟨j, Finset.mem_univ _, by positivity⟩
    exact abs_le_of_sq_le_sq' (le_of_mul_le_mul_right h1 hpos) ht0 |>.2
  exact le_antisymm (aux s t hs ht) (aux t s ht hs)

/-- **C60 (violation)** The validation score does not measure the prediction error. For `n ≥ 1` test points and predictions with the same mean `m` as the expected outputs, it equals
`√(n · max(∑(eⱼ-m)², ∑(aⱼ-m)²))`: which prediction belongs to which point is irrelevant. -/
theorem C60_score_is_not_an_error {n : ℕ} (hn : 0 < n) (e a : Fin n → ℝ) (m : ℝ) (he : ∑ j, e j = n * m) (ha : ∑ j, a j = n * m) :
    IsNorm2 (scoreMatrix e a) (Real.sqrt (n * max (∑ j, (e j - m) ^ 2) (∑ j, (a j - m) ^ 2))) := by
  have hn' : (0 : ℝ) < n := by exact_mod_cast hn
  set E := ∑ j, (e j - m) ^ 2 with hE
  set A := ∑ j, (a j - m) ^ 2 with hA
  have hE0 : 0 ≤ E := Finset.sum_nonneg fun _ _ => sq_nonneg _
  have hA0 : 0 ≤ A := Finset.sum_nonneg fun _ _ => sq_nonneg _
  have hm0 : 0 ≤ n * max E A := mul_nonneg hn'.le (hE0.trans (le_max_left _ _))
  have he0 : ∑ j, (e j - m) = 0 := by rw [Finset.sum_sub_distrib, he]; simp
  have ha0 : ∑ j, (a j - m) = 0 := by rw [Finset.sum_sub_distrib, ha]; simp
  -- |M v|²
  have key : ∀ v : Fin n → ℝ, ∑ i, (∑ j, scoreMatrix e a i j * v j) ^ 2 = n * (∑ j, (e j - m) * v j) ^ 2 + A * (∑ j, v j) ^ 2 := by
    intro v
    have h1 : ∀ i, ∑ j, scoreMatrix e a i j * v j = (∑ j, (e j - m) * v j) - (a i - m) * ∑ j, v j := by
      intro i
      rw [Finset.mul_sum, ← Finset.sum_sub_distrib]
      exact Finset.sum_congr rfl fun j _ => by unfold scoreMatrix; ring
    simp only [h1]
    set p := ∑ j, (e j - m) * v j
    set s := ∑ j, v j
    have h2 : ∀ i, (p - (a i - m) * s) ^ 2 = p ^ 2 - 2 * p * s * (a i - m) + s ^ 2 * (a i - m) ^ 2 := fun i => by ring
    simp only [h2, Finset.sum_add_distrib, Finset.sum_sub_distrib, ← Finset.mul_sum]
    have h3 : ∑ i, (a i - m) = 0 := ha0
    rw [Finset.sum_sub_distrib] at h3
    rw [h3, ← hA]
    simp; ring
  refine ⟨Real.sqrt_nonneg _, fun v => ?_, ?_⟩
  · rw [key, Real.sq_sqrt hm0]
    set s := ∑ j, v j with hs
    -- Cauchy-Schwarz on the centred vector
    have h1 : ∑ j, (e j - m) * v j = ∑ j, (e j - m) * (v j - s / n) := by
      simp only [mul_sub, Finset.sum_sub_distrib]
      rw [← Finset.sum_mul, he0]; simp
    have h2 : ∑ j, (v j - s / n) ^ 2 = ∑ j, v j ^ 2 - s ^ 2 / n := by
      have : ∀ j, (v j - s / n) ^ 2 = v j ^ 2 - 2 * (s / n) * v j + (s / n) ^ 2 := fun j => by ring
      simp only [this, Finset.sum_add_distrib, Finset.sum_sub_distrib, ← Finset.mul_sum]
      rw [← hs]; simp; field_simp; ring
    have h3 : (∑ j, (e j - m) * v j) ^ 2 ≤ E * (∑ j, v j ^ 2 - s ^ 2 / n) := by
      rw [h1, ← h2]; exact Finset.sum_mul_sq_le_sq_mul_sq _ _ _
    have h4 : 0 ≤ ∑ j, v j ^ 2 - s ^ 2 / n := by rw [← h2]; exact Finset.sum_nonneg fun _ _ => sq_nonneg _
    have h5 : A * s ^ 2 = n * (A * (s ^ 2 / n)) := by field_simp
    rw [h5]
    have h6 : 0 ≤ s ^ 2 / n := div_nonneg (sq_nonneg _) hn'.le
    have h7 : E * (∑ j, v j ^ 2 - s ^ 2 / n) ≤ max E A * (∑ j, v j ^ 2 - s ^ 2 / n) := mul_le_mul_of_nonneg_right (le_max_left _ _) h4
    have h8 : A * (s ^ 2 / n) ≤ max E A * (s ^ 2 / n) := mul_le_mul_of_nonneg_right (le_max_right _ _) h6
    have h9 : (∑ j, (e j - m) * v j) ^ 2 + A * (s ^ 2 / n) ≤ max E A * ∑ j, v j ^ 2 := by nlinarith
    calc _ = (n : ℝ) * ((∑ j, (e j - m) * v j) ^ 2 + A * (s ^ 2 / n)) := by ring
      _ ≤ n * (max E A * ∑ j, v j ^ 2) := mul_le_mul_of_nonneg_left h9 hn'.le
      _ = _ := by ring
  · rcases le_or_gt E A with h | h
    · refine ⟨fun _ => 1, fun hc => ?_, ?_⟩
      · have := congrFun hc ⟨0, hn⟩; simp at this
      · rw [key, Real.sq_sqrt hm0, max_eq_right h]
        simp only [mul_one, he0]
        simp; ring
    · refine ⟨fun j => e j - m, fun hc => ?_, ?_⟩
      · have : E = 0 := by
          rw [hE]; exact Finset.sum_eq_zero fun j _ => by have := congrFun hc j; simp at this; rw [this]; simp
        linarith
      · rw [key, Real.sq_sqrt hm0, max_eq_left h.le, he0]
        have : ∑ j, (e j - m) * (e j - m) = E := by rw [hE]; exact Finset.sum_congr rfl fun j _ => by ring
        rw [this, ← hE]; ring

/-- **C60 (violation)** In particular a perfect expert and the expert that mirrors every output about the mean get the same score, for every test set; if the mirror image was
tried first, it is the one chosen. -/
theorem C60_mirrored_expert_ties {n : ℕ} (hn : 0 < n) (e : Fin n → ℝ) (m : ℝ) (he : ∑ j, e j = n * m) (s t : ℝ)
    (hs : IsNorm2 (scoreMatrix e e) s) (ht : IsNorm2 (scoreMatrix e fun j => 2 * m - e j) t) :
    s = t ∧ bestOf [("mirrored", t), ("perfect", s)] = some ("mirrored", t) := by
  have h1 := C60_score_is_not_an_error hn e e m he he
  have hmir : ∑ j, (2 * m - e j) = n * m := by rw [Finset.sum_sub_distrib, he]; simp; ring
  have h2 := C60_score_is_not_an_error hn e (fun j => 2 * m - e j) m he hmir
  have e1 : ∑ j, (2 * m - e j - m) ^ 2 = ∑ j, (e j - m) ^ 2 := Finset.sum_congr rfl fun j _ => by ring
  rw [e1] at h2
  have hst : s = t := (isNorm2_unique _ _ _ hs h1).trans (isNorm2_unique _ _ _ ht h2).symm
  refine ⟨hst, ?_⟩
  simp [bestOf, bestStep, hst]

/-! ## Concrete cases -/

example : extractPart [0, 1, 2, 3, 4, 5, 6] 3 = ([0, 3, 6], [1, 2, 4, 5]) := by decide
example : clusterValues 3 ["a", "b", "c", "d"] [1, 0, 1, 1] = some [["b"], ["a", "c", "d"], []] := by decide
example : clusterValues 1 ["a", "b"] [0, 1] = none := by decide
/-- Two clusters with weights 1/2 and densities 1 and 3: probabilities 1/4, 3/4. -/
example : smooth (K := ℚ) (k := 2) (fun _ => 1 / 2) (fun j (_ : Unit) => if j = 0 then 1 else 3) (fun j _ => if j = 0 then 8 else 4) () = 5 ∧
    hard (K := ℚ) (k := 1) (fun _ => 1 / 2) (fun j (_ : Unit) => if j = 0 then 1 else 3) (fun j _ => if j = 0 then 8 else 4) () = 4 := by
  decide +kernel
example : enabledExperts [("KRG", true, true), ("LS", true, false), ("XX", true, true)] ["KRG", "LS"] true true [] ["RBF"] = ["KRG"] := by decide
example : bestHeaviside (K := ℚ) 2 (fun h => (h - 7 / 10) ^ 2 + 1) = 7 / 10 := by decide +kernel
/-- Test outputs `0, 1` have mean `1/2`. -/
example : ∑ j : Fin 2, (![0, 1] : Fin 2 → ℝ) j = (2 : ℕ) * (1 / 2) := by simp

end SMT.Moe
