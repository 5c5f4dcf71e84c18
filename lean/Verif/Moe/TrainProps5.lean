import Verif.Moe.TrainProps4

/-!
# C89, continued: what a trained mixture of experts predicts
-/
namespace SMT.Moe.Train
set_option linter.unusedSectionVars false
set_option linter.unusedSimpArgs false
set_option linter.unusedVariables false

variable {K : Type} [Field K] [LinearOrder K] [IsStrictOrderedRing K]

theorem recombine_sum (pred : Expert K → K) : ∀ (es : List (Expert K)) (ps : List K), es.length = ps.length →
    recombine pred es ps = .ok (List.zipWith (fun e p => pred e * p) es ps).sum
  | [], [], _ => rfl
  | [], _ :: _, h => by simp at h
  | _ :: _, [], h => by simp at h
  | e :: es, p :: ps, h => by
    unfold recombine
    rw [recombine_sum pred es ps (by simpa using h)]
    simp

/-- The loop of `argmax`: the result is an entry of the list read so far, it is at least all of them, and strictly more than those before it. -/
theorem argmax_fold : ∀ (l pre : List K) (b : K × ℕ), b.2 < pre.length → pre[b.2]? = some b.1 → (∀ (j : ℕ) v, pre[j]? = some v → v ≤ b.1) →
    (∀ (j : ℕ) v, j < b.2 → pre[j]? = some v → v < b.1) →
    let r := (l.zipIdx pre.length).foldl (fun b q => if b.1 < q.1 then q else b) b
    (pre ++ l)[r.2]? = some r.1 ∧ (∀ (j : ℕ) v, (pre ++ l)[j]? = some v → v ≤ r.1) ∧ (∀ (j : ℕ) v, j < r.2 → (pre ++ l)[j]? = some v → v < r.1)
  | [], pre, b, h1, h2, h3, h4 => by simpa using ⟨h2, h3, h4⟩
  | a :: l, pre, b, h1, h2, h3, h4 => by
    intro r
    have hr : r = (l.zipIdx (pre ++ [a]).length).foldl (fun b q => if b.1 < q.1 then q else b) (if b.1 < a then (a, pre.length) else b) := by
      simp only [r, List.zipIdx_cons, List.foldl_cons, List.length_append, List.length_singleton]
    have hcat : pre ++ a :: l = (pre ++ [a]) ++ l := by simp
    rw [hcat, hr]
    have get : ∀ (j : ℕ) v, (pre ++ [a])[j]? = some v → pre[j]? = some v ∨ (j = pre.length ∧ v = a) := by
      intro j v h
      rcases lt_trichotomy j pre.length with hj | hj | hj
      · rw [List.getElem?_append_left hj] at h; exact Or.inl h
      · subst hj; simp at h; exact Or.inr ⟨rfl, h.symm⟩
      · rw [List.getElem?_append_right hj.le, List.getElem?_eq_none (by simp; omega)] at h; simp at h
    by_cases hb : b.1 < a
    · rw [if_pos hb]
      refine argmax_fold l (pre ++ [a]) (a, pre.length) (by simp) (by simp) ?_ ?_
      · intro j v h
        rcases get j v h with h | ⟨-, rfl⟩
        · exact (h3 j v h).trans hb.le
        · exact le_rfl
      · intro j v hj h
        rcases get j v h with h | ⟨rfl, -⟩
        · exact (h3 j v h).trans_lt hb
        · exact absurd hj (lt_irrefl _)
    · rw [if_neg hb]
      refine argmax_fold l (pre ++ [a]) b (by simp; omega) (by rw [List.getElem?_append_left h1]; exact h2) ?_ ?_
      · intro j v h
        rcases get j v h with h | ⟨-, rfl⟩
        · exact h3 j v h
        · exact not_lt.1 hb
      · intro j v hj h
        rcases get j v h with h | ⟨rfl, -⟩
        · exact h4 j v hj h
        · exact absurd hj (by omega)

theorem mostProbable_spec (es : List (Expert K)) (ps : List K) (hl : es.length = ps.length) (hne : ps ≠ []) :
    ∃ (i : ℕ) (e : Expert K) (p : K), es[i]? = some e ∧ ps[i]? = some p ∧ (∀ (j : ℕ) q, ps[j]? = some q → q ≤ p) ∧ (∀ (j : ℕ) q, j < i → ps[j]? = some q → q < p) ∧
      mostProbable es ps = .ok e := by
  cases ps with
  | nil => exact absurd rfl hne
  | cons p ps =>
    have h := argmax_fold ps [p] (p, 0) (by simp) (by simp) (by intro j v h; cases j <;> simp at h; exact h.symm.le) (by intro j v h; simp at h)
    simp only [List.length_singleton, List.singleton_append] at h
    obtain ⟨h1, h2, h3⟩ := h
    set r := (ps.zipIdx 1).foldl (fun b q => if b.1 < q.1 then q else b) (p, 0) with hr
    have hlt : r.2 < es.length := by rw [hl]; exact (List.getElem?_eq_some_iff.1 h1).1
    refine ⟨r.2, es[r.2], r.1, List.getElem?_eq_getElem hlt, h1, h2, h3, ?_⟩
    simp only [mostProbable, ← hr, List.getElem?_eq_getElem hlt]

/-- After a successful training: the object's mixture and densities are those of one mixture `m`, fitted with `n_clusters` components; the Heaviside factor is 1 unless it is optimised. -/
theorem trained_state {w : World K} {s s' : St K} (h : train w s = (s', .ok ())) :
    ∃ m0 c f nf, w.mixture s.opts.nClusters f = some (m0, c) ∧ s'.mix = some { m0 with nfeat := nf } ∧
      s'.nClusters = s.opts.nClusters ∧ s'.smooth = s.opts.smooth ∧ s'.experts.length = s.opts.nClusters ∧
      ∃ hf, s'.dist = some ({ m0 with nfeat := nf }, hf) ∧ m0.distOk hf = true ∧ (¬ (s.opts.smooth = true ∧ s.opts.heaviside = true ∧ 1 < s.opts.nClusters) → hf = 1) := by
  obtain ⟨nx, xrows, y, c, m, test, training, s1, s2, s3, r⟩ := train_ok h
  obtain ⟨cl1, f1, f2, f3, f4⟩ := ran_first r
  obtain ⟨cl, hd1, g2, g3, g4⟩ := fitFirst_ok r.first
  obtain ⟨t1, t2, t3, t4, t5, t6, t7⟩ := tuneFactor_ok r.tune
  have e1 := r.st1
  have m3 : s3.mix = some { m with nfeat := nx + (y.ncol + c.ncol - 1) } := by rw [t6, g4, e1]
  have sm3 : s3.smooth = s.opts.smooth := by rw [t7, g4, e1]
  have l3 : s3.experts.length = s.opts.nClusters := by rw [← f4.length_eq, (cluster_groups f1).1]
  have hf1 : s1.factor = 1 := by rw [e1]
  have d3 : s3.dist = some ({ m with nfeat := nx + (y.ncol + c.ncol - 1) }, s3.factor) ∧ m.distOk s3.factor = true ∧
      (¬ (s.opts.smooth = true ∧ s.opts.heaviside = true ∧ 1 < s.opts.nClusters) → s3.factor = 1) := by
    have ht := r.tune
    have o2 : s2.opts = s.opts := by rw [g4, e1]
    have n2 : s2.nClusters = s.opts.nClusters := by rw [g4, e1]
    unfold tuneFactor at ht
    split at ht
    · rename_i hc
      obtain ⟨ha, hb⟩ := redistribute_ok ht
      rw [o2, n2] at hc
      refine ⟨by rw [hb], by rw [hb]; exact ha, fun hn => absurd ?_ hn⟩
      simpa [and_assoc] using hc
    · cases ht
      have hs2 : s2.factor = 1 := by rw [g4]; exact hf1
      refine ⟨by rw [hs2, g4, hf1], ?_, fun _ => hs2⟩
      rw [hs2, ← hf1]; exact hd1
  refine ⟨m, true, _, nx + (y.ncol + c.ncol - 1), r.mix, ?_⟩
  rcases r.final with ⟨-, rfl⟩ | ⟨-, hfin⟩
  · exact ⟨m3, f3, sm3, l3, s'.factor, d3⟩
  · obtain ⟨cl2, k1, k2, k3, k4⟩ := fitFinal_ok hfin
    obtain ⟨-, k5⟩ := clustered_ok k2
    have hlen : cl2.length = s3.experts.length := by rw [(cluster_groups k5).1, f3, l3]
    obtain ⟨a1, -⟩ := fitAgain_ok cl2 _ _ hlen k3
    have le : s'.experts.length = s.opts.nClusters := by
      rw [a1, List.length_zipWith, hlen, min_self, l3]
    refine ⟨by rw [k4]; exact m3, by rw [k4]; exact f3, by rw [k4]; exact sm3, le, s3.factor, by rw [k4], k1, d3.2.2⟩

/-- **C89** What a trained mixture of experts predicts at a row `x`, if the mixture has `n_clusters ≥ 1` components as asked: there are membership probabilities `p`, one per expert -- `1` for a
single cluster, otherwise those of C48 computed from the fitted weights and densities -- and the prediction succeeds: with `smooth_recombination` it is the sum of the experts' predictions weighted
with `p`, otherwise the prediction of the most probable expert, the first one in a tie. -/
theorem C89_prediction (w : World K) (s s' : St K) (h : train w s = (s', .ok ())) (h1 : 1 ≤ s.opts.nClusters)
    (hk : ∀ k f m c, w.mixture k f = some (m, c) → m.k = k) :
    ∃ (m : Mix K) (hf : K), m.distOk hf = true ∧ m.k = s.opts.nClusters ∧
    (¬ (s.opts.smooth = true ∧ s.opts.heaviside = true ∧ 1 < s.opts.nClusters) → hf = 1) ∧ s'.experts.length = m.k ∧
    ∀ x : List K, ∃ p : Fin m.k → K, (∀ i, p i = proba m.weights (m.pdf hf) x i) ∧
      (s.opts.smooth = true → predictValue w s' x = .ok (∑ i : Fin m.k, (s'.experts[i.val]?.map fun e => w.predict e x).getD 0 * p i)) ∧
      (s.opts.smooth = false → ∃ i e, s'.experts[i.val]? = some e ∧ (∀ j, p j ≤ p i) ∧ (∀ j, j < i → p j < p i) ∧ predictValue w s' x = .ok (w.predict e x)) := by
  obtain ⟨m0, c, f, nf, e1, e2, e3, e4, e5, hf, e6, e7, e8⟩ := trained_state h
  have hkm := hk _ _ _ _ e1
  refine ⟨{ m0 with nfeat := nf }, hf, e7, hkm, e8, e5.trans hkm.symm, fun x => ⟨fun i => proba m0.weights (m0.pdf hf) x i, fun i => rfl, ?_⟩⟩
  have hp : probs s' x = .ok ((List.finRange m0.k).map fun j => proba m0.weights (m0.pdf hf) x j) := by
    unfold probs
    rw [e6]
    simp only [e3]
    by_cases h1' : s.opts.nClusters = 1
    · rw [if_pos h1']
      have : m0.k = 1 := hkm.trans h1'
      have hc : ((List.finRange m0.k).map fun j => proba m0.weights (m0.pdf hf) x j) = (List.finRange m0.k).map fun _ => (1 : K) := by
        apply List.map_congr_left; intro j _; unfold proba; rw [if_pos this]
      rw [hc, List.map_const', List.length_finRange, this]; rfl
    · rw [if_neg h1', e2]
      simp only [le_refl, dif_pos]
      congr 1
      apply List.map_congr_left
      intro j _
      unfold proba
      rw [if_neg (by rw [hkm]; exact h1')]
      rfl
  have hl : s'.experts.length = ((List.finRange m0.k).map fun j => proba m0.weights (m0.pdf hf) x j).length := by
    rw [List.length_map, List.length_finRange, e5, hkm]
  constructor
  · intro hs
    unfold predictValue
    rw [hp]
    simp only [e4, hs, if_true]
    rw [recombine_sum _ _ _ hl]
    congr 1
    have hz : ∀ (n : ℕ) (es : List (Expert K)) (hn : es.length = n) (g : Fin n → K),
        (List.zipWith (fun e p => w.predict e x * p) es ((List.finRange n).map g)).sum = ∑ i : Fin n, (es[i.val]?.map fun e => w.predict e x).getD 0 * g i := by
      intro n
      induction n with
      | zero => intro es hn g; simp
      | succ n ih =>
        intro es hn g
        cases es with
        | nil => simp at hn
        | cons e es =>
          rw [List.finRange_succ, List.map_cons, List.zipWith_cons_cons, List.sum_cons, List.map_map, Fin.sum_univ_succ, ih es (by simpa using hn)]
          simp
    exact hz m0.k s'.experts (e5.trans hkm.symm) _
  · intro hs
    unfold predictValue
    rw [hp]
    simp only [e4, hs, Bool.false_eq_true, if_false]
    have hne : ((List.finRange m0.k).map fun j => proba m0.weights (m0.pdf hf) x j) ≠ [] := by
      intro hn
      have := congrArg List.length hn
      rw [List.length_map, List.length_finRange, hkm] at this
      simp at this; omega
    obtain ⟨i, e, p, q1, q2, q3, q4, q5⟩ := mostProbable_spec s'.experts _ hl hne
    have hi : i < m0.k := by
      have := (List.getElem?_eq_some_iff.1 q1).1
      omega
    have hpi : ∀ j : Fin m0.k, ((List.finRange m0.k).map fun j => proba m0.weights (m0.pdf hf) x j)[j.val]? = some (proba m0.weights (m0.pdf hf) x j) := by
      intro j; simp
    have hpp : p = proba m0.weights (m0.pdf hf) x ⟨i, hi⟩ := by
      have := hpi ⟨i, hi⟩
      rw [q2] at this
      exact Option.some.inj this
    refine ⟨⟨i, hi⟩, e, q1, fun j => ?_, fun j hj => ?_, by rw [q5]⟩
    · rw [← hpp]; exact q3 _ _ (hpi j)
    · rw [← hpp]; exact q4 _ _ hj (hpi j)

section example_

set_option maxRecDepth 20000

/-- Components of unequal weight, without smoothing: at 3, expert 0 has probability 1/5 and expert 1 has 4/5. -/
def exHard : World ℚ := { exWorld true with
  mixture := fun k _ => some (⟨0, fun r => if r.getD 0 0 < 6 then 0 else 1, k, fun i => if i.val = 1 then 4 / 5 else 1 / 5, fun _ => true, fun _ _ _ => 1⟩, true) }

def exHardS : St ℚ := (St.new ({ smooth := false } : Opts ℚ)).setTraining (.d2 1 exX) exY

theorem exHard_ok : (train exHard exHardS).2 = .ok () := by decide +kernel

example : predictValue exHard (train exHard exHardS).1 [3] = .ok 36 ∧
    ((train exHard exHardS).1.experts.map fun e => exHard.predict e [3]) = [0, 36] := by decide +kernel

example := C89_prediction exHard exHardS _ (Prod.ext rfl exHard_ok) (by decide) (by intro k f m c h; cases h; rfl)

end example_

end SMT.Moe.Train
