import Verif.Fp.NetGradX
import Verif.Fp.NetXProps3

/-!
# C122: one overflow in one example destroys the training
-/
set_option linter.unusedSectionVars false
set_option linter.unusedSimpArgs false
set_option linter.unusedVariables false

namespace SMT.Fp.NetX
open SMT.Fp.Corr SMT.Fp.Optim SMT.Nn

variable {K : Type} [Field K] [LinearOrder K] [IsStrictOrderedRing K] (F : Format K)

/-- Every sum over the examples has `m` terms and every sum over the units of the layer `n`, each exactly once. -/
def Back.Fits (o : Back K) (m n : ℕ) : Prop := (∀ k j, (o.tW k j).Adds m) ∧ (∀ k, (o.tb k).Adds m) ∧ ∀ e j, (o.tA e j).Adds n

/-- All numbers of a gradient satisfy `P`. -/
def LayerGrad.All (G : LayerGrad K) (P : X K → Prop) : Prop := (∀ row ∈ G.dW, ∀ v ∈ row, P v) ∧ ∀ v ∈ G.db, P v

theorem fold_nan (l : List (X K)) : l.foldl F.addX .nan = .nan := by
  induction l with
  | nil => rfl
  | cons a l ih => rw [List.foldl_cons, F.addX_nan_left, ih]

theorem step_nan {S : Stage K} {m e : ℕ} (hS : 0 < S.l.W.length) (ho : S.o.Fits m S.l.W.length) (he : e < m) (lambd : X K) {dA : ℕ → List (X K)} (h : ∀ k, (dA e).getD k .nan = .nan) :
    (S.step F m lambd dA).1.All (· = .nan) ∧ ∀ j, ((S.step F m lambd dA).2 e).getD j .nan = .nan := by
  have hd : ∀ k, S.delta F dA k e = .nan := fun k => by rw [Stage.delta, h, F.mulX_nan_right]
  refine ⟨⟨?_, ?_⟩, ?_⟩
  · intro row hrow v hv
    obtain ⟨k, -, rfl⟩ := List.mem_map.1 hrow
    obtain ⟨j, -, rfl⟩ := List.mem_map.1 hv
    have : ((S.o.tW k j).evalX F fun e => F.mulX (S.delta F dA k e) ((S.aPrev e).getD j .nan)) = .nan :=
      Ego.evalX_nan F _ _ ⟨e, (ho.1 k j).mem_iff.2 (List.mem_range.2 he), by rw [hd, F.mulX_nan_left]⟩
    rw [this, F.mulX_nan_right, F.addX_nan_left, fold_nan]
  · intro v hv
    obtain ⟨k, -, rfl⟩ := List.mem_map.1 hv
    have : ((S.o.tb k).evalX F fun e => S.delta F dA k e) = .nan := Ego.evalX_nan F _ _ ⟨e, (ho.2.1 k).mem_iff.2 (List.mem_range.2 he), hd k⟩
    rw [this, F.mulX_nan_right, fold_nan]
  · refine fun j => getD_all (fun v hv => ?_) j
    obtain ⟨i, -, rfl⟩ := List.mem_map.1 hv
    have : ((S.o.tA e i).evalX F fun k => F.mulX ((S.l.W.getD k []).getD i .nan) (S.delta F dA k e)) = .nan :=
      Ego.evalX_nan F _ _ ⟨0, (ho.2.2 e i).mem_iff.2 (List.mem_range.2 hS), by rw [hd, F.mulX_nan_right]⟩
    rw [this, fold_nan]

theorem backward_nan {m e : ℕ} (he : e < m) (lambd : X K) : ∀ (Ss : List (Stage K)) (dA : ℕ → List (X K)), (∀ S ∈ Ss, 0 < S.l.W.length ∧ S.o.Fits m S.l.W.length) →
    (∀ k, (dA e).getD k .nan = .nan) → ∀ G ∈ backward F m lambd Ss dA, G.All (· = .nan)
  | [], _, _, _, G, hG => by simp [backward] at hG
  | S :: Ss, dA, hS, h, G, hG => by
    have h1 := step_nan F (hS S (by simp)).1 (hS S (by simp)).2 he lambd h
    rw [backward, List.mem_cons] at hG
    rcases hG with rfl | hG
    · exact h1.1
    · exact backward_nan he lambd Ss _ (fun S' h' => hS S' (by simp [h'])) h1.2 G hG

theorem stages_mem {ex : X K → X K} {os : ℕ → Back K} : ∀ (ls : List (Layer K)) (s : ℕ) (A : ℕ → List (X K)) (S : Stage K), S ∈ stages F ex os s ls A →
    ∃ i l, ls[i]? = some l ∧ S.l = l ∧ S.o = os (s + i) ∧ (∀ e, S.z e = S.l.z F (S.aPrev e)) ∧ (S.slope = (fun _ => .fin 1) ∨ S.slope = dTanh F ex)
  | [], _, _, _, h => by simp [stages] at h
  | [l], s, A, S, h => by
    rw [stages, List.mem_singleton] at h
    subst h
    exact ⟨0, l, rfl, rfl, rfl, fun _ => rfl, Or.inl rfl⟩
  | l :: l' :: ls, s, A, S, h => by
    rw [stages] at h
    · rw [List.mem_cons] at h
      rcases h with rfl | h
      · exact ⟨0, l, rfl, rfl, rfl, fun _ => rfl, Or.inr rfl⟩
      · obtain ⟨i, l2, h1, h2, h3, h4⟩ := stages_mem (l' :: ls) (s + 1) _ S h
        exact ⟨i + 1, l2, by rw [List.getElem?_cons_succ]; exact h1, h2, by rw [h3]; congr 1; omega, h4⟩
    · simp

theorem chained_get : ∀ (ls : List (Layer K)) (n : ℕ), Chained ls n → ∀ l ∈ ls, 0 < l.W.length
  | [], _, _, _, h => by simp at h
  | l :: ls, n, hc, l', h => by
    rcases List.mem_cons.1 h with rfl | h
    · exact hc.1.1
    · exact chained_get ls _ hc.2 l' h

theorem stages_fit {ex : X K → X K} {os : ℕ → Back K} {ls : List (Layer K)} {n m : ℕ} (hc : Chained ls n) (ho : ∀ i l, ls[i]? = some l → (os i).Fits m l.W.length) (A : ℕ → List (X K)) :
    ∀ S ∈ (stages F ex os 0 ls A).reverse, 0 < S.l.W.length ∧ S.o.Fits m S.l.W.length := by
  intro S hS
  obtain ⟨i, l, h1, h2, h3, -⟩ := stages_mem F ls 0 A S (List.mem_reverse.1 hS)
  rw [h2, h3, Nat.zero_add]
  exact ⟨chained_get ls n hc l (List.mem_of_getElem? h1), ho i l h1⟩

theorem residual_nan {al y : List (X K)} (h : ∀ v ∈ al, v = .nan) (k : ℕ) : (residual F al y).getD k .nan = .nan := by
  rw [residual, List.getD_eq_getElem?_getD, List.getElem?_zipWith]
  cases ea : al[k]? with
  | none => rfl
  | some u =>
    cases eb : y[k]? with
    | none => rfl
    | some w =>
      show F.subX u w = .nan
      rw [h u (List.mem_of_getElem? ea), sub_nan_left]

/-- **C122** If in one example of the batch one hidden unit has a NaN or a number so large that the exponential overflows, then the gradient of the cost with respect to every weight and every
bias of every layer is NaN, whatever the other examples, the penalty and the gradient enhancement. -/
theorem C122_gradient_nan {ex : X K → X K} (he : ExpX F ex) {os : ℕ → Back K} {ls : List (Layer K)} {n m : ℕ} (hc : Chained ls n) (ho : ∀ i l, ls[i]? = some l → (os i).Fits m l.W.length)
    (lambd : X K) (A Y : ℕ → List (X K)) {e : ℕ} (hem : e < m) {z : X K} (hz : z ∈ hidden F ex ls (A e)) (hov : z = .nan ∨ ex z = .inf false ∨ ex z.neg = .inf false) :
    ∀ G ∈ gradients F ex os m lambd ls A Y, (∀ row ∈ G.dW, ∀ v ∈ row, v = .nan) ∧ ∀ v ∈ G.db, v = .nan :=
  backward_nan F hem lambd _ _ (stages_fit F hc ho A) fun k => residual_nan F (overflow_aux F he hov ls n (A e) [] hc hz).1 k

/-! ### The cost -/

theorem lse_nan {t : ℕ → Tree} {m ny : ℕ} (ht : ∀ k, (t k).Adds m) (hny : 0 < ny) {al : ℕ → List (X K)} {e : ℕ} (he : e < m) (h : ∀ k, (al e).getD k .nan = .nan) (y : ℕ → List (X K))
    (extra : List (X K)) : lse F t m ny al y extra = .nan := by
  have key : ∀ k, ((t k).evalX F fun e => F.mulX (F.subX ((al e).getD k .nan) ((y e).getD k .nan)) (F.subX ((al e).getD k .nan) ((y e).getD k .nan))) = .nan := fun k =>
    Ego.evalX_nan F _ _ ⟨e, (ht k).mem_iff.2 (List.mem_range.2 he), by rw [h, sub_nan_left, F.mulX_nan_left]⟩
  have hf : ∀ (l : List ℕ) (c : X K), l ≠ [] ∨ c = .nan → l.foldl (fun c k => F.addX c (F.mulX (.fin (1 / 2 : K)) ((t k).evalX F fun e =>
      F.mulX (F.subX ((al e).getD k .nan) ((y e).getD k .nan)) (F.subX ((al e).getD k .nan) ((y e).getD k .nan))))) c = .nan := by
    intro l
    induction l with
    | nil => intro c hcc; exact hcc.resolve_left (by simp)
    | cons k l ih =>
      intro c _
      rw [List.foldl_cons]
      refine ih _ (Or.inr ?_)
      rw [key, F.mulX_nan_right, F.addX_nan_right]
  unfold lse
  dsimp only
  rw [hf (List.range ny) _ (Or.inl (by simp; omega)), fold_nan, F.mulX_nan_right]

/-- **C122** In the same situation the cost of the whole batch is NaN. -/
theorem C122_cost_nan {ex : X K → X K} (he : ExpX F ex) {ls : List (Layer K)} {n m ny : ℕ} (hc : Chained ls n) {t : ℕ → Tree} (ht : ∀ k, (t k).Adds m) (hny : 0 < ny) (A Y : ℕ → List (X K))
    (extra : List (X K)) {e : ℕ} (hem : e < m) {z : X K} (hz : z ∈ hidden F ex ls (A e)) (hov : z = .nan ∨ ex z = .inf false ∨ ex z.neg = .inf false) :
    lse F t m ny (fun e => forward F ex ls (A e)) Y extra = .nan :=
  lse_nan F ht hny hem (fun k => getD_all (overflow_aux F he hov ls n (A e) [] hc hz).1 k) Y extra

theorem mul_nn' {a b : X K} (ha : a = .nan ∨ Nn F a) (hb : b = .nan ∨ Nn F b) : F.mulX a b = .nan ∨ Nn F (F.mulX a b) := by
  rcases ha with rfl | ha
  · left; exact F.mulX_nan_left b
  · rcases hb with rfl | hb
    · left; exact F.mulX_nan_right a
    · cases a with
      | nan => exact ha.elim
      | inf s =>
        obtain rfl : s = false := ha
        cases b with
        | nan => exact hb.elim
        | inf u => obtain rfl : u = false := hb; right; rfl
        | fin y =>
          show (if y = 0 then X.nan else X.inf (decide (y < 0) != false)) = .nan ∨ Nn F (if y = 0 then X.nan else X.inf (decide (y < 0) != false))
          split
          · left; rfl
          · right; rw [decide_eq_false (not_lt.2 hb.2)]; rfl
      | fin x =>
        cases b with
        | nan => exact hb.elim
        | inf u =>
          obtain rfl : u = false := hb
          show (if x = 0 then X.nan else X.inf (decide (x < 0) != false)) = .nan ∨ Nn F (if x = 0 then X.nan else X.inf (decide (x < 0) != false))
          split
          · left; rfl
          · right; rw [decide_eq_false (not_lt.2 ha.2)]; rfl
        | fin y => right; exact of_nn F (mul_nonneg ha.2 hb.2)

theorem add_nn' {a b : X K} (ha : a = .nan ∨ Nn F a) (hb : b = .nan ∨ Nn F b) : F.addX a b = .nan ∨ Nn F (F.addX a b) := by
  rcases ha with rfl | ha
  · left; exact F.addX_nan_left b
  · rcases hb with rfl | hb
    · left; exact F.addX_nan_right a
    · right; exact add_nn F ha hb

theorem tree_nn' (f : ℕ → X K) (t : Tree) (h : ∀ i, f i = .nan ∨ Nn F (f i)) : t.evalX F f = .nan ∨ Nn F (t.evalX F f) := by
  induction t with
  | leaf i => exact h i
  | node a b ha hb => exact add_nn' F ha hb

/-- **C122** The cost as computed is never negative: it is NaN, infinite or a non-negative number, if the same holds for the penalty and the enhancement term. -/
theorem C122_cost_nonneg (t : ℕ → Tree) (m ny : ℕ) (al y : ℕ → List (X K)) (extra : List (X K)) (hx : ∀ v ∈ extra, v = .nan ∨ Nn F v) :
    lse F t m ny al y extra = .nan ∨ Nn F (lse F t m ny al y extra) := by
  have hh : ∀ (l : List ℕ) (c : X K), c = .nan ∨ Nn F c → l.foldl (fun c k => F.addX c (F.mulX (.fin (1 / 2 : K)) ((t k).evalX F fun e =>
      F.mulX (F.subX ((al e).getD k .nan) ((y e).getD k .nan)) (F.subX ((al e).getD k .nan) ((y e).getD k .nan))))) c = .nan ∨ Nn F (l.foldl (fun c k => F.addX c (F.mulX (.fin (1 / 2 : K)) ((t k).evalX F fun e =>
      F.mulX (F.subX ((al e).getD k .nan) ((y e).getD k .nan)) (F.subX ((al e).getD k .nan) ((y e).getD k .nan))))) c) := by
    intro l
    induction l with
    | nil => intro c hcc; exact hcc
    | cons k l ih =>
      intro c hcc
      rw [List.foldl_cons]
      refine ih _ (add_nn' F hcc ?_)
      have ht := tree_nn' F (fun e => F.mulX (F.subX ((al e).getD k .nan) ((y e).getD k .nan)) (F.subX ((al e).getD k .nan) ((y e).getD k .nan))) (t k) fun e => by
        generalize F.subX ((al e).getD k .nan) ((y e).getD k .nan) = v
        cases v with
        | nan => left; rfl
        | inf s => right; show Nn F (X.inf (s != s)); cases s <;> rfl
        | fin x => right; exact of_nn F (mul_self_nonneg x)
      revert ht
      generalize (t k).evalX F _ = T
      intro ht
      rcases ht with rfl | ht
      · left; exact F.mulX_nan_right _
      · right
        cases T with
        | nan => exact ht.elim
        | inf s =>
          obtain rfl : s = false := ht
          show Nn F (if (1 / 2 : K) = 0 then X.nan else X.inf (decide ((1 / 2 : K) < 0) != false))
          rw [if_neg (by norm_num), decide_eq_false (by norm_num)]
          rfl
        | fin x => exact of_nn F (mul_nonneg (by norm_num) ht.2)
  have he : ∀ (l : List (X K)) (c : X K), (∀ v ∈ l, v = .nan ∨ Nn F v) → c = .nan ∨ Nn F c → l.foldl F.addX c = .nan ∨ Nn F (l.foldl F.addX c) := by
    intro l
    induction l with
    | nil => intro c _ hcc; exact hcc
    | cons a l ih => intro c hl hcc; exact ih _ (fun v hv => hl v (by simp [hv])) (add_nn' F hcc (hl a (by simp)))
  refine mul_nn' F ?_ (he _ _ hx (hh _ _ (Or.inr (nn_zero F))))
  show (if (m : K) = 0 then (if (1 : K) = 0 then X.nan else X.inf (decide ((1 : K) < 0))) else F.of (1 / (m : K))) = .nan ∨ Nn F (if (m : K) = 0 then (if (1 : K) = 0 then X.nan else X.inf (decide ((1 : K) < 0))) else F.of (1 / (m : K)))
  right
  split
  · rw [if_neg one_ne_zero, decide_eq_false (not_lt.2 zero_le_one)]; rfl
  · exact of_nn F (div_nonneg zero_le_one (Nat.cast_nonneg m))

/-! ### The training -/

theorem forward_bias {ex : X K → X K} {ls : List (Layer K)} (hne : ls ≠ []) (h : ∀ l ∈ ls, ∀ i < l.W.length, l.b.getD i .nan = .nan) (a : List (X K)) : ∀ v ∈ forward F ex ls a, v = .nan := by
  obtain ⟨hs, l, rfl⟩ := List.eq_nil_or_concat ls |>.resolve_left hne
  rw [List.concat_eq_append] at *
  obtain ⟨a', e, -⟩ := forward_last F (ex := ex) l hs a
  rw [e]
  intro v hv
  obtain ⟨i, hi, rfl⟩ := List.mem_map.1 hv
  rw [h l (by simp) i (List.mem_range.1 hi), F.addX_nan_right]

/-- **C122** One overflow destroys the training. Let the cost and the gradient be those of the network on a batch, and let a hidden unit overflow in one example at one design of the run. Then in
every later design all parameters are NaN, its cost is NaN, and it predicts NaN at every point; and if there is a later design at all, the run makes all `max_iter` passes. `net` reads the layers
from the parameters, every bias being one of them; every entry of the gradient is an entry of the arrays of the backward pass. -/
theorem C122_training {ι : Type} {ex : X K → X K} (he : ExpX F ex) {upd : X K → Opt (X K) ι → Opt (X K) ι} (hr : Rule F upd) (f : (ι → X K) → X K) (g : (ι → X K) → ι → X K) (rate : X K)
    (fuel maxIter : ℕ) (x0 : ι → X K) (o : Opt (X K) ι) (h : optimizeX F fuel f g upd rate maxIter x0 = some o)
    (net : (ι → X K) → List (Layer K)) (os : (ι → X K) → ℕ → Back K) {n m ny : ℕ} (lambd : X K) (A Y : ℕ → List (X K)) {t : ℕ → Tree} (extra : (ι → X K) → List (X K))
    (hnet : ∀ d, net d ≠ [] ∧ Chained (net d) n ∧ ∀ i l, (net d)[i]? = some l → (os d i).Fits m l.W.length) (hp : ∀ d, ∀ l ∈ net d, ∀ i < l.W.length, ∃ p, l.b.getD i .nan = d p)
    (ht : ∀ k, (t k).Adds m) (hny : 0 < ny) (hf : ∀ d, f d = lse F t m ny (fun e => forward F ex (net d) (A e)) Y (extra d))
    (hg : ∀ d p, ∃ G ∈ gradients F ex (os d) m lambd (net d) A Y, g d p ∈ G.db ∨ ∃ row ∈ G.dW, g d p ∈ row)
    {k : ℕ} {d : ι → X K} (hd : o.designs[k]? = some d) {e : ℕ} (hem : e < m) {z : X K} (hz : z ∈ hidden F ex (net d) (A e)) (hov : z = .nan ∨ ex z = .inf false ∨ ex z.neg = .inf false) :
    (∀ k' d', k < k' → o.designs[k']? = some d' → (∀ p, d' p = .nan) ∧ f d' = .nan ∧ ∀ a, ∀ v ∈ forward F ex (net d') a, v = .nan) ∧
      (k + 1 < o.designs.length → o.designs.length = maxIter + 1) := by
  have hgn : ∀ p, g d p = .nan := by
    intro p
    obtain ⟨G, hG, hm⟩ := hg d p
    have := C122_gradient_nan F he (hnet d).2.1 (hnet d).2.2 lambd A Y hem hz hov G hG
    rcases hm with hm | ⟨row, hrow, hm⟩
    · exact this.2 _ hm
    · exact this.1 row hrow _ hm
  have main : ∀ k' d', k < k' → o.designs[k']? = some d' → (∀ p, d' p = .nan) ∧ f d' = .nan ∧ ∀ a, ∀ v ∈ forward F ex (net d') a, v = .nan := by
    intro k' d' hk hd'
    have hall : ∀ p, d' p = .nan := fun p => C120_nan_stays F hr f g rate fuel maxIter x0 o h p hd (Or.inr (hgn p)) hk hd'
    have hfw : ∀ a, ∀ v ∈ forward F ex (net d') a, v = .nan := fun a => forward_bias F (hnet d').1 (fun l hl i hi => by
      obtain ⟨p, hpp⟩ := hp d' l hl i hi
      rw [hpp, hall p]) a
    refine ⟨hall, ?_, hfw⟩
    rw [hf]
    exact lse_nan F ht hny hem (fun j => getD_all (hfw (A e)) j) Y _
  refine ⟨main, fun hlen => ?_⟩
  obtain ⟨-, -, h3, -⟩ := C120_history F hr fuel f g rate maxIter x0 o h
  have hl : o.costs.length = o.designs.length := by rw [h3, List.length_map]
  have hlast : o.costs.getD (o.costs.length - 1) .nan = .nan := by
    have hd' : o.designs[o.designs.length - 1]? = some (o.designs[o.designs.length - 1]'(by omega)) := List.getElem?_eq_getElem (by omega)
    rw [List.getD_eq_getElem?_getD, hl, h3, List.getElem?_map, hd']
    exact (main _ _ (by omega) hd').2.1
  rcases C120_nan_delays F hr fuel f g rate maxIter x0 o h (k := o.costs.length - 1) (by omega) hlast with hh | hh
  · rw [← hl]; exact hh
  · omega

end SMT.Fp.NetX
