import Verif.Fp.NetGradXProps

/-!
# C122: batches that are fitted exactly; instances in double precision
-/
set_option linter.unusedSectionVars false
set_option linter.unusedSimpArgs false
set_option linter.unusedVariables false
set_option exponentiation.threshold 3000

namespace SMT.Fp.NetX
open SMT.Fp.Corr SMT.Fp.Optim SMT.Nn

section
variable {K : Type} [Field K] [LinearOrder K] [IsStrictOrderedRing K] (F : Format K)

/-- A number, neither infinite nor NaN. -/
def IsNum (v : X K) : Prop := ∃ c, v = .fin c

theorem num_mul_zero {v : X K} (h : IsNum v) : F.mulX v (.fin 0) = .fin 0 ∧ F.mulX (.fin 0) v = .fin 0 := by
  obtain ⟨c, rfl⟩ := h
  constructor
  · show F.of (c * 0) = _
    rw [mul_zero, F.of_zero]
  · show F.of (0 * c) = _
    rw [zero_mul, F.of_zero]

theorem zero_add_val {v : X K} (h : F.Val v) : F.addX (.fin 0) v = v := by
  cases v with
  | nan => rfl
  | inf s => rfl
  | fin x =>
    show F.of (0 + x) = _
    rw [zero_add, F.of_fin h]

theorem tree_zero (f : ℕ → X K) (t : Tree) (h : ∀ i ∈ t.leaves, f i = .fin 0) : t.evalX F f = .fin 0 := by
  induction t with
  | leaf i => exact h i (by simp [Tree.leaves])
  | node a b ha hb =>
    rw [Tree.evalX, ha fun i hi => h i (by rw [Tree.leaves, List.mem_append]; exact Or.inl hi), hb fun i hi => h i (by rw [Tree.leaves, List.mem_append]; exact Or.inr hi)]
    exact zero_add_val F F.fin_zero

theorem inv_num {m : ℕ} (hm : 0 < m) : IsNum (F.divX (.fin (1 : K)) (.fin (m : K))) := by
  have h1 : (1 : K) ≤ m := by exact_mod_cast hm
  have h0 : (m : K) ≠ 0 := by positivity
  refine ⟨F.rnd (1 / m), ?_⟩
  show (if (m : K) = 0 then (if (1 : K) = 0 then X.nan else X.inf (decide ((1 : K) < 0))) else F.of (1 / (m : K))) = _
  rw [if_neg h0]
  refine F.of_small ?_
  rw [abs_of_nonneg (by positivity)]
  exact ((div_le_one (by positivity)).2 h1).trans F.one_le_big

/-- The gradient of the penalty alone: `lambd / m * W` for the weights, 0 for the biases. -/
def penaltyGrad (m : ℕ) (lambd : X K) (l : Layer K) : LayerGrad K where
  dW := l.W.map fun row => row.map fun w => F.mulX (F.divX lambd (.fin m)) w
  db := List.replicate l.W.length (.fin 0)

/-- Nothing is added by gradient enhancement (`gamma` is 0). -/
def Back.Plain (o : Back K) : Prop := (∀ k j, o.xW k j = []) ∧ (∀ k, o.xb k = []) ∧ ∀ e j, o.xA e j = []

theorem getD_of_lt {α : Type} {l : List α} {i : ℕ} (h : i < l.length) (d : α) : l.getD i d = l[i] := by
  rw [List.getD_eq_getElem?_getD, List.getElem?_eq_getElem h]
  rfl

theorem getD_range {α : Type} {n j : ℕ} (h : j < n) (f : ℕ → α) (d : α) : ((List.range n).map f).getD j d = f j := by
  rw [List.getD_eq_getElem?_getD, List.getElem?_map, List.getElem?_range h]
  rfl

theorem step_zero {S : Stage K} {m n : ℕ} (hm : 0 < m) (hl : S.l.Fits n) (ho : S.o.Fits m S.l.W.length) (hx : S.o.Plain) (lambd : X K) (hW : ∀ row ∈ S.l.W, ∀ w ∈ row, IsNum w)
    {dA : ℕ → List (X K)} (ha : ∀ e < m, ∀ j < n, IsNum ((S.aPrev e).getD j .nan)) (hs : ∀ e < m, ∀ k < S.l.W.length, IsNum (S.slope ((S.z e).getD k .nan)))
    (h : ∀ e < m, ∀ k < S.l.W.length, (dA e).getD k .nan = .fin 0) :
    (S.step F m lambd dA).1 = penaltyGrad F m lambd S.l ∧ ∀ e < m, ∀ j < n, ((S.step F m lambd dA).2 e).getD j .nan = .fin 0 := by
  have hn : (S.l.W.getD 0 []).length = n := (hl.2.2 0 hl.1).1
  have hd : ∀ e < m, ∀ k < S.l.W.length, S.delta F dA k e = .fin 0 := fun e he k hk => by
    rw [Stage.delta, h e he k hk]
    exact (num_mul_zero F (hs e he k hk)).1
  have hWn : ∀ k < S.l.W.length, ∀ j < n, IsNum ((S.l.W.getD k []).getD j .nan) := by
    intro k hk j hj
    have hr := (hl.2.2 k hk).1
    have hmem : S.l.W.getD k [] ∈ S.l.W := by rw [getD_of_lt hk]; exact List.getElem_mem _
    generalize S.l.W.getD k [] = row at hr hmem
    have hjr : j < row.length := by omega
    rw [getD_of_lt hjr]
    exact hW _ hmem _ (List.getElem_mem hjr)
  constructor
  · have e1 : (S.step F m lambd dA).1.dW = (penaltyGrad F m lambd S.l).dW := by
      show ((List.range S.l.W.length).map fun k => (List.range (S.l.W.getD 0 []).length).map fun j => _) = S.l.W.map _
      apply List.ext_getElem
      · simp
      · intro k h1 h2
        have hk : k < S.l.W.length := by simpa using h1
        rw [List.getElem_map, List.getElem_range, List.getElem_map]
        have hrow : S.l.W.getD k [] = S.l.W[k] := getD_of_lt hk []
        have hlen : S.l.W[k].length = n := by rw [← hrow]; exact (hl.2.2 k hk).1
        apply List.ext_getElem
        · rw [List.length_map, List.length_range, List.length_map, hn, hlen]
        · intro j g1 g2
          have hj : j < n := by rw [List.length_map, List.length_range, hn] at g1; exact g1
          rw [List.getElem_map, List.getElem_range, List.getElem_map]
          rw [hx.1, List.foldl_nil, tree_zero F _ _ fun e he => ?_, (num_mul_zero F (inv_num F hm)).1, zero_add_val F (mulX_val F), hrow, getD_of_lt (by omega)]
          have hem : e < m := List.mem_range.1 ((ho.1 k j).mem_iff.1 he)
          rw [hd e hem k hk]
          exact (num_mul_zero F (ha e hem j hj)).2
    have e2 : (S.step F m lambd dA).1.db = (penaltyGrad F m lambd S.l).db := by
      show ((List.range S.l.W.length).map fun k => _) = List.replicate _ _
      rw [List.eq_replicate_iff]
      refine ⟨by simp, fun v hv => ?_⟩
      obtain ⟨k, hk, rfl⟩ := List.mem_map.1 hv
      rw [hx.2.1, List.foldl_nil, tree_zero F _ _ fun e he => hd e (List.mem_range.1 ((ho.2.1 k).mem_iff.1 he)) k (List.mem_range.1 hk)]
      exact (num_mul_zero F (inv_num F hm)).1
    calc (S.step F m lambd dA).1 = ⟨(S.step F m lambd dA).1.dW, (S.step F m lambd dA).1.db⟩ := rfl
      _ = _ := by rw [e1, e2]
  · intro e he j hj
    show (((List.range (S.l.W.getD 0 []).length).map fun j => (S.o.xA e j).foldl F.addX ((S.o.tA e j).evalX F fun k => F.mulX ((S.l.W.getD k []).getD j .nan) (S.delta F dA k e)))).getD j .nan = _
    rw [getD_range (by rw [hn]; exact hj), hx.2.2, List.foldl_nil]
    refine tree_zero F _ _ fun k hk => ?_
    have hkl : k < S.l.W.length := List.mem_range.1 ((ho.2.2 e j).mem_iff.1 hk)
    rw [hd e he k hkl]
    exact (num_mul_zero F (hWn k hkl j hj)).1

/-- What the backward pass hands to the layer below. -/
def final (m : ℕ) (lambd : X K) : List (Stage K) → (ℕ → List (X K)) → ℕ → List (X K)
  | [], dA => dA
  | S :: Ss, dA => final m lambd Ss (S.step F m lambd dA).2

theorem backward_append (m : ℕ) (lambd : X K) (S : Stage K) : ∀ (Ss : List (Stage K)) (dA : ℕ → List (X K)),
    backward F m lambd (Ss ++ [S]) dA = backward F m lambd Ss dA ++ [(S.step F m lambd (final F m lambd Ss dA)).1] ∧
      final F m lambd (Ss ++ [S]) dA = (S.step F m lambd (final F m lambd Ss dA)).2
  | [], dA => ⟨rfl, rfl⟩
  | T :: Ss, dA => by
    obtain ⟨h1, h2⟩ := backward_append m lambd S Ss (T.step F m lambd dA).2
    exact ⟨by rw [List.cons_append, backward, h1]; rfl, by rw [List.cons_append, final, h2]; rfl⟩

theorem zero_fit {ex : X K → X K} (he : ExpX F ex) (os : ℕ → Back K) {m : ℕ} (hm : 0 < m) (lambd : X K) (dA : ℕ → List (X K)) : ∀ (ls : List (Layer K)) (s n : ℕ) (A : ℕ → List (X K)),
    ls ≠ [] → Chained ls n → (∀ i l, ls[i]? = some l → (os (s + i)).Fits m l.W.length) → (∀ i, (os i).Plain) → (∀ l ∈ ls, ∀ row ∈ l.W, ∀ w ∈ row, IsNum w) →
    (∀ e < m, ∀ j < n, IsNum ((A e).getD j .nan)) → (∀ e < m, ∀ z ∈ hidden F ex ls (A e), tanh F ex z ≠ .nan) → (∀ l, ls.getLast? = some l → ∀ e < m, ∀ k < l.W.length, (dA e).getD k .nan = .fin 0) →
    backward F m lambd (stages F ex os s ls A).reverse dA = (ls.map (penaltyGrad F m lambd)).reverse ∧ ∀ e < m, ∀ j < n, (final F m lambd (stages F ex os s ls A).reverse dA e).getD j .nan = .fin 0
  | [], _, _, _, h, _, _, _, _, _, _, _ => absurd rfl h
  | [l], s, n, A, _, hc, ho, hx, hW, hA, _, hd => by
    have := step_zero F (S := ⟨l, A, fun e => l.z F (A e), fun _ => .fin 1, os s⟩) (n := n) hm hc.1 (ho 0 l rfl) (hx s) lambd (hW l (by simp)) (dA := dA) hA (fun _ _ _ _ => ⟨1, rfl⟩) (hd l rfl)
    refine ⟨?_, this.2⟩
    show [(Stage.step F _ m lambd dA).1] = [_]
    rw [this.1]
  | l :: l' :: ls, s, n, A, _, hc, ho, hx, hW, hA, hz, hd => by
    have hzl : ∀ e < m, ∀ k < l.W.length, ∃ z, (l.z F (A e))[k]? = some z ∧ tanh F ex z ≠ .nan := by
      intro e hem k hk
      have hk' : k < (l.z F (A e)).length := by rw [z_length]; exact hk
      exact ⟨_, List.getElem?_eq_getElem hk', hz e hem _ (List.mem_append_left _ (List.getElem_mem hk'))⟩
    have hA' : ∀ e < m, ∀ j < l.W.length, IsNum (((l.z F (A e)).map (tanh F ex)).getD j .nan) := by
      intro e hem j hj
      obtain ⟨z, e1, e2⟩ := hzl e hem j hj
      rw [List.getD_eq_getElem?_getD, List.getElem?_map, e1]
      obtain h | ⟨v, x, h, -⟩ := C121_tanh_range F he z
      · exact absurd h e2
      · exact ⟨v, h⟩
    obtain ⟨i1, i2⟩ := zero_fit he os hm lambd dA (l' :: ls) (s + 1) l.W.length (fun e => (l.z F (A e)).map (tanh F ex)) (by simp) hc.2
      (fun i l2 h => by have := ho (i + 1) l2 (by rw [List.getElem?_cons_succ]; exact h); rwa [show s + 1 + i = s + (i + 1) by omega])
      hx (fun l2 h => hW l2 (by simp at h ⊢; tauto)) hA' (fun e hem z h' => hz e hem z (List.mem_append_right _ h')) (fun l2 h => hd l2 (by rw [List.getLast?_cons_cons]; exact h))
    have e0 : stages F ex os s (l :: l' :: ls) A = ⟨l, A, fun e => l.z F (A e), dTanh F ex, os s⟩ :: stages F ex os (s + 1) (l' :: ls) fun e => (l.z F (A e)).map (tanh F ex) := rfl
    obtain ⟨b1, b2⟩ := backward_append F m lambd ⟨l, A, fun e => l.z F (A e), dTanh F ex, os s⟩ (stages F ex os (s + 1) (l' :: ls) fun e => (l.z F (A e)).map (tanh F ex)).reverse dA
    have := step_zero F (S := ⟨l, A, fun e => l.z F (A e), dTanh F ex, os s⟩) (n := n) hm hc.1 (ho 0 l rfl) (hx s) lambd (hW l (by simp)) hA
      (fun e hem k hk => by
        obtain ⟨z, e1, e2⟩ := hzl e hem k hk
        show IsNum (dTanh F ex ((l.z F (A e)).getD k .nan))
        rw [List.getD_eq_getElem?_getD, e1]
        obtain ⟨d, hd', -⟩ := (C121_tanh_derivative F he z).2 e2
        exact ⟨d, hd'⟩) i2
    rw [e0, List.reverse_cons, b1, b2, i1, this.1, List.map_cons (f := penaltyGrad F m lambd) (a := l), List.reverse_cons]
    exact ⟨rfl, this.2⟩

/-- **C122** A batch that is fitted exactly, without gradient enhancement: if for every example the outputs of the network as computed equal the targets, then the cost without penalty is exactly 0, the
gradient with respect to every bias is exactly 0 and with respect to every weight `w` exactly `(lambd / m) * w` as computed: 0 if `lambd` is 0, in every layer, however the sums are ordered. -/
theorem C122_perfect_fit {ex : X K → X K} (he : ExpX F ex) {os : ℕ → Back K} {ls : List (Layer K)} {n m : ℕ} (hne : ls ≠ []) (hc : Chained ls n)
    (ho : ∀ i l, ls[i]? = some l → (os i).Fits m l.W.length) (hx : ∀ i, (os i).Plain) (hm : 0 < m) (lambd : X K) (A Y : ℕ → List (X K)) (hW : ∀ l ∈ ls, ∀ row ∈ l.W, ∀ w ∈ row, IsNum w)
    (hA : ∀ e < m, ∀ j < n, IsNum ((A e).getD j .nan)) (hY : ∀ e < m, Y e = forward F ex ls (A e) ∧ ∀ v ∈ Y e, IsNum v) (hz : ∀ e < m, ∀ z ∈ hidden F ex ls (A e), tanh F ex z ≠ .nan)
    {t : ℕ → Tree} (ht : ∀ k, (t k).Adds m) {l : Layer K} (hl : ls.getLast? = some l) :
    gradients F ex os m lambd ls A Y = (ls.map (penaltyGrad F m lambd)).reverse ∧ lse F t m l.W.length (fun e => forward F ex ls (A e)) Y [] = .fin 0 := by
  have hlen : ∀ e, (forward F ex ls (A e)).length = l.W.length := by
    intro e
    obtain ⟨hs, rfl⟩ := List.getLast?_eq_some_iff.1 hl
    obtain ⟨a', e1, -⟩ := forward_last F (ex := ex) l hs (A e)
    rw [e1, z_length]
  have hres : ∀ e < m, ∀ k < l.W.length, ∃ c, (Y e).getD k .nan = .fin c ∧ (forward F ex ls (A e)).getD k .nan = .fin c := by
    intro e hem k hk
    obtain ⟨h1, h2⟩ := hY e hem
    have hk' : k < (Y e).length := by rw [h1, hlen]; exact hk
    obtain ⟨c, hcc⟩ := h2 _ (List.getElem_mem hk')
    refine ⟨c, by rw [getD_of_lt hk']; exact hcc, ?_⟩
    rw [← h1, getD_of_lt hk']
    exact hcc
  have hself : ∀ c : K, F.subX (.fin c) (.fin c) = .fin 0 := fun c => by
    show F.of (c + -c) = _
    rw [add_neg_cancel, F.of_zero]
  constructor
  · refine (zero_fit F he os hm lambd _ ls 0 n A hne hc (fun i l' h => by rw [Nat.zero_add]; exact ho i l' h) hx hW hA hz fun l' h e hem k hk => ?_).1
    rw [hl] at h
    cases h
    have h1 := (hY e hem).1
    obtain ⟨c, c1, c2⟩ := hres e hem k hk
    have hk' : k < (Y e).length := by rw [h1, hlen]; exact hk
    rw [residual, ← h1, List.getD_eq_getElem?_getD, List.getElem?_zipWith, List.getElem?_eq_getElem hk']
    rw [getD_of_lt hk'] at c1
    rw [c1]
    exact hself c
  · unfold lse
    dsimp only
    have hfold : ∀ (L : List ℕ), (∀ k ∈ L, k < l.W.length) → L.foldl (fun c k => F.addX c (F.mulX (.fin (1 / 2 : K)) ((t k).evalX F fun e =>
        F.mulX (F.subX ((forward F ex ls (A e)).getD k .nan) ((Y e).getD k .nan)) (F.subX ((forward F ex ls (A e)).getD k .nan) ((Y e).getD k .nan))))) (.fin 0) = .fin 0 := by
      intro L
      induction L with
      | nil => intro _; rfl
      | cons k L ih =>
        intro hL
        rw [List.foldl_cons, tree_zero F _ _ fun e hem => ?_, (num_mul_zero F ⟨_, rfl⟩).1, show F.addX (.fin 0) (.fin (0 : K)) = .fin 0 from zero_add_val F F.fin_zero]
        · exact ih fun k' hk' => hL k' (by simp [hk'])
        · obtain ⟨c, c1, c2⟩ := hres e (List.mem_range.1 ((ht k).mem_iff.1 hem)) k (hL k (by simp))
          rw [c1, c2, hself]
          exact (num_mul_zero F ⟨0, rfl⟩).1
    rw [hfold _ fun k hk => List.mem_range.1 hk, List.foldl_nil]
    exact (num_mul_zero F (inv_num F hm)).1

/-- **C122** The gradient with respect to the biases of the last layer, from which C121 takes the fate of constant outputs, is the mean of the differences of outputs and targets over the batch, plus the
terms of gradient enhancement. -/
theorem C122_last_bias (ex : X K → X K) {os : ℕ → Back K} {ls : List (Layer K)} {m : ℕ} (lambd : X K) (A Y : ℕ → List (X K)) {l : Layer K} (hl : ls.getLast? = some l) {i : ℕ} (hi : i < l.W.length)
    (hY : ∀ e, (Y e).length = l.W.length) (hb : ∀ i, (os i).tb = (os 0).tb ∧ (os i).xb = (os 0).xb) (ht : ∀ k, ((os 0).tb k).Adds m) :
    ∃ G, (gradients F ex os m lambd ls A Y).head? = some G ∧ G.db.getD i .nan =
      lastBias F ((os 0).tb i) m ((List.range m).map fun e => (forward F ex ls (A e)).getD i .nan) ((List.range m).map fun e => (Y e).getD i .nan) ((os 0).xb i) := by
  have tail : ∀ (ls : List (Layer K)) (s : ℕ) (B : ℕ → List (X K)), ls.getLast? = some l →
      ∃ A' s', (stages F ex os s ls B).reverse.head? = some ⟨l, A', fun e => l.z F (A' e), fun _ => .fin 1, os s'⟩ := by
    intro ls
    induction ls with
    | nil => intro s B h; cases h
    | cons l1 ls ih =>
      intro s B h
      cases ls with
      | nil => cases h; exact ⟨B, s, rfl⟩
      | cons l2 ls =>
        obtain ⟨A', s', e⟩ := ih (s + 1) (fun e => (l1.z F (B e)).map (tanh F ex)) (by rw [List.getLast?_cons_cons] at h; exact h)
        refine ⟨A', s', ?_⟩
        rw [show stages F ex os s (l1 :: l2 :: ls) B = ⟨l1, B, fun e => l1.z F (B e), dTanh F ex, os s⟩ :: stages F ex os (s + 1) (l2 :: ls) fun e => (l1.z F (B e)).map (tanh F ex) from rfl,
          List.reverse_cons, List.head?_append, e]
        rfl
  obtain ⟨A', s', e⟩ := tail ls 0 A hl
  have hlen : ∀ e, (forward F ex ls (A e)).length = l.W.length := by
    clear e
    intro e2
    obtain ⟨hs, rfl⟩ := List.getLast?_eq_some_iff.1 hl
    obtain ⟨a', e1, -⟩ := forward_last F (ex := ex) l hs (A e2)
    rw [e1, z_length]
  unfold gradients
  generalize (stages F ex os 0 ls A).reverse = T at e
  cases T with
  | nil => cases e
  | cons S T =>
    cases e
    refine ⟨_, rfl, ?_⟩
    show ((List.range l.W.length).map fun k => ((os s').xb k).foldl F.addX (F.mulX (F.divX (.fin 1) (.fin (m : K))) (((os s').tb k).evalX F fun e => Stage.delta F _ _ k e))).getD i X.nan = _
    rw [getD_range hi]
    show ((os s').xb i).foldl F.addX (F.mulX _ (((os s').tb i).evalX F _)) = ((os 0).xb i).foldl F.addX (F.mulX _ (((os 0).tb i).evalX F _))
    rw [(hb s').1, (hb s').2]
    congr 2
    have tree_congr : ∀ (t : Tree) (f g : ℕ → X K), (∀ i ∈ t.leaves, f i = g i) → t.evalX F f = t.evalX F g := by
      intro t f g h
      induction t with
      | leaf i => exact h i (by simp [Tree.leaves])
      | node a b ha hb => rw [Tree.evalX, Tree.evalX, ha fun i hi => h i (by rw [Tree.leaves, List.mem_append]; exact Or.inl hi), hb fun i hi => h i (by rw [Tree.leaves, List.mem_append]; exact Or.inr hi)]
    refine tree_congr _ _ _ fun e he => ?_
    have hem : e < m := List.mem_range.1 ((ht i).mem_iff.1 he)
    rw [Stage.delta, getD_range hem, getD_range hem]
    show F.mulX (.fin 1) ((residual F (forward F ex ls (A e)) (Y e)).getD i .nan) = _
    have h1 : i < (forward F ex ls (A e)).length := by rw [hlen]; exact hi
    have h2 : i < (Y e).length := by rw [hY]; exact hi
    rw [residual, List.getD_eq_getElem?_getD, List.getElem?_zipWith, List.getElem?_eq_getElem h1, List.getElem?_eq_getElem h2, getD_of_lt h1, getD_of_lt h2]
    rfl

end

/-! ### Instances -/

/-- Sums from left to right, for two examples and the layers of `net0`. -/
def os64 (i : ℕ) : Back ℚ := ⟨fun _ _ => Tree.left 1, fun _ => Tree.left 1, fun _ _ => Tree.left (if i = 0 then 1 else 0), fun _ _ => [], fun _ => [], fun _ _ => []⟩

theorem os64_fits : ∀ i l, net0.layers[i]? = some l → (os64 i).Fits 2 l.W.length := by
  intro i l h
  match i with
  | 0 =>
    cases h
    exact ⟨fun _ _ => List.Perm.refl _, fun _ => List.Perm.refl _, fun _ _ => List.Perm.refl _⟩
  | 1 =>
    cases h
    exact ⟨fun _ _ => List.Perm.refl _, fun _ => List.Perm.refl _, fun _ _ => List.Perm.refl _⟩
  | i + 2 => cases h

/-- Two examples; in the second a hidden unit overflows. -/
def bad (e : ℕ) : List (X ℚ) := if e = 0 then [.fin 1, .fin (1 / 2)] else [.fin 800, .fin 0]

example : ∀ G ∈ gradients binary64 exq os64 2 (.fin (1 / 8)) net0.layers bad (fun _ => [.fin 3]), (∀ row ∈ G.dW, ∀ v ∈ row, v = .nan) ∧ ∀ v ∈ G.db, v = .nan :=
  C122_gradient_nan binary64 exq_ok net0_chained os64_fits _ bad _ (e := 1) (by norm_num) (z := .fin 800) (by decide +kernel) (Or.inr (Or.inl (by decide +kernel)))
example : lse binary64 (fun _ => Tree.left 1) 2 1 (fun e => forward binary64 exq net0.layers (bad e)) (fun _ => [.fin 3]) [.fin 5] = .nan :=
  C122_cost_nan binary64 exq_ok (m := 2) (t := fun _ => Tree.left 1) net0_chained (fun _ => List.Perm.refl _) (by norm_num) bad _ _ (e := 1) (by norm_num) (z := .fin 800) (by decide +kernel) (Or.inr (Or.inl (by decide +kernel)))
-- the first example alone gives numbers
example : gradients binary64 exq (fun i => { os64 i with tW := fun _ _ => Tree.left 0, tb := fun _ => Tree.left 0 }) 1 (.fin (1 / 8)) net0.layers bad (fun _ => [.fin 3]) ≠ [] ∧
    ∀ G ∈ gradients binary64 exq (fun i => { os64 i with tW := fun _ _ => Tree.left 0, tb := fun _ => Tree.left 0 }) 1 (.fin (1 / 8)) net0.layers bad (fun _ => [.fin 3]), ∀ v ∈ G.db, v ≠ .nan := by
  decide +kernel

/-- Two examples without overflow. -/
def good (e : ℕ) : List (X ℚ) := if e = 0 then [.fin 1, .fin (1 / 2)] else [.fin (-1), .fin 0]

example : gradients binary64 exq os64 2 (.fin (1 / 8)) net0.layers good (fun e => forward binary64 exq net0.layers (good e)) = (net0.layers.map (penaltyGrad binary64 2 (.fin (1 / 8)))).reverse := by
  have num : ∀ v : X ℚ, (match v with | .fin _ => true | _ => false) = true → IsNum v := by
    intro v hv
    cases v with
    | fin c => exact ⟨c, rfl⟩
    | inf s => cases hv
    | nan => cases hv
  have e2 : ∀ e < 2, e = 0 ∨ e = 1 := fun e he => by omega
  refine (C122_perfect_fit binary64 exq_ok (os := os64) (ls := net0.layers) (n := 2) (by decide) net0_chained os64_fits (fun i => ⟨fun _ _ => rfl, fun _ => rfl, fun _ _ => rfl⟩) (by norm_num) (.fin (1 / 8))
    good _ ?_ ?_ (fun e he => ⟨rfl, ?_⟩) ?_ (t := fun _ => Tree.left 1) (fun _ => List.Perm.refl _) (l := ⟨[[.fin 3, .fin (-2)]], [.fin (1 / 2)], fun _ => Tree.left 1⟩) rfl).1
  · intro l hl row hrow w hw
    refine num w ?_
    have : ∀ l ∈ net0.layers, ∀ row ∈ l.W, ∀ w ∈ row, (match w with | .fin _ => true | _ => false) = true := by
      intro l hl
      have : l ∈ [_, _] := hl
      rw [List.mem_cons, List.mem_singleton] at this
      rcases this with rfl | rfl <;> decide +kernel
    exact this l hl row hrow w hw
  · intro e he j hj
    rcases e2 e he with rfl | rfl <;> rcases e2 j hj with rfl | rfl <;> exact num _ (by decide +kernel)
  · intro v hv
    refine num v ?_
    revert v
    rcases e2 e he with rfl | rfl <;> decide +kernel
  · intro e he
    rcases e2 e he with rfl | rfl <;> decide +kernel

example : ∃ G, (gradients binary64 exq os64 2 (.fin 0) net0.layers good fun _ => [.fin 3]).head? = some G ∧ G.db.getD 0 .nan =
    lastBias binary64 (Tree.left 1) 2 ((List.range 2).map fun e => (forward binary64 exq net0.layers (good e)).getD 0 .nan) ((List.range 2).map fun _ => .fin 3) [] :=
  C122_last_bias binary64 exq (os := os64) (m := 2) _ good (fun _ => [.fin 3]) (l := ⟨[[.fin 3, .fin (-2)]], [.fin (1 / 2)], fun _ => Tree.left 1⟩) rfl (i := 0) (by decide) (fun _ => rfl) (fun _ => ⟨rfl, rfl⟩)
    (fun _ => List.Perm.refl _)

/-- A network with one unit in each layer, whose two biases are the parameters. -/
def net2 (d : Fin 2 → X ℚ) : List (Layer ℚ) := [⟨[[.fin 1]], [d 0], fun _ => Tree.left 0⟩, ⟨[[.fin 3]], [d 1], fun _ => Tree.left 0⟩]

def os2 (_ : ℕ) : Back ℚ := ⟨fun _ _ => Tree.left 0, fun _ => Tree.left 0, fun _ _ => Tree.left 0, fun _ _ => [], fun _ => [], fun _ _ => []⟩

def cost2 (d : Fin 2 → X ℚ) : X ℚ := lse binary64 (fun _ => Tree.left 0) 1 1 (fun _ => forward binary64 exq (net2 d) [.fin 800]) (fun _ => [.fin 1]) []

def grad2 (d : Fin 2 → X ℚ) (p : Fin 2) : X ℚ := ((gradients binary64 exq os2 1 (.fin 0) (net2 d) (fun _ => [.fin 800]) fun _ => [.fin 1]).getD (if p = 0 then 1 else 0) ⟨[], []⟩).db.getD 0 .nan

-- a run of three passes on a network that overflows at its only example
example (o : Opt (X ℚ) (Fin 2)) (h : optimizeX binary64 12 cost2 grad2 (gdX binary64) (.fin (1 / 2)) 3 (fun _ => .fin 0) = some o) :
    (∀ d, o.designs[1]? = some d → (∀ p, d p = .nan) ∧ ∀ a, ∀ v ∈ forward binary64 exq (net2 d) a, v = .nan) ∧ (1 < o.designs.length → o.designs.length = 4) := by
  have h0 : o.designs[0]? = some fun _ => .fin 0 := by
    have := (C120_history binary64 (Or.inl rfl) 12 cost2 grad2 _ 3 _ o h).1
    rw [← List.head?_eq_getElem?]
    exact this
  have := C122_training binary64 exq_ok (Or.inl rfl) cost2 grad2 _ 12 3 _ o h net2 (fun _ => os2) (n := 1) (m := 1) (ny := 1) (.fin 0) (fun _ => [.fin 800]) (fun _ => [.fin 1])
    (t := fun _ => Tree.left 0) (fun _ => [])
    (fun d => ⟨by simp [net2], ⟨⟨by simp, by simp, fun i hi => by
        have : i = 0 := by have : i < 1 := hi; omega
        subst this
        exact ⟨rfl, List.Perm.refl _⟩⟩, ⟨by simp, by simp, fun i hi => by
        have : i = 0 := by have : i < 1 := hi; omega
        subst this
        exact ⟨rfl, List.Perm.refl _⟩⟩, trivial⟩, fun i l hl => by
        have hlen : l.W.length = 1 := by
          match i with
          | 0 => cases hl; rfl
          | 1 => cases hl; rfl
          | i + 2 => cases hl
        rw [hlen]
        exact ⟨fun _ _ => List.Perm.refl _, fun _ => List.Perm.refl _, fun _ _ => List.Perm.refl _⟩⟩)
    (fun d l hl i hi => by
      have : l ∈ [_, _] := hl
      rw [List.mem_cons, List.mem_singleton] at this
      rcases this with rfl | rfl
      · have : i = 0 := by have : i < 1 := hi; omega
        subst this
        exact ⟨0, rfl⟩
      · have : i = 0 := by have : i < 1 := hi; omega
        subst this
        exact ⟨1, rfl⟩)
    (fun _ => List.Perm.refl _) (by norm_num) (fun _ => rfl)
    (fun d p => by
      match p with
      | 0 => exact ⟨_, List.mem_cons_of_mem _ (List.mem_singleton.2 rfl), Or.inl (List.mem_singleton.2 rfl)⟩
      | 1 => exact ⟨_, List.mem_cons_self, Or.inl (List.mem_singleton.2 rfl)⟩)
    h0 (e := 0) (by norm_num) (z := .fin 800) (by decide +kernel) (Or.inr (Or.inl (by decide +kernel)))
  exact ⟨fun d hd => ⟨(this.1 1 d (by norm_num) hd).1, (this.1 1 d (by norm_num) hd).2.2⟩, this.2⟩
example : (optimizeX binary64 12 cost2 grad2 (gdX binary64) (.fin (1 / 2)) 3 (fun _ => .fin 0)).isSome = true := C120_terminates _ _ _ _ _ _

end SMT.Fp.NetX
