import Verif.Fp.NetXProps

/-!
# C121: the neural network in floating-point arithmetic: predictions
-/
set_option linter.unusedSectionVars false
set_option linter.unusedSimpArgs false
set_option linter.unusedVariables false

namespace SMT.Fp.NetX
open SMT.Fp.Corr SMT.Fp.Optim SMT.Nn

variable {K : Type} [Field K] [LinearOrder K] [IsStrictOrderedRing K] (F : Format K)

/-- A layer with `n` inputs: at least one unit, one bias and `n` weights for every unit, every product added exactly once. -/
def Layer.Fits (L : Layer K) (n : ℕ) : Prop := 0 < L.W.length ∧ L.b.length = L.W.length ∧ ∀ i < L.W.length, (L.W.getD i []).length = n ∧ (L.t i).Adds n

/-- Layers whose sizes fit together, the first with `n` inputs. -/
def Chained : List (Layer K) → ℕ → Prop
  | [], _ => True
  | l :: ls, n => l.Fits n ∧ Chained ls l.W.length

/-- The numbers `Z = W A + b` of all hidden units, layer by layer. -/
def hidden (ex : X K → X K) : List (Layer K) → List (X K) → List (X K)
  | [], _ => []
  | [_], _ => []
  | l :: ls, a => l.z F a ++ hidden ex ls ((l.z F a).map (tanh F ex))

/-! ### NaN through the layers -/

theorem getD_all {l : List (X K)} (h : ∀ v ∈ l, v = .nan) (i : ℕ) : l.getD i .nan = .nan := by
  rw [List.getD_eq_getElem?_getD]
  cases e : l[i]? with
  | none => rfl
  | some v => exact h v (List.mem_of_getElem? e)

theorem dot_nan {t : Tree} {n k : ℕ} (ht : t.Adds n) (hk : k < n) (row : List (X K)) {a : List (X K)} (h : a.getD k .nan = .nan) : dot F t row a = .nan := by
  refine Ego.evalX_nan F _ t ⟨k, ht.mem_iff.2 (List.mem_range.2 hk), ?_⟩
  rw [h, F.mulX_nan_right]

theorem z_nan {L : Layer K} {n k : ℕ} (hL : L.Fits n) (hk : k < n) {a : List (X K)} (h : a.getD k .nan = .nan) : (∀ v ∈ L.z F a, v = .nan) ∧ ∀ v ∈ L.apply F a, v = .nan := by
  constructor
  · intro v hv
    obtain ⟨i, hi, rfl⟩ := List.mem_map.1 hv
    rw [dot_nan F (hL.2.2 i (List.mem_range.1 hi)).2 hk _ h, F.addX_nan_left]
  · intro v hv
    obtain ⟨i, hi, rfl⟩ := List.mem_map.1 hv
    exact dot_nan F (hL.2.2 i (List.mem_range.1 hi)).2 hk _ h

theorem tanh_nan {ex : X K → X K} (he : ExpX F ex) : tanh F ex .nan = .nan := (C121_tanh_nan F he _).2 (Or.inl rfl)

theorem map_all {l : List (X K)} {f : X K → X K} (h : ∀ v ∈ l, f v = .nan) : ∀ v ∈ l.map f, v = .nan := by
  intro v hv
  obtain ⟨w, hw, rfl⟩ := List.mem_map.1 hv
  exact h w hw

theorem forward_nan {ex : X K → X K} (he : ExpX F ex) : ∀ (ls : List (Layer K)) (n k : ℕ) (a : List (X K)), Chained ls n → k < n → ls ≠ [] → a.getD k .nan = .nan → ∀ v ∈ forward F ex ls a, v = .nan
  | [], _, _, _, _, _, h, _ => absurd rfl h
  | [l], n, k, a, hc, hk, _, ha => (z_nan F hc.1 hk ha).1
  | l :: l' :: ls, n, k, a, hc, hk, _, ha => by
    refine forward_nan he (l' :: ls) l.W.length 0 _ hc.2 hc.1.1 (by simp) (getD_all (map_all fun v hv => ?_) 0)
    rw [(z_nan F hc.1 hk ha).1 v hv]
    exact tanh_nan F he

theorem zip_nan (as bs : List (X K)) (i : ℕ) (h : as.getD i .nan = .nan ∨ bs.getD i .nan = .nan) : (List.zipWith F.mulX as bs).getD i .nan = .nan := by
  rw [List.getD_eq_getElem?_getD, List.getElem?_zipWith]
  rw [List.getD_eq_getElem?_getD, List.getD_eq_getElem?_getD] at h
  cases ea : as[i]? with
  | none => rfl
  | some u =>
    cases eb : bs[i]? with
    | none => rfl
    | some w =>
      rw [ea, eb] at h
      show F.mulX u w = .nan
      rcases h with h | h
      · rw [show u = .nan from h, F.mulX_nan_left]
      · rw [show w = .nan from h, F.mulX_nan_right]

theorem jac_nan {ex : X K → X K} : ∀ (ls : List (Layer K)) (n k : ℕ) (a d : List (X K)), Chained ls n → k < n → ls ≠ [] → d.getD k .nan = .nan → ∀ v ∈ jac F ex ls a d, v = .nan
  | [], _, _, _, _, _, _, h, _ => absurd rfl h
  | [l], n, k, a, d, hc, hk, _, hd => map_all fun v hv => by rw [(z_nan F hc.1 hk hd).2 v hv, F.mulX_nan_right]
  | l :: l' :: ls, n, k, a, d, hc, hk, _, hd =>
    jac_nan (l' :: ls) l.W.length 0 _ _ hc.2 hc.1.1 (by simp) (zip_nan F _ _ 0 (Or.inr (getD_all (z_nan F hc.1 hk hd).2 0)))

theorem mem_idx {L : Layer K} {a : List (X K)} {z : X K} (h : z ∈ L.z F a) : ∃ i < L.W.length, (L.z F a)[i]? = some z := by
  obtain ⟨i, hi⟩ := List.mem_iff_getElem?.1 h
  refine ⟨i, ?_, hi⟩
  have := (List.getElem?_eq_some_iff.1 hi).1
  simpa [Layer.z] using this

theorem overflow_aux {ex : X K → X K} (he : ExpX F ex) {z : X K} (ho : z = .nan ∨ ex z = .inf false ∨ ex z.neg = .inf false) : ∀ (ls : List (Layer K)) (n : ℕ) (a d : List (X K)), Chained ls n →
    z ∈ hidden F ex ls a → (∀ v ∈ forward F ex ls a, v = .nan) ∧ ∀ v ∈ jac F ex ls a d, v = .nan
  | [], _, _, _, _, h => by simp [hidden] at h
  | [l], _, _, _, _, h => by simp [hidden] at h
  | l :: l' :: ls, n, a, d, hc, h => by
    have hh : hidden F ex (l :: l' :: ls) a = l.z F a ++ hidden F ex (l' :: ls) ((l.z F a).map (tanh F ex)) := rfl
    rw [hh, List.mem_append] at h
    rcases h with h | h
    · obtain ⟨i, hi, e⟩ := mem_idx F h
      have ht := (C121_tanh_nan F he z).2 ho
      constructor
      · refine forward_nan F he (l' :: ls) _ i _ hc.2 hi (by simp) ?_
        rw [List.getD_eq_getElem?_getD, List.getElem?_map, e]
        exact ht
      · refine jac_nan F (l' :: ls) _ i _ _ hc.2 hi (by simp) (zip_nan F _ _ i (Or.inl ?_))
        rw [List.getD_eq_getElem?_getD, List.getElem?_map, e]
        exact ((C121_tanh_derivative F he z).1 ht).1
    · exact overflow_aux he ho (l' :: ls) _ _ _ hc.2 h

theorem evaluate_nan {ex : X K → X K} {N : Net K} {x : List (X K)} (h : ∀ v ∈ forward F ex N.layers (N.norm F x), v = .nan) : ∀ v ∈ N.evaluate F ex x, v = .nan := by
  intro v hv
  obtain ⟨j, hj, rfl⟩ := List.mem_map.1 hv
  rw [getD_all h, F.mulX_nan_left, F.addX_nan_left]

/-- **C121** If at a point one hidden unit has a NaN or a number so large (of either sign) that the exponential overflows, then every prediction and every derivative at this point is NaN. -/
theorem C121_overflow {ex : X K → X K} (he : ExpX F ex) {N : Net K} {x : List (X K)} (hc : Chained N.layers x.length) {z : X K} (hz : z ∈ hidden F ex N.layers (N.norm F x))
    (ho : z = .nan ∨ ex z = .inf false ∨ ex z.neg = .inf false) : (∀ v ∈ N.evaluate F ex x, v = .nan) ∧ ∀ j, ∀ v ∈ N.jacNorm F ex x j, v = .nan :=
  ⟨evaluate_nan F (overflow_aux F he ho N.layers _ _ [] hc hz).1, fun j => (overflow_aux F he ho N.layers _ _ _ hc hz).2⟩

/-! ### Constant inputs -/

theorem off_add {a : X K} (h : Off a) (b : X K) : Off (F.addX a b) ∧ Off (F.addX b a) := by
  constructor
  · rcases h with rfl | ⟨s, rfl⟩
    · left; exact F.addX_nan_left b
    · cases b with
      | fin y => right; exact ⟨_, rfl⟩
      | inf t =>
        show Off (if s = t then X.inf s else X.nan)
        split
        · right; exact ⟨_, rfl⟩
        · left; rfl
      | nan => left; rfl
  · rcases h with rfl | ⟨s, rfl⟩
    · left; exact F.addX_nan_right b
    · cases b with
      | fin y => right; exact ⟨_, rfl⟩
      | inf t =>
        show Off (if t = s then X.inf t else X.nan)
        split
        · right; exact ⟨_, rfl⟩
        · left; rfl
      | nan => left; rfl

theorem off_mul_right {b : X K} (h : Off b) (a : X K) : Off (F.mulX a b) := by
  rw [(C103_comm F a b).2]
  exact off_mul F h a

theorem off_neg {a : X K} (h : Off a) : Off a.neg := by
  rcases h with rfl | ⟨s, rfl⟩
  · left; rfl
  · right; exact ⟨_, rfl⟩

theorem off_sub_left {a : X K} (h : Off a) (b : X K) : Off (F.subX a b) := (off_add F h b.neg).1

theorem off_tree (g : ℕ → X K) (t : Tree) (h : ∃ i ∈ t.leaves, Off (g i)) : Off (t.evalX F g) := by
  induction t with
  | leaf i =>
    obtain ⟨j, hj, e⟩ := h
    simp only [Tree.leaves, List.mem_singleton] at hj
    rw [← hj, Tree.evalX]
    exact e
  | node a b ha hb =>
    obtain ⟨j, hj, e⟩ := h
    rw [Tree.leaves, List.mem_append] at hj
    rw [Tree.evalX]
    rcases hj with hj | hj
    · exact (off_add F (ha ⟨j, hj, e⟩) _).1
    · exact (off_add F (hb ⟨j, hj, e⟩) _).2

theorem div_zero_off (a : X K) : Off (F.divX a (.fin 0)) := by
  cases a with
  | nan => left; rfl
  | inf s => right; exact ⟨_, rfl⟩
  | fin x =>
    show Off (if (0 : K) = 0 then (if x = 0 then X.nan else X.inf (decide (x < 0))) else F.of (x / 0))
    rw [if_pos rfl]
    split
    · left; rfl
    · right; exact ⟨_, rfl⟩

theorem off_exp {ex : X K → X K} (he : ExpX F ex) {z : X K} (h : Off z) : z = .nan ∨ ex z = .inf false ∨ ex z.neg = .inf false := by
  rcases h with rfl | ⟨s, rfl⟩
  · exact Or.inl rfl
  · cases s
    · exact Or.inr (Or.inl he.pinf)
    · exact Or.inr (Or.inr he.pinf)

/-- **C121** A network with a hidden layer for which the standard deviation of one input over the training points is 0: every prediction and every derivative, at every point, is NaN. -/
theorem C121_constant_input {ex : X K → X K} (he : ExpX F ex) {N : Net K} {x : List (X K)} (hc : Chained N.layers x.length) (h2 : 2 ≤ N.layers.length) {k : ℕ} (hk : k < x.length)
    (hs : N.sdX.getD k .nan = .fin 0) : (∀ v ∈ N.evaluate F ex x, v = .nan) ∧ ∀ j, ∀ v ∈ N.jacNorm F ex x j, v = .nan := by
  obtain ⟨ls, muX, sdX, muY, sdY⟩ := N
  match ls, h2 with
  | l :: l' :: ls, _ =>
    set N : Net K := ⟨l :: l' :: ls, muX, sdX, muY, sdY⟩ with hN
    have hno : Off ((N.norm F x).getD k .nan) := by
      rw [List.getD_eq_getElem?_getD, Net.norm, List.getElem?_map, List.getElem?_range hk]
      show Off (F.divX _ (N.sdX.getD k .nan))
      rw [show N.sdX.getD k .nan = .fin 0 from hs]
      exact div_zero_off F _
    have hz : ∃ z ∈ hidden F ex N.layers (N.norm F x), Off z := by
      refine ⟨F.addX (dot F (l.t 0) (l.W.getD 0 []) (N.norm F x)) (l.b.getD 0 .nan), ?_, ?_⟩
      · refine List.mem_append_left _ (List.mem_map.2 ⟨0, List.mem_range.2 hc.1.1, rfl⟩)
      · refine (off_add F (off_tree F _ _ ⟨k, (hc.1.2.2 0 hc.1.1).2.mem_iff.2 (List.mem_range.2 hk), off_mul_right F hno _⟩) _).1
    obtain ⟨z, hz, hoff⟩ := hz
    exact C121_overflow F he hc hz (off_exp F he hoff)

/-! ### Constant outputs -/

/-- **C121** A standardised constant output, as computed: if the standard deviation is 0, every value is NaN or infinite; so is the gradient of the cost with respect to the bias of this
output, whatever the network computes, the number of examples and the gradient-enhancement terms. -/
theorem C121_constant_output_gradient {t : Tree} {m : ℕ} (hm : 0 < m) (ht : t.Adds m) (mu : X K) (al y extra : List (X K)) : Off (lastBias F t m al (normOut F mu (.fin 0) y) extra) := by
  have hfold : ∀ (l : List (X K)) (v : X K), Off v → Off (l.foldl F.addX v) := by
    intro l
    induction l with
    | nil => intro v hv; exact hv
    | cons a l ih => intro v hv; exact ih _ (off_add F hv a).1
  refine hfold _ _ (off_mul_right F (off_tree F _ t ⟨0, ht.mem_iff.2 (List.mem_range.2 hm), off_mul_right F (off_sub F ?_ _) _⟩) _)
  rw [List.getD_eq_getElem?_getD, normOut, List.getElem?_map]
  cases y[0]? with
  | none => left; rfl
  | some v => exact div_zero_off F _

theorem off_rule {ι : Type} {upd : X K → Opt (X K) ι → Opt (X K) ι} (hr : Rule F upd) (r : X K) (o : Opt (X K) ι) (j : ι) (h : Off (o.prev j) ∨ Off (o.dir j)) : Off ((upd r o).cur j) := by
  rcases hr with rfl | ⟨root, pow, eps, rfl⟩
  · rcases h with h | h
    · exact off_sub_left F h _
    · exact off_sub F (off_mul_right F h _) _
  · rcases h with h | h
    · exact off_sub_left F h _
    · exact off_sub F (off_div F (off_mul_right F (off_div F (off_add F (off_mul_right F h _) _).2 _) _) _) _

theorem tried_off {ι : Type} {upd : X K → Opt (X K) ι → Opt (X K) ι} (hr : Rule F upd) (rate : X K) (j : ι) : ∀ (k s : ℕ) (o : Opt (X K) ι), (Off (o.prev j) ∨ Off (o.dir j)) →
    Off ((tried F upd rate s k o).cur j) := by
  intro k
  induction k with
  | zero => intro s o h; exact off_rule F hr _ o j h
  | succ k ih =>
    intro s o h
    refine ih (s + 1) _ ?_
    rw [((hr.keeps F) _ _).2.2.1, ((hr.keeps F) _ _).2.2.2.1]
    exact h

/-- **C121** Infinite entries stay as well: once an entry of the design, or of the gradient at a design, is NaN or infinite, this entry is NaN or infinite in every later design of the run. -/
theorem C121_off_stays {ι : Type} {upd : X K → Opt (X K) ι → Opt (X K) ι} (hr : Rule F upd) (f : (ι → X K) → X K) (g : (ι → X K) → ι → X K) (rate : X K) (fuel maxIter : ℕ) (x0 : ι → X K)
    (o : Opt (X K) ι) (h : optimizeX F fuel f g upd rate maxIter x0 = some o) (j : ι) {m m' : ℕ} {d d' : ι → X K} (hm : o.designs[m]? = some d) (hb : Off (d j) ∨ Off (g d j))
    (hlt : m < m') (hm' : o.designs[m']? = some d') : Off (d' j) := by
  obtain ⟨N, st, -, -, -, hs, hd⟩ := trace F hr f g rate fuel maxIter x0 o h
  obtain ⟨a, rfl⟩ := trace_get hd hm
  obtain ⟨a', rfl⟩ := trace_get hd hm'
  clear hm hm'
  have step : ∀ k < N, (Off ((st k).cur j) ∨ Off (g (st k).cur j)) → Off ((st (k + 1)).cur j) := by
    intro k hk hb
    obtain ⟨t, e, -⟩ := C120_pass F hr fuel f g rate k _ _ (hs k hk)
    rw [e]
    exact tried_off F hr rate j t 0 _ hb
  induction m' with
  | zero => omega
  | succ m' ih =>
    by_cases hmm : m = m'
    · subst hmm; exact step m (by omega) hb
    · exact step m' (by omega) (Or.inl (ih (by omega) (by omega)))

theorem forward_last {ex : X K → X K} (l : Layer K) : ∀ (hs : List (Layer K)) (a : List (X K)), ∃ a', forward F ex (hs ++ [l]) a = l.z F a' ∧ (a' = a ∨ ∃ zs : List (X K), a' = zs.map (tanh F ex)) ∧
    (hs ≠ [] → ∃ zs : List (X K), a' = zs.map (tanh F ex))
  | [], a => ⟨a, rfl, Or.inl rfl, fun h => absurd rfl h⟩
  | h :: hs, a => by
    obtain ⟨a', e, h1, -⟩ := forward_last (ex := ex) l hs ((h.z F a).map (tanh F ex))
    have hz : ∃ zs : List (X K), a' = zs.map (tanh F ex) := by
      rcases h1 with h1 | h1
      · exact ⟨_, h1⟩
      · exact h1
    refine ⟨a', ?_, Or.inr hz, fun _ => hz⟩
    rw [← e]
    cases hs <;> rfl

theorem z_get (l : Layer K) (a : List (X K)) {i : ℕ} (hi : i < l.W.length) : (l.z F a).getD i .nan = F.addX (dot F (l.t i) (l.W.getD i []) a) (l.b.getD i .nan) := by
  rw [List.getD_eq_getElem?_getD, Layer.z, List.getElem?_map, List.getElem?_range hi]
  rfl

theorem z_length (l : Layer K) (a : List (X K)) : (l.z F a).length = l.W.length := by simp [Layer.z]

theorem evaluate_get {ex : X K → X K} {N : Net K} {hs : List (Layer K)} {l : Layer K} (hN : N.layers = hs ++ [l]) (x : List (X K)) {i : ℕ} (hi : i < l.W.length) :
    (N.evaluate F ex x).getD i .nan = F.addX (F.mulX ((forward F ex N.layers (N.norm F x)).getD i .nan) (N.sdY.getD i .nan)) (N.muY.getD i .nan) := by
  obtain ⟨a', e, -⟩ := forward_last F (ex := ex) l hs (N.norm F x)
  have hlen : (forward F ex N.layers (N.norm F x)).length = l.W.length := by rw [hN, e, z_length]
  rw [List.getD_eq_getElem?_getD, Net.evaluate, List.getElem?_map, hlen, List.getElem?_range hi]
  rfl

/-- **C121** An output whose bias is NaN or infinite and whose standard deviation is 0 is predicted as NaN everywhere. -/
theorem C121_constant_output_prediction {ex : X K → X K} {N : Net K} {hs : List (Layer K)} {l : Layer K} (hN : N.layers = hs ++ [l]) {i : ℕ} (hi : i < l.W.length)
    (hb : Off (l.b.getD i .nan)) (hsd : N.sdY.getD i .nan = .fin 0) (x : List (X K)) : (N.evaluate F ex x).getD i .nan = .nan := by
  rw [evaluate_get F hN x hi, hsd]
  obtain ⟨a', e, -⟩ := forward_last F (ex := ex) l hs (N.norm F x)
  have hoff : Off ((forward F ex N.layers (N.norm F x)).getD i .nan) := by
    rw [hN, e, z_get F l a' hi]
    exact (off_add F hb _).2
  have : F.mulX ((forward F ex N.layers (N.norm F x)).getD i .nan) (.fin 0) = .nan := by
    rcases hoff with h | ⟨s, h⟩
    · rw [h, F.mulX_nan_left]
    · rw [h]
      show (if (0 : K) = 0 then X.nan else X.inf (decide ((0 : K) < 0) != s)) = X.nan
      exact if_pos rfl
  rw [this, F.addX_nan_left]

/-- **C121** Training on a constant output (standard deviation 0): whatever the initial parameters, the cost, the other entries of the gradient, the rule and the rate, after the first pass every
design of the run predicts NaN for this output at every point. `net` reads the parameters; `j` is the parameter that is the bias of output `i`. -/
theorem C121_constant_output {ι : Type} {ex : X K → X K} {upd : X K → Opt (X K) ι → Opt (X K) ι} (hr : Rule F upd) (f : (ι → X K) → X K) (g : (ι → X K) → ι → X K) (rate : X K)
    (fuel maxIter : ℕ) (x0 : ι → X K) (o : Opt (X K) ι) (h : optimizeX F fuel f g upd rate maxIter x0 = some o)
    (net : (ι → X K) → Net K) (j : ι) (i : ℕ) (hnet : ∀ d, ∃ hs l, (net d).layers = hs ++ [l] ∧ i < l.W.length ∧ l.b.getD i .nan = d j ∧ (net d).sdY.getD i .nan = .fin 0)
    {t : Tree} {n : ℕ} (hn : 0 < n) (ht : t.Adds n) (mu : X K) (y : List (X K)) (al extra : (ι → X K) → List (X K)) (hg : ∀ d, g d j = lastBias F t n (al d) (normOut F mu (.fin 0) y) (extra d))
    {k : ℕ} (hk : 1 ≤ k) {d : ι → X K} (hd : o.designs[k]? = some d) (x : List (X K)) : ((net d).evaluate F ex x).getD i .nan = .nan := by
  obtain ⟨hs, l, e, hi, hb, hsd⟩ := hnet d
  have hlen : 0 < o.designs.length := by
    have := (List.getElem?_eq_some_iff.1 hd).1
    omega
  refine C121_constant_output_prediction F e hi ?_ hsd x
  rw [hb]
  refine C121_off_stays F hr f g rate fuel maxIter x0 o h j (List.getElem?_eq_getElem hlen) (Or.inr ?_) (by omega : 0 < k) hd
  rw [hg]
  exact C121_constant_output_gradient F hn ht mu _ y _

/-! ### Bounds on the predictions -/

/-- If `b` is a number, so is `a`, and not larger in absolute value. -/
def Dom (a b : X K) : Prop := ∀ s, b = .fin s → ∃ v, a = .fin v ∧ |v| ≤ s

theorem dom_abs (a : X K) : Dom a a.abs := by
  intro s h
  cases a with
  | fin v => cases h; exact ⟨v, rfl, le_rfl⟩
  | inf t => cases h
  | nan => cases h

theorem dom_of {x y : K} (h : |x| ≤ y) : Dom (F.of x) (F.of y) := by
  intro s hs
  unfold Format.of at hs
  split at hs
  · rename_i hb
    cases hs
    have : |F.rnd x| ≤ F.rnd y := by
      rw [abs_le] at h ⊢
      constructor
      · rw [← F.odd]; exact F.mono _ _ h.1
      · exact F.mono _ _ h.2
    refine ⟨F.rnd x, ?_, this⟩
    rw [Format.of, if_pos (this.trans ((le_abs_self _).trans hb))]
  · cases hs

theorem add_fin_inv {a b : X K} {s : K} (h : F.addX a b = .fin s) : ∃ x y, a = .fin x ∧ b = .fin y := by
  cases a with
  | nan => rw [F.addX_nan_left] at h; cases h
  | inf u =>
    cases b with
    | nan => cases h
    | fin y => cases h
    | inf w =>
      change (if u = w then X.inf u else X.nan) = .fin s at h
      split at h <;> cases h
  | fin x =>
    cases b with
    | nan => cases h
    | inf w => cases h
    | fin y => exact ⟨x, y, rfl, rfl⟩

theorem mul_fin_inv {a b : X K} {s : K} (h : F.mulX a b = .fin s) : ∃ x y, a = .fin x ∧ b = .fin y := by
  cases a with
  | nan => rw [F.mulX_nan_left] at h; cases h
  | inf u =>
    cases b with
    | nan => cases h
    | inf w => cases h
    | fin y =>
      change (if y = 0 then X.nan else X.inf (decide (y < 0) != u)) = .fin s at h
      split at h <;> cases h
  | fin x =>
    cases b with
    | nan => cases h
    | inf w =>
      change (if x = 0 then X.nan else X.inf (decide (x < 0) != w)) = .fin s at h
      split at h <;> cases h
    | fin y => exact ⟨x, y, rfl, rfl⟩

theorem dom_add {a b c d : X K} (h1 : Dom a c) (h2 : Dom b d) : Dom (F.addX a b) (F.addX c d) := by
  intro s hs
  obtain ⟨x, y, rfl, rfl⟩ := add_fin_inv F hs
  obtain ⟨u, rfl, hu⟩ := h1 x rfl
  obtain ⟨w, rfl, hw⟩ := h2 y rfl
  exact dom_of F ((abs_add_le u w).trans (add_le_add hu hw)) s hs

theorem dom_mul {a b c d : X K} (h1 : Dom a c) (h2 : Dom b d) : Dom (F.mulX a b) (F.mulX c d) := by
  intro s hs
  obtain ⟨x, y, rfl, rfl⟩ := mul_fin_inv F hs
  obtain ⟨u, rfl, hu⟩ := h1 x rfl
  obtain ⟨w, rfl, hw⟩ := h2 y rfl
  refine dom_of F ?_ s hs
  rw [abs_mul]
  exact mul_le_mul hu hw (abs_nonneg w) ((abs_nonneg u).trans hu)

theorem dom_tree (f g : ℕ → X K) (t : Tree) (h : ∀ i ∈ t.leaves, Dom (f i) (g i)) : Dom (t.evalX F f) (t.evalX F g) := by
  induction t with
  | leaf i => exact h i (by simp [Tree.leaves])
  | node a b ha hb =>
    exact dom_add F (ha fun i hi => h i (by rw [Tree.leaves, List.mem_append]; exact Or.inl hi)) (hb fun i hi => h i (by rw [Tree.leaves, List.mem_append]; exact Or.inr hi))

/-- The bound on output `i`, computed in the same arithmetic: `(sum |w| + |b|) * sigma + |mu|` with the weights and bias of the last layer. -/
def predBound (l : Layer K) (sd mu : X K) (i : ℕ) : X K :=
  F.addX (F.mulX (F.addX ((l.t i).evalX F fun k => ((l.W.getD i []).getD k .nan).abs) (l.b.getD i .nan).abs) sd.abs) mu.abs

/-- **C121** Predictions are bounded: with a hidden layer, at every point (infinite and NaN coordinates included) either all outputs are NaN, or every output is a number not larger in absolute value
than `(sum |w| + |b|) * |sigma| + |mu|` as computed from the last layer and the scale factors, if this is a number. The bound does not depend on the point. -/
theorem C121_bounded {ex : X K → X K} (he : ExpX F ex) {N : Net K} {hs : List (Layer K)} {l : Layer K} (hN : N.layers = hs ++ [l]) (hne : hs ≠ []) {n : ℕ} (hl : l.Fits n)
    (hw : ∀ i k, F.Val ((l.W.getD i []).getD k .nan)) (x : List (X K)) :
    (∀ i < l.W.length, (N.evaluate F ex x).getD i .nan = .nan) ∨
      ∀ i < l.W.length, ∀ B, predBound F l (N.sdY.getD i .nan) (N.muY.getD i .nan) i = .fin B → ∃ v, (N.evaluate F ex x).getD i .nan = .fin v ∧ |v| ≤ B := by
  obtain ⟨a', e, -, h1⟩ := forward_last F (ex := ex) l hs (N.norm F x)
  obtain ⟨zs, rfl⟩ := h1 hne
  by_cases hall : ∃ k < n, (zs.map (tanh F ex)).getD k .nan = .nan
  · left
    obtain ⟨k, hk, hkn⟩ := hall
    intro i hi
    rw [evaluate_get F hN x hi, hN, e, getD_all (z_nan F hl hk hkn).1, F.mulX_nan_left, F.addX_nan_left]
  · right
    push Not at hall
    intro i hi
    rw [evaluate_get F hN x hi, hN, e, z_get F l _ hi]
    have hd : Dom (dot F (l.t i) (l.W.getD i []) (zs.map (tanh F ex))) ((l.t i).evalX F fun k => ((l.W.getD i []).getD k .nan).abs) := by
      refine dom_tree F _ _ _ fun k hk => ?_
      have hkn : k < n := List.mem_range.1 ((hl.2.2 i hi).2.mem_iff.1 hk)
      have hk' := hall k hkn
      have hval := hw i k
      generalize (l.W.getD i []).getD k .nan = w at hval
      have hv : ∃ v, (zs.map (tanh F ex)).getD k .nan = .fin v ∧ |v| ≤ 1 := by
        rw [List.getD_eq_getElem?_getD, List.getElem?_map] at hk' ⊢
        cases ez : zs[k]? with
        | none => rw [ez] at hk'; exact absurd rfl hk'
        | some z =>
          rw [ez] at hk'
          obtain h | ⟨v, y, h, -, -, hv, -⟩ := C121_tanh_range F he z
          · exact absurd h hk'
          · exact ⟨v, h, hv⟩
      obtain ⟨v, ev, hv⟩ := hv
      rw [ev]
      intro s hs
      cases w with
      | nan => cases hs
      | inf u => cases hs
      | fin w =>
        cases hs
        have hf : F.Fin w := hval
        have hfa : F.of |w| = .fin |w| := F.of_fin ⟨by
          rcases abs_choice w with h | h
          · rw [h]; exact hf.1
          · rw [h, F.odd, hf.1], by rw [abs_abs]; exact hf.2⟩
        refine dom_of F (y := |w|) ?_ |w| hfa
        rw [abs_mul]
        exact mul_le_of_le_one_right (abs_nonneg w) hv
    exact dom_add F (dom_mul F (dom_add F hd (dom_abs _)) (dom_abs _)) (dom_abs _)

/-- A point all of whose coordinates are the means of the inputs (finite numbers), none of the standard deviations being 0 or NaN. -/
def AtMean (N : Net K) (x : List (X K)) : Prop := ∀ i < x.length, ∃ c, x.getD i .nan = .fin c ∧ N.muX.getD i .nan = .fin c ∧ N.sdX.getD i .nan ≠ .fin 0 ∧ N.sdX.getD i .nan ≠ .nan

/-- **C121** At the mean of the inputs the network sees exactly the zero vector: networks that agree in their layers and output scales agree there, in predictions and derivatives, whatever their input scales. -/
theorem C121_at_mean (ex : X K → X K) {N N' : Net K} (hl : N.layers = N'.layers) (hmu : N.muY = N'.muY) (hsd : N.sdY = N'.sdY) {x x' : List (X K)} (hx : AtMean N x) (hx' : AtMean N' x')
    (hlen : x.length = x'.length) : N.evaluate F ex x = N'.evaluate F ex x' ∧ ∀ j, N.jacNorm F ex x j = N'.jacNorm F ex x' j := by
  have key : ∀ (M : Net K) (y : List (X K)), AtMean M y → M.norm F y = List.replicate y.length (.fin 0) := by
    intro M y hy
    rw [Net.norm]
    · apply List.ext_getElem
      · simp
      · intro i h1 h2
        have hi : i < y.length := by simpa using h1
        obtain ⟨c, e1, e2, e3, e4⟩ := hy i hi
        rw [List.getElem_map, List.getElem_range, e1, e2]
        have hz : F.subX (.fin c) (.fin c) = .fin 0 := by
          show F.of (c + -c) = _
          rw [add_neg_cancel, F.of_zero]
        rw [hz]
        have hdiv : F.divX (.fin 0) (M.sdX.getD i .nan) = .fin 0 := by
          generalize M.sdX.getD i .nan = s at e3 e4
          cases s with
          | nan => exact absurd rfl e4
          | inf u => rfl
          | fin v =>
            have hv : v ≠ 0 := fun h => e3 (by rw [h])
            show (if v = 0 then (if (0 : K) = 0 then X.nan else X.inf (decide ((0 : K) < 0))) else F.of (0 / v)) = _
            rw [if_neg hv, zero_div, F.of_zero]
        rw [hdiv]
        simp
  unfold Net.evaluate Net.jacNorm
  rw [key N x hx, key N' x' hx', hl, hmu, hsd, hlen]
  exact ⟨rfl, fun _ => rfl⟩

/-! ### Bounds on the derivatives -/

/-- The bound on one column of the Jacobian: the products of the matrices of absolute weights, as computed, without the slopes. -/
def jacBound : List (Layer K) → List (X K) → List (X K)
  | [], d => d
  | l :: ls, d => jacBound ls ((List.range l.W.length).map fun i => (l.t i).evalX F fun k => F.mulX ((l.W.getD i []).getD k .nan).abs (d.getD k .nan))

theorem mulX_val : ∀ {a b : X K}, F.Val (F.mulX a b)
  | .nan, b => by rw [F.mulX_nan_left]; trivial
  | .fin a, .nan => trivial
  | .inf s, .nan => trivial
  | .fin a, .fin b => F.of_val _
  | .fin a, .inf s => by
    show F.Val (if a = 0 then X.nan else X.inf (decide (a < 0) != s))
    split <;> trivial
  | .inf s, .fin b => by
    show F.Val (if b = 0 then X.nan else X.inf (decide (b < 0) != s))
    split <;> trivial
  | .inf s, .inf t => trivial

theorem tree_val (f : ℕ → X K) (t : Tree) (h : ∀ i, F.Val (f i)) : F.Val (t.evalX F f) := by
  cases t with
  | leaf i => exact h i
  | node a b => exact F.addX_val

/-- Every entry of `d` is a number of the format (or special), and dominated by the entry of `D`. -/
def DomL (d D : List (X K)) : Prop := ∀ i, F.Val (d.getD i .nan) ∧ Dom (d.getD i .nan) (D.getD i .nan)

theorem apply_dom (l : Layer K) {d D : List (X K)} (h : DomL F d D) :
    DomL F (l.apply F d) ((List.range l.W.length).map fun i => (l.t i).evalX F fun k => F.mulX ((l.W.getD i []).getD k .nan).abs (D.getD k .nan)) := by
  intro i
  rw [List.getD_eq_getElem?_getD, List.getD_eq_getElem?_getD, Layer.apply, List.getElem?_map, List.getElem?_map]
  by_cases hi : i < l.W.length
  · rw [List.getElem?_range hi]
    exact ⟨tree_val F _ _ fun k => mulX_val F, dom_tree F _ _ _ fun k _ => dom_mul F (dom_abs _) (h k).2⟩
  · rw [List.getElem?_eq_none (by rw [List.length_range]; omega)]
    exact ⟨trivial, fun s hs => by cases hs⟩

theorem slope_dom {s : K} (h0 : 0 ≤ s) (h1 : s ≤ 1) {v b : X K} (hv : F.Val v) (h : Dom v b) : Dom (F.mulX (.fin s) v) b := by
  intro B hB
  obtain ⟨u, rfl, hu⟩ := h B hB
  have hf : F.Fin u := hv
  have hle : |s * u| ≤ |u| := by
    rw [abs_mul, abs_of_nonneg h0]
    exact mul_le_of_le_one_left (abs_nonneg u) h1
  have hr : F.rnd |u| = |u| := by
    rcases abs_choice u with h | h
    · rw [h]; exact hf.1
    · rw [h, F.odd, hf.1]
  refine ⟨F.rnd (s * u), F.of_small (hle.trans hf.2), le_trans ?_ hu⟩
  rw [abs_le] at hle ⊢
  exact ⟨F.rep_le (by rw [F.odd, hr]) hle.1, F.le_rep hr hle.2⟩

theorem jac_dom {ex : X K → X K} (he : ExpX F ex) : ∀ (ls : List (Layer K)) (a d D : List (X K)), DomL F d D → (∀ z ∈ hidden F ex ls a, tanh F ex z ≠ .nan) →
    DomL F (jac F ex ls a d) (jacBound F ls D)
  | [], _, _, _, h, _ => h
  | [l], a, d, D, h, _ => by
    intro i
    have hi := apply_dom F l h i
    show F.Val (((l.apply F d).map fun v => F.mulX (.fin 1) v).getD i .nan) ∧ _
    have e : ((l.apply F d).map fun v => F.mulX (.fin 1) v).getD i .nan = F.mulX (.fin 1) ((l.apply F d).getD i .nan) := by
      rw [List.getD_eq_getElem?_getD, List.getD_eq_getElem?_getD, List.getElem?_map]
      cases (l.apply F d)[i]? <;> rfl
    have e' : (jac F ex [l] a d).getD i .nan = F.mulX (.fin 1) ((l.apply F d).getD i .nan) := e
    rw [e, e']
    exact ⟨mulX_val F, slope_dom F zero_le_one le_rfl hi.1 hi.2⟩
  | l :: l' :: ls, a, d, D, h, hz => by
    have hz' : ∀ z ∈ hidden F ex (l' :: ls) ((l.z F a).map (tanh F ex)), tanh F ex z ≠ .nan := fun z h' => hz z (List.mem_append_right _ h')
    refine jac_dom he (l' :: ls) _ _ _ (fun i => ?_) hz'
    have hi := apply_dom F l h i
    have hzi : ∀ z, (l.z F a)[i]? = some z → tanh F ex z ≠ .nan := fun z h' => hz z (List.mem_append_left _ (List.mem_of_getElem? h'))
    rw [List.getD_eq_getElem?_getD, List.getD_eq_getElem?_getD] at hi ⊢
    rw [List.getElem?_zipWith, List.getElem?_map]
    cases ez : (l.z F a)[i]? with
    | none =>
      have : (l.apply F d)[i]? = none := by
        rw [List.getElem?_eq_none_iff] at ez ⊢
        rw [z_length] at ez
        simpa [Layer.apply] using ez
      rw [this] at hi ⊢
      exact hi
    | some z =>
      cases ea : (l.apply F d)[i]? with
      | none => rw [ea] at hi; exact hi
      | some v =>
        rw [ea] at hi
        obtain ⟨s, es, -, s0, s1⟩ := (C121_tanh_derivative F he z).2 (hzi z ez)
        show F.Val (F.mulX (dTanh F ex z) v) ∧ Dom (F.mulX (dTanh F ex z) v) _
        rw [es]
        exact ⟨mulX_val F, slope_dom F s0 s1 hi.1 hi.2⟩

/-- **C121** Derivatives are bounded: at every point either all of them are NaN, or each derivative (in normalised units) is a number not larger in absolute value than the corresponding entry of the
product of the matrices of absolute weights as computed, if this is a number. The bound does not depend on the point. -/
theorem C121_jacobian_bounded {ex : X K → X K} (he : ExpX F ex) {N : Net K} {x : List (X K)} (hc : Chained N.layers x.length) (j : ℕ) :
    (∀ v ∈ N.jacNorm F ex x j, v = .nan) ∨
      ∀ i B, (jacBound F N.layers ((List.range x.length).map fun k => if k = j then .fin 1 else .fin 0)).getD i .nan = .fin B → ∃ v, (N.jacNorm F ex x j).getD i .nan = .fin v ∧ |v| ≤ B := by
  by_cases h : ∃ z ∈ hidden F ex N.layers (N.norm F x), tanh F ex z = .nan
  · left
    obtain ⟨z, hz, hn⟩ := h
    exact (C121_overflow F he hc hz ((C121_tanh_nan F he z).1 hn)).2 j
  · right
    push Not at h
    refine fun i B hB => (jac_dom F he N.layers _ _ _ (fun k => ?_) h i).2 B hB
    rw [List.getD_eq_getElem?_getD, List.getD_eq_getElem?_getD, unit, List.getElem?_map]
    by_cases hk : k < x.length
    · rw [List.getElem?_range hk]
      show F.Val (if k = j then X.fin (1 : K) else X.fin 0) ∧ Dom (if k = j then X.fin (1 : K) else X.fin 0) (if k = j then X.fin (1 : K) else X.fin 0)
      split
      · exact ⟨F.fin_one, fun s hs => by cases hs; exact ⟨1, rfl, by rw [abs_one]⟩⟩
      · exact ⟨F.fin_zero, fun s hs => by cases hs; exact ⟨0, rfl, by rw [abs_zero]⟩⟩
    · rw [List.getElem?_eq_none (by rw [List.length_range]; omega)]
      exact ⟨trivial, fun s hs => by cases hs⟩

end SMT.Fp.NetX
