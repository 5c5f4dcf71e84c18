import Verif.Mfk.Units

set_option linter.unusedSectionVars false
set_option linter.unusedSimpArgs false
set_option linter.unusedVariables false

/-!
# C96: order and units of the data of a multi-fidelity model: theorems
-/
namespace SMT.Mfk
open Matrix SMT.Common SMT.Krg

variable {nx p q m : ℕ}

section
variable {lin : Lin} {nugget : ℝ} {poly : (Fin nx → ℝ) → Fin p → ℝ} {rho : (Fin nx → ℝ) → Fin q → ℝ} {a b : Fin nx → ℝ} {c d : ℝ}

/-- Factors of the regressors of a level above the first. -/
noncomputable def tt (tr : Fin q → ℝ) (tp : Fin p → ℝ) (e : ℝ) : Fin (q + p) → ℝ := Fin.append (fun k => tr k * e) tp

theorem regr_change {tp : Fin p → ℝ} {tr : Fin q → ℝ} (hp : TrendSym poly (dir a) tp) (hr : TrendSym rho (dir a) tr) {e : ℝ} {prev prev' : (Fin nx → ℝ) → ℝ}
    (h : ∀ xn, prev' (fun j => dir a j * xn j) = e * prev xn) (xn : Fin nx → ℝ) (k : Fin (q + p)) :
    regr poly rho prev' (fun j => dir a j * xn j) k = tt tr tp e k * regr poly rho prev xn k := by
  unfold regr tt
  refine Fin.addCases (fun k => ?_) (fun k => ?_) k
  · rw [Fin.append_left, Fin.append_left, Fin.append_left, hr.2, h]; ring
  · rw [Fin.append_right, Fin.append_right, Fin.append_right, hp.2]

theorem tt_ne {tp : Fin p → ℝ} {tr : Fin q → ℝ} (hp : TrendSym poly (dir a) tp) (hr : TrendSym rho (dir a) tr) {e : ℝ} (he : e ≠ 0) (k : Fin (q + p)) : tt tr tp e k ≠ 0 := by
  unfold tt
  refine Fin.addCases (fun k => ?_) (fun k => ?_) k
  · rw [Fin.append_left]; exact mul_ne_zero (hr.1 k) he
  · rw [Fin.append_right]; exact hp.1 k

/-- The recursion over levels. -/
theorem mu_change {tp : Fin p → ℝ} {tr : Fin q → ℝ} (hp : TrendSym poly (dir a) tp) (hr : TrendSym rho (dir a) tr) {e y y' : ℝ} {base base' : Lvl nx p} {rest rest' : List (Lvl nx (q + p))}
    (hb : Rel (dir a) tp e y y' base base') (h : List.Forall₂ (Rel (dir a) (tt tr tp e) e y y') rest rest') (xn : Fin nx → ℝ) :
    mu poly rho base' rest' (fun j => dir a j * xn j) = e * mu poly rho base rest xn := by
  have key : ∀ (rest rest' : List (Lvl nx (q + p))), List.Forall₂ (Rel (dir a) (tt tr tp e) e y y') rest rest' → ∀ prev prev' : (Fin nx → ℝ) → ℝ,
      (∀ xn, prev' (fun j => dir a j * xn j) = e * prev xn) → ∀ xn : Fin nx → ℝ,
      rest'.foldl (fun prev L xn => L.mean xn (regr poly rho prev xn)) prev' (fun j => dir a j * xn j) = e * rest.foldl (fun prev L xn => L.mean xn (regr poly rho prev xn)) prev xn := by
    intro rest rest' h
    induction h with
    | nil => intro prev prev' hpp xn; exact hpp xn
    | @cons L L' l l' h1 _ ih =>
      intro prev prev' hpp xn
      refine ih _ _ (fun xn => ?_) xn
      have : regr poly rho prev' (fun j => dir a j * xn j) = fun k => tt tr tp e k * regr poly rho prev xn k := funext fun k => regr_change hp hr hpp xn k
      dsimp only
      rw [this, h1.mean]
  refine key rest rest' h _ _ (fun xn => ?_) xn
  have : poly (fun j => dir a j * xn j) = fun k => tp k * poly xn k := funext fun k => hp.2 xn k
  rw [this, hb.mean]

theorem rhoVar_change {tp : Fin p → ℝ} {tr : Fin q → ℝ} {e y y' : ℝ} (he : e ≠ 0) {L L' : Lvl nx (q + p)} (h : Rel (dir a) (tt tr tp e) e y y' L L') (s : ℝ) (g : Fin q → ℝ) :
    L'.rhoVar (e ^ 2 * s) (fun k => tr k * g k) = L.rhoVar s g := by
  unfold Lvl.rhoVar
  simp only
  refine Finset.sum_congr rfl fun l _ => ?_
  rw [Finset.sum_mul, Finset.sum_mul]
  refine Finset.sum_congr rfl fun k _ => ?_
  have h1 := h.gram (Fin.castAdd p k) (Fin.castAdd p l)
  have h2 := h.beta (Fin.castAdd p k)
  have h3 := h.beta (Fin.castAdd p l)
  simp only [tt, Fin.append_left] at h1 h2 h3
  have h2' : tr k * L'.par.beta (Fin.castAdd p k) = L.par.beta (Fin.castAdd p k) := mul_left_cancel₀ he (by rw [← h2]; ring)
  have h3' : tr l * L'.par.beta (Fin.castAdd p l) = L.par.beta (Fin.castAdd p l) := mul_left_cancel₀ he (by rw [← h3]; ring)
  rw [← h1, ← h2', ← h3']
  ring

theorem varStep_change {tp : Fin p → ℝ} {tr : Fin q → ℝ} (hp : TrendSym poly (dir a) tp) (hr : TrendSym rho (dir a) tr) {e y y' : ℝ} (he : e ≠ 0) {L L' : Lvl nx (q + p)}
    (h : Rel (dir a) (tt tr tp e) e y y' L L') {prev prev' : (Fin nx → ℝ) → ℝ} (hpp : ∀ xn, prev' (fun j => dir a j * xn j) = e * prev xn) (pls : Bool) (xn : Fin nx → ℝ) (mse : ℝ) :
    varStep pls poly rho y' (fun j => dir a j * xn j) prev' (e ^ 2 * mse) L' = e ^ 2 * varStep pls poly rho y xn prev mse L := by
  unfold varStep
  simp only
  have h1 : regr poly rho prev' (fun j => dir a j * xn j) = fun k => tt tr tp e k * regr poly rho prev xn k := funext fun k => regr_change hp hr hpp xn k
  have h2 : rho (fun j => dir a j * xn j) = fun k => tr k * rho xn k := funext fun k => hr.2 xn k
  rw [h1, h2, h.sigma2, rhoVar_change he h, h.rt2, h.u2, h.q2, h.n]
  split <;> ring

theorem mse_change {tp : Fin p → ℝ} {tr : Fin q → ℝ} (hp : TrendSym poly (dir a) tp) (hr : TrendSym rho (dir a) tr) {e y y' : ℝ} (he : e ≠ 0) {base base' : Lvl nx p}
    (hb : Rel (dir a) tp e y y' base base') (pls : Bool) (xn : Fin nx → ℝ) {rest rest' : List (Lvl nx (q + p))} (h : List.Forall₂ (Rel (dir a) (tt tr tp e) e y y') rest rest') :
    ∀ (i : ℕ) (mse : ℝ), mseLoop pls poly rho y' base' (fun j => dir a j * xn j) i rest' (e ^ 2 * mse) = e ^ 2 * mseLoop pls poly rho y base xn i rest mse := by
  induction h with
  | nil => intro i mse; rfl
  | @cons L L' l l' h1 _ ih =>
    intro i mse
    unfold mseLoop
    have hmu : ∀ xn, muCol poly base' i (fun j => dir a j * xn j) = e * muCol poly base i xn := by
      intro xn
      unfold muCol
      split
      · have : poly (fun j => dir a j * xn j) = fun k => tp k * poly xn k := funext fun k => hp.2 xn k
        dsimp only
        rw [this, hb.mean]
      · simp
    rw [varStep_change hp hr he h1 hmu, ih]

/-- **C96** Order and units. Take any trained multi-fidelity model. List the training points of every level in any other order, give the inputs in other units and the outputs of all levels in
another unit: with the same hyper-parameters training succeeds, and at every point the prediction of *every level* and the variance are the old ones in the new units. -/
theorem C96_units (hlin : LinOk lin) (hcc : LinComplete lin) {D0 : Data nx} (σ0 : Equiv.Perm (Fin D0.n)) (st : List (Σ D : Data nx, Equiv.Perm (Fin D.n))) {M : Mfk nx p q}
    (hM : train lin nugget poly rho D0 (st.map Sigma.fst) = some M) (hF0 : FullRank M.base.F) (hF : ∀ L ∈ M.rest, FullRank L.F)
    (hu : UnitChangeL (D0 :: st.map Sigma.fst) a) (hc : c ≠ 0)
    (hk : ∀ D ∈ D0 :: st.map Sigma.fst, (∀ v, D.kern (fun k => -v k) = D.kern v) ∧ KernelSym D.kern (dir a))
    {tp : Fin p → ℝ} {tr : Fin q → ℝ} (hp : TrendSym poly (dir a) tp) (hr : TrendSym rho (dir a) tr) :
    ∃ M', train lin nugget poly rho (newData a b c d D0 σ0) (st.map fun s => newData a b c d s.1 s.2) = some M' ∧
      (∀ lvl x, M'.level lvl (newPt a b x) = c * M.level lvl x + d) ∧ (∀ x, M'.predict (newPt a b x) = c * M.predict x + d) ∧
      ∀ pls x, M'.variance pls (newPt a b x) = c ^ 2 * M.variance pls x := by
  obtain ⟨e1, e2, e3, e4, hb, hrest⟩ := train_eq hM
  set full : List (Σ D : Data nx, Equiv.Perm (Fin D.n)) := ⟨D0, σ0⟩ :: st with hfull
  have hDs : D0 :: st.map Sigma.fst = full.map Sigma.fst := rfl
  have hDs' : newData a b c d D0 σ0 :: (st.map fun s => newData a b c d s.1 s.2) = full.map fun s => newData a b c d s.1 s.2 := rfl
  have hn0 : 0 < D0.n := by have := (trainLevel_eq hb).1; omega
  -- standardisation
  have hlx : ∀ j, ((D0 :: st.map Sigma.fst).flatMap fun d => List.ofFn fun i => d.X i j) ≠ [] := by
    intro j h
    have := congrArg List.length h
    simp at this
    omega
  have hly : ((D0 :: st.map Sigma.fst).flatMap fun d => List.ofFn d.y) ≠ [] := by
    intro h
    have := congrArg List.length h
    simp at this
    omega
  have hpx : ∀ j, ((newData a b c d D0 σ0 :: (st.map fun s => newData a b c d s.1 s.2)).flatMap fun D => List.ofFn fun i => D.X i j).Perm
      (((D0 :: st.map Sigma.fst).flatMap fun d => List.ofFn fun i => d.X i j).map fun v => a j * v + b j) := by
    intro j
    rw [hDs, hDs', List.flatMap_map]
    exact concat_perm (fun D i => D.X i j) (fun s i => (newData a b c d s.1 s.2).X i j) (a j) (b j) (fun s i => rfl) full
  have hpy : ((newData a b c d D0 σ0 :: (st.map fun s => newData a b c d s.1 s.2)).flatMap fun D => List.ofFn D.y).Perm
      (((D0 :: st.map Sigma.fst).flatMap fun d => List.ofFn d.y).map fun v => c * v + d) := by
    rw [hDs, hDs', List.flatMap_map]
    exact concat_perm (fun D i => D.y i) (fun s i => (newData a b c d s.1 s.2).y i) c d (fun s i => rfl) full
  set xOS' := xScaling (newData a b c d D0 σ0) (st.map fun s => newData a b c d s.1 s.2) with hxOS'
  set yOS' := yScaling (newData a b c d D0 σ0) (st.map fun s => newData a b c d s.1 s.2) with hyOS'
  have hx : ∀ j v, normalise (xOS' j) (a j * v + b j) = dir a j * normalise (M.xOS j) v := by
    intro j v
    have h1 := normalise_changeL (hlx j) (hpx j) v
    have h2 := factorL (hlx j) (hpx j) (hu j).1 (by
      rcases (hu j).2 with ⟨D, hD, D', hD', i, k, hik⟩ | h
      · refine Or.inl ⟨D.X i j, List.mem_flatMap.2 ⟨D, hD, ?_⟩, D'.X k j, List.mem_flatMap.2 ⟨D', hD', ?_⟩, hik⟩
        · exact (List.mem_ofFn' _ _).2 ⟨i, rfl⟩
        · exact (List.mem_ofFn' _ _).2 ⟨k, rfl⟩
      · exact Or.inr h)
    rw [h2] at h1
    rw [e1]
    exact h1
  set e : ℝ := c * M.yOS.2 / yOS'.2 with he
  have hyOS0 : M.yOS.2 ≠ 0 := train_yOS_ne hM
  have hyOS0' : yOS'.2 ≠ 0 := yScaling_ne _ _
  have he0 : e ≠ 0 := div_ne_zero (mul_ne_zero hc hyOS0) hyOS0'
  have hy : ∀ v, normalise yOS' (c * v + d) = e * normalise M.yOS v := by
    intro v
    have h1 := normalise_changeL hly hpy v
    rw [he, e2]
    exact h1
  have hmean : yOS'.1 = c * M.yOS.1 + d := by
    rw [e2]
    show (scalingL _).1 = c * (scalingL _).1 + d
    rw [scalingL_eq, scalingL_eq]
    exact meanL_change hly hpy
  -- levels
  obtain ⟨base', hb', hFb', hrelb⟩ := level_change hlin hcc hyOS0 hyOS0' hb hF0 a b c d σ0 (t := tp) (e := e) hx hy (hk D0 (by simp)).1 (hk D0 (by simp)).2 hp.1 hp.2
  have hlev : ∀ (st : List (Σ D : Data nx, Equiv.Perm (Fin D.n))) (rest : List (Lvl nx (q + p))), (∀ s ∈ st, (∀ v, s.1.kern (fun k => -v k) = s.1.kern v) ∧ KernelSym s.1.kern (dir a)) →
      trainRest lin nugget M.xOS M.yOS poly rho M.base (st.map Sigma.fst) = some rest → (∀ L ∈ rest, FullRank L.F) →
      ∃ rest', trainRest lin nugget xOS' yOS' poly rho base' (st.map fun s => newData a b c d s.1 s.2) = some rest' ∧ List.Forall₂ (Rel (dir a) (tt tr tp e) e M.yOS.2 yOS'.2) rest rest' := by
    intro st
    induction st using List.reverseRecOn with
    | nil =>
      intro rest _ h _
      simp only [List.map_nil, trainRest, List.foldlM_nil, Option.pure_def, Option.some.injEq] at h ⊢
      subst h
      exact ⟨[], rfl, List.Forall₂.nil⟩
    | append_singleton st s ih =>
      intro rest hks h hFr
      unfold trainRest at h ih ⊢
      rw [List.map_append, List.foldlM_append] at h
      obtain ⟨acc, h1, h2⟩ := Option.bind_eq_some_iff.1 h
      simp only [List.map_cons, List.map_nil, List.foldlM_cons, List.foldlM_nil, Option.bind_eq_bind, Option.bind_eq_some_iff, Option.pure_def, Option.some.injEq, Option.map_eq_some_iff] at h2
      obtain ⟨_, ⟨L, hL, rfl⟩, rfl⟩ := h2
      obtain ⟨acc', i1, i2⟩ := ih acc (fun s' hs' => hks s' (List.mem_append_left _ hs')) h1 fun L hL => hFr L (List.mem_append_left _ hL)
      have hks' := hks s (List.mem_append_right _ (List.mem_singleton.2 rfl))
      obtain ⟨L', hL', hFL', hrel⟩ := level_change hlin hcc hyOS0 hyOS0' hL (hFr L (List.mem_append_right _ (List.mem_singleton.2 rfl))) a b c d s.2 (t := tt tr tp e) (e := e)
        (trend' := regr poly rho (mu poly rho base' acc')) hx hy hks'.1 hks'.2 (tt_ne hp hr he0) fun xn k => regr_change hp hr (fun xn => mu_change hp hr hrelb i2 xn) xn k
      refine ⟨acc' ++ [L'], ?_, List.rel_append i2 (List.Forall₂.cons hrel List.Forall₂.nil)⟩
      rw [List.map_append, List.foldlM_append, i1]
      simp only [List.map_cons, List.map_nil, List.foldlM_cons, List.foldlM_nil, Option.bind_eq_bind, Option.bind_some, hL', Option.map_some, Option.pure_def]
  obtain ⟨rest', hr', hrel⟩ := hlev st M.rest (fun s hs => hk s.1 (List.mem_cons_of_mem _ (List.mem_map.2 ⟨s, hs, rfl⟩))) hrest hF
  refine ⟨{ xOS := xOS', yOS := yOS', poly := poly, rho := rho, base := base', rest := rest' }, ?_, ?_⟩
  · unfold train
    simp only
    have h1 : trainLevel lin nugget xOS' yOS' poly (newData a b c d D0 σ0) = some base' := hb'
    unfold xScaling at hxOS'
    unfold yScaling at hyOS'
    rw [← hxOS', ← hyOS', h1]
    simp only [hr', Option.map_some]
  set M' : Mfk nx p q := { xOS := xOS', yOS := yOS', poly := poly, rho := rho, base := base', rest := rest' } with hM'
  have hnorm : ∀ x, M'.norm (newPt a b x) = fun j => dir a j * M.norm x j := fun x => funext fun j => hx j (x j)
  have hlvl : ∀ lvl x, M'.level lvl (newPt a b x) = c * M.level lvl x + d := by
    intro lvl x
    unfold Mfk.level
    rw [hnorm, e3, e4]
    show mu poly rho base' (rest'.take (lvl - 1)) (fun j => dir a j * M.norm x j) * yOS'.2 + yOS'.1 = _
    rw [mu_change hp hr hrelb (List.forall₂_take (lvl - 1) hrel), hmean, he]
    field_simp
    ring
  refine ⟨hlvl, fun x => ?_, fun pls x => ?_⟩
  · unfold Mfk.predict
    rw [show M'.rest.length = M.rest.length from (List.Forall₂.length_eq hrel).symm]
    exact hlvl _ x
  · unfold Mfk.variance
    simp only
    rw [hnorm, e3, e4]
    show mseLoop pls poly rho yOS'.2 base' (fun j => dir a j * M.norm x j) 0 rest' (base'.par.sigma2 / yOS'.2 ^ 2 * (1 - base'.rt2 (fun j => dir a j * M.norm x j) + base'.u2 (fun j => dir a j * M.norm x j) (poly fun j => dir a j * M.norm x j))) * yOS'.2 ^ 2 = _
    have : poly (fun j => dir a j * M.norm x j) = fun k => tp k * poly (M.norm x) k := funext fun k => hp.2 _ k
    rw [this, hrelb.sigma2, hrelb.rt2, hrelb.u2, mul_assoc (e ^ 2), mse_change hp hr he0 hrelb pls (M.norm x) hrel, he]
    field_simp

end

end SMT.Mfk
