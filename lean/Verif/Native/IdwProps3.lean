import Verif.Native.IdwProps2

set_option linter.unusedSectionVars false
set_option linter.unusedSimpArgs false
set_option linter.unusedVariables false

/-!
# C98: the compiled part of IDW over histories of calls
-/
namespace SMT.Native.Idw

open SMT.Idw (jac jacDerivs)

/-- Specification: an array the compiled code can work on: `double`s, at least one entry, fewer than 2^31 entries. -/
def Fits (a : Arr) : Prop := a.dbl = true ∧ 0 < a.n ∧ 0 < a.m ∧ a.n * a.m < 2 ^ 31

lemma isInt_nat {k : ℕ} (h : k < 2 ^ 31) : isInt (k : ℤ) := ⟨le_trans (by norm_num) (Int.natCast_nonneg k), by exact_mod_cast h⟩

lemma Fits.lt {a : Arr} (h : Fits a) : a.n < 2 ^ 31 ∧ a.m < 2 ^ 31 := by
  obtain ⟨-, h1, h2, h3⟩ := h
  exact ⟨lt_of_le_of_lt (Nat.le_mul_of_pos_right _ h2) h3, lt_of_le_of_lt (Nat.le_mul_of_pos_left _ h1) h3⟩

lemma setup_ok {nt nx : ℕ} {p : ℝ} {xt : Buf ℝ} {T : ℕ → ℕ → ℝ} (hx : Holds xt nt nx T) (hb : nt * nx < 2 ^ 31) : ∃ o, setup nx nt p xt = .ok o ∧ Ready o nt nx p T := by
  unfold setup
  have e : ((nt : ℤ) * nx).toNat = nt * nx := by rw [← Int.natCast_mul, Int.toNat_natCast]
  rw [chk_ok (by rw [← Int.natCast_mul]; exact isInt_nat hb), ok_bind, e]
  unfold memcpy
  rw [if_pos ⟨le_rfl, hx.1⟩, ok_bind, pure_ok]
  refine ⟨_, rfl, rfl, rfl, rfl, ⟨le_rfl, fun i hi j hj => ?_⟩, rfl, rfl, by omega⟩
  dsimp only
  rw [if_pos (flat_lt hi hj)]; exact hx.2 i hi j hj

/-- **C98** Training: it succeeds exactly for arrays of `double`s with at least one and fewer than 2^31 entries; otherwise the surrogate is left with a compiled object that was never set up. -/
theorem C98_idw_train (s : Sm) (a : Arr) (ha : s.data = some a) (hn : a.n < 2 ^ 31) (hm : a.m < 2 ^ 31) :
    ((∃ o, (train s).1.idwc = .ready o ∧ (train s).2 = .ok ()) ↔ Fits a) ∧
    (∀ o, (train s).2 = .ok () → (train s).1.idwc = .ready o → Ready o a.n a.m s.p a.f) ∧
    ((train s).2 ≠ .ok () → (train s).1.idwc = .raw) ∧
    (a.dbl = false → (train s).2 = .error .buffer) ∧
    (a.dbl = true → a.n * a.m = 0 → (train s).2 = .error .index) ∧
    (a.dbl = true → 2 ^ 31 ≤ a.n * a.m → (train s).2 = .error (.ub .overflow)) := by
  have e0 : ∀ z : ℕ, z < 2 ^ 31 → intArg (z : ℤ) = .ok () := fun z hz => if_pos (isInt_nat hz)
  have key : pySetup a.m a.n s.p a = (bufArg a.dbl >>= fun _ => addr a.flat >>= fun _ => native (setup a.m a.n s.p a.flat)) := by
    unfold pySetup; rw [e0 _ hm, ok_bind, e0 _ hn, ok_bind]
  have hd : a.dbl = false → pySetup a.m a.n s.p a = .error .buffer := fun h => by rw [key, h]; rfl
  have he : a.dbl = true → a.n * a.m = 0 → pySetup a.m a.n s.p a = .error .index := fun h h0 => by
    rw [key, h]
    show (addr a.flat >>= _) = _
    unfold addr
    rw [if_pos (show a.flat.len = 0 from h0)]; rfl
  have ho : a.dbl = true → 2 ^ 31 ≤ a.n * a.m → pySetup a.m a.n s.p a = .error (.ub .overflow) := fun h h0 => by
    rw [key, h]
    show (addr a.flat >>= _) = _
    unfold addr
    rw [if_neg (show ¬ a.flat.len = 0 from by show ¬ a.n * a.m = 0; omega), ok_bind]
    have : chk ((a.n : ℤ) * a.m) = .error .overflow := if_neg fun hi => by
      have := hi.2
      have h1 : ((a.n * a.m : ℕ) : ℤ) < 2 ^ 31 := by push_cast; exact this
      have h2 : a.n * a.m < 2 ^ 31 := by exact_mod_cast h1
      omega
    unfold setup native
    rw [this]; rfl
  have hf : Fits a → ∃ o, pySetup a.m a.n s.p a = .ok o ∧ Ready o a.n a.m s.p a.f := fun h => by
    obtain ⟨o, eo, hr⟩ := setup_ok (p := s.p) (flat_holds a) h.2.2.2
    refine ⟨o, ?_, hr⟩
    rw [key, h.1]
    show (addr a.flat >>= _) = _
    unfold addr
    have hp : 0 < a.n * a.m := Nat.mul_pos h.2.1 h.2.2.1
    rw [if_neg (show ¬ a.flat.len = 0 from by show ¬ a.n * a.m = 0; omega), ok_bind, native_ok eo]
  have hall : Fits a ∨ a.dbl = false ∨ (a.dbl = true ∧ a.n * a.m = 0) ∨ (a.dbl = true ∧ 2 ^ 31 ≤ a.n * a.m) := by
    cases h : a.dbl with
    | false => exact .inr (.inl rfl)
    | true =>
      by_cases h0 : a.n * a.m = 0
      · exact .inr (.inr (.inl ⟨rfl, h0⟩))
      · by_cases h1 : 2 ^ 31 ≤ a.n * a.m
        · exact .inr (.inr (.inr ⟨rfl, h1⟩))
        · exact .inl ⟨h, Nat.pos_of_ne_zero fun h => h0 (by simp [h]), Nat.pos_of_ne_zero fun h => h0 (by simp [h]), by omega⟩
  have tr : train s = installed s (pySetup a.m a.n s.p a) := by unfold train; rw [ha]
  rw [tr]
  have bad : ∀ e, pySetup a.m a.n s.p a = .error e → ¬ Fits a := fun e h hF => by
    obtain ⟨o, eo, -⟩ := hf hF; rw [h] at eo; cases eo
  refine ⟨?_, ?_, ?_, fun h => by rw [hd h]; rfl, fun h h' => by rw [he h h']; rfl, fun h h' => by rw [ho h h']; rfl⟩
  all_goals rcases hall with hF | h | ⟨h, h'⟩ | ⟨h, h'⟩
  · obtain ⟨o, eo, hr⟩ := hf hF
    rw [eo]; exact ⟨fun _ => hF, fun _ => ⟨o, rfl, rfl⟩⟩
  · rw [hd h]; exact ⟨(fun ⟨o, h1, _⟩ => nomatch h1), fun hF => absurd hF (bad _ (hd h))⟩
  · rw [he h h']; exact ⟨(fun ⟨o, h1, _⟩ => nomatch h1), fun hF => absurd hF (bad _ (he h h'))⟩
  · rw [ho h h']; exact ⟨(fun ⟨o, h1, _⟩ => nomatch h1), fun hF => absurd hF (bad _ (ho h h'))⟩
  · obtain ⟨o, eo, hr⟩ := hf hF
    rw [eo]; intro o' _ ho'; cases ho'; exact hr
  · rw [hd h]; intro o' h; exact nomatch h
  · rw [he h h']; intro o' h; exact nomatch h
  · rw [ho h h']; intro o' h; exact nomatch h
  · obtain ⟨o, eo, hr⟩ := hf hF
    rw [eo]; intro h; exact absurd rfl h
  · rw [hd h]; exact fun _ => rfl
  · rw [he h h']; exact fun _ => rfl
  · rw [ho h h']; exact fun _ => rfl

/-! ## Predictions -/

lemma enter_ok {s : Sm} {a x : Arr} (ha : s.data = some a) (hm : x.m = a.m) (hx : Fits x) (ht : 0 < a.n) (hs : ∀ h, s.idwc = h → h ≠ .missing) (kx : Option ℤ)
    (hk : ∀ k ∈ kx, isInt k) : enter s x kx = .ok (x.n * a.n) := by
  have hp : 0 < x.n * x.m := Nat.mul_pos hx.2.1 hx.2.2.1
  have hq : 0 < x.n * a.n := Nat.mul_pos hx.2.1 ht
  have e1 : checkX s x = .ok a := by unfold checkX; rw [ha]; exact if_pos hm
  have e2 : intArg (x.n : ℤ) = .ok () := if_pos (isInt_nat hx.lt.1)
  have e3 : bufArg x.dbl = .ok () := if_pos hx.1
  have e4 : addr x.flat = .ok () := if_neg (show ¬ x.n * x.m = 0 by omega)
  have e5 : addr (Buf.fresh (x.n * a.n) : Buf ℝ) = .ok () := if_neg (show ¬ x.n * a.n = 0 by omega)
  have e6 : ∀ k ∈ kx, intArg k = .ok () := fun k h => if_pos (hk k h)
  unfold enter
  rw [e1, ok_bind, e2, e3, e4, e5]
  cases kx with
  | none =>
    cases h : s.idwc with
    | missing => exact absurd rfl (hs _ h)
    | raw => rfl
    | ready o => rfl
  | some k =>
    have e6 := e6 k rfl
    dsimp only
    rw [e6]
    cases h : s.idwc with
    | missing => exact absurd rfl (hs _ h)
    | raw => rfl
    | ready o => rfl

lemma values_eq {s : Sm} {a x : Arr} {o : Obj} (ho : s.idwc = .ready o) (ha : s.data = some a) (hm : x.m = a.m) (hx : Fits x) (ht : 0 < a.n) : values s x =
    used s ((native (computeJac o x.n x.flat (Buf.fresh (x.n * a.n)))).map fun r => ({ o with w := r.1 }, r.2)) := by
  unfold values
  rw [enter_ok ha hm hx ht (fun h e => by rw [← e, ho]; exact fun h => nomatch h) none (fun k hk => nomatch hk)]
  simp only [ho]

lemma derivs_eq {s : Sm} {a x : Arr} {kx : ℤ} {o : Obj} (ho : s.idwc = .ready o) (ha : s.data = some a) (hm : x.m = a.m) (hx : Fits x) (ht : 0 < a.n) (hk : isInt kx) : derivs s x kx =
    used s ((native (computeDerivs o x.n kx x.flat (Buf.fresh (x.n * a.n)))).map fun r => ({ o with w := r.1, dw := r.2.1 }, r.2.2)) := by
  unfold derivs
  rw [enter_ok ha hm hx ht (fun h e => by rw [← e, ho]; exact fun h => nomatch h) (some kx) (fun k h => by cases h; exact hk)]
  simp only [ho]

/-- A compiled object stays the one that was set up when it is used: only its work arrays change. -/
lemma values_keeps {s : Sm} {x : Arr} {o : Obj} {nt nx : ℕ} {p : ℝ} {T : ℕ → ℕ → ℝ} (h : s.idwc = .ready o) (hr : Ready o nt nx p T) :
    (values s x).1.data = s.data ∧ (values s x).1.p = s.p ∧ ∃ o', (values s x).1.idwc = .ready o' ∧ Ready o' nt nx p T := by
  unfold values
  have same : s.data = s.data ∧ s.p = s.p ∧ ∃ o', s.idwc = .ready o' ∧ Ready o' nt nx p T := ⟨rfl, rfl, o, h, hr⟩
  cases hc : enter s x none with
  | error e => exact same
  | ok m =>
    simp only [h]
    rcases native_cases (computeJac o x.n x.flat (Buf.fresh m)) with ⟨r, e, e'⟩ | ⟨u, e, e'⟩
    · rw [e']
      refine ⟨rfl, rfl, _, rfl, ?_⟩
      have hw : r.1.len = nt := by
        have hrow : ∀ (i : ℕ) (st r : Buf ℝ × Buf ℝ), jacRow o x.flat i st = .ok r → r.1.len = st.1.len := by
          intro i st r h
          unfold jacRow at h
          obtain ⟨sc, es, h⟩ := bind_eq_ok.1 h
          have hl : sc.w.len = st.1.len := (loop_inv (fun s : Scan => s.w.len = st.1.len) rfl (fun it _ a b ha e => by
            obtain ⟨d, -, e⟩ := bind_eq_ok.1 e
            obtain ⟨w, ew, e⟩ := bind_eq_ok.1 e
            cases e
            have := (write_eq_ok ew).2.2
            split <;> exact this.trans ha) es).1
          split at h
          · obtain ⟨j, ej, h⟩ := bind_eq_ok.1 h
            obtain ⟨k, ek, h⟩ := bind_eq_ok.1 h
            obtain ⟨j', ej', h⟩ := bind_eq_ok.1 h
            cases h; exact hl
          · obtain ⟨S, eS, h⟩ := bind_eq_ok.1 h
            obtain ⟨j, ej, h⟩ := bind_eq_ok.1 h
            cases h; exact hl
        exact (loop_inv (fun s : Buf ℝ × Buf ℝ => s.1.len = nt) hr.hw (fun i _ s s' hs e => (hrow _ _ _ e).trans hs) e).1
      exact ⟨hr.hnx, hr.hnt, hr.hp, hr.hxt, hw, hr.hdw, hr.small⟩
    · rw [e']; exact same

lemma derivs_keeps {s : Sm} {x : Arr} {kx : ℤ} {o : Obj} {nt nx : ℕ} {p : ℝ} {T : ℕ → ℕ → ℝ} (h : s.idwc = .ready o) (hr : Ready o nt nx p T) :
    (derivs s x kx).1.data = s.data ∧ (derivs s x kx).1.p = s.p ∧ ∃ o', (derivs s x kx).1.idwc = .ready o' ∧ Ready o' nt nx p T := by
  unfold derivs
  have same : s.data = s.data ∧ s.p = s.p ∧ ∃ o', s.idwc = .ready o' ∧ Ready o' nt nx p T := ⟨rfl, rfl, o, h, hr⟩
  cases hc : enter s x (some kx) with
  | error e => exact same
  | ok m =>
    simp only [h]
    rcases native_cases (computeDerivs o x.n kx x.flat (Buf.fresh m)) with ⟨r, e, e'⟩ | ⟨u, e, e'⟩
    · rw [e']
      refine ⟨rfl, rfl, _, rfl, ?_⟩
      have hw : r.1.len = nt ∧ r.2.1.len = nt := by
        have hrow : ∀ (i : ℕ) (st r : Buf ℝ × Buf ℝ × Buf ℝ), derivRow o kx x.flat i st = .ok r → r.1.len = st.1.len ∧ r.2.1.len = st.2.1.len := by
          intro i st r h
          unfold derivRow at h
          obtain ⟨sc, es, h⟩ := bind_eq_ok.1 h
          have hl : sc.w.len = st.1.len ∧ sc.dw.len = st.2.1.len := (loop_inv (fun s : Scan => s.w.len = st.1.len ∧ s.dw.len = st.2.1.len) ⟨rfl, rfl⟩ (fun it _ a b ha e => by
            obtain ⟨d, -, e⟩ := bind_eq_ok.1 e
            obtain ⟨d, -, e⟩ := bind_eq_ok.1 e
            obtain ⟨d, -, e⟩ := bind_eq_ok.1 e
            obtain ⟨w, ew, e⟩ := bind_eq_ok.1 e
            obtain ⟨dw, edw, e⟩ := bind_eq_ok.1 e
            cases e
            have h1 := (write_eq_ok ew).2.2
            have h2 := (write_eq_ok edw).2.2
            split <;> exact ⟨h1.trans ha.1, h2.trans ha.2⟩) es).1
          split at h
          · obtain ⟨j, ej, h⟩ := bind_eq_ok.1 h
            cases h; exact hl
          · obtain ⟨S, eS, h⟩ := bind_eq_ok.1 h
            obtain ⟨D, eD, h⟩ := bind_eq_ok.1 h
            obtain ⟨j, ej, h⟩ := bind_eq_ok.1 h
            cases h; exact hl
        exact (loop_inv (fun s : Buf ℝ × Buf ℝ × Buf ℝ => s.1.len = nt ∧ s.2.1.len = nt) ⟨hr.hw, hr.hdw⟩ (fun i _ s s' hs e => ⟨(hrow _ _ _ e).1.trans hs.1, (hrow _ _ _ e).2.trans hs.2⟩) e).1
      exact ⟨hr.hnx, hr.hnt, hr.hp, hr.hxt, hw.1, hw.2, hr.small⟩
    · rw [e']; exact same

/-- Specification: a call that only predicts. -/
def Predicts : Ev → Prop
  | .values _ | .derivs _ _ => True
  | _ => False

lemma after_predictions {evs : List Ev} (h : ∀ e ∈ evs, Predicts e) {s : Sm} {o : Obj} {nt nx : ℕ} {p : ℝ} {T : ℕ → ℕ → ℝ} (ho : s.idwc = .ready o) (hr : Ready o nt nx p T) :
    (evs.foldl after s).data = s.data ∧ (evs.foldl after s).p = s.p ∧ ∃ o', (evs.foldl after s).idwc = .ready o' ∧ Ready o' nt nx p T := by
  induction evs generalizing s o with
  | nil => exact ⟨rfl, rfl, o, ho, hr⟩
  | cons e evs ih =>
    have h1 : (after s e).data = s.data ∧ (after s e).p = s.p ∧ ∃ o', (after s e).idwc = .ready o' ∧ Ready o' nt nx p T := by
      cases e with
      | values x => exact values_keeps ho hr
      | derivs x kx => exact derivs_keeps ho hr
      | set xt => exact absurd (h _ List.mem_cons_self) id
      | train => exact absurd (h _ List.mem_cons_self) id
    obtain ⟨a1, a2, o', a3, a4⟩ := h1
    obtain ⟨b1, b2, b3⟩ := ih (fun e he => h e (List.mem_cons_of_mem _ he)) a3 a4
    exact ⟨b1.trans a1, b2.trans a2, b3⟩

/-- **C98** The use the documentation shows: whatever happened before, after `set_training_values` and `train`, and any number of predictions, every prediction stays inside its memory and gives the weights
of C29 and C30 for the current training points; for derivatives, exactly if the index names an input. -/
theorem C98_idw_history (p : ℝ) (pre post : List Ev) (a : Arr) (ha : Fits a) (hpost : ∀ e ∈ post, Predicts e) (x : Arr) (hx : Fits x) (hm : x.m = a.m) (hb : x.n * a.n ≤ 2 ^ 31) :
    (∃ r, (values ((pre ++ .set a :: .train :: post).foldl after (Sm.new p)) x).2 = .ok r ∧ r.len = x.n * a.n ∧
      Holds r x.n a.n fun i it => (jac p (rows a.n a.m a.f) fun k : Fin a.m => x.f i k).getD it 0) ∧
    (∀ kx : Fin a.m, ∃ r, (derivs ((pre ++ .set a :: .train :: post).foldl after (Sm.new p)) x (kx : ℕ)).2 = .ok r ∧ r.len = x.n * a.n ∧
      Holds r x.n a.n fun i it => (jacDerivs p (rows a.n a.m a.f) kx fun k : Fin a.m => x.f i k).getD it 0) ∧
    (∀ kx : ℤ, isInt kx → kx < 0 ∨ (a.m : ℤ) ≤ kx → ∃ u, (derivs ((pre ++ .set a :: .train :: post).foldl after (Sm.new p)) x kx).2 = .error (.ub u)) := by
  have hp : ∀ (evs : List Ev) (s : Sm), (evs.foldl after s).p = s.p := by
    intro evs
    induction evs with
    | nil => intro s; rfl
    | cons e evs ih =>
      intro s
      rw [List.foldl_cons, ih]
      cases e with
      | set xt => rfl
      | train => show (train s).1.p = s.p; unfold train; cases s.data with
        | none => rfl
        | some xt => dsimp only; cases pySetup xt.m xt.n s.p xt <;> rfl
      | values x =>
        show (values s x).1.p = s.p
        unfold values
        cases enter s x none with
        | error e => rfl
        | ok m =>
          dsimp only
          split
          · cases native (computeJac _ x.n x.flat (Buf.fresh m)) <;> rfl
          · rfl
      | derivs x kx =>
        show (derivs s x kx).1.p = s.p
        unfold derivs
        cases enter s x (some kx) with
        | error e => rfl
        | ok m =>
          dsimp only
          split
          · cases native (computeDerivs _ x.n kx x.flat (Buf.fresh m)) <;> rfl
          · rfl
  rw [List.foldl_append, List.foldl_cons, List.foldl_cons]
  generalize hs0 : pre.foldl after (Sm.new p) = s0
  have hp0 : s0.p = p := by rw [← hs0, hp]; rfl
  have hd1 : (after s0 (.set a)).data = some a := rfl
  have hp1 : (after s0 (.set a)).p = p := hp0
  obtain ⟨t1, t2, -⟩ := C98_idw_train (after s0 (.set a)) a hd1 ha.lt.1 ha.lt.2
  obtain ⟨o, ho, hok⟩ := t1.2 ha
  have hr : Ready o a.n a.m p a.f := by have := t2 o hok ho; rwa [hp1] at this
  have hd2 : (after (after s0 (.set a)) .train).data = some a := by
    show (train (after s0 (.set a))).1.data = some a
    unfold train
    rw [hd1]; dsimp only; cases pySetup a.m a.n (after s0 (.set a)).p a <;> rfl
  obtain ⟨c1, -, o', c2, c3⟩ := after_predictions hpost (s := after (after s0 (.set a)) .train) ho hr
  rw [hd2] at c1
  generalize post.foldl after (after (after s0 (.set a)) .train) = s at c1 c2
  have hxs : x.n * a.m ≤ 2 ^ 31 := by rw [← hm]; exact hx.2.2.2.le
  have hxh : Holds x.flat x.n a.m x.f := by rw [← hm]; exact flat_holds x
  refine ⟨?_, fun kx => ?_, fun kx hk hout => ?_⟩
  · obtain ⟨r, e, r1, r2, r3, -⟩ := C98_idw_kernel c3 hxh hxs hb (j := Buf.fresh (x.n * a.n)) le_rfl
    refine ⟨r.2, ?_, r2, r3⟩
    rw [values_eq c2 c1 hm hx ha.2.1]
    rw [native_ok e]; rfl
  · obtain ⟨r, e, r1, r1', r2, r3⟩ := C98_idw_derivative_kernel c3 hxh hxs hb kx (j := Buf.fresh (x.n * a.n)) le_rfl
    refine ⟨r.2.2, ?_, r2, r3⟩
    rw [derivs_eq c2 c1 hm hx ha.2.1 (isInt_nat (lt_trans kx.2 ha.lt.2))]
    rw [native_ok e]; rfl
  · rw [derivs_eq c2 c1 hm hx ha.2.1 hk]
    rcases native_cases (computeDerivs o' x.n kx x.flat (Buf.fresh (x.n * a.n))) with ⟨r, e, e'⟩ | ⟨u, e, e'⟩
    · exfalso
      obtain ⟨h1, h2, -⟩ := computeDerivs_needs e hx.2.1 (by rw [c3.hnx]; exact ha.2.2.1) (by rw [c3.hnt]; exact ha.2.1)
      rcases hout with h | h
      · omega
      · have hl : x.flat.len = x.n * a.m := by show x.n * x.m = _; rw [hm]
        rw [hl, c3.hnx] at h2
        obtain ⟨k, hk⟩ : ∃ k, x.n = k + 1 := ⟨x.n - 1, by have := hx.2.1; omega⟩
        rw [hk] at h2
        push_cast at h2
        nlinarith
    · rw [e']; exact ⟨u, rfl⟩

/-- Concrete case: two training points in the plane, three evaluation points. -/
example : ∃ r, (values ([.set ⟨true, 2, 2, fun i j => i + j⟩, .train].foldl after (Sm.new 2)) ⟨true, 3, 2, fun i j => i * j⟩).2 = .ok r ∧ r.len = 6 :=
  let ⟨r, h1, h2, _⟩ := (C98_idw_history 2 [] [] ⟨true, 2, 2, fun i j => i + j⟩ ⟨rfl, by decide, by decide, by decide⟩ (fun _ h => nomatch h) ⟨true, 3, 2, fun i j => i * j⟩
    ⟨rfl, by decide, by decide, by decide⟩ rfl (by decide)).1
  ⟨r, h1, h2⟩

/-- **C98** Predicting after `set_training_values` *without* training again: the compiled object still has the old number of points and inputs, the result array has room for the new ones. It is
undefined behaviour exactly if there are now fewer points or fewer inputs. Otherwise the weights are computed for the old points from an array read with the old row length, and the entries for additional
points are memory that was never written. -/
theorem C98_idw_stale (s : Sm) (o : Obj) (nt nx : ℕ) (p : ℝ) (T : ℕ → ℕ → ℝ) (ho : s.idwc = .ready o) (hr : Ready o nt nx p T) (hnt : 0 < nt) (hnx : 0 < nx)
    (a : Arr) (ha : s.data = some a) (hat : 0 < a.n) (x : Arr) (hx : Fits x) (hm : x.m = a.m) (hb : x.n * nt ≤ 2 ^ 31) :
    ((∃ u, (values s x).2 = .error (.ub u)) ↔ a.n < nt ∨ a.m < nx) ∧
    (nt ≤ a.n → nx ≤ a.m → ∃ r, (values s x).2 = .ok r ∧ r.len = x.n * a.n ∧
      Holds r x.n nt (fun i it => (jac p (rows nt nx T) fun k : Fin nx => x.f ((i * nx + k) / a.m) ((i * nx + k) % a.m)).getD it 0) ∧
      ∀ c, x.n * nt ≤ c → r.cell c = none) := by
  have second : nt ≤ a.n → nx ≤ a.m → ∃ r, (values s x).2 = .ok r ∧ r.len = x.n * a.n ∧
      Holds r x.n nt (fun i it => (jac p (rows nt nx T) fun k : Fin nx => x.f ((i * nx + k) / a.m) ((i * nx + k) % a.m)).getD it 0) ∧
      ∀ c, x.n * nt ≤ c → r.cell c = none := by
    intro h1 h2
    have hle : x.n * nx ≤ x.n * x.m := by rw [hm]; exact Nat.mul_le_mul_left _ h2
    have hxh : Holds x.flat x.n nx fun i k => x.f ((i * nx + k) / a.m) ((i * nx + k) % a.m) := by
      refine ⟨hle, fun i hi j hj => ?_⟩
      show (if i * nx + j < x.n * x.m then some (x.f ((i * nx + j) / x.m) ((i * nx + j) % x.m)) else none) = _
      rw [if_pos (lt_of_lt_of_le (flat_lt hi hj) hle), hm]
    obtain ⟨r, e, r1, r2, r3, r4⟩ := C98_idw_kernel hr hxh (by have := hx.2.2.2; omega) hb (j := Buf.fresh (x.n * a.n)) (Nat.mul_le_mul_left _ h1)
    refine ⟨r.2, ?_, r2, r3, fun c hc => r4 c hc⟩
    rw [values_eq ho ha hm hx hat]
    rw [native_ok e]; rfl
  refine ⟨⟨fun ⟨u, hu⟩ => ?_, fun h => ?_⟩, second⟩
  · by_contra hc
    push Not at hc
    obtain ⟨r, e, -⟩ := second hc.1 hc.2
    rw [e] at hu; cases hu
  · rw [values_eq ho ha hm hx hat]
    rcases native_cases (computeJac o x.n x.flat (Buf.fresh (x.n * a.n))) with ⟨r, e, e'⟩ | ⟨u, e, e'⟩
    · exfalso
      obtain ⟨h1, h2⟩ := computeJac_needs e hx.2.1 (by rw [hr.hnx]; exact hnx) (by rw [hr.hnt]; exact hnt)
      rw [hr.hnx] at h1
      rw [hr.hnt] at h2
      have h1' : x.n * nx ≤ x.n * a.m := by rw [← hm]; exact h1
      have h2' : x.n * nt ≤ x.n * a.n := h2
      have := Nat.le_of_mul_le_mul_left h1' hx.2.1
      have := Nat.le_of_mul_le_mul_left h2' hx.2.1
      omega
    · rw [e']; exact ⟨u, rfl⟩

/-- Concrete case: trained with three points, then given two. -/
example : ∃ u, (values ([.set ⟨true, 3, 1, fun i _ => i⟩, .train, .set ⟨true, 2, 1, fun i _ => i⟩].foldl after (Sm.new 2)) ⟨true, 1, 1, fun _ _ => 0⟩).2 = .error (.ub u) := by
  obtain ⟨t1, t2, -⟩ := C98_idw_train (after (Sm.new 2) (.set ⟨true, 3, 1, fun i _ => i⟩)) _ rfl (by decide) (by decide)
  obtain ⟨o, ho, hok⟩ := t1.2 ⟨rfl, by decide, by decide, by decide⟩
  exact (C98_idw_stale (after _ (.set _)) o 3 1 2 _ ho (t2 o hok ho) (by decide) (by decide) ⟨true, 2, 1, fun i _ => i⟩ rfl (by decide) ⟨true, 1, 1, fun _ _ => 0⟩
    ⟨rfl, by decide, by decide, by decide⟩ rfl (by decide)).1.2 (.inl (by decide))

/-- **C98** Predicting after a training that raised (no `double`s, no points): the compiled object was created but not set up; a prediction with valid arguments is undefined behaviour. -/
theorem C98_idw_failed_training (s : Sm) (hraw : s.idwc = .raw) (a x : Arr) (ha : s.data = some a) (hat : 0 < a.n) (hx : Fits x) (hm : x.m = a.m) (kx : ℤ) (hk : isInt kx) :
    (values s x).2 = .error (.ub .unset) ∧ (derivs s x kx).2 = .error (.ub .unset) := by
  have hs : ∀ h, s.idwc = h → h ≠ .missing := fun h e => by rw [← e, hraw]; exact fun h => nomatch h
  unfold values derivs
  rw [enter_ok ha hm hx hat hs none (fun k hk => nomatch hk), enter_ok ha hm hx hat hs (some kx) (fun k h => by cases h; exact hk)]
  simp only [hraw]; exact ⟨trivial, trivial⟩

/-- Concrete case: training points of integer type, then a prediction at a `double`. -/
example : (values ([.set ⟨false, 3, 1, fun i _ => i⟩, .train].foldl after (Sm.new 2)) ⟨true, 1, 1, fun _ _ => 0⟩).2 = .error (.ub .unset) := by
  obtain ⟨-, -, t3, t4, -⟩ := C98_idw_train (after (Sm.new 2) (.set ⟨false, 3, 1, fun i _ => i⟩)) _ rfl (by decide) (by decide)
  have h := t3 (by rw [t4 rfl]; exact fun h => nomatch h)
  exact (C98_idw_failed_training _ h ⟨false, 3, 1, fun i _ => i⟩ ⟨true, 1, 1, fun _ _ => 0⟩ (by
    show (train (after (Sm.new 2) (.set ⟨false, 3, 1, fun i _ => i⟩))).1.data = _
    unfold train; dsimp only [after]; cases pySetup 1 3 _ _ <;> rfl) (by decide) ⟨rfl, by decide, by decide, by decide⟩ rfl 0 (isInt_nat (k := 0) (by norm_num))).1

/-- **C98** Arguments refused before the compiled code runs: no rows (`IndexError`), another type than `double` (`ValueError`), another number of columns. -/
theorem C98_idw_refused (s : Sm) (a : Arr) (ha : s.data = some a) (o : Obj) (ho : s.idwc = .ready o) (x : Arr) (hn : x.n < 2 ^ 31) :
    (x.m ≠ a.m → values s x = (s, .error .value)) ∧ (x.m = a.m → x.dbl = false → values s x = (s, .error .buffer)) ∧
    (x.m = a.m → x.dbl = true → x.n * x.m = 0 → values s x = (s, .error .index)) := by
  have e2 : intArg (x.n : ℤ) = .ok () := if_pos (isInt_nat hn)
  refine ⟨fun h => ?_, fun hm hd => ?_, fun hm hd h0 => ?_⟩
  · have e1 : checkX s x = .error .value := by unfold checkX; rw [ha]; exact if_neg h
    unfold values; rw [show enter s x none = .error .value from by unfold enter; rw [e1]; rfl]
  · have e1 : checkX s x = .ok a := by unfold checkX; rw [ha]; exact if_pos hm
    have e3 : bufArg x.dbl = .error .buffer := by rw [hd]; rfl
    unfold values; rw [show enter s x none = .error .buffer from by unfold enter; rw [e1, ho, e2, e3]; rfl]
  · have e1 : checkX s x = .ok a := by unfold checkX; rw [ha]; exact if_pos hm
    have e3 : bufArg x.dbl = .ok () := by rw [hd]; rfl
    have e4 : addr x.flat = .error .index := if_pos h0
    unfold values; rw [show enter s x none = .error .index from by unfold enter; rw [e1, ho, e2, e3, e4]; rfl]

end SMT.Native.Idw
