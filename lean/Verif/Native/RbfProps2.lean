import Verif.Native.RbfProps

set_option linter.unusedSectionVars false
set_option linter.unusedSimpArgs false
set_option linter.unusedVariables false

/-!
# C98: the compiled part of RBF: training, predictions, training again
-/
namespace SMT.Native.Rbf

open SMT.Rbf (r2 row drow numPoly)

/-- Specification: an array the compiled code can work on: `double`s, at least one entry, fewer than 2^31 entries. -/
def Fits (a : Arr) : Prop := a.dbl = true ∧ 0 < a.n ∧ 0 < a.m ∧ a.n * a.m < 2 ^ 31

lemma isInt_nat {k : ℕ} (h : k < 2 ^ 31) : isInt (k : ℤ) := ⟨le_trans (by norm_num) (Int.natCast_nonneg k), by exact_mod_cast h⟩

lemma isInt_nat_iff {k : ℕ} : isInt (k : ℤ) ↔ k < 2 ^ 31 := ⟨fun h => by have := h.2; exact_mod_cast this, isInt_nat⟩

lemma Fits.lt {a : Arr} (h : Fits a) : a.n < 2 ^ 31 ∧ a.m < 2 ^ 31 := by
  obtain ⟨-, h1, h2, h3⟩ := h
  exact ⟨lt_of_le_of_lt (Nat.le_mul_of_pos_right _ h2) h3, lt_of_le_of_lt (Nat.le_mul_of_pos_left _ h1) h3⟩

/-! ## What a kernel that has a result must have been given -/

variable {o : Obj} {n : ℕ} {x : Buf ℝ}

lemma dist2_needs {i it : ℕ} {d : ℝ} (h : dist2 o x i it = .ok d) (hx : 0 < o.nx) : i * o.nx + o.nx ≤ x.len := by
  obtain ⟨-, hl⟩ := loop_inv (fun _ => True) trivial (fun _ _ _ _ _ _ => trivial) h
  obtain ⟨s, s', -, e⟩ := hl (o.nx - 1) (by omega)
  obtain ⟨a, ea, -⟩ := bind_eq_ok.1 e
  obtain ⟨k, ek, er⟩ := bind_eq_ok.1 ea
  obtain ⟨rfl, -⟩ := lin_eq_ok ek
  have h2 := (read_eq_ok er).2.1
  have : ((i * o.nx + o.nx : ℕ) : ℤ) ≤ x.len := by push_cast; omega
  exact_mod_cast this

/-- A loop that only writes. -/
lemma writes_len {α : Type} {k : ℕ} {j j' : Buf α} {body : ℕ → Buf α → C (Buf α)} (hbody : ∀ q s s', body q s = .ok s' → s'.len = s.len) (h : loop k j body = .ok j') :
    j'.len = j.len ∧ ∀ q < k, ∃ s s', s.len = j.len ∧ body q s = .ok s' :=
  loop_inv (fun b : Buf α => b.len = j.len) rfl (fun q _ s s' hs e => (hbody q s s' e).trans hs) h

lemma radial_needs {j j' : Buf ℝ} (h : radial o n x j = .ok j') (hn : 0 < n) (hx : 0 < o.nx) (ht : 0 < o.nt) :
    j'.len = j.len ∧ n * o.nx ≤ x.len ∧ (n - 1) * o.numDof + o.nt ≤ 2 ^ 31 := by
  have inner : ∀ i j j', loop o.nt j (fun it j => dist2 o x i it >>= fun r2 => lin i o.numDof it >>= fun c => write j c (Real.exp (-r2))) = .ok j' →
      j'.len = j.len ∧ ∀ q < o.nt, ∃ s s', s.len = j.len ∧ (dist2 o x i q >>= fun r2 => lin i o.numDof q >>= fun c => write s c (Real.exp (-r2))) = .ok s' := fun i j j' h =>
    writes_len (fun q s s' e => by
      obtain ⟨d, -, e⟩ := bind_eq_ok.1 e
      obtain ⟨k, -, e⟩ := bind_eq_ok.1 e
      exact (write_eq_ok e).2.2) h
  obtain ⟨h1, hl⟩ := writes_len (fun i s s' e => (inner i s s' e).1) h
  obtain ⟨s, s', hs, e⟩ := hl (n - 1) (by omega)
  obtain ⟨s2, s2', -, e2⟩ := (inner _ _ _ e).2 (o.nt - 1) (by omega)
  obtain ⟨d, ed, e2⟩ := bind_eq_ok.1 e2
  obtain ⟨k, ek, e2⟩ := bind_eq_ok.1 e2
  obtain ⟨rfl, hk⟩ := lin_eq_ok ek
  have hd := dist2_needs ed hx
  refine ⟨h1, ?_, ?_⟩
  · obtain ⟨m, rfl⟩ : ∃ m, n = m + 1 := ⟨n - 1, by omega⟩
    simp only [Nat.add_sub_cancel] at hd
    linarith
  · have h3 : (((n - 1) * o.numDof + (o.nt - 1) : ℕ) : ℤ) < 2 ^ 31 := by push_cast; exact hk.2
    have h4 : (n - 1) * o.numDof + (o.nt - 1) < 2 ^ 31 := by exact_mod_cast h3
    omega

lemma radialD_needs {kx : ℤ} {j j' : Buf ℝ} (h : radialD o n kx x j = .ok j') (hn : 0 < n) (hx : 0 < o.nx) (ht : 0 < o.nt) :
    n * o.nx ≤ x.len ∧ 0 ≤ kx ∧ ((n - 1 : ℕ) : ℤ) * o.nx + kx < x.len := by
  obtain ⟨-, hl⟩ := loop_inv (fun _ => True) trivial (fun _ _ _ _ _ _ => trivial) h
  have row : ∀ i < n, i * o.nx + o.nx ≤ x.len ∧ 0 ≤ (i : ℤ) * o.nx + kx ∧ (i : ℤ) * o.nx + kx < x.len := fun i hi => by
    obtain ⟨s, s', -, e⟩ := hl i hi
    obtain ⟨-, hl2⟩ := loop_inv (fun _ => True) trivial (fun _ _ _ _ _ _ => trivial) e
    obtain ⟨s2, s2', -, e2⟩ := hl2 0 ht
    obtain ⟨d, ed, e2⟩ := bind_eq_ok.1 e2
    obtain ⟨a, ea, e2⟩ := bind_eq_ok.1 e2
    obtain ⟨k, ek, er⟩ := bind_eq_ok.1 ea
    obtain ⟨rfl, -⟩ := lin_eq_ok ek
    exact ⟨dist2_needs ed hx, (read_eq_ok er).1, (read_eq_ok er).2.1⟩
  have h1 := row (n - 1) (by omega)
  have h2 := row 0 hn
  refine ⟨?_, by simpa using h2.2.1, h1.2.2⟩
  have := h1.1
  obtain ⟨m, rfl⟩ : ∃ m, n = m + 1 := ⟨n - 1, by omega⟩
  simp only [Nat.add_sub_cancel] at this
  linarith

lemma constant_needs {v : ℝ} {j j' : Buf ℝ} (h : constant o n v j = .ok j') (hn : 0 < n) : j'.len = j.len ∧ (0 ≤ o.deg → (n - 1) * o.numDof + (o.nt + 1) ≤ 2 ^ 31) := by
  unfold constant at h
  by_cases hd : 0 ≤ o.deg
  · rw [if_pos hd] at h
    obtain ⟨h1, hl⟩ := writes_len (fun i s s' e => by
      obtain ⟨k, -, e⟩ := bind_eq_ok.1 e
      exact (write_eq_ok e).2.2) h
    refine ⟨h1, fun _ => ?_⟩
    obtain ⟨s, s', -, e⟩ := hl (n - 1) (by omega)
    obtain ⟨k, ek, e⟩ := bind_eq_ok.1 e
    obtain ⟨rfl, hk⟩ := lin_eq_ok ek
    have h3 : (((n - 1) * o.numDof + o.nt : ℕ) : ℤ) < 2 ^ 31 := by push_cast; exact hk.2
    have h4 : (n - 1) * o.numDof + o.nt < 2 ^ 31 := by exact_mod_cast h3
    omega
  · rw [if_neg hd] at h
    cases h; exact ⟨rfl, fun h => absurd h hd⟩

lemma linear_needs {j j' : Buf ℝ} (h : linear o n x j = .ok j') (hn : 0 < n) (hx : 0 < o.nx) : o.deg = 1 → (n - 1) * o.numDof + (o.nt + 1 + o.nx) ≤ 2 ^ 31 := by
  intro hd
  unfold linear at h
  rw [if_pos hd] at h
  obtain ⟨-, hl⟩ := loop_inv (fun _ => True) trivial (fun _ _ _ _ _ _ => trivial) h
  obtain ⟨s, s', -, e⟩ := hl (n - 1) (by omega)
  obtain ⟨-, hl2⟩ := loop_inv (fun _ => True) trivial (fun _ _ _ _ _ _ => trivial) e
  obtain ⟨s2, s2', -, e2⟩ := hl2 (o.nx - 1) (by omega)
  obtain ⟨v, -, e2⟩ := bind_eq_ok.1 e2
  obtain ⟨k, ek, e2⟩ := bind_eq_ok.1 e2
  unfold trendIdx at ek
  obtain ⟨k1, ek1, ek⟩ := bind_eq_ok.1 ek
  obtain ⟨k2, ek2, ek⟩ := bind_eq_ok.1 ek
  obtain ⟨rfl, -⟩ := lin_eq_ok ek1
  obtain ⟨-, rfl⟩ := chk_eq_ok ek2
  obtain ⟨hk, -⟩ := chk_eq_ok ek
  have h3 : (((n - 1) * o.numDof + o.nt + 1 + (o.nx - 1) : ℕ) : ℤ) < 2 ^ 31 := by push_cast; exact hk.2
  have h4 : (n - 1) * o.numDof + o.nt + 1 + (o.nx - 1) < 2 ^ 31 := by exact_mod_cast h3
  omega

lemma computeJac_needs {j r : Buf ℝ} (h : computeJac o n x j = .ok r) (hn : 0 < n) (hx : 0 < o.nx) (ht : 0 < o.nt) :
    n * o.nx ≤ x.len ∧ ∀ np, numPoly o.deg o.nx = some np → o.numDof = o.nt + np → n * (o.nt + np) ≤ 2 ^ 31 := by
  unfold computeJac at h
  obtain ⟨j1, e1, h⟩ := bind_eq_ok.1 h
  obtain ⟨j2, e2, h⟩ := bind_eq_ok.1 h
  obtain ⟨-, a2, a3⟩ := radial_needs e1 hn hx ht
  obtain ⟨-, b2⟩ := constant_needs e2 hn
  have c := linear_needs h hn hx
  refine ⟨a2, fun np hnp hd => ?_⟩
  obtain ⟨m, rfl⟩ : ∃ m, n = m + 1 := ⟨n - 1, by omega⟩
  rw [hd, Nat.add_sub_cancel] at a3 b2 c
  have e : (m + 1) * (o.nt + np) = m * (o.nt + np) + (o.nt + np) := by ring
  rcases numPoly_cases hnp with ⟨h1, h2⟩ | ⟨h1, h2⟩ | ⟨h1, h2⟩
  · omega
  · have := b2 (by omega); omega
  · have := c h1; omega

/-! ## Training -/

/-- Specification: option `d0` covers `nx` inputs. -/
def Covers (d : D0) (nx : ℕ) : Prop :=
  match d with
  | .num _ => True
  | .arr l => nx ≤ l.length

/-- Specification: scaling of input `k`. -/
def scale (d : D0) (k : ℕ) : ℝ :=
  match d with
  | .num v => v
  | .arr l => l.getD k 0

lemma covers_iff (d : D0) (nx : ℕ) : Covers d nx ↔ nx ≤ (d0Array d nx).length := by
  cases d <;> simp [Covers, d0Array]

lemma scale_get (d : D0) {nx k : ℕ} (h : Covers d nx) (hk : k < nx) : (d0Array d nx)[k]? = some (scale d k) := by
  cases d with
  | num v => simp [d0Array, scale, hk]
  | arr l =>
    have : k < l.length := lt_of_lt_of_le hk h
    simp [d0Array, scale, this]

lemma setup_ok {nt nx np : ℕ} {deg : ℤ} (hnp : numPoly deg nx = some np) {d : D0} (hd : Covers d nx) {xt : Buf ℝ} {T : ℕ → ℕ → ℝ} (hx : Holds xt nt nx T) (hb : nt * nx < 2 ^ 31) :
    ∃ o, setup nx nt (nt + np) deg (Buf.of (d0Array d nx)) xt = .ok o ∧ Ready o nt nx np deg (scale d) T := by
  unfold setup
  have e : ((nt : ℤ) * nx).toNat = nt * nx := by rw [← Int.natCast_mul, Int.toNat_natCast]
  rw [chk_ok (by rw [← Int.natCast_mul]; exact isInt_nat hb), ok_bind, e]
  unfold memcpy
  rw [if_pos ⟨le_rfl, (covers_iff d nx).1 hd⟩, ok_bind, if_pos ⟨le_rfl, hx.1⟩, ok_bind, pure_ok]
  refine ⟨_, rfl, rfl, rfl, rfl, hnp, rfl, ⟨le_rfl, fun i hi j hj => ?_⟩, ⟨le_rfl, fun k hk => ?_⟩, by omega⟩
  · dsimp only
    rw [if_pos (flat_lt hi hj)]; exact hx.2 i hi j hj
  · dsimp only
    rw [if_pos hk]; exact scale_get d hd hk

lemma setup_needs {nt nx dof : ℕ} {deg : ℤ} {d0 xt : Buf ℝ} {o : Obj} (h : setup nx nt dof deg d0 xt = .ok o) : nt * nx < 2 ^ 31 ∧ nx ≤ d0.len := by
  unfold setup at h
  obtain ⟨m, em, h⟩ := bind_eq_ok.1 h
  obtain ⟨d, ed, h⟩ := bind_eq_ok.1 h
  obtain ⟨hm, -⟩ := chk_eq_ok em
  refine ⟨by have := hm.2; exact_mod_cast this, ?_⟩
  unfold memcpy at ed
  split at ed
  · next hc => exact hc.2
  · cases ed

/-- Specification: what training needs: an array of `double`s with fewer than 2^31 entries, a degree of -1, 0 or 1, one scaling per input, and an equation matrix of at most 2^31 entries. -/
def Trainable (d : D0) (deg : ℤ) (a : Arr) (np : ℕ) : Prop :=
  Fits a ∧ numPoly deg a.m = some np ∧ Covers d a.m ∧ a.n + np < 2 ^ 31 ∧ a.n * (a.n + np) ≤ 2 ^ 31

lemma degInt {deg : ℤ} {nx np : ℕ} (h : numPoly deg nx = some np) : isInt deg := by
  rcases numPoly_cases h with ⟨rfl, -⟩ | ⟨rfl, -⟩ | ⟨rfl, -⟩ <;> constructor <;> norm_num

lemma pySetup_ok {a : Arr} {d : D0} {deg : ℤ} {np : ℕ} (h : Fits a) (hnp : numPoly deg a.m = some np) (hd : Covers d a.m) (hdof : a.n + np < 2 ^ 31) :
    ∃ o, pySetup a.m a.n (a.n + np) deg (d0Array d a.m) a = .ok o ∧ Ready o a.n a.m np deg (scale d) a.f := by
  obtain ⟨o, eo, hr⟩ := setup_ok hnp hd (flat_holds a) h.2.2.2
  refine ⟨o, ?_, hr⟩
  have hp : 0 < a.n * a.m := Nat.mul_pos h.2.1 h.2.2.1
  have hl := (covers_iff d a.m).1 hd
  have e1 : addr (Buf.of (d0Array d a.m)) = .ok () := if_neg (show ¬ (d0Array d a.m).length = 0 from by have := h.2.2.1; omega)
  have e2 : addr a.flat = .ok () := if_neg (show ¬ a.n * a.m = 0 by omega)
  unfold pySetup
  rw [show intArg (a.m : ℤ) = .ok () from if_pos (isInt_nat h.lt.2), show intArg (a.n : ℤ) = .ok () from if_pos (isInt_nat h.lt.1),
    show intArg ((a.n + np : ℕ) : ℤ) = .ok () from if_pos (isInt_nat hdof), show intArg deg = .ok () from if_pos (degInt hnp),
    show bufArg a.dbl = .ok () from if_pos h.1, e1, e2, native_ok eo]
  rfl

lemma addr_eq_ok {α : Type} {b : Buf α} {u : Unit} (h : addr b = .ok u) : 0 < b.len := by
  unfold addr at h
  split at h
  · cases h
  · omega

lemma native_eq_ok {α : Type} {c : C α} {a : α} (h : native c = .ok a) : c = .ok a := by
  rcases native_cases c with ⟨b, e, e'⟩ | ⟨u, e, e'⟩
  · rw [e'] at h; cases h; exact e
  · rw [e'] at h; cases h

lemma intArg_eq_ok {z : ℤ} {u : Unit} (h : intArg z = .ok u) : isInt z := by
  unfold intArg at h
  split at h
  · assumption
  · cases h

lemma pySetup_needs {a : Arr} {d : D0} {deg : ℤ} {dof : ℕ} {o : Obj} (h : pySetup a.m a.n dof deg (d0Array d a.m) a = .ok o) : Fits a ∧ Covers d a.m ∧ dof < 2 ^ 31 := by
  unfold pySetup at h
  obtain ⟨_, h1, h⟩ := bind_eq_ok.1 h
  obtain ⟨_, h2, h⟩ := bind_eq_ok.1 h
  obtain ⟨_, h3, h⟩ := bind_eq_ok.1 h
  obtain ⟨_, h4, h⟩ := bind_eq_ok.1 h
  obtain ⟨_, h5, h⟩ := bind_eq_ok.1 h
  obtain ⟨_, h6, h⟩ := bind_eq_ok.1 h
  obtain ⟨_, h7, h⟩ := bind_eq_ok.1 h
  obtain ⟨s1, s2⟩ := setup_needs (native_eq_ok h)
  have hp : 0 < a.n * a.m := addr_eq_ok h7
  refine ⟨⟨?_, Nat.pos_of_mul_pos_right hp, Nat.pos_of_mul_pos_left hp, s1⟩, (covers_iff d a.m).2 s2, isInt_nat_iff.1 (intArg_eq_ok h3)⟩
  unfold bufArg at h5
  split at h5
  · assumption
  · cases h5

/-- **C98** Training has a result exactly if `Trainable`; then the compiled object belongs to the current points, scalings and degree, and the equations are the rows of C31. In every case, option `d0` is
an array of numbers afterwards. -/
theorem C98_rbf_train (s : Sm) (a : Arr) (ha : s.data = some a) :
    ((∃ r, (train s).2 = .ok r) ↔ ∃ np, Trainable s.d0 s.deg a np) ∧
    (∀ np, Trainable s.d0 s.deg a np → (train s).1.dof = a.n + np ∧ ∃ o r, (train s).1.rbfc = .ready o ∧ Ready o a.n a.m np s.deg (scale s.d0) a.f ∧
      (train s).2 = .ok r ∧ r.len = a.n * (a.n + np) ∧
      Holds r a.n (a.n + np) (fun i => row s.deg (fun k : Fin a.m => scale s.d0 k) (fun it : Fin a.n => fun k => a.f it k) fun k => a.f i k)) ∧
    (train s).1.d0 = .arr (d0Array s.d0 a.m) ∧ (train s).1.data = some a ∧ (train s).1.deg = s.deg := by
  have hd0 : Covers (.arr (d0Array s.d0 a.m)) a.m ↔ Covers s.d0 a.m := by rw [covers_iff s.d0]; rfl
  have tr : train s = ((install { s with d0 := .arr (d0Array s.d0 a.m) } a).1, (install { s with d0 := .arr (d0Array s.d0 a.m) } a).2 >>= fun o =>
      trainJac o a (install { s with d0 := .arr (d0Array s.d0 a.m) } a).1.dof) := by unfold train; rw [ha]
  have good : ∀ np, Trainable s.d0 s.deg a np → (train s).1.dof = a.n + np ∧ ∃ o r, (train s).1.rbfc = .ready o ∧ Ready o a.n a.m np s.deg (scale s.d0) a.f ∧
      (train s).2 = .ok r ∧ r.len = a.n * (a.n + np) ∧
      Holds r a.n (a.n + np) (fun i => row s.deg (fun k : Fin a.m => scale s.d0 k) (fun it : Fin a.n => fun k => a.f it k) fun k => a.f i k) := by
    rintro np ⟨h1, h2, h3, h4, h5⟩
    obtain ⟨o, eo, hr⟩ := pySetup_ok h1 h2 h3 h4
    have ei : install { s with d0 := .arr (d0Array s.d0 a.m) } a = ({ s with d0 := .arr (d0Array s.d0 a.m), dof := a.n + np, rbfc := .ready o }, .ok o) := by
      unfold install
      dsimp only
      rw [h2]
      show (match pySetup a.m a.n (a.n + np) s.deg (d0Array s.d0 a.m) a with
        | .ok o => (({ s with d0 := .arr (d0Array s.d0 a.m), dof := a.n + np, rbfc := .ready o } : Sm), (Except.ok o : Except Exc Obj))
        | .error e => ({ s with d0 := .arr (d0Array s.d0 a.m), dof := a.n + np, rbfc := .raw }, .error e)) = _
      rw [eo]
    rw [tr, ei]
    obtain ⟨r, e, r1, r2, -⟩ := C98_rbf_kernel hr (flat_holds a) h1.2.2.2.le h5 (j := Buf.fresh (a.n * (a.n + np))) le_rfl
    refine ⟨rfl, o, r, rfl, hr, ?_, r1, r2⟩
    show trainJac o a (a.n + np) = _
    unfold trainJac
    have hp : 0 < a.n * (a.n + np) := Nat.mul_pos h1.2.1 (by have := h1.2.1; omega)
    rw [show addr (Buf.fresh (a.n * (a.n + np)) : Buf ℝ) = .ok () from if_neg (show ¬ a.n * (a.n + np) = 0 by omega), ok_bind, native_ok e]
  have side : (train s).1.d0 = .arr (d0Array s.d0 a.m) ∧ (train s).1.data = some a ∧ (train s).1.deg = s.deg := by
    rw [tr]
    dsimp only
    unfold install
    cases numPoly s.deg a.m with
    | none => exact ⟨rfl, ha, rfl⟩
    | some np =>
      dsimp only
      cases pySetup a.m a.n (a.n + np) s.deg (d0Array (D0.arr (d0Array s.d0 a.m)) a.m) a with
      | ok o => exact ⟨rfl, ha, rfl⟩
      | error e => exact ⟨rfl, ha, rfl⟩
  refine ⟨⟨fun ⟨r, hr⟩ => ?_, fun ⟨np, h⟩ => ?_⟩, good, side⟩
  · rw [tr] at hr
    obtain ⟨o, e1, e2⟩ := bind_eq_ok.1 hr
    unfold install at e1 e2
    dsimp only at e1 e2
    cases hnp : numPoly s.deg a.m with
    | none => rw [hnp] at e1; cases e1
    | some np =>
      rw [hnp] at e1 e2
      dsimp only at e1 e2
      cases hp : pySetup a.m a.n (a.n + np) s.deg (d0Array (D0.arr (d0Array s.d0 a.m)) a.m) a with
      | error e => rw [hp] at e1; cases e1
      | ok o' =>
        rw [hp] at e1 e2
        cases e1
        dsimp only at e2
        obtain ⟨q1, q2, q3⟩ := pySetup_needs hp
        have hc := hd0.1 q2
        obtain ⟨o2, eo2, hr2⟩ := pySetup_ok (d := .arr (d0Array s.d0 a.m)) q1 hnp q2 q3
        rw [eo2] at hp; cases hp
        unfold trainJac at e2
        obtain ⟨_, -, e2⟩ := bind_eq_ok.1 e2
        have := (computeJac_needs (native_eq_ok e2) q1.2.1 (by rw [hr2.hnx]; exact q1.2.2.1) (by rw [hr2.hnt]; exact q1.2.1)).2 np (by rw [hr2.hdeg, hr2.hnx]; exact hnp) (by rw [hr2.hdof, hr2.hnt])
        rw [hr2.hnt] at this
        exact ⟨np, q1, hnp, hc, q3, this⟩
  · obtain ⟨-, o, r, -, -, h', -⟩ := good np h
    exact ⟨r, h'⟩

/-- Concrete case: three points in the plane, default scaling, linear trend: training has a result, a matrix of 3 x 6. -/
example : ∃ r, (train ⟨.num 1, 1, some ⟨true, 3, 2, fun i j => i * j⟩, 0, .missing⟩).2 = .ok r ∧ r.len = 18 := by
  obtain ⟨-, o, r, -, -, h, h', -⟩ := (C98_rbf_train ⟨.num 1, 1, some ⟨true, 3, 2, fun i j => i * j⟩, 0, .missing⟩ _ rfl).2.1 3
    ⟨⟨rfl, by decide, by decide, by decide⟩, rfl, trivial, by decide, by decide⟩
  exact ⟨r, h, h'⟩

/-! ## Predictions -/

lemma enter_ok {s : Sm} {a x : Arr} (ha : s.data = some a) (hm : x.m = a.m) (hx : Fits x) (ht : 0 < s.dof) (hs : s.rbfc ≠ .missing) (kx : Option ℤ)
    (hk : ∀ k ∈ kx, isInt k) : enter s x kx = .ok (x.n * s.dof) := by
  have hp : 0 < x.n * x.m := Nat.mul_pos hx.2.1 hx.2.2.1
  have hq : 0 < x.n * s.dof := Nat.mul_pos hx.2.1 ht
  have e1 : checkX s x = .ok () := by unfold checkX; rw [ha]; exact if_pos hm
  have e2 : intArg (x.n : ℤ) = .ok () := if_pos (isInt_nat hx.lt.1)
  have e3 : bufArg x.dbl = .ok () := if_pos hx.1
  have e4 : addr x.flat = .ok () := if_neg (show ¬ x.n * x.m = 0 by omega)
  have e5 : addr (Buf.fresh (x.n * s.dof) : Buf ℝ) = .ok () := if_neg (show ¬ x.n * s.dof = 0 by omega)
  have e6 : ∀ k ∈ kx, intArg k = .ok () := fun k h => if_pos (hk k h)
  unfold enter
  rw [e1, ok_bind, e2, e3, e4, e5]
  cases kx with
  | none =>
    cases h : s.rbfc with
    | missing => exact absurd h hs
    | raw => rfl
    | ready o => rfl
  | some k =>
    have e6 := e6 k rfl
    dsimp only
    rw [e6]
    cases h : s.rbfc with
    | missing => exact absurd h hs
    | raw => rfl
    | ready o => rfl

lemma values_eq {s : Sm} {a x : Arr} {o : Obj} (ho : s.rbfc = .ready o) (ha : s.data = some a) (hm : x.m = a.m) (hx : Fits x) (ht : 0 < s.dof) :
    values s x = native (computeJac o x.n x.flat (Buf.fresh (x.n * s.dof))) := by
  unfold values
  rw [enter_ok ha hm hx ht (by rw [ho]; exact fun h => nomatch h) none (fun k hk => nomatch hk), ok_bind, ho]

lemma derivs_eq {s : Sm} {a x : Arr} {o : Obj} {kx : ℤ} (ho : s.rbfc = .ready o) (ha : s.data = some a) (hm : x.m = a.m) (hx : Fits x) (ht : 0 < s.dof) (hk : isInt kx) :
    derivs s x kx = native (computeDerivs o x.n kx x.flat (Buf.fresh (x.n * s.dof))) := by
  unfold derivs
  rw [enter_ok ha hm hx ht (by rw [ho]; exact fun h => nomatch h) (some kx) (fun k h => by cases h; exact hk), ok_bind, ho]

/-- **C98** Whatever the state before (hence after every history of calls): after a training that had a result, every prediction stays inside its memory and gives the rows of C31 for the current training
points; for derivatives, exactly if the index names an input. -/
theorem C98_rbf_use (s : Sm) (a : Arr) (ha : s.data = some a) (np : ℕ) (ht : Trainable s.d0 s.deg a np) (x : Arr) (hx : Fits x) (hm : x.m = a.m) (hb : x.n * (a.n + np) ≤ 2 ^ 31) :
    (∃ r, values (after s .train) x = .ok r ∧ r.len = x.n * (a.n + np) ∧
      Holds r x.n (a.n + np) (fun i => row s.deg (fun k : Fin a.m => scale s.d0 k) (fun it : Fin a.n => fun k => a.f it k) fun k => x.f i k)) ∧
    (∀ kx : Fin a.m, ∃ r, derivs (after s .train) x (kx : ℕ) = .ok r ∧ r.len = x.n * (a.n + np) ∧
      Holds r x.n (a.n + np) (fun i => drow s.deg (fun k : Fin a.m => scale s.d0 k) (fun it : Fin a.n => fun k => a.f it k) kx fun k => x.f i k)) ∧
    (∀ kx : ℤ, isInt kx → kx < 0 ∨ (a.m : ℤ) ≤ kx → ∃ u, derivs (after s .train) x kx = .error (.ub u)) := by
  obtain ⟨-, h2, -, hd, -⟩ := C98_rbf_train s a ha
  obtain ⟨h3, o, -, ho, hr, -⟩ := h2 np ht
  have hdof : 0 < (after s .train).dof := by show 0 < (train s).1.dof; rw [h3]; have := ht.1.2.1; omega
  have hxs : x.n * a.m ≤ 2 ^ 31 := by rw [← hm]; exact hx.2.2.2.le
  have hxh : Holds x.flat x.n a.m x.f := by rw [← hm]; exact flat_holds x
  have h3' : (after s .train).dof = a.n + np := h3
  refine ⟨?_, fun kx => ?_, fun kx hk hout => ?_⟩
  · obtain ⟨r, e, r1, r2, -⟩ := C98_rbf_kernel hr hxh hxs hb (j := Buf.fresh (x.n * (a.n + np))) le_rfl
    exact ⟨r, by rw [values_eq (s := after s .train) ho hd hm hx hdof, h3', native_ok e], r1, r2⟩
  · obtain ⟨r, e, r1, r2, -⟩ := C98_rbf_derivative_kernel hr hxh hxs hb kx (j := Buf.fresh (x.n * (a.n + np))) le_rfl
    exact ⟨r, by rw [derivs_eq (s := after s .train) ho hd hm hx hdof (isInt_nat (lt_trans kx.2 ht.1.lt.2)), h3', native_ok e], r1, r2⟩
  · rw [derivs_eq (s := after s .train) ho hd hm hx hdof hk]
    rcases native_cases (computeDerivs o x.n kx x.flat (Buf.fresh (x.n * (after s .train).dof))) with ⟨r, e, e'⟩ | ⟨u, e, e'⟩
    · exfalso
      unfold computeDerivs at e
      obtain ⟨j1, e1, -⟩ := bind_eq_ok.1 e
      obtain ⟨-, h1, h2⟩ := radialD_needs e1 hx.2.1 (by rw [hr.hnx]; exact ht.1.2.2.1) (by rw [hr.hnt]; exact ht.1.2.1)
      rcases hout with h | h
      · omega
      · have hl : x.flat.len = x.n * a.m := by show x.n * x.m = _; rw [hm]
        rw [hl, hr.hnx] at h2
        obtain ⟨k, hk⟩ : ∃ k, x.n = k + 1 := ⟨x.n - 1, by have := hx.2.1; omega⟩
        rw [hk] at h2
        push_cast at h2
        nlinarith
    · rw [e']; exact ⟨u, rfl⟩

/-- Concrete case: three points, constant trend, two evaluation points; the derivative with respect to input 2 of 2. -/
example : (∃ r, values (after ⟨.num 1, 0, some ⟨true, 3, 2, fun i j => i * j⟩, 0, .missing⟩ .train) ⟨true, 2, 2, fun i _ => i⟩ = .ok r ∧ r.len = 8) ∧
    ∃ u, derivs (after ⟨.num 1, 0, some ⟨true, 3, 2, fun i j => i * j⟩, 0, .missing⟩ .train) ⟨true, 2, 2, fun i _ => i⟩ 2 = .error (.ub u) := by
  obtain ⟨⟨r, h1, h2, -⟩, -, h3⟩ := C98_rbf_use ⟨.num 1, 0, some ⟨true, 3, 2, fun i j => i * j⟩, 0, .missing⟩ _ rfl 1
    ⟨⟨rfl, by decide, by decide, by decide⟩, rfl, trivial, by decide, by decide⟩ ⟨true, 2, 2, fun i _ => i⟩ ⟨rfl, by decide, by decide, by decide⟩ rfl (by decide)
  exact ⟨⟨r, h1, h2⟩, h3 2 (isInt_nat (k := 2) (by norm_num)) (.inr le_rfl)⟩

/-- **C98** Predicting with an object that was never trained is an `AttributeError`, whatever the arguments are (a wrong number of columns is noticed first); so is predicting without training data. -/
theorem C98_rbf_untrained (s : Sm) (h : s.rbfc = .missing) (x : Arr) (kx : ℤ) :
    ((∀ a, s.data = some a → x.m = a.m) → values s x = .error .attribute ∧ derivs s x kx = .error .attribute) ∧
    (∀ a, s.data = some a → x.m ≠ a.m → values s x = .error .value ∧ derivs s x kx = .error .value) := by
  refine ⟨fun hd => ?_, fun a ha hm => ?_⟩
  · unfold values derivs enter checkX
    rw [h]
    cases ha : s.data with
    | none => exact ⟨rfl, rfl⟩
    | some a => dsimp only; rw [if_pos (hd a ha)]; exact ⟨rfl, rfl⟩
  · unfold values derivs enter checkX
    rw [ha]
    dsimp only
    rw [if_neg hm]; exact ⟨rfl, rfl⟩

/-- Non-vacuity: a new object. -/
example (x : Arr) : values Sm.new x = .error .attribute := ((C98_rbf_untrained Sm.new rfl x 0).1 fun _ h => nomatch h).1

/-- **C98** Predicting after `set_training_values` *without* training again: only the number of inputs matters. With fewer inputs than before it is undefined behaviour (reads behind the array); with as
many or more, the old model is evaluated on an array that is read with the old row length. -/
theorem C98_rbf_stale (s : Sm) (o : Obj) (nt nx np : ℕ) (deg : ℤ) (D : ℕ → ℝ) (T : ℕ → ℕ → ℝ) (ho : s.rbfc = .ready o) (hr : Ready o nt nx np deg D T) (hdof : s.dof = nt + np)
    (hnt : 0 < nt) (hnx : 0 < nx) (a : Arr) (ha : s.data = some a) (x : Arr) (hx : Fits x) (hm : x.m = a.m) (hb : x.n * (nt + np) ≤ 2 ^ 31) :
    ((∃ u, values s x = .error (.ub u)) ↔ a.m < nx) ∧
    (nx ≤ a.m → ∃ r, values s x = .ok r ∧
      Holds r x.n (nt + np) (fun i => row deg (fun k : Fin nx => D k) (fun it : Fin nt => fun k => T it k) fun k => x.f ((i * nx + k) / a.m) ((i * nx + k) % a.m))) := by
  have hd : 0 < s.dof := by omega
  have second : nx ≤ a.m → ∃ r, values s x = .ok r ∧
      Holds r x.n (nt + np) (fun i => row deg (fun k : Fin nx => D k) (fun it : Fin nt => fun k => T it k) fun k => x.f ((i * nx + k) / a.m) ((i * nx + k) % a.m)) := by
    intro h2
    have hle : x.n * nx ≤ x.n * x.m := by rw [hm]; exact Nat.mul_le_mul_left _ h2
    have hxh : Holds x.flat x.n nx fun i k => x.f ((i * nx + k) / a.m) ((i * nx + k) % a.m) := by
      refine ⟨hle, fun i hi j hj => ?_⟩
      show (if i * nx + j < x.n * x.m then some (x.f ((i * nx + j) / x.m) ((i * nx + j) % x.m)) else none) = _
      rw [if_pos (lt_of_lt_of_le (flat_lt hi hj) hle), hm]
    obtain ⟨r, e, r1, r2, -⟩ := C98_rbf_kernel hr hxh (by have := hx.2.2.2; omega) hb (j := Buf.fresh (x.n * (nt + np))) le_rfl
    exact ⟨r, by rw [values_eq ho ha hm hx hd, hdof, native_ok e], r2⟩
  refine ⟨⟨fun ⟨u, hu⟩ => ?_, fun h => ?_⟩, second⟩
  · by_contra hc
    push Not at hc
    obtain ⟨r, e, -⟩ := second hc
    rw [e] at hu; cases hu
  · rw [values_eq ho ha hm hx hd]
    rcases native_cases (computeJac o x.n x.flat (Buf.fresh (x.n * s.dof))) with ⟨r, e, e'⟩ | ⟨u, e, e'⟩
    · exfalso
      have h1 := (computeJac_needs e hx.2.1 (by rw [hr.hnx]; exact hnx) (by rw [hr.hnt]; exact hnt)).1
      rw [hr.hnx] at h1
      have h1' : x.n * nx ≤ x.n * a.m := by rw [← hm]; exact h1
      have := Nat.le_of_mul_le_mul_left h1' hx.2.1
      omega
    · rw [e']; exact ⟨u, rfl⟩

/-- **C98** Training again with more inputs: the first training replaced the number in option `d0` by one entry per input it had then, so the second one reads behind that array. With as many or fewer
inputs, the first entries are used. -/
theorem C98_rbf_retrain (s : Sm) (v : ℝ) (hd : s.d0 = .num v) (a b : Arr) (ha : s.data = some a) (ham : 0 < a.m) (hb : Fits b) (np : ℕ) (hnp : numPoly s.deg b.m = some np)
    (hdof : b.n + np < 2 ^ 31) (hsq : b.n * (b.n + np) ≤ 2 ^ 31) :
    (a.m < b.m → (train (after (after s .train) (.set b))).2 = .error (.ub .outside)) ∧ (b.m ≤ a.m → ∃ r, (train (after (after s .train) (.set b))).2 = .ok r) := by
  obtain ⟨-, -, h1, -, h2⟩ := C98_rbf_train s a ha
  have e1 : (after (after s .train) (.set b)).d0 = .arr (List.replicate a.m v) := by
    show (train s).1.d0 = _
    rw [h1, hd]; rfl
  have e2 : (after (after s .train) (.set b)).deg = s.deg := h2
  have e3 : (after (after s .train) (.set b)).data = some b := rfl
  generalize after (after s .train) (.set b) = t at e1 e2 e3
  refine ⟨fun hlt => ?_, fun hle => ?_⟩
  · have hp : 0 < b.n * b.m := Nat.mul_pos hb.2.1 hb.2.2.1
    have hpy : pySetup b.m b.n (b.n + np) t.deg (List.replicate a.m v) b = .error (.ub .outside) := by
      unfold pySetup
      rw [show intArg (b.m : ℤ) = .ok () from if_pos (isInt_nat hb.lt.2), show intArg (b.n : ℤ) = .ok () from if_pos (isInt_nat hb.lt.1),
        show intArg ((b.n + np : ℕ) : ℤ) = .ok () from if_pos (isInt_nat hdof), show intArg t.deg = .ok () from if_pos (by rw [e2]; exact degInt hnp),
        show bufArg b.dbl = .ok () from if_pos hb.1, show addr b.flat = .ok () from if_neg (show ¬ b.n * b.m = 0 by omega),
        show addr (Buf.of (List.replicate a.m v)) = .ok () from if_neg (show ¬ (List.replicate a.m v).length = 0 by rw [List.length_replicate]; omega)]
      have : setup b.m b.n (b.n + np) t.deg (Buf.of (List.replicate a.m v)) b.flat = .error .outside := by
        unfold setup
        rw [chk_ok (by rw [← Int.natCast_mul]; exact isInt_nat hb.2.2.2), ok_bind]
        unfold memcpy
        rw [if_neg (fun h => by have := h.2; simp [Buf.of] at this; omega)]; rfl
      rw [this]; rfl
    unfold train
    rw [e3]
    dsimp only
    unfold install
    dsimp only
    rw [e2, hnp]
    dsimp only
    rw [← e2, e1]
    show ((match pySetup b.m b.n (b.n + np) t.deg (List.replicate a.m v) b with
        | .ok o => ((_ : Sm), (Except.ok o : Except Exc Obj))
        | .error e => (_, .error e)).2 >>= _) = _
    rw [hpy]; rfl
  · refine (C98_rbf_train t b e3).1.2 ⟨np, hb, by rw [e2]; exact hnp, ?_, hdof, hsq⟩
    rw [e1]
    show b.m ≤ (List.replicate a.m v).length
    rw [List.length_replicate]; exact hle

/-- Concrete case: a surrogate with default options, trained in one dimension, then in two. -/
example : (train (after (after { Sm.new with data := some ⟨true, 3, 1, fun i _ => i⟩ } .train) (.set ⟨true, 3, 2, fun i j => i + j⟩))).2 = .error (.ub .outside) :=
  (C98_rbf_retrain _ 1 rfl ⟨true, 3, 1, fun i _ => i⟩ ⟨true, 3, 2, fun i j => i + j⟩ rfl (by decide) ⟨rfl, by decide, by decide, by decide⟩ 0 rfl (by decide) (by decide)).1 (by decide)

/-- **C98** A training that raised in `setup` (points that are no `double`s): `values` with valid arguments is undefined behaviour. A degree outside -1, 0, 1 raises before, and the previous model stays. -/
theorem C98_rbf_failed_training (s : Sm) (a : Arr) (ha : s.data = some a) (x : Arr) (hx : Fits x) (hm : x.m = a.m) :
    (∀ np, numPoly s.deg a.m = some np → ¬ Fits a → 0 < a.n → values (after s .train) x = .error (.ub .unset)) ∧
    (numPoly s.deg a.m = none → (train s).2 = .error .key ∧ (after s .train).rbfc = s.rbfc ∧ (after s .train).dof = s.dof) := by
  refine ⟨fun np hnp hF hn => ?_, fun hnp => ?_⟩
  · obtain ⟨-, -, -, hd, -⟩ := C98_rbf_train s a ha
    have hbad : ∀ o, pySetup a.m a.n (a.n + np) s.deg (d0Array s.d0 a.m) a ≠ .ok o := fun o h => hF (pySetup_needs h).1
    have : (after s .train).rbfc = .raw ∧ (after s .train).dof = a.n + np := by
      show (train s).1.rbfc = .raw ∧ (train s).1.dof = _
      unfold train
      rw [ha]
      dsimp only
      unfold install
      dsimp only
      rw [hnp]
      dsimp only
      cases hp : pySetup a.m a.n (a.n + np) s.deg (d0Array (D0.arr (d0Array s.d0 a.m)) a.m) a with
      | ok o => exact absurd hp (hbad o)
      | error e => exact ⟨rfl, rfl⟩
    unfold values
    rw [enter_ok (s := after s .train) hd hm hx (by rw [this.2]; omega) (by rw [this.1]; exact fun h => nomatch h) none (fun k hk => nomatch hk), ok_bind, this.1]
  · have : train s = ({ s with d0 := .arr (d0Array s.d0 a.m) }, .error .key) := by
      unfold train
      rw [ha]
      dsimp only
      unfold install
      dsimp only
      rw [hnp]
      rfl
    exact ⟨by rw [this], by show (train s).1.rbfc = _; rw [this], by show (train s).1.dof = _; rw [this]⟩

/-- Concrete cases: integer training points; degree 2 (accepted by the options, which ask for an `int`). -/
example : values (after { Sm.new with data := some ⟨false, 3, 1, fun i _ => i⟩ } .train) ⟨true, 1, 1, fun _ _ => 0⟩ = .error (.ub .unset) :=
  (C98_rbf_failed_training _ ⟨false, 3, 1, fun i _ => i⟩ rfl ⟨true, 1, 1, fun _ _ => 0⟩ ⟨rfl, by decide, by decide, by decide⟩ rfl).1 0 rfl (fun h => nomatch h.1) (by decide)

example : (train ⟨.num 1, 2, some ⟨true, 3, 1, fun i _ => i⟩, 0, .missing⟩).2 = .error .key :=
  ((C98_rbf_failed_training ⟨.num 1, 2, some ⟨true, 3, 1, fun i _ => i⟩, 0, .missing⟩ _ rfl ⟨true, 1, 1, fun _ _ => 0⟩ ⟨rfl, by decide, by decide, by decide⟩ rfl).2 rfl).1

end SMT.Native.Rbf
