import Verif.Surrogate.Model

/-!
# Properties C04, C05, C06: training-data store and prediction entry points
-/
namespace SMT.Surrogate
set_option linter.unusedSectionVars false

variable {K : Type}

/-! ## Specification -/

/-- "`o` is an array of rank at most 2 and, seen as a table, it is `r` with `n` rows and `m` columns":
a vector of length `n` is `n` rows of one entry, a scalar is one row of one entry. -/
def IsTable (o : PyObj K) (n m : Nat) (r : NdArray K) : Prop :=
  ∃ a, o = .nd a ∧ r = ⟨[n, m], a.data⟩ ∧
    (a.shape = [n, m] ∨ (a.shape = [n] ∧ m = 1) ∨ (a.shape = [] ∧ n = 1 ∧ m = 1))

/-- "Call `o`, made when the data were `prior`, makes `(x, y)` the data of group `g` and kind `k`"
(kind 0: values, kind `i+1`: derivative with respect to input `i`). `sup`: the model supports
training derivatives. The call is accepted only if both arguments are tables with equally many rows. -/
def Writes (sup : Bool) (prior : Group → Int → Option (NdArray K × NdArray K) → Prop) (o : Op K)
    (g : Group) (k : Int) (x y : NdArray K) : Prop :=
  match o with
  | .setValues xt yt name =>
    g = name ∧ k = 0 ∧ ∃ n m m', IsTable xt n m x ∧ IsTable yt n m' y
  | .updateValues yt name =>
    g = name ∧ k = 0 ∧ ∃ n m m' y0, prior g 0 (some (x, y0)) ∧ x.shape = [n, m] ∧ IsTable yt n m' y
  | .setDerivs xt yt kx name =>
    g = name ∧ sup = true ∧ ∃ i n m m', kx = .int i ∧ k = i + 1 ∧ IsTable xt n m x ∧ IsTable yt n m' y
  | .updateDerivs yt kx name =>
    -- what the code does (see C05 for the difference with the documentation): it wants data of kind
    -- `kx` with as many rows, and replaces the outputs of kind `kx + 1`
    g = name ∧ sup = true ∧ k = kx + 1 ∧ ∃ n m m' x0 y0 y1, prior g kx (some (x0, y0)) ∧
      x0.shape = [n, m] ∧ IsTable yt n m' y ∧ prior g k (some (x, y1))

/-- `LastData sup past g k r`: after the calls `past` (**most recent first**) the training data of
group `g` and kind `k` is `r`, i.e. what the last accepted call gave. -/
def LastData (sup : Bool) : List (Op K) → Group → Int → Option (NdArray K × NdArray K) → Prop
  | [], _, _, r => r = none
  | o :: past, g, k, r =>
    (∃ x y, Writes sup (LastData sup past) o g k x y ∧ r = some (x, y)) ∨
    ((¬ ∃ x y, Writes sup (LastData sup past) o g k x y) ∧ LastData sup past g k r)

/-! ## Lemmas -/

theorem ensure2d_ok_iff (o : PyObj K) (r : NdArray K) :
    ensure2d o = .ok r ↔ ∃ n m, IsTable o n m r := by
  cases o with
  | other => simp [ensure2d, IsTable]
  | nd a =>
    obtain ⟨sh, da⟩ := a
    unfold IsTable
    match sh with
    | [] =>
      constructor
      · intro h; simp [ensure2d] at h; exact ⟨1, 1, _, rfl, h.symm, by simp⟩
      · rintro ⟨n, m, a, h, rfl, h2⟩; cases h; simp at h2; simp [ensure2d, h2]
    | [n] =>
      constructor
      · intro h; simp [ensure2d] at h; exact ⟨n, 1, _, rfl, h.symm, by simp⟩
      · rintro ⟨n', m, a, h, rfl, h2⟩; cases h; simp at h2; simp [ensure2d, h2]
    | [n, m] =>
      simp only [ensure2d, Except.ok.injEq, PyObj.nd.injEq]
      constructor
      · rintro rfl; exact ⟨n, m, _, rfl, rfl, Or.inl rfl⟩
      · rintro ⟨n', m', a, rfl, rfl, h⟩
        simp at h; obtain ⟨rfl, rfl⟩ := h; rfl
    | a :: b :: c :: t => simp [ensure2d]

theorem ensure2d_shape {o : PyObj K} {r : NdArray K} (h : ensure2d o = .ok r) :
    ∃ n m, r.shape = [n, m] := by
  obtain ⟨n, m, a, _, rfl, _⟩ := (ensure2d_ok_iff o r).1 h
  exact ⟨n, m, rfl⟩

theorem isTable_iff (o : PyObj K) (n m : Nat) (r : NdArray K) :
    IsTable o n m r ↔ ensure2d o = .ok r ∧ r.shape = [n, m] := by
  constructor
  · intro h
    exact ⟨(ensure2d_ok_iff o r).2 ⟨n, m, h⟩, by obtain ⟨a, _, rfl, _⟩ := h; rfl⟩
  · rintro ⟨h1, h2⟩
    obtain ⟨n', m', h⟩ := (ensure2d_ok_iff o r).1 h1
    obtain ⟨a, h3, rfl, h4⟩ := h
    simp at h2; obtain ⟨rfl, rfl⟩ := h2
    exact ⟨a, h3, rfl, h4⟩

theorem run_snoc (sup : Bool) (h : List (Op K)) (o : Op K) :
    run sup (h ++ [o]) = (step sup (run sup h) o).1 := by
  simp [run, List.foldl_append]

/-- Every stored array is a table. -/
def Tables (s : Store K) : Prop :=
  ∀ g k x y, s.tp g k = some (x, y) → (∃ n m, x.shape = [n, m]) ∧ (∃ n m, y.shape = [n, m])

theorem put_tables (s : Store K) (hs : Tables s) (g : Group) (k : Int) (x y : NdArray K)
    (hx : ∃ n m, x.shape = [n, m]) (hy : ∃ n m, y.shape = [n, m]) : Tables (s.put g k x y) := by
  intro g' k' x' y' h
  simp only [Store.put] at h
  split at h
  · simp at h; obtain ⟨rfl, rfl⟩ := h; exact ⟨hx, hy⟩
  · exact hs _ _ _ _ h

theorem step_tables (sup : Bool) (s : Store K) (hs : Tables s) (o : Op K) :
    Tables (step sup s o).1 := by
  cases o with
  | setValues xt yt name =>
    simp only [step, setValues]
    split
    · exact hs
    · rename_i x hx
      split
      · exact hs
      · rename_i y hy
        split
        · exact hs
        · exact put_tables _ (fun g k a b h => hs g k a b h) _ _ _ _ (ensure2d_shape hx) (ensure2d_shape hy)
  | updateValues yt name =>
    simp only [step, updateValues]
    split
    · exact hs
    · rename_i y hy
      split
      · exact hs
      · rename_i x y0 hxy
        split
        · exact hs
        · exact put_tables _ hs _ _ _ _ (hs _ _ _ _ hxy).1 (ensure2d_shape hy)
  | setDerivs xt yt kx name =>
    simp only [step, setDerivs]
    split
    · exact hs
    · split
      · exact hs
      · rename_i x hx
        split
        · exact hs
        · rename_i y hy
          split
          · exact hs
          · split
            · exact hs
            · exact put_tables _ hs _ _ _ _ (ensure2d_shape hx) (ensure2d_shape hy)
  | updateDerivs yt kx name =>
    simp only [step, updateDerivs]
    split
    · exact hs
    · split
      · exact hs
      · rename_i y hy
        split
        · exact hs
        · split
          · exact hs
          · split
            · exact hs
            · rename_i x' y' hxy
              exact put_tables _ hs _ _ _ _ (hs _ _ _ _ hxy).1 (ensure2d_shape hy)

theorem run_tables (sup : Bool) (h : List (Op K)) : Tables (run sup h) := by
  have : ∀ (h : List (Op K)) (s : Store K), Tables s →
      Tables (h.foldl (fun s o => (step sup s o).1) s) := by
    intro h
    induction h with
    | nil => intro s hs; exact hs
    | cons o h ih => intro s hs; exact ih _ (step_tables sup s hs o)
  exact this h _ (by intro g k x y h; simp [Store.init] at h)

theorem nrows_of {x : NdArray K} {n m : Nat} (h : x.shape = [n, m]) : x.nrows = n := by
  simp [NdArray.nrows, h]

theorem ncols_of {x : NdArray K} {n m : Nat} (h : x.shape = [n, m]) : x.ncols = m := by
  simp [NdArray.ncols, h]

/-! ## C04 -/

/-- One call: either it is an accepted write to `(g, k)` and the new data are exactly the written ones,
or it is not and the data of `(g, k)` are unchanged. -/
theorem step_spec (sup : Bool) (s : Store K) (hs : Tables s) (o : Op K) (g : Group) (k : Int) :
    (∃ x y, (∀ x' y', Writes sup (fun g k r => s.tp g k = r) o g k x' y' ↔ x' = x ∧ y' = y) ∧
      (step sup s o).1.tp g k = some (x, y)) ∨
    ((∀ x y, ¬ Writes sup (fun g k r => s.tp g k = r) o g k x y) ∧ (step sup s o).1.tp g k = s.tp g k) := by
  cases o with
  | setValues xt yt name =>
    simp only [Writes, isTable_iff, step, setValues]
    cases hx : ensure2d xt with
    | error e => right; simp
    | ok x =>
      cases hy : ensure2d yt with
      | error e => right; simp
      | ok y =>
        obtain ⟨n, m, hsx⟩ := ensure2d_shape hx
        obtain ⟨n', m', hsy⟩ := ensure2d_shape hy
        simp only [nrows_of hsx, nrows_of hsy, Except.ok.injEq]
        by_cases hn : n = n'
        · subst hn
          by_cases hgk : g = name ∧ k = 0
          · left; refine ⟨x, y, ?_, by simp [Store.put, hgk]⟩
            intro x' y'
            constructor
            · rintro ⟨_, _, _, _, _, ⟨rfl, _⟩, ⟨rfl, _⟩⟩; exact ⟨rfl, rfl⟩
            · rintro ⟨rfl, rfl⟩; exact ⟨hgk.1, hgk.2, n, m, m', ⟨rfl, hsx⟩, rfl, hsy⟩
          · right; refine ⟨fun x y h => hgk ⟨h.1, h.2.1⟩, by simp [Store.put, hgk]⟩
        · right; refine ⟨?_, by simp [hn]⟩
          rintro x' y' ⟨_, _, _, _, _, ⟨rfl, h1⟩, ⟨rfl, h2⟩⟩
          rw [hsx] at h1; rw [hsy] at h2; simp at h1 h2; omega
  | updateValues yt name =>
    simp only [Writes, isTable_iff, step, updateValues]
    cases hy : ensure2d yt with
    | error e => right; simp
    | ok y =>
      obtain ⟨n', m', hsy⟩ := ensure2d_shape hy
      cases ht : s.tp name 0 with
      | none =>
        right; refine ⟨?_, rfl⟩
        rintro x' y' ⟨rfl, rfl, _, _, _, _, h, _⟩; rw [ht] at h; cases h
      | some p =>
        obtain ⟨x, y0⟩ := p
        obtain ⟨⟨n, m, hsx⟩, _⟩ := hs _ _ _ _ ht
        simp only [nrows_of hsx, nrows_of hsy, Except.ok.injEq]
        by_cases hn : n = n'
        · subst hn
          by_cases hgk : g = name ∧ k = 0
          · left; refine ⟨x, y, ?_, by simp [Store.put, hgk]⟩
            obtain ⟨rfl, rfl⟩ := hgk
            intro x' y'
            constructor
            · rintro ⟨_, _, _, _, _, y1, h1, _, ⟨rfl, _⟩⟩
              rw [ht] at h1; simp at h1; exact ⟨h1.1.symm, rfl⟩
            · rintro ⟨rfl, rfl⟩; exact ⟨rfl, rfl, n, m, m', y0, ht, hsx, rfl, hsy⟩
          · right; refine ⟨fun x y h => hgk ⟨h.1, h.2.1⟩, by simp [Store.put, hgk]⟩
        · right; refine ⟨?_, by simp [hn]⟩
          rintro x' y' ⟨rfl, rfl, _, _, _, y1, h1, h2, ⟨rfl, h3⟩⟩
          rw [ht] at h1; simp at h1; obtain ⟨rfl, _⟩ := h1
          rw [hsx] at h2; rw [hsy] at h3; simp at h2 h3; omega
  | setDerivs xt yt kx name =>
    simp only [Writes, isTable_iff, step, setDerivs]
    cases sup with
    | false => right; simp
    | true =>
    simp only [Bool.true_eq_false, if_false, true_and]
    cases hx : ensure2d xt with
    | error e => right; simp
    | ok x =>
      cases hy : ensure2d yt with
      | error e => right; simp
      | ok y =>
        obtain ⟨n, m, hsx⟩ := ensure2d_shape hx
        obtain ⟨n', m', hsy⟩ := ensure2d_shape hy
        simp only [nrows_of hsx, nrows_of hsy, Except.ok.injEq]
        by_cases hn : n = n'
        · subst hn
          cases kx with
          | other => right; simp
          | int i =>
          by_cases hgk : g = name ∧ k = i + 1
          · left; refine ⟨x, y, ?_, by simp [Store.put, hgk]⟩
            intro x' y'
            constructor
            · rintro ⟨_, _, _, _, _, _, _, ⟨rfl, _⟩, ⟨rfl, _⟩⟩; exact ⟨rfl, rfl⟩
            · rintro ⟨rfl, rfl⟩; exact ⟨hgk.1, i, n, m, m', rfl, hgk.2, ⟨rfl, hsx⟩, rfl, hsy⟩
          · right; refine ⟨?_, by simp [Store.put, hgk]⟩
            rintro x y ⟨h1, j, _, _, _, hj, h2, _⟩
            simp at hj; subst hj; exact hgk ⟨h1, h2⟩
        · right; refine ⟨?_, by simp [hn]⟩
          rintro x' y' ⟨_, _, _, _, _, _, _, ⟨rfl, h1⟩, ⟨rfl, h2⟩⟩
          rw [hsx] at h1; rw [hsy] at h2; simp at h1 h2; omega
  | updateDerivs yt kx name =>
    simp only [Writes, isTable_iff, step, updateDerivs]
    cases sup with
    | false => right; simp
    | true =>
    simp only [Bool.true_eq_false, if_false, true_and]
    cases hy : ensure2d yt with
    | error e => right; simp
    | ok y =>
      obtain ⟨n', m', hsy⟩ := ensure2d_shape hy
      cases ht : s.tp name kx with
      | none =>
        right; refine ⟨?_, rfl⟩
        rintro x' y' ⟨rfl, rfl, _, _, _, _, _, _, h, _⟩; rw [ht] at h; cases h
      | some p =>
        obtain ⟨x0, y0⟩ := p
        obtain ⟨⟨n, m, hsx⟩, _⟩ := hs _ _ _ _ ht
        simp only [nrows_of hsx, nrows_of hsy, Except.ok.injEq]
        by_cases hn : n = n'
        · subst hn
          simp only [ne_eq, not_true_eq_false, if_false]
          cases ht' : s.tp name (kx + 1) with
          | none =>
            right; refine ⟨?_, rfl⟩
            rintro x' y' ⟨rfl, rfl, _, _, _, _, _, _, _, _, _, h⟩; rw [ht'] at h; cases h
          | some q =>
            obtain ⟨x, y1⟩ := q
            by_cases hgk : g = name ∧ k = kx + 1
            · left; refine ⟨x, y, ?_, by simp [Store.put, hgk]⟩
              obtain ⟨rfl, rfl⟩ := hgk
              intro x' y'
              constructor
              · rintro ⟨_, _, _, _, _, _, _, _, _, _, ⟨rfl, _⟩, h1⟩
                rw [ht'] at h1; simp at h1; exact ⟨h1.1.symm, rfl⟩
              · rintro ⟨rfl, rfl⟩; exact ⟨rfl, rfl, n, m, m', x0, y0, y1, ht, hsx, ⟨rfl, hsy⟩, ht'⟩
            · right; refine ⟨fun x y h => hgk ⟨h.1, h.2.1⟩, by simp [Store.put, hgk]⟩
        · right; refine ⟨?_, by simp [hn]⟩
          rintro x' y' ⟨rfl, rfl, _, _, _, _, _, _, h1, h2, ⟨rfl, h3⟩, _⟩
          rw [ht] at h1; simp at h1; obtain ⟨rfl, _⟩ := h1
          rw [hsx] at h2; rw [hsy] at h3; simp at h2 h3; omega

/-- **C04** For every history of setter calls — accepted or raising, in any order — the stored data
of every group and kind is what the last accepted call gave. -/
theorem C04_store_is_last_accepted (sup : Bool) (past : List (Op K)) (g : Group) (k : Int)
    (r : Option (NdArray K × NdArray K)) :
    LastData sup past g k r ↔ (run sup past.reverse).tp g k = r := by
  induction past generalizing g k r with
  | nil => simp [LastData, run, Store.init, eq_comm]
  | cons o past ih =>
    have hfun : LastData sup past = fun g k r => (run sup past.reverse).tp g k = r := by
      funext g k r; exact propext (ih g k r)
    rw [List.reverse_cons, run_snoc]
    simp only [LastData, hfun]
    rcases step_spec sup (run sup past.reverse) (run_tables sup past.reverse) o g k with
      ⟨x, y, h1, h2⟩ | ⟨h1, h2⟩
    · rw [h2]
      constructor
      · rintro (⟨x', y', h3, rfl⟩ | ⟨h3, _⟩)
        · obtain ⟨rfl, rfl⟩ := (h1 x' y').1 h3; rfl
        · exact absurd ⟨x, y, (h1 x y).2 ⟨rfl, rfl⟩⟩ h3
      · rintro rfl; exact Or.inl ⟨x, y, (h1 x y).2 ⟨rfl, rfl⟩, rfl⟩
    · rw [h2]
      constructor
      · rintro (⟨x', y', h3, rfl⟩ | ⟨_, h3⟩)
        · exact absurd h3 (h1 x' y')
        · exact h3
      · intro h; exact Or.inr ⟨fun ⟨x, y, h3⟩ => h1 x y h3, h⟩

/-- **C04** A call that raises changes nothing (values, derivatives, dimensions). -/
theorem C04_raise_changes_nothing (sup : Bool) (s : Store K) (o : Op K)
    (h : (step sup s o).2 ≠ .ok ()) : (step sup s o).1 = s := by
  cases o with
  | setValues xt yt name =>
    simp only [step, setValues] at h ⊢
    split
    · rfl
    · split
      · rfl
      · split
        · rfl
        · simp_all
  | updateValues yt name =>
    simp only [step, updateValues] at h ⊢
    split
    · rfl
    · split
      · rfl
      · split
        · rfl
        · simp_all
  | setDerivs xt yt kx name =>
    simp only [step, setDerivs] at h ⊢
    split
    · rfl
    · split
      · rfl
      · split
        · rfl
        · split
          · rfl
          · split
            · rfl
            · simp_all
  | updateDerivs yt kx name =>
    simp only [step, updateDerivs] at h ⊢
    split
    · rfl
    · split
      · rfl
      · split
        · rfl
        · split
          · rfl
          · split
            · rfl
            · simp_all

/-- **C04** `update_training_values` succeeds exactly when the group has value data with the same
number of rows; it then keeps the stored inputs and replaces the outputs. -/
theorem C04_update_values (sup : Bool) (past : List (Op K)) (yt : PyObj K) (name : Group) :
    let s := run sup past.reverse
    ((updateValues s yt name).2 = .ok () ↔
      ∃ n m m' x y0 y, LastData sup past name 0 (some (x, y0)) ∧ x.shape = [n, m] ∧ IsTable yt n m' y) ∧
    (∀ x y0 y n m, (updateValues s yt name).2 = .ok () → s.tp name 0 = some (x, y0) → IsTable yt n m y →
      (updateValues s yt name).1.tp name 0 = some (x, y)) := by
  intro s
  have htab := run_tables sup past.reverse
  simp only [C04_store_is_last_accepted, isTable_iff]
  show ((updateValues s yt name).2 = .ok () ↔ ∃ n m m' x y0 y, s.tp name 0 = some (x, y0) ∧ _ ∧ _) ∧ _
  unfold updateValues
  cases hy : ensure2d yt with
  | error e => simp
  | ok y =>
    obtain ⟨n', m', hsy⟩ := ensure2d_shape hy
    cases ht : s.tp name 0 with
    | none => simp
    | some p =>
      obtain ⟨x, y0⟩ := p
      obtain ⟨⟨n, m, hsx⟩, _⟩ := htab _ _ _ _ ht
      simp only [nrows_of hsx, nrows_of hsy]
      by_cases hn : n = n'
      · subst hn
        refine ⟨⟨fun _ => ⟨n, m, m', x, y0, y, rfl, hsx, rfl, hsy⟩, fun _ => by simp⟩, ?_⟩
        rintro x' y0' y' _ _ _ h1 ⟨h2, _⟩
        simp at h1 h2; obtain ⟨rfl, _⟩ := h1; subst h2
        simp [Store.put]
      · refine ⟨⟨fun h => by simp [hn] at h, ?_⟩, fun _ _ _ _ _ h => by simp [hn] at h⟩
        rintro ⟨a, b, c, x', y0', y', h1, h2, h3, h4⟩
        simp at h1 h3; obtain ⟨rfl, _⟩ := h1; subst h3
        rw [hsx] at h2; rw [hsy] at h4; simp at h2 h4; omega

/-- **C04** In every history without `update_training_derivatives`, stored inputs and outputs always
have the same number of rows. (`C05_breaks_row_invariant` shows why the exclusion is needed.) -/
theorem C04_rows_agree (sup : Bool) (past : List (Op K))
    (hno : ∀ o ∈ past, ∀ y k g, o ≠ .updateDerivs y k g) (g : Group) (k : Int) (x y : NdArray K)
    (h : (run sup past.reverse).tp g k = some (x, y)) :
    ∃ n m m', x.shape = [n, m] ∧ y.shape = [n, m'] := by
  rw [← C04_store_is_last_accepted] at h
  induction past generalizing g k x y with
  | nil => simp [LastData] at h
  | cons o past ih =>
    have ih' := ih (fun o' ho' => hno o' (by simp [ho']))
    rcases h with ⟨x', y', hw, hr⟩ | ⟨_, h⟩
    · simp at hr; obtain ⟨rfl, rfl⟩ := hr
      cases o with
      | setValues xt yt name =>
        obtain ⟨_, _, n, m, m', h1, h2⟩ := hw
        exact ⟨n, m, m', ((isTable_iff _ _ _ _).1 h1).2, ((isTable_iff _ _ _ _).1 h2).2⟩
      | updateValues yt name =>
        obtain ⟨_, _, n, m, m', y0, _, h1, h2⟩ := hw
        exact ⟨n, m, m', h1, ((isTable_iff _ _ _ _).1 h2).2⟩
      | setDerivs xt yt kx name =>
        obtain ⟨_, _, i, n, m, m', _, _, h1, h2⟩ := hw
        exact ⟨n, m, m', ((isTable_iff _ _ _ _).1 h1).2, ((isTable_iff _ _ _ _).1 h2).2⟩
      | updateDerivs yt kx name => exact absurd rfl (hno _ (by simp) yt kx name)
    · exact ih' _ _ _ _ h

/-- The recorded sizes `(nt, nx, ny)` after a history (most recent first): those of the last accepted
`set_training_values`, whatever its group. -/
def LastDims : List (Op K) → Option (Nat × Nat × Nat) → Prop
  | [], r => r = none
  | .setValues xt yt _ :: past, r =>
    (∃ n m m' x y, IsTable xt n m x ∧ IsTable yt n m' y ∧ r = some (n, m, m')) ∨
    ((¬ ∃ n m m' x y, IsTable xt n m x ∧ IsTable yt n m' y) ∧ LastDims past r)
  | _ :: past, r => LastDims past r

/-- **C04** `nt`, `nx`, `ny` are those of the last accepted `set_training_values` call on *any* group;
in particular `update_training_values` never changes them, even if it changes the number of outputs. -/
theorem C04_dims (sup : Bool) (past : List (Op K)) :
    LastDims past (run sup past.reverse).dims := by
  induction past with
  | nil => simp [LastDims, run, Store.init]
  | cons o past ih =>
    rw [List.reverse_cons, run_snoc]
    cases o with
    | setValues xt yt name =>
      simp only [LastDims, isTable_iff, step, setValues]
      cases hx : ensure2d xt with
      | error e => simpa using ih
      | ok x =>
        cases hy : ensure2d yt with
        | error e => simpa using ih
        | ok y =>
          obtain ⟨n, m, hsx⟩ := ensure2d_shape hx
          obtain ⟨n', m', hsy⟩ := ensure2d_shape hy
          simp only [nrows_of hsx, nrows_of hsy, ncols_of hsx, ncols_of hsy, Except.ok.injEq]
          by_cases hn : n = n'
          · subst hn
            left; refine ⟨n, m, m', x, y, ⟨rfl, hsx⟩, ⟨rfl, hsy⟩, by simp [Store.put]⟩
          · right
            simp only [ne_eq, hn, not_false_eq_true, if_true]
            refine ⟨?_, ih⟩
            rintro ⟨a, _, _, x', y', ⟨rfl, h1⟩, ⟨rfl, h2⟩⟩
            simp [hsx] at h1; simp [hsy] at h2; omega
    | updateValues yt name =>
      have : (step sup (run sup past.reverse) (.updateValues yt name)).1.dims
          = (run sup past.reverse).dims := by
        simp only [step, updateValues]
        split
        · rfl
        · split
          · rfl
          · split <;> rfl
      simp only [LastDims]; rw [this]; exact ih
    | setDerivs xt yt kx name =>
      have : (step sup (run sup past.reverse) (.setDerivs xt yt kx name)).1.dims
          = (run sup past.reverse).dims := by
        simp only [step, setDerivs]
        split
        · rfl
        · split
          · rfl
          · split
            · rfl
            · split
              · rfl
              · split <;> rfl
      simp only [LastDims]; rw [this]; exact ih
    | updateDerivs yt kx name =>
      have : (step sup (run sup past.reverse) (.updateDerivs yt kx name)).1.dims
          = (run sup past.reverse).dims := by
        simp only [step, updateDerivs]
        split
        · rfl
        · split
          · rfl
          · split
            · rfl
            · split
              · rfl
              · split <;> rfl
      simp only [LastDims]; rw [this]; exact ih

/-! ## C05 -/

/-- **C05** Exact behaviour of `update_training_derivatives(dyt, kx, name)`: it succeeds iff derivatives
are supported, `dyt` is a table, the data of kind `kx` (the *previous* kind) has as many rows as `dyt`,
and data of kind `kx + 1` exist; then it replaces the outputs of kind `kx + 1`, nothing else. -/
theorem C05_exact_behaviour (sup : Bool) (past : List (Op K)) (dyt : PyObj K) (kx : Int) (name : Group) :
    let s := run sup past.reverse
    ((updateDerivs sup s dyt kx name).2 = .ok () ↔
      sup = true ∧ ∃ n m m' x0 y0 x y1 y, LastData sup past name kx (some (x0, y0)) ∧
        x0.shape = [n, m] ∧ IsTable dyt n m' y ∧ LastData sup past name (kx + 1) (some (x, y1))) ∧
    ((updateDerivs sup s dyt kx name).2 = .ok () → ∀ x y1 y n m,
      s.tp name (kx + 1) = some (x, y1) → IsTable dyt n m y →
      ∀ g k, (updateDerivs sup s dyt kx name).1.tp g k =
        if g = name ∧ k = kx + 1 then some (x, y) else s.tp g k) := by
  intro s
  have htab := run_tables sup past.reverse
  simp only [C04_store_is_last_accepted, isTable_iff]
  show ((updateDerivs sup s dyt kx name).2 = .ok () ↔ sup = true ∧ ∃ n m m' x0 y0 x y1 y,
    s.tp name kx = some (x0, y0) ∧ _ ∧ _ ∧ s.tp name (kx + 1) = _) ∧ _
  unfold updateDerivs
  cases sup with
  | false => simp
  | true =>
  cases hy : ensure2d dyt with
  | error e => simp
  | ok y =>
    obtain ⟨n', m', hsy⟩ := ensure2d_shape hy
    cases ht : s.tp name kx with
    | none => simp
    | some p =>
      obtain ⟨x0, y0⟩ := p
      obtain ⟨⟨n, m, hsx⟩, _⟩ := htab _ _ _ _ ht
      simp only [nrows_of hsx, nrows_of hsy]
      by_cases hn : n = n'
      · subst hn
        cases ht' : s.tp name (kx + 1) with
        | none => simp
        | some q =>
          obtain ⟨x, y1⟩ := q
          refine ⟨⟨fun _ => ⟨trivial, n, m, m', x0, y0, x, y1, y, rfl, hsx, ⟨rfl, hsy⟩, rfl⟩, fun _ => by simp⟩, ?_⟩
          rintro _ x' y1' y' n'' m'' h1 ⟨h2, _⟩ g k
          simp at h1 h2; obtain ⟨rfl, rfl⟩ := h1; subst h2
          simp [Store.put]
      · refine ⟨⟨fun h => by simp [hn] at h, ?_⟩, fun h => by simp [hn] at h⟩
        rintro ⟨_, a, b, c, x0', y0', x, y1, y', h1, h2, ⟨h3, h4⟩, _⟩
        simp at h1 h3; obtain ⟨rfl, rfl⟩ := h1; subst h3
        simp [hsx] at h2; simp [hsy] at h4; omega

/-- **C05 (violation)** Documented behaviour would be: after `set_training_derivatives(x, dy, kx)` an
update with as many rows as `x` succeeds. It raises when the value data have another number of rows,
and, worse, an update with a *wrong* number of rows is accepted, leaving derivative inputs and outputs
with different numbers of rows. -/
theorem C05_breaks_row_invariant :
    ∃ (past : List (Op Int)) (good bad : PyObj Int),
      -- 3 derivative points are stored for kx = 0; `good` has 3 rows, `bad` has 2
      (∃ x y, (run true past.reverse).tp none 1 = some (x, y) ∧ x.shape = [3, 1] ∧ y.shape = [3, 1]) ∧
      (∃ r, IsTable good 3 1 r) ∧ (∃ r, IsTable bad 2 1 r) ∧
      (updateDerivs true (run true past.reverse) good 0 none).2 = .error .value ∧
      (updateDerivs true (run true past.reverse) bad 0 none).2 = .ok () ∧
      ∃ x y, (updateDerivs true (run true past.reverse) bad 0 none).1.tp none 1 = some (x, y) ∧
        x.shape = [3, 1] ∧ y.shape = [2, 1] := by
  refine ⟨[.setDerivs (.nd ⟨[3], [1, 2, 3]⟩) (.nd ⟨[3], [4, 5, 6]⟩) (.int 0) none,
    .setValues (.nd ⟨[2], [1, 2]⟩) (.nd ⟨[2], [0, 0]⟩) none],
    .nd ⟨[3], [7, 8, 9]⟩, .nd ⟨[2], [7, 8]⟩, ⟨_, _, rfl, rfl, rfl⟩, ⟨⟨[3, 1], [7, 8, 9]⟩, _, rfl, rfl, by simp⟩,
    ⟨⟨[2, 1], [7, 8]⟩, _, rfl, rfl, by simp⟩, rfl, rfl, _, _, rfl, rfl, rfl⟩

/-- **C05 (violation)** Derivatives set for input 1 only cannot be updated at all. -/
theorem C05_rejects_update_of_set_derivative :
    ∃ (past : List (Op Int)) (x y : NdArray Int) (dyt : PyObj Int) (r : NdArray Int),
      (run true past.reverse).tp none 2 = some (x, y) ∧ x.shape = [2, 2] ∧ IsTable dyt 2 1 r ∧
      (updateDerivs true (run true past.reverse) dyt 1 none).2 = .error .value := by
  refine ⟨[.setDerivs (.nd ⟨[2, 2], [1, 2, 3, 4]⟩) (.nd ⟨[2], [4, 5]⟩) (.int 1) none,
    .setValues (.nd ⟨[2, 2], [1, 2, 3, 4]⟩) (.nd ⟨[2], [0, 0]⟩) none], _, _, .nd ⟨[2], [7, 8]⟩,
    ⟨[2, 1], [7, 8]⟩, rfl, rfl, ⟨_, rfl, rfl, by simp⟩, rfl⟩

/-- **C05 (partial)** The documented behaviour holds when data of kind `kx` is present with the same
number of rows as the derivative data of input `kx` — e.g. values and derivatives for inputs
`0..kx` all set at the same points, the usual pattern. Missing: the cases of the two violations above,
where the code does something else. -/
theorem C05_update_derivs_partial (past : List (Op K)) (name : Group) (kx : Int)
    (x0 y0 x y1 : NdArray K) (n m m0 : Nat)
    (hprev : LastData true past name kx (some (x0, y0))) (hp : x0.shape = [n, m0])
    (hset : LastData true past name (kx + 1) (some (x, y1))) (_hx : x.shape = [n, m]) (dyt : PyObj K) :
    let s := run true past.reverse
    ((updateDerivs true s dyt kx name).2 = .ok () ↔ ∃ m' y, IsTable dyt n m' y) ∧
    (∀ m' y, IsTable dyt n m' y →
      (updateDerivs true s dyt kx name).1.tp name (kx + 1) = some (x, y)) := by
  intro s
  have h := C05_exact_behaviour true past dyt kx name
  have hiff : (updateDerivs true s dyt kx name).2 = .ok () ↔ ∃ m' y, IsTable dyt n m' y := by
    rw [h.1]
    constructor
    · rintro ⟨_, n', m', c, x0', y0', x', y1', y, h1, h2, h3, _⟩
      rw [C04_store_is_last_accepted] at h1 hprev
      rw [hprev] at h1; simp at h1; obtain ⟨rfl, rfl⟩ := h1
      rw [hp] at h2; simp at h2; obtain ⟨rfl, _⟩ := h2
      exact ⟨_, _, h3⟩
    · rintro ⟨m', y, h3⟩
      exact ⟨rfl, n, m0, m', x0, y0, x, y1, y, hprev, hp, h3, hset⟩
  refine ⟨hiff, fun m' y hy => ?_⟩
  have := h.2 (hiff.2 ⟨m', y, hy⟩) x y1 y n m' ((C04_store_is_last_accepted _ _ _ _ _).1 hset) hy name (kx + 1)
  simpa using this

/-- Non-vacuity of C04/C05 hypotheses: values and derivatives at the same two points. -/
example : ∃ (past : List (Op Int)) (x0 y0 x y1 : NdArray Int),
    LastData true past none 0 (some (x0, y0)) ∧ x0.shape = [2, 1] ∧
    LastData true past none (0 + 1) (some (x, y1)) ∧ x.shape = [2, 1] := by
  refine ⟨[.setDerivs (.nd ⟨[2], [1, 2]⟩) (.nd ⟨[2], [4, 5]⟩) (.int 0) none,
    .setValues (.nd ⟨[2], [1, 2]⟩) (.nd ⟨[2], [0, 0]⟩) none], ⟨[2, 1], [1, 2]⟩, ⟨[2, 1], [0, 0]⟩,
    ⟨[2, 1], [1, 2]⟩, ⟨[2, 1], [4, 5]⟩, ?_, rfl, ?_, rfl⟩ <;>
  · rw [C04_store_is_last_accepted]; rfl

/-! ## C06 -/

/-- What the documentation promises for input points: rank 1 or 2 (rank 0 is also let through) and `nx`
columns once seen as a table. -/
def IsPoints (o : PyObj K) (nx n : Nat) (r : NdArray K) : Prop := IsTable o n nx r

/-- **C06** `predict_values` returns exactly when the input is a table of at least one row and `nx`
columns, and the model core returns `n * ny` numbers; the result then has `n` rows, `ny` columns and
consists of the core's numbers. Everything else raises (`Except`). -/
theorem C06_predict_values (s : Store K) (nt nx ny : Nat) (hs : s.dims = some (nt, nx, ny))
    (core : NdArray K → Except Err (List K)) (x : PyObj K) (r : NdArray K) :
    predictValues s core x = .ok r ↔
      ∃ n x2 out, IsPoints x nx n x2 ∧ 0 < n ∧ core x2 = .ok out ∧ out.length = n * ny ∧
        r = ⟨[n, ny], out⟩ := by
  simp only [IsPoints, isTable_iff]
  constructor
  · intro h
    unfold predictValues at h
    rw [hs] at h
    cases hx : ensure2d x with
    | error e => simp [hx, bind, Except.bind] at h
    | ok x2 =>
      obtain ⟨n, m, hsx⟩ := ensure2d_shape hx
      simp only [hx, bind, Except.bind, checkNx, ncols_of hsx, nrows_of hsx] at h
      by_cases hm : m = nx
      · cases hc : core x2 with
        | error e => simp [hm, hc] at h
        | ok out =>
          by_cases hn : n = 0
          · simp [hm, hc, hn] at h
          · by_cases hl : out.length = n * ny
            · simp [hm, hc, hn, reshape2, hl] at h
              exact ⟨n, x2, out, ⟨rfl, by rw [hsx, hm]⟩, by omega, hc, hl, h.symm⟩
            · simp [hm, hc, hn, reshape2, hl] at h
      · simp [hm] at h
  · rintro ⟨n, x2, out, ⟨h1, h2⟩, h3, h4, h5, rfl⟩
    have hn : n ≠ 0 := by omega
    simp [predictValues, h1, hs, bind, Except.bind, checkNx, ncols_of h2, nrows_of h2, h4, hn, reshape2, h5]

/-- **C06** Same for `predict_derivatives`, which in addition requires the feature to be supported. -/
theorem C06_predict_derivatives (sup : Bool) (s : Store K) (nt nx ny : Nat)
    (hs : s.dims = some (nt, nx, ny)) (core : NdArray K → Except Err (List K)) (x : PyObj K) (r : NdArray K) :
    predictDerivatives sup s core x = .ok r ↔
      sup = true ∧ ∃ n x2 out, IsPoints x nx n x2 ∧ 0 < n ∧ core x2 = .ok out ∧ out.length = n * ny ∧
        r = ⟨[n, ny], out⟩ := by
  rw [← C06_predict_values s nt nx ny hs core x r]
  cases sup <;> simp [predictDerivatives, checkSupport, predictValues, bind, Except.bind]

/-- **C06** Same for `predict_variances`, which accepts zero points. -/
theorem C06_predict_variances (sup : Bool) (s : Store K) (nt nx ny : Nat)
    (hs : s.dims = some (nt, nx, ny)) (core : NdArray K → Except Err (List K)) (x : PyObj K) (r : NdArray K) :
    predictVariances sup s core x = .ok r ↔
      sup = true ∧ ∃ n x2 out, IsPoints x nx n x2 ∧ core x2 = .ok out ∧ out.length = n * ny ∧
        r = ⟨[n, ny], out⟩ := by
  simp only [IsPoints, isTable_iff]
  constructor
  · intro h
    unfold predictVariances at h
    rw [hs] at h
    cases sup with
    | false => simp [checkSupport, bind, Except.bind] at h
    | true =>
    refine ⟨rfl, ?_⟩
    cases hx : ensure2d x with
    | error e => simp [checkSupport, hx, bind, Except.bind] at h
    | ok x2 =>
      obtain ⟨n, m, hsx⟩ := ensure2d_shape hx
      simp only [hx, checkSupport, bind, Except.bind, checkNx, ncols_of hsx, nrows_of hsx] at h
      by_cases hm : m = nx
      · cases hc : core x2 with
        | error e => simp [hm, hc] at h
        | ok out =>
          by_cases hl : out.length = n * ny
          · simp [hm, hc, reshape2, hl] at h
            exact ⟨n, x2, out, ⟨rfl, by rw [hsx, hm]⟩, hc, hl, h.symm⟩
          · simp [hm, hc, reshape2, hl] at h
      · simp [hm] at h
  · rintro ⟨rfl, n, x2, out, ⟨h1, h2⟩, h4, h5, rfl⟩
    simp [predictVariances, checkSupport, h1, hs, bind, Except.bind, checkNx, ncols_of h2, nrows_of h2, h4,
      reshape2, h5]

/-- **C06** An unsupported feature always raises `NotImplementedError`, whatever the input. -/
theorem C06_unsupported (s : Store K) (core : NdArray K → Except Err (List K)) (x : PyObj K) :
    predictDerivatives false s core x = .error .notImplemented ∧
    predictVariances false s core x = .error .notImplemented := by
  constructor <;> rfl

/-- **C06** Zero prediction points raise `ZeroDivisionError` in `predict_values` (after computing). -/
theorem C06_zero_points (s : Store K) (nt nx ny : Nat) (hs : s.dims = some (nt, nx, ny))
    (core : NdArray K → Except Err (List K)) (x2 : NdArray K) (hx : x2.shape = [0, nx]) (out : List K)
    (hc : core x2 = .ok out) :
    predictValues s core (.nd x2) = .error .zeroDivision := by
  obtain ⟨sh, da⟩ := x2
  simp only at hx; subst hx
  simp [predictValues, ensure2d, hs, bind, Except.bind, checkNx, NdArray.ncols, NdArray.nrows, hc]

/-- **C06** A one-dimensional array of `n` numbers is `n` points of a one-input model: it predicts
exactly what the `(n,1)` array does. -/
theorem C06_vector_is_column (s : Store K) (core : NdArray K → Except Err (List K)) (d : List K) (n : Nat) :
    predictValues s core (.nd ⟨[n], d⟩) = predictValues s core (.nd ⟨[n, 1], d⟩) := rfl

/-- Non-vacuity: a trained one-input model evaluated at three points. -/
example : predictValues (run true [.setValues (.nd ⟨[2], [1, 2]⟩) (.nd ⟨[2], [5, 6]⟩) none])
    (fun x => .ok (x.data.map (· + (4 : Int)))) (.nd ⟨[3], [1, 2, 3]⟩) = .ok ⟨[3, 1], [5, 6, 7]⟩ := rfl

end SMT.Surrogate
