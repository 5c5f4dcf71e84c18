import Verif.Nn.PersistProps

/-!
# Property C105, second part: `load_csv`
-/
set_option linter.unusedSectionVars false
set_option linter.unusedSimpArgs false
set_option linter.unusedVariables false

namespace SMT.Nn.Persist

variable {K : Type} [Field K]

/-! ## Specification -/

/-- The values below the first label that equals `label`. -/
def below (c : Csv K) (label : String) : List K := c.table.map fun r => r.getD (c.headers.findIdx (· == label)) 0

/-- A table with two rows and two columns at least. -/
structure Table (c : Csv K) : Prop where
  rows : 2 ≤ c.table.length
  cols : 2 ≤ c.headers.length

variable {c : Csv K}

theorem column_ok (h : Table c) {l : String} (hl : l ∈ c.headers) : column c l = .ok (below c l) := by
  have hex : c.headers.findIdx (· == l) < c.headers.length := List.findIdx_lt_length_of_exists ⟨l, hl, by simp⟩
  have e : c.headers.findIdx? (· == l) = some (c.headers.findIdx (· == l)) := by
    rw [List.findIdx?_eq_some_iff_findIdx_eq]
    exact ⟨hex, rfl⟩
  unfold column
  rw [e]
  dsimp only
  rw [if_neg (by have := h.rows; have := h.cols; omega)]
  rfl

theorem column_missing {l : String} (hl : l ∉ c.headers) : column c l = .error .value := by
  have e : c.headers.findIdx? (· == l) = none := by
    rw [List.findIdx?_eq_none_iff]
    intro x hx
    simp only [beq_eq_false_iff_ne]
    rintro rfl
    exact hl hx
  unfold column
  rw [e]

theorem column_index (h : ¬Table c) {l : String} (hl : l ∈ c.headers) : column c l = .error .index := by
  have hex : c.headers.findIdx (· == l) < c.headers.length := List.findIdx_lt_length_of_exists ⟨l, hl, by simp⟩
  have e : c.headers.findIdx? (· == l) = some (c.headers.findIdx (· == l)) := by
    rw [List.findIdx?_eq_some_iff_findIdx_eq]
    exact ⟨hex, rfl⟩
  unfold column
  rw [e]
  dsimp only
  rw [if_pos]
  by_contra hc
  push Not at hc
  exact h ⟨by omega, by omega⟩

theorem each_ok {α β : Type} {f : α → Except Err β} {g : α → β} : ∀ (l : List α), (∀ a ∈ l, f a = .ok (g a)) → each f l = .ok (l.map g)
  | [], _ => rfl
  | a :: l, h => by
    rw [each, h a (by simp), each_ok l fun b hb => h b (by simp [hb])]
    rfl

theorem jacRow_ok (h : Table c) {nx m : ℕ} {labels : List String} (hl : ∀ l ∈ labels, l ∈ c.headers) (hn : labels.length ≤ nx) :
    jacRow c nx m labels = .ok (labels.map (below c) ++ List.replicate (nx - labels.length) (List.replicate m 0)) := by
  unfold jacRow
  rw [List.take_of_length_le hn, each_ok labels fun a ha => column_ok h (hl a ha), List.drop_of_length_le hn]
  dsimp only
  rw [List.length_map]

theorem jac_ok (h : Table c) {nx m : ℕ} : ∀ (ny : ℕ) (ps : List (List String)), ps.length ≤ ny → (∀ p ∈ ps, p.length ≤ nx ∧ ∀ l ∈ p, l ∈ c.headers) →
    jac c nx m ny ps = .ok ((ps.map fun p => p.map (below c) ++ List.replicate (nx - p.length) (List.replicate m 0)) ++
      List.replicate (ny - ps.length) (List.replicate nx (List.replicate m 0)))
  | ny, [], _, _ => by simp [jac]
  | 0, p :: ps, hl, _ => by simp at hl
  | ny + 1, p :: ps, hl, hp => by
    have hl' : ps.length ≤ ny := by simpa using hl
    rw [jac, jacRow_ok h (hp p (by simp)).2 (hp p (by simp)).1, jac_ok h ny ps hl' fun q hq => hp q (by simp [hq])]
    dsimp only
    rw [List.map_cons, List.cons_append, List.length_cons, Nat.add_sub_add_right]

/-- What `load_csv` returns for the partials: a value for every output and input, zero if there is no label for it. -/
def jacobian (c : Csv K) (nx ny : ℕ) (partials : List (List String)) : List (List (List K)) :=
  (List.range ny).map fun i => (List.range nx).map fun j =>
    match (partials.getD i [])[j]? with
    | some l => below c l
    | none => c.table.map fun _ => 0

theorem pad_eq {α : Type} (n : ℕ) (l : List α) (d : α) (h : l.length ≤ n) : l ++ List.replicate (n - l.length) d = (List.range n).map fun i => l.getD i d := by
  apply List.ext_getElem
  · simp; omega
  · intro i h1 h2
    rw [List.getElem_append, List.getElem_map, List.getElem_range]
    split
    · rename_i hi
      simp [List.getD_eq_getElem?_getD, hi]
    · rename_i hi
      simp [List.getD_eq_getElem?_getD, not_lt.1 hi]

/-- **C105** `load_csv` from a table with two rows and two columns at least that has all the labels: inputs, outputs and partials are the columns below the (first)
labels of that name; partials without a label are silently zero. -/
theorem C105_csv (h : Table c) {inputs outputs : List String} {partials : List (List String)} (hi : inputs ≠ []) (ho : outputs ≠ [])
    (hil : ∀ l ∈ inputs, l ∈ c.headers) (hol : ∀ l ∈ outputs, l ∈ c.headers) (hp : partials.length ≤ outputs.length)
    (hpl : ∀ p ∈ partials, p.length ≤ inputs.length ∧ ∀ l ∈ p, l ∈ c.headers) :
    loadCsv (some (some c)) inputs outputs partials =
      .ok (inputs.map (below c), outputs.map (below c), if partials = [] then none else some (jacobian c inputs.length outputs.length partials)) := by
  cases inputs with
  | nil => exact absurd rfl hi
  | cons i0 is =>
    unfold loadCsv
    dsimp only
    rw [if_neg ho, column_ok h (hil i0 (by simp))]
    dsimp only
    rw [each_ok _ fun a ha => column_ok h (hil a ha), each_ok _ fun a ha => column_ok h (hol a ha)]
    dsimp only
    by_cases he : partials = []
    · rw [if_pos he, if_pos he]
    · rw [if_neg he, if_neg he, jac_ok h _ _ hp hpl]
      dsimp only
      congr 4
      have e : ∀ ps : List (List String), (∀ p ∈ ps, p.length ≤ (i0 :: is).length) →
          (ps.map fun p => p.map (below c) ++ List.replicate ((i0 :: is).length - p.length) (List.replicate (below c i0).length (0 : K))) =
          ps.map fun p => (List.range (i0 :: is).length).map fun j => match p[j]? with
            | some l => below c l
            | none => c.table.map fun _ => 0 := by
        intro ps hps
        refine List.map_congr_left fun p hp => ?_
        have := pad_eq (i0 :: is).length (p.map (below c)) (List.replicate (below c i0).length (0 : K)) (by rw [List.length_map]; exact hps p hp)
        rw [List.length_map] at this
        rw [this]
        refine List.map_congr_left fun j hj => ?_
        rw [List.getD_eq_getElem?_getD, List.getElem?_map]
        cases p[j]? with
        | none => simp [below]
        | some l => rfl
      rw [e partials fun p hp => (hpl p hp).1, ← List.length_map (fun p : List String => (List.range (i0 :: is).length).map fun j => match p[j]? with
            | some l => below c l
            | none => c.table.map fun _ => (0 : K)), pad_eq _ _ _ (by rw [List.length_map]; exact hp)]
      unfold jacobian
      refine List.map_congr_left fun i hi => ?_
      rw [List.getD_eq_getElem?_getD, List.getElem?_map, List.getD_eq_getElem?_getD]
      cases partials[i]? with
      | none =>
        simp only [Option.map_none, Option.getD_none, List.getElem?_nil]
        apply List.ext_getElem
        · simp
        · intro j h1 h2
          simp [below]
      | some p => rfl

/-- **C105** The first of several equal labels counts. -/
theorem C105_csv_first {a b : List String} {l : String} (hc : c.headers = a ++ l :: b) (ha : l ∉ a) : below c l = c.table.map fun r => r.getD a.length 0 := by
  unfold below
  have e : c.headers.findIdx (· == l) = a.length := by
    rw [hc, List.findIdx_append, if_neg]
    · simp [List.findIdx_cons]
    · push Not
      rw [List.findIdx_eq_length_of_false]
      intro x hx
      simp only [beq_eq_false_iff_ne]
      rintro rfl
      exact ha hx
  rw [e]

/-- **C105** A table with a single row of data, or a single column, cannot be loaded: `IndexError`. -/
theorem C105_csv_thin (h : ¬Table c) {i0 : String} {is outputs : List String} {partials : List (List String)} (ho : outputs ≠ []) (hi : i0 ∈ c.headers) :
    loadCsv (some (some c)) (i0 :: is) outputs partials = .error .index := by
  unfold loadCsv
  dsimp only
  rw [if_neg ho, column_index h hi]

/-- **C105** A label that the file does not have: `ValueError` (if the ones before it are there). -/
theorem C105_csv_missing (h : Table c) {is is' outputs : List String} {l : String} {partials : List (List String)} (ho : outputs ≠ [])
    (hi : ∀ x ∈ is, x ∈ c.headers) (hl : l ∉ c.headers) : loadCsv (some (some c)) (is ++ l :: is') outputs partials = .error .value := by
  have key : ∀ is : List String, (∀ x ∈ is, x ∈ c.headers) → each (column c) (is ++ l :: is') = .error .value := by
    intro is
    induction is with
    | nil =>
      intro _
      rw [List.nil_append, each, column_missing hl]
    | cons a is ih =>
      intro hi
      rw [List.cons_append, each, column_ok h (hi a (by simp)), ih fun x hx => hi x (by simp [hx])]
  cases is with
  | nil =>
    unfold loadCsv
    simp only [List.nil_append]
    rw [if_neg ho, column_missing hl]
  | cons a is =>
    unfold loadCsv
    simp only [List.cons_append]
    rw [if_neg ho, column_ok h (hi a (by simp))]
    dsimp only
    have := key (a :: is) hi
    rw [List.cons_append] at this
    rw [this]

/-- **C105** More partials than inputs or outputs: `IndexError`. -/
theorem C105_csv_many (h : Table c) {nx m ny : ℕ} {ps : List String} {rest : List (List String)} (hl : ∀ l ∈ ps, l ∈ c.headers) (hn : nx < ps.length) :
    jac c nx m ny (ps :: rest) = .error .index := by
  cases ny with
  | zero =>
    cases ps with
    | nil => simp at hn
    | cons l ls =>
      unfold jac
      dsimp only
      rw [column_ok h (hl l (by simp))]
  | succ ny =>
    have e : jacRow c nx m ps = .error .index := by
      unfold jacRow
      rw [each_ok _ fun a ha => column_ok h (hl a (List.mem_of_mem_take ha))]
      dsimp only
      cases hd : ps.drop nx with
      | nil =>
        have := congrArg List.length hd
        rw [List.length_drop, List.length_nil] at this
        omega
      | cons l ls =>
        dsimp only
        rw [column_ok h (hl l (List.mem_of_mem_drop (by rw [hd]; simp)))]
    rw [jac, e]

/-- A file with two labels `a`: the first one is used; one partial of two is missing. -/
def sample : Csv ℚ := ⟨["a", "b", "a", "y", "d"], [[1, 2, 3, 4, 5], [6, 7, 8, 9, 10]]⟩

example : (loadCsv (some (some sample)) ["a", "b"] ["y"] [["d"]]).toOption = some ([[1, 6], [2, 7]], [[4, 9]], some [[[(5 : ℚ), 10], [0, 0]]]) := by decide
example : Table sample := ⟨by decide, by decide⟩
example : (loadCsv (some (some { sample with table := [[1, 2, 3, 4, (5 : ℚ)]] })) ["a", "b"] ["y"] []).toOption = none := by decide

end SMT.Nn.Persist
