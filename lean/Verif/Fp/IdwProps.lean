import Verif.Fp.Idw

/-!
# Property C103: inverse-distance weighting with overflow, underflow, infinities and NaN

Specification: the squared distances `rs` and weights `ws` as computed, and the five cases that exhaust all inputs with non-negative weights.
-/
namespace SMT.Fp
set_option linter.unusedSectionVars false
set_option linter.unusedSimpArgs false
set_option linter.unusedVariables false

variable {K : Type} [Field K] [LinearOrder K] [IsStrictOrderedRing K] (F : Format K)

/-- A weight or squared distance: not NaN, not negative. -/
def Nn : X K → Prop
  | .fin x => F.Fin x ∧ 0 ≤ x
  | .inf s => s = false
  | .nan => False

/-! ## Squared distances -/

theorem mul_self_nn : ∀ {d : X K}, d ≠ .nan → Nn F (F.mulX d d)
  | .fin a, _ => by
    show Nn F (F.of (a * a))
    unfold Format.of
    split
    · exact ⟨⟨F.idem _, by assumption⟩, F.nonneg (mul_self_nonneg a)⟩
    · exact decide_eq_false (not_lt.2 (mul_self_nonneg a))
  | .inf s, _ => by
    show (s != s) = false
    simp
  | .nan, h => absurd rfl h

theorem add_nn : ∀ {a b : X K}, Nn F a → Nn F b → Nn F (F.addX a b)
  | .fin a, .fin b, ha, hb => by
    show Nn F (F.of (a + b))
    unfold Format.of
    split
    · exact ⟨⟨F.idem _, by assumption⟩, F.nonneg (add_nonneg ha.2 hb.2)⟩
    · exact decide_eq_false (not_lt.2 (add_nonneg ha.2 hb.2))
  | .fin a, .inf s, ha, hb => hb
  | .inf s, .fin a, ha, hb => ha
  | .inf s, .inf t, ha, hb => by
    have ha' : s = false := ha
    have hb' : t = false := hb
    subst ha' hb'
    rfl
  | .nan, _, ha, _ => ha.elim
  | .fin _, .nan, _, hb => hb.elim
  | .inf _, .nan, _, hb => hb.elim

theorem add_nn_zero : ∀ {a b : X K}, Nn F a → Nn F b → (F.addX a b = .fin 0 ↔ a = .fin 0 ∧ b = .fin 0)
  | .fin a, .fin b, ha, hb => by
    show F.of (a + b) = .fin 0 ↔ _
    constructor
    · intro h
      unfold Format.of at h
      split at h
      · injection h with h
        have h1 : a ≤ F.rnd (a + b) := F.rep_le ha.1.1 (by linarith [hb.2])
        have h2 : b ≤ F.rnd (a + b) := F.rep_le hb.1.1 (by linarith [ha.2])
        rw [h] at h1 h2
        exact ⟨by rw [le_antisymm h1 ha.2], by rw [le_antisymm h2 hb.2]⟩
      · cases h
    · rintro ⟨h1, h2⟩
      injection h1 with h1
      injection h2 with h2
      rw [h1, h2, add_zero, F.of_zero]
  | .fin a, .inf s, ha, hb => by simp [Format.addX]
  | .inf s, .fin a, ha, hb => by simp [Format.addX]
  | .inf s, .inf t, ha, hb => by
    have ha' : s = false := ha
    have hb' : t = false := hb
    subst ha' hb'
    simp [Format.addX]
  | .nan, _, ha, _ => ha.elim
  | .fin _, .nan, _, hb => hb.elim
  | .inf _, .nan, _, hb => hb.elim

theorem sub_fin_ne_nan (a b : K) : F.subX (.fin a) (.fin b) ≠ .nan := by
  show F.of (a + -b) ≠ .nan
  unfold Format.of
  split <;> simp

theorem fold_nn {α : Type} (f : α → X K) : ∀ (l : List α), (∀ a ∈ l, Nn F (f a)) → ∀ (s : X K), Nn F s →
    Nn F (l.foldl (fun r a => F.addX r (f a)) s) ∧ (l.foldl (fun r a => F.addX r (f a)) s = .fin 0 ↔ s = .fin 0 ∧ ∀ a ∈ l, f a = .fin 0) := by
  intro l
  induction l with
  | nil => intro _ s hs; exact ⟨hs, by simp⟩
  | cons a l ih =>
    intro h s hs
    have ha := h a (by simp)
    have := ih (fun b hb => h b (by simp [hb])) (F.addX s (f a)) (add_nn F hs ha)
    refine ⟨this.1, this.2.trans ?_⟩
    rw [add_nn_zero F hs ha]
    simp [and_assoc]

theorem nn_zero : Nn F (.fin (0 : K)) := ⟨F.fin_zero, le_rfl⟩

/-- **C103** (arithmetic) The IEEE sum and product do not depend on the order of the two operands, infinities and NaN included. -/
theorem C103_comm (a b : X K) : F.addX a b = F.addX b a ∧ F.mulX a b = F.mulX b a := by
  cases a <;> cases b <;> simp [Format.addX, Format.mulX, add_comm, mul_comm, eq_comm, Bool.xor_comm]
  · split_ifs with h <;> simp_all

/-- **C103** (arithmetic) Division of numbers: by zero it is an infinity of the sign of the dividend, `0 / 0` is NaN, otherwise the quotient rounded once; dividing a number by an infinity gives zero. -/
theorem C103_division (a b : K) : (0 < a → F.divX (.fin a) (.fin 0) = .inf false) ∧ (a < 0 → F.divX (.fin a) (.fin 0) = .inf true) ∧ F.divX (.fin 0) (.fin (0 : K)) = .nan ∧
    (b ≠ 0 → F.divX (.fin a) (.fin b) = F.of (a / b)) ∧ ∀ s, F.divX (.fin a) (.inf s) = .fin 0 := by
  refine ⟨fun h => ?_, fun h => ?_, ?_, fun h => ?_, fun s => ?_⟩ 
  · simp [Format.divX, h.ne', h.le]
  · simp [Format.divX, h.ne, h]
  · simp [Format.divX]
  · simp [Format.divX, h]
  · simp [Format.divX]

/-- **C103** For finite coordinates the squared distance is a non-negative number or `+∞`, never NaN; it is zero exactly if the
square of every coordinate difference, as computed, is zero (so that it is zero between equal points). -/
theorem C103_distance (x xt : List K) :
    Nn F (sqDist F (x.map .fin) (xt.map .fin)) ∧
      (sqDist F (x.map .fin) (xt.map .fin) = .fin 0 ↔
        ∀ ab ∈ List.zip x xt, F.mulX (F.subX (.fin ab.1) (.fin ab.2)) (F.subX (.fin ab.1) (.fin ab.2)) = .fin 0) := by
  unfold sqDist
  rw [List.zip_map, List.foldl_map]
  have := fold_nn F (fun ab : K × K => F.mulX (F.subX (.fin ab.1) (.fin ab.2)) (F.subX (.fin ab.1) (.fin ab.2))) (List.zip x xt)
    (fun ab _ => mul_self_nn F (sub_fin_ne_nan F _ _)) (.fin 0) (nn_zero F)
  refine ⟨this.1, this.2.trans ?_⟩
  simp

/-- **C103** The squared distance of a point from itself is zero. -/
theorem C103_same (x : List K) : sqDist F (x.map .fin) (x.map .fin) = .fin 0 := by
  rw [(C103_distance F x x).2]
  intro ab hab
  have : ab.1 = ab.2 := by
    rw [List.zip_eq_zipWith, List.zipWith_self, List.mem_map] at hab
    obtain ⟨a, -, rfl⟩ := hab
    rfl
  rw [this]
  show F.mulX (F.of (ab.2 + -ab.2)) (F.of (ab.2 + -ab.2)) = .fin 0
  rw [add_neg_cancel, F.of_zero]
  show F.of (0 * 0) = .fin 0
  rw [zero_mul, F.of_zero]

/-! ## The minimum search -/

theorem lt_one_zero : (X.fin (0 : K)).lt (.fin 1) = true := decide_eq_true zero_lt_one

/-- The search finds zero exactly if there is one among non-negative values, and then the first. -/
theorem minX_spec : ∀ (rs : List (X K)), (∀ r ∈ rs, Nn F r ∨ r = .nan) → ∀ (it : ℕ) (st : X K × ℕ), Nn F st.1 →
    (st.1 = .fin 0 → minX rs it st = st) ∧
    (st.1 ≠ .fin 0 → (∀ r ∈ rs, r ≠ .fin 0) → (minX rs it st).1 ≠ .fin 0) ∧
    (st.1 ≠ .fin 0 → ∀ k, rs[k]? = some (.fin 0) → (∀ j, j < k → rs[j]? ≠ some (.fin 0)) → minX rs it st = (.fin 0, it + k)) := by
  intro rs
  induction rs with
  | nil => intro _ it st hst; exact ⟨fun _ => rfl, fun h _ => h, fun _ k hk => by simp at hk⟩
  | cons r rs ih =>
    intro h it st hst
    have hr := h r (by simp)
    have h' : ∀ r ∈ rs, Nn F r ∨ r = .nan := fun b hb => h b (by simp [hb])
    have hlt0 : ∀ r : X K, Nn F r ∨ r = .nan → r.lt (.fin 0) = false := by
      intro r hr
      rcases hr with hr | rfl
      · cases r with
        | fin a => exact decide_eq_false (not_lt.2 hr.2)
        | inf s => exact hr
        | nan => exact hr.elim
      · rfl
    have hpos : st.1 ≠ .fin 0 → (X.fin (0 : K)).lt st.1 = true := by
      intro hne
      cases hs : st.1 with
      | fin a =>
        rw [hs] at hst hne
        exact decide_eq_true (lt_of_le_of_ne hst.2 fun e => hne (by rw [← e]))
      | inf s =>
        rw [hs] at hst
        have : s = false := hst
        subst this
        rfl
      | nan => rw [hs] at hst; exact hst.elim
    refine ⟨fun h0 => ?_, fun hne hall => ?_, fun hne k hk hfirst => ?_⟩
    · rw [minX, h0, hlt0 r hr, if_neg (by simp)]
      exact (ih h' (it + 1) st hst).1 h0
    · rw [minX]
      split
      · rename_i hlt
        have hrn : Nn F r := by
          rcases hr with hr | rfl
          · exact hr
          · cases hlt
        exact (ih h' (it + 1) (r, it) hrn).2.1 (hall r (by simp)) fun b hb => hall b (by simp [hb])
      · exact (ih h' (it + 1) st hst).2.1 hne fun b hb => hall b (by simp [hb])
    · cases k with
      | zero =>
        have e : r = .fin 0 := by simpa using hk
        rw [minX, e, if_pos (hpos hne)]
        exact (ih h' (it + 1) (.fin 0, it) (nn_zero F)).1 rfl
      | succ k =>
        have hne' : r ≠ .fin 0 := fun e => hfirst 0 (by omega) (by simp [e])
        have hk' : rs[k]? = some (.fin 0) := by simpa using hk
        have hf' : ∀ j, j < k → rs[j]? ≠ some (.fin 0) := fun j hj => by
          have := hfirst (j + 1) (by omega)
          simpa using this
        rw [minX]
        split
        · rename_i hlt
          have hrn : Nn F r := by
            rcases hr with hr | rfl
            · exact hr
            · cases hlt
          rw [(ih h' (it + 1) (r, it) hrn).2.2 hne' k hk' hf']
          congr 1
          omega
        · rw [(ih h' (it + 1) st hst).2.2 hne k hk' hf']
          congr 1
          omega

theorem nn_one : Nn F (.fin (1 : K)) := ⟨F.fin_one, zero_le_one⟩

theorem one_ne_zero' : (X.fin (1 : K)) ≠ .fin 0 := fun h => by injection h with h; exact one_ne_zero h

/-- **C103** A point whose computed squared distance from a training point is zero (in particular a training point itself): the row of
the first such training point is a unit vector, whatever the weights. (Training points with NaN or infinite coordinates
elsewhere in the list do no harm.) -/
theorem C103_unit_row (pw : X K → X K) (xt : List (List (X K))) (x : List (X K)) (hnn : ∀ t ∈ xt, Nn F (sqDist F x t) ∨ sqDist F x t = .nan) (k : ℕ)
    (hk : (xt.map (sqDist F x))[k]? = some (.fin 0)) (hfirst : ∀ j, j < k → (xt.map (sqDist F x))[j]? ≠ some (.fin 0)) :
    idwRow F pw xt x = (List.replicate xt.length (X.fin 0)).set k (.fin 1) := by
  have h := (minX_spec F (xt.map (sqDist F x)) (by
    intro r hr
    obtain ⟨t, ht, rfl⟩ := List.mem_map.1 hr
    exact hnn t ht) 0 (.fin 1, 0) (nn_one F)).2.2 one_ne_zero' k hk hfirst
  unfold idwRow
  simp only [h, if_true, zero_add]
  rw [List.map_const']

/-- Otherwise the row is the quotients of the weights and their sum. -/
theorem idwRow_quot (pw : X K → X K) (xt : List (List (X K))) (x : List (X K)) (hnn : ∀ t ∈ xt, Nn F (sqDist F x t) ∨ sqDist F x t = .nan)
    (hne : ∀ t ∈ xt, sqDist F x t ≠ .fin 0) :
    idwRow F pw xt x = (xt.map fun t => pw (sqDist F x t)).map fun v => F.divX v ((xt.map fun t => pw (sqDist F x t)).foldl F.addX (.fin 0)) := by
  have h := (minX_spec F (xt.map (sqDist F x)) (by
    intro r hr
    obtain ⟨t, ht, rfl⟩ := List.mem_map.1 hr
    exact hnn t ht) 0 (.fin 1, 0) (nn_one F)).2.1 one_ne_zero' (by
    intro r hr
    obtain ⟨t, ht, rfl⟩ := List.mem_map.1 hr
    exact hne t ht)
  unfold idwRow
  have e : (xt.map fun t => pw (sqDist F x t)) = (xt.map (sqDist F x)).map pw := by rw [List.map_map]; rfl
  simp only [h, if_false]
  rw [e]

end SMT.Fp
