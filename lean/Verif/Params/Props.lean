import Verif.Params.Model
import Mathlib.Tactic.Common
import Mathlib.Tactic.Linarith
set_option linter.unusedSectionVars false
set_option linter.unusedSimpArgs false
set_option linter.unusedVariables false

/-!
# C72: start values of the hyper-parameters, and what a training leaves in the options

Specification: a list of start values is *spread* over `d` hyper-parameters if it is the list itself (length `d`) or its only value repeated (length 1).
-/
namespace SMT.Params

variable {F : Type}

/-- `t` is the value with `d` numbers meant by the option `s`. -/
def Spread (d : ℕ) (s t : Seq F) : Prop := (s.vals.length = d ∧ t = s) ∨ (∃ x, s = .list [x] ∧ t.vals = List.replicate d x)

theorem Spread.length {d : ℕ} {l t : Seq F} (h : Spread d l t) : t.vals.length = d := by
  rcases h with ⟨h, rfl⟩ | ⟨x, -, h⟩
  · exact h
  · rw [h]; simp

theorem stretch_spec (d : ℕ) (s t : Seq F) (h : stretch d s = some t) : Spread d s t := by
  unfold stretch at h
  by_cases hd : s.vals.length = d
  · rw [if_neg (not_not.2 hd)] at h
    exact Or.inl ⟨hd, (Option.some.inj h).symm⟩
  · rw [if_pos hd] at h
    match s, h with
    | .list [x], h =>
      have := Option.some.inj h
      exact Or.inr ⟨x, rfl, by rw [← this]; rfl⟩

theorem stretch_none (d : ℕ) (s : Seq F) : stretch d s = none ↔ ¬(s.vals.length = d ∨ ∃ x, s = .list [x]) := by
  unfold stretch
  by_cases h : s.vals.length = d
  · simp [h]
  · rw [if_pos h]
    match s with
    | .list [] => simpa using h
    | .list [x] => simp
    | .list (x :: y :: z) => simpa using h
    | .arr l => simpa using h

theorem stretch_some (d : ℕ) (s : Seq F) (t : Seq F) (h : stretch d s = some t) : s.vals.length = d ∨ ∃ x, s = .list [x] := by
  by_contra hh
  rw [(stretch_none d s).2 hh] at h
  cases h

theorem stretch_self {d : ℕ} {t : Seq F} (h : t.vals.length = d) : stretch d t = some t := by unfold stretch; simp [h]

/-- Number of hyper-parameters of a model. -/
def KCfg.dim (pls : Bool) (c : KCfg) (o : KOpts F) : ℕ := if pls then o.nComp else c.nx

/-- **C72** (KRG, KPLS, GEKPLS, and the first pass of KPLSK) Training begins if and only if `theta0` has one value per hyper-parameter or is a list (not an array) of one value, and `noise0` has one
value - or, for given heteroscedastic noise, one value per point or is a list of one value. (With `use_het_noise` and `eval_noise` together the length of `noise0` is not looked at.) -/
theorem C72_krg_passes (pls : Bool) (c : KCfg) (o : KOpts F) :
    (trainKrg pls c o).2 = true ↔ (o.theta0.vals.length = c.dim pls o ∨ ∃ x, o.theta0 = .list [x]) ∧
      (c.het = true → c.evalNoise = false → o.noise0.vals.length = c.nt ∨ ∃ x, o.noise0 = .list [x]) ∧ (c.het = false → o.noise0.vals.length = 1) := by
  unfold trainKrg checkKrg KCfg.dim
  cases h : stretch (if pls = true then o.nComp else c.nx) o.theta0 with
  | none =>
    have := (stretch_none _ _).1 h
    simp only [h, Bool.false_eq_true, false_iff, not_and]
    intro h'
    exact absurd h' this
  | some t =>
    have h1 := stretch_some _ _ _ h
    simp only [h, h1, true_and]
    cases hh : c.het with
    | false => simp
    | true =>
      cases he : c.evalNoise with
      | true => simp
      | false =>
        simp only [Bool.not_false, Bool.and_self, if_true, forall_const, Bool.true_eq_false, false_imp_iff, and_true]
        cases hn : stretch c.nt o.noise0 with
        | none => have := (stretch_none _ _).1 hn; simp [this]
        | some n => simpa using stretch_some _ _ _ hn

/-- **C72** (KRG, KPLS, GEKPLS) In particular `theta0` given as an array of one number is rejected by every model with another number of hyper-parameters, although a list of one number is accepted. -/
theorem C72_krg_array_of_one (pls : Bool) (c : KCfg) (o : KOpts F) (x : F) (hd : c.dim pls o ≠ 1) :
    (trainKrg pls c { o with theta0 := .arr [x] }).2 = false ∧
      ((trainKrg pls c { o with theta0 := .list [x] }).2 = true ↔
        (c.het = true → c.evalNoise = false → o.noise0.vals.length = c.nt ∨ ∃ x, o.noise0 = .list [x]) ∧ (c.het = false → o.noise0.vals.length = 1)) := by
  constructor
  · by_contra hc
    rw [Bool.not_eq_false] at hc
    obtain ⟨h | ⟨y, h⟩, -⟩ := (C72_krg_passes pls c _).1 hc
    · exact hd (by simpa [KCfg.dim, Seq.vals] using h.symm)
    · cases h
  · rw [C72_krg_passes]
    simp

/-- **C72** (KRG, KPLS, GEKPLS) When training begins, `theta0` in the options has been replaced by one value per hyper-parameter, and a given heteroscedastic `noise0` by one value per point. -/
theorem C72_krg_result (pls : Bool) (c : KCfg) (o : KOpts F) (h : (trainKrg pls c o).2 = true) :
    Spread (c.dim pls o) o.theta0 (trainKrg pls c o).1.theta0 ∧
      (c.het = true → c.evalNoise = false → Spread c.nt o.noise0 (trainKrg pls c o).1.noise0) ∧
      (¬(c.het = true ∧ c.evalNoise = false) → (trainKrg pls c o).1.noise0 = o.noise0) ∧ (trainKrg pls c o).1.nComp = o.nComp := by
  unfold trainKrg checkKrg KCfg.dim at *
  cases ht : stretch (if pls = true then o.nComp else c.nx) o.theta0 with
  | none => simp only [ht] at h; cases h
  | some t =>
    have s := stretch_spec _ _ _ ht
    simp only [ht] at h ⊢
    cases hh : c.het with
    | false => simp [hh] at h ⊢; exact s
    | true =>
      cases he : c.evalNoise with
      | true => simp [hh, he] at h ⊢; exact s
      | false =>
        simp only [hh, he, Bool.not_false, Bool.and_self, if_true, Bool.not_true, Bool.and_false] at h ⊢
        cases hn : stretch c.nt o.noise0 with
        | none => simp only [hn] at h; cases h
        | some n => exact ⟨s, fun _ _ => stretch_spec _ _ _ hn, fun hc => absurd (by simp) hc, rfl⟩

/-- **C72** (KRG, KPLS, GEKPLS) Training again on data of the same sizes begins too, and leaves the options as they are. -/
theorem C72_krg_again (pls : Bool) (c : KCfg) (o : KOpts F) (h : (trainKrg pls c o).2 = true) : trainKrg pls c (trainKrg pls c o).1 = ((trainKrg pls c o).1, true) := by
  obtain ⟨h1, h2, h3, h4⟩ := C72_krg_result pls c o h
  obtain ⟨-, -, h7⟩ := (C72_krg_passes pls c o).1 h
  set o' := (trainKrg pls c o).1 with ho'
  have hl := h1.length
  unfold trainKrg checkKrg
  have e : (if pls = true then o'.nComp else c.nx) = c.dim pls o := by unfold KCfg.dim; rw [h4]
  simp only [e, stretch_self hl]
  cases hh : c.het with
  | false =>
    have h8 : o'.noise0.vals.length = 1 := by rw [h3 (by simp [hh])]; exact h7 hh
    simp [h8]
  | true =>
    cases he : c.evalNoise with
    | true => simp
    | false => simp [stretch_self (h2 hh he).length]

/-- **C72** (KRG) After a training on at least two inputs the model cannot be trained on another number of inputs, even if the user gave one start value. -/
theorem C72_krg_other_inputs (c c' : KCfg) (o : KOpts F) (h : (trainKrg false c o).2 = true) (h2 : 2 ≤ c.nx) (hne : c'.nx ≠ c.nx) : (trainKrg false c' (trainKrg false c o).1).2 = false := by
  by_contra hc
  rw [Bool.not_eq_false] at hc
  have hl : (trainKrg false c o).1.theta0.vals.length = c.nx := (C72_krg_result false c o h).1.length
  obtain ⟨hp, -⟩ := (C72_krg_passes false c' _).1 hc
  rw [hl] at hp
  unfold KCfg.dim at hp
  simp only [Bool.false_eq_true, if_false] at hp
  rcases hp with hp | hp
  · exact hne hp.symm
  · obtain ⟨x, hx⟩ := hp
    rw [hx] at hl
    simp [Seq.vals] at hl
    omega

/-- **C72** (KRG) After a training on one input it can, if the user gave a list. -/
theorem C72_krg_from_one_input (c c' : KCfg) (o : KOpts F) (h : (trainKrg false c o).2 = true) (h1 : c.nx = 1) (hl : ∃ l, o.theta0 = .list l) (hn : c'.het = false) (hn0 : c.het = false) :
    (trainKrg false c' (trainKrg false c o).1).2 = true := by
  obtain ⟨r1, r2, r3, -⟩ := C72_krg_result false c o h
  refine (C72_krg_passes false c' _).2 ⟨Or.inr ?_, fun hh => ?_, fun _ => ?_⟩
  · obtain ⟨l, hl⟩ := hl
    have hd : c.dim false o = 1 := h1
    rw [hd] at r1
    rcases r1 with ⟨r, r'⟩ | ⟨x, r, r'⟩
    · rw [hl] at r r'
      obtain ⟨x, rfl⟩ := List.length_eq_one_iff.1 r
      exact ⟨x, r'⟩
    · have : (trainKrg false c o).1.theta0 = o.theta0 := by
        have hst : stretch c.nx o.theta0 = some o.theta0 := stretch_self (by rw [r, h1]; rfl)
        unfold trainKrg checkKrg
        simp [hst, hn0]
      exact ⟨x, by rw [this, r]⟩
  · rw [hn] at hh; cases hh
  · rw [r3 (by simp [hn0])]; exact ((C72_krg_passes false c o).1 h).2.2 hn0

/-- **C72** (KRG, KPLS, GEKPLS) After a training with given heteroscedastic noise on at least two points the model cannot be trained on another number of points. -/
theorem C72_het_other_points (pls : Bool) (c c' : KCfg) (o : KOpts F) (h : (trainKrg pls c o).2 = true) (hh : c.het = true) (he : c.evalNoise = false) (h2 : 2 ≤ c.nt) (hh' : c'.het = true)
    (he' : c'.evalNoise = false) (hne : c'.nt ≠ c.nt) : (trainKrg pls c' (trainKrg pls c o).1).2 = false := by
  by_contra hc
  rw [Bool.not_eq_false] at hc
  have hl := ((C72_krg_result pls c o h).2.1 hh he).length
  obtain ⟨-, hp, -⟩ := (C72_krg_passes pls c' _).1 hc
  have := hp hh' he'
  rw [hl] at this
  rcases this with hp | ⟨x, hp⟩
  · exact hne hp.symm
  · rw [hp] at hl
    simp [Seq.vals] at hl
    omega

/-- **C72** (KPLSK) The first training sets `n_comp` to the number of inputs; from then on, whatever data of that many inputs is used, no dimension is reduced any more. The user's `theta0` is
replaced too. -/
theorem C72_kplsk_forgets (runs : List (KCfg × List F)) (nx : ℕ) (hr : ∀ r ∈ runs, r.1.nx = nx ∧ r.2.length = nx) (c : KCfg) (p : List F) (o : KOpts F) (hc : c.nx = nx) (hp : p.length = nx)
    (h : (trainKplsk c p o).2 = true) :
    let o' := runs.foldl (fun o r => (trainKplsk r.1 r.2 o).1) (trainKplsk c p o).1
    o'.nComp = nx ∧ o'.theta0.vals.length = nx := by
  have h0 : (trainKplsk c p o).1.nComp = nx ∧ (trainKplsk c p o).1.theta0.vals.length = nx := by
    unfold trainKplsk at *
    split at h
    · cases h
    · exact ⟨hc, hp⟩
  have key : ∀ (r : KCfg × List F) (o : KOpts F), r.1.nx = nx ∧ r.2.length = nx → o.nComp = nx ∧ o.theta0.vals.length = nx →
      (trainKplsk r.1 r.2 o).1.nComp = nx ∧ (trainKplsk r.1 r.2 o).1.theta0.vals.length = nx := by
    intro r o hr ho
    unfold trainKplsk
    split
    · rename_i o1 h1
      unfold checkKrg at h1
      simp only [if_true, ho.1, stretch_self ho.2] at h1
      have : o1.nComp = o.nComp ∧ o1.theta0 = o.theta0 := by
        have h2 := congrArg Prod.fst h1
        revert h2
        cases r.1.het <;> cases r.1.evalNoise <;> cases stretch r.1.nt o.noise0 <;> rintro rfl <;> simp [ho.1]
      rw [this.1, this.2]; exact ho
    · exact ⟨hr.1, hr.2⟩
  intro o'
  have : ∀ (l : List (KCfg × List F)) (o : KOpts F), (∀ r ∈ l, r.1.nx = nx ∧ r.2.length = nx) → o.nComp = nx ∧ o.theta0.vals.length = nx →
      (l.foldl (fun o r => (trainKplsk r.1 r.2 o).1) o).nComp = nx ∧ (l.foldl (fun o r => (trainKplsk r.1 r.2 o).1) o).theta0.vals.length = nx := by
    intro l
    induction l with
    | nil => intro o _ ho; exact ho
    | cons r l ih => intro o hl ho; exact ih _ (fun r' hr' => hl r' (List.mem_cons_of_mem _ hr')) (key r o (hl r List.mem_cons_self) ho)
  exact this runs _ hr h0

/-- **C72** (MGP) Training begins if and only if `theta0` has `n_comp * nx` values or is a list of one value; it is then replaced by the `n_comp * nx` values, and training again with as many inputs begins
from the same ones. `noise0` plays no role. -/
theorem C72_mgp (nx : ℕ) (o : KOpts F) :
    ((trainMgp nx o).2 = true ↔ o.theta0.vals.length = o.nComp * nx ∨ ∃ x, o.theta0 = .list [x]) ∧
      ((trainMgp nx o).2 = true → Spread (o.nComp * nx) o.theta0 (trainMgp nx o).1.theta0 ∧ (trainMgp nx o).1.noise0 = o.noise0 ∧ (trainMgp nx o).1.nComp = o.nComp ∧
        trainMgp nx (trainMgp nx o).1 = ((trainMgp nx o).1, true)) := by
  unfold trainMgp
  cases h : stretch (o.nComp * nx) o.theta0 with
  | none =>
    have := (stretch_none _ _).1 h
    simp only [h, Bool.false_eq_true, false_iff, false_imp_iff, and_true]
    exact this
  | some t =>
    have hs := stretch_spec _ _ _ h
    simp only [h, true_iff, forall_const]
    refine ⟨stretch_some _ _ _ h, hs, ?_⟩
    simp [stretch_self hs.length]

example : trainKrg false ⟨3, 5, false, false⟩ (⟨.list [7], .list [0], 1⟩ : KOpts ℕ) = (⟨.arr [7, 7, 7], .list [0], 1⟩, true) := by decide
example : trainKrg false ⟨3, 5, false, false⟩ (⟨.arr [7], .list [0], 1⟩ : KOpts ℕ) = (⟨.arr [7], .list [0], 1⟩, false) := by decide
example : trainKrg false ⟨1, 4, true, false⟩ (⟨.arr [7], .list [3], 1⟩ : KOpts ℕ) = (⟨.arr [7], .arr [3, 3, 3, 3], 1⟩, true) := by decide
example : (trainKrg false ⟨2, 5, false, false⟩ (⟨.list [7, 7, 7], .list [0], 1⟩ : KOpts ℕ)).2 = false := by decide
example : trainKplsk ⟨3, 5, false, false⟩ [4, 5, 6] (⟨.list [7], .list [0], 1⟩ : KOpts ℕ) = (⟨.arr [4, 5, 6], .list [0], 3⟩, true) := by decide
example : trainMgp 2 (⟨.list [7], .list [0], 2⟩ : KOpts ℕ) = (⟨.arr [7, 7, 7, 7], .list [0], 2⟩, true) := by decide

end SMT.Params
