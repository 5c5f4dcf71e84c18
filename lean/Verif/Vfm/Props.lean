import Verif.Vfm.Model
import Mathlib.Analysis.Calculus.Deriv.Mul
import Mathlib.Analysis.Calculus.Deriv.Add
import Mathlib.Tactic.FieldSimp
import Mathlib.Tactic.Ring
import Mathlib.Tactic.Linarith
import Mathlib.Tactic.NormNum

set_option linter.unusedSectionVars false
set_option linter.unusedSimpArgs false
set_option linter.unusedVariables false

/-!
# C49, C61: variable-fidelity modelling
-/
namespace SMT.Vfm

variable {O : Type} {nx : ℕ}

/-- Specification: this surrogate class reproduces its training values (inputs distinct). -/
def Interpolating (T : Trainer O nx) : Prop :=
  ∀ o data g, (data.map (·.1)).Nodup → ∀ p ∈ data, (T o data g).val p.1 = p.2

/-- Specification: and its training derivatives, when it is given one gradient per point. -/
def HermiteInterpolating (T : Trainer O nx) : Prop :=
  Interpolating T ∧ ∀ o data gs, (data.map (·.1)).Nodup → gs.length = data.length →
    ∀ q ∈ data.zip gs, ∀ i, (T o data (some gs)).der i q.1.1 = q.2 i

/-- Specification: the derivative predictions of a predictor are the partial derivatives of its values at `x`. -/
def ExactAt (val : Pt nx → ℝ) (der : Fin nx → Pt nx → ℝ) (x : Pt nx) : Prop :=
  ∀ i, HasDerivAt (fun t => val (Function.update x i t)) (der i x) (x i)

/-- What a successful `_apply` did. -/
theorem apply_ok (c : Config O nx) (h h' : Heap O) (m : Trained nx) (he : apply c h = (.ok m, h')) :
    c.refLF ≠ c.refBr ∧
    ∃ dLF dHF gLF gHF, c.dataLF = some dLF ∧ c.dataHF = some dHF ∧
      gLF = (if (h c.refLF).deriv = some true then c.dyLF else none) ∧ gHF = (if (h c.refBr).deriv = some true then c.dyHF else none) ∧
      ((h c.refLF).deriv = some true → c.dyLF ≠ none) ∧ ((h c.refBr).deriv = some true → c.dyHF ≠ none) ∧
      m = combine c.multiplicative (c.trainLF (h c.refLF).rest dLF gLF)
        (c.trainBr (h c.refBr).rest (dHF.map (bridgeVal c.multiplicative (c.trainLF (h c.refLF).rest dLF gLF)))
          (gHF.map fun dys => List.zipWith (bridgeDer c.multiplicative (c.trainLF (h c.refLF).rest dLF gLF)) dHF dys)) ∧
      h' = (h.set c.refLF { h c.refLF with deriv := none }).set c.refBr { h c.refBr with deriv := none } := by
  unfold apply at he
  cases hL : c.dataLF with
  | none => rw [hL] at he; simp at he
  | some dLF =>
  cases hH : c.dataHF with
  | none => rw [hL, hH] at he; simp at he
  | some dHF =>
  rw [hL, hH] at he
  simp only at he
  by_cases href : c.refLF = c.refBr
  · exfalso
    rw [← href] at he
    cases hd : (h c.refLF).deriv with
    | none =>
      have e1 : initDeriv (initDeriv h c.refLF) c.refLF = h.set c.refLF { h c.refLF with deriv := some false } := by
        simp [initDeriv, hd, Heap.set]
      rw [e1] at he
      simp [popDeriv, Heap.set, wanted] at he
    | some b =>
      have e1 : initDeriv (initDeriv h c.refLF) c.refLF = h := by simp [initDeriv, hd]
      rw [e1] at he
      simp only [popDeriv, hd] at he
      cases hw : wanted b c.dyLF with
      | error e => rw [hw] at he; simp at he
      | ok g => rw [hw] at he; simp [Heap.set] at he
  · refine ⟨href, dLF, dHF, _, _, rfl, rfl, rfl, rfl, ?_⟩
    set h1 := initDeriv (initDeriv h c.refLF) c.refBr with hh1
    have hLF : (h1 c.refLF).deriv = some ((h c.refLF).deriv.getD false) ∧ (h1 c.refLF).rest = (h c.refLF).rest := by
      rw [hh1]
      cases ha : (h c.refLF).deriv <;> cases hb : (h c.refBr).deriv <;>
        simp [initDeriv, ha, hb, Heap.set, href, Ne.symm href]
    have hBr : (h1 c.refBr).deriv = some ((h c.refBr).deriv.getD false) ∧ (h1 c.refBr).rest = (h c.refBr).rest := by
      rw [hh1]
      cases ha : (h c.refLF).deriv <;> cases hb : (h c.refBr).deriv <;>
        simp [initDeriv, ha, hb, Heap.set, href, Ne.symm href]
    have hother : ∀ a, a ≠ c.refLF → a ≠ c.refBr → h1 a = h a := by
      intro a h2 h3
      rw [hh1]
      cases ha : (h c.refLF).deriv <;> cases hb : (h c.refBr).deriv <;>
        simp [initDeriv, ha, hb, Heap.set, href, Ne.symm href, h2, h3]
    rw [popDeriv, hLF.1] at he
    simp only at he
    cases hw : wanted ((h c.refLF).deriv.getD false) c.dyLF with
    | error e => rw [hw] at he; simp at he
    | ok gLF =>
    rw [hw] at he
    simp only at he
    have hBr2 : ((h1.set c.refLF { h1 c.refLF with deriv := none }) c.refBr) = h1 c.refBr := by simp [Heap.set, Ne.symm href]
    rw [popDeriv, hBr2, hBr.1] at he
    simp only at he
    cases hw2 : wanted ((h c.refBr).deriv.getD false) c.dyHF with
    | error e => rw [hw2] at he; simp at he
    | ok gHF =>
    rw [hw2] at he
    simp only [Prod.mk.injEq, Except.ok.injEq] at he
    have aux : ∀ (d : Option Bool) (dy g : Option (List (Fin nx → ℝ))), wanted (d.getD false) dy = .ok g →
        g = (if d = some true then dy else none) ∧ (d = some true → dy ≠ none) := by
      intro d dy g hg
      rcases d with _ | _ | _
      · simp [wanted] at hg; simp [hg.symm]
      · simp [wanted] at hg; simp [hg.symm]
      · cases dy with
        | none => simp [wanted] at hg
        | some v => simp [wanted] at hg; simp [hg.symm]
    obtain ⟨a1, a2⟩ := aux _ _ _ hw
    obtain ⟨b1, b2⟩ := aux _ _ _ hw2
    refine ⟨a2, b2, ?_, ?_⟩
    · rw [← he.1, ← a1, ← b1]
      congr 2 <;> simp [Heap.set, hLF.2, hBr.2, href, Ne.symm href]
    · rw [← he.2]
      funext a
      by_cases h2 : a = c.refBr
      · subst h2; simp [Heap.set, hBr.2]
      · by_cases h3 : a = c.refLF
        · subst h3; simp [Heap.set, h2, hLF.2, href]
        · simp [Heap.set, h2, h3, hother a h3 h2]

/-- **C49** If the bridge surrogate class reproduces its training values, the variable-fidelity model reproduces every high-fidelity sample — for the
multiplicative bridge as long as the low-fidelity prediction is not 0 there. -/
theorem C49_interpolates_high_fidelity (c : Config O nx) (h h' : Heap O) (m : Trained nx) (he : apply c h = (.ok m, h'))
    (hT : Interpolating c.trainBr) (dLF dHF : List (Pt nx × ℝ)) (h1 : c.dataLF = some dLF) (h2 : c.dataHF = some dHF) (hnd : (dHF.map (·.1)).Nodup)
    (x : Pt nx) (y : ℝ) (hxy : (x, y) ∈ dHF)
    (hnz : c.multiplicative = true → ∀ g, (c.trainLF (h c.refLF).rest dLF g).val x ≠ 0) : m.val x = y := by
  obtain ⟨href, dLF', dHF', gLF, gHF, e1, e2, e3, e4, -, -, hm, -⟩ := apply_ok c h h' m he
  rw [h1] at e1; rw [h2] at e2
  simp only [Option.some.injEq] at e1 e2
  subst e1 e2
  set lf := c.trainLF (h c.refLF).rest dLF gLF with hlf
  have hnd' : ((dHF.map (bridgeVal c.multiplicative lf)).map (·.1)).Nodup := by
    rw [List.map_map]
    exact hnd
  have hb := hT (h c.refBr).rest _ (gHF.map fun dys => List.zipWith (bridgeDer c.multiplicative lf) dHF dys) hnd' (bridgeVal c.multiplicative lf (x, y))
    (List.mem_map_of_mem hxy)
  rw [hm]
  unfold combine
  cases hmul : c.multiplicative with
  | true =>
    rw [hmul] at hb
    simp only [bridgeVal, if_true] at hb ⊢
    rw [hb]
    exact div_mul_cancel₀ _ (hnz hmul gLF)
  | false =>
    rw [hmul] at hb
    simp only [bridgeVal, Bool.false_eq_true, if_false] at hb ⊢
    rw [hb]; ring

/-- **C49** Wherever the derivatives of both surrogates are exact, so are those of the variable-fidelity model. -/
theorem C49_derivatives_exact (mult : Bool) (lf br : Sur nx) (x : Pt nx) (hl : ExactAt lf.val lf.der x) (hb : ExactAt br.val br.der x)
    (hs : lf.supportsDer = true ∧ br.supportsDer = true) :
    ∃ d, (combine mult lf br).der = some d ∧ ExactAt (combine mult lf br).val d x := by
  cases mult with
  | true =>
    refine ⟨_, by simp [combine, hs.1, hs.2]; rfl, fun i => ?_⟩
    have := (hb i).fun_mul (hl i)
    simp only [Function.update_eq_self] at this
    simpa [combine] using this
  | false =>
    refine ⟨_, by simp [combine, hs.1, hs.2]; rfl, fun i => ?_⟩
    have := (hb i).fun_add (hl i)
    simpa [combine] using this

/-- **C49** When high-fidelity gradients are requested and the bridge class reproduces gradients, the variable-fidelity model reproduces the
high-fidelity gradients (same proviso for the multiplicative bridge). -/
theorem C49_interpolates_gradients (c : Config O nx) (h h' : Heap O) (m : Trained nx) (he : apply c h = (.ok m, h'))
    (hT : HermiteInterpolating c.trainBr) (dLF dHF : List (Pt nx × ℝ)) (dys : List (Fin nx → ℝ)) (h1 : c.dataLF = some dLF) (h2 : c.dataHF = some dHF)
    (h3 : c.dyHF = some dys) (hd : (h c.refBr).deriv = some true) (hlen : dys.length = dHF.length) (hnd : (dHF.map (·.1)).Nodup)
    (x : Pt nx) (y : ℝ) (dy : Fin nx → ℝ) (hxy : ((x, y), dy) ∈ dHF.zip dys)
    (hnz : c.multiplicative = true → ∀ g, (c.trainLF (h c.refLF).rest dLF g).val x ≠ 0) (d : Fin nx → Pt nx → ℝ) (hmd : m.der = some d) (i : Fin nx) :
    d i x = dy i := by
  obtain ⟨href, dLF', dHF', gLF, gHF, e1, e2, e3, e4, -, -, hm, -⟩ := apply_ok c h h' m he
  rw [h1] at e1; rw [h2] at e2
  simp only [Option.some.injEq] at e1 e2
  subst e1 e2
  rw [if_pos hd, h3] at e4
  subst e4
  set lf := c.trainLF (h c.refLF).rest dLF gLF with hlf
  set bd := dHF.map (bridgeVal c.multiplicative lf) with hbd
  have hnd' : (bd.map (·.1)).Nodup := by rw [hbd, List.map_map]; exact hnd
  set gs := List.zipWith (bridgeDer c.multiplicative lf) dHF dys with hgs
  have hx : (x, y) ∈ dHF := (List.of_mem_zip hxy).1
  have hv := hT.1 (h c.refBr).rest bd (some gs) hnd' (bridgeVal c.multiplicative lf (x, y)) (List.mem_map_of_mem hx)
  have hmem : (bridgeVal c.multiplicative lf (x, y), bridgeDer c.multiplicative lf (x, y) dy) ∈ bd.zip gs := by
    have : bd.zip gs = (dHF.zip dys).map fun q => (bridgeVal c.multiplicative lf q.1, bridgeDer c.multiplicative lf q.1 q.2) := by
      rw [hbd, hgs]
      apply List.ext_getElem?
      intro k
      simp only [List.getElem?_map, List.getElem?_zip_eq_some, List.zip, List.getElem?_zipWith]
      cases dHF[k]? <;> cases dys[k]? <;> simp
    rw [this]
    exact List.mem_map.2 ⟨((x, y), dy), hxy, rfl⟩
  have hg := hT.2 (h c.refBr).rest bd gs hnd' (by simp [hbd, hgs, hlen]) _ hmem i
  rw [hm] at hmd
  unfold combine at hmd
  simp only [Option.map_some] at hmd
  rw [← hgs] at hmd
  cases hmul : c.multiplicative with
  | true =>
    have hne := hnz hmul gLF
    rw [← hlf] at hne
    simp only [hmul] at hmd hv hg
    simp only [if_true] at hmd
    split at hmd
    · simp only [Option.some.injEq] at hmd
      rw [← hmd]
      simp only [bridgeVal, bridgeDer, if_true] at hv hg ⊢
      rw [hv, hg]
      field_simp
      ring
    · simp at hmd
  | false =>
    simp only [hmul] at hmd hv hg
    simp only [Bool.false_eq_true, if_false] at hmd
    split at hmd
    · simp only [Option.some.injEq] at hmd
      rw [← hmd]
      simp only [bridgeVal, bridgeDer, Bool.false_eq_true, if_false] at hv hg ⊢
      rw [hg]; ring
    · simp at hmd

/-- **C61 (violation)** Training deletes the entry `"deriv"` from the caller's dictionaries and touches nothing else: an identical second VFM object built
with the same dictionaries is trained without derivative data, whatever the first one used. -/
theorem C61_option_dictionaries_mutated (c : Config O nx) (h h' : Heap O) (m : Trained nx) (he : apply c h = (.ok m, h')) :
    (h' c.refLF).deriv = none ∧ (h' c.refBr).deriv = none ∧ (h' c.refLF).rest = (h c.refLF).rest ∧ (h' c.refBr).rest = (h c.refBr).rest ∧
    (∀ a, a ≠ c.refLF → a ≠ c.refBr → h' a = h a) ∧
    ∀ m2 h2, apply c h' = (.ok m2, h2) → ∃ dLF dHF, c.dataLF = some dLF ∧ c.dataHF = some dHF ∧
      m2 = combine c.multiplicative (c.trainLF (h c.refLF).rest dLF none)
        (c.trainBr (h c.refBr).rest (dHF.map (bridgeVal c.multiplicative (c.trainLF (h c.refLF).rest dLF none))) none) := by
  obtain ⟨href, dLF, dHF, gLF, gHF, e1, e2, e3, e4, -, -, hm, hh⟩ := apply_ok c h h' m he
  have a1 : (h' c.refLF).deriv = none := by rw [hh]; simp [Heap.set, href]
  have a2 : (h' c.refBr).deriv = none := by rw [hh]; simp [Heap.set]
  have a3 : (h' c.refLF).rest = (h c.refLF).rest := by rw [hh]; simp [Heap.set, href]
  have a4 : (h' c.refBr).rest = (h c.refBr).rest := by rw [hh]; simp [Heap.set]
  refine ⟨a1, a2, a3, a4, ?_, ?_⟩
  · intro a h1 h2; rw [hh]; simp [Heap.set, h1, h2]
  · intro m2 h2 he2
    obtain ⟨-, dLF', dHF', gLF', gHF', f1, f2, f3, f4, -, -, hm2, -⟩ := apply_ok c h' h2 m2 he2
    refine ⟨dLF', dHF', f1, f2, ?_⟩
    rw [a1] at f3; rw [a2] at f4
    simp at f3 f4
    subst f3 f4
    rw [hm2, a3, a4]; rfl

/-- **C61 (violation)** Passing one and the same dictionary for both models always fails. -/
theorem C61_shared_dictionary_fails (c : Config O nx) (h : Heap O) (href : c.refLF = c.refBr) : ∀ m, (apply c h).1 ≠ .ok m := by
  intro m hm
  exact (apply_ok c h (apply c h).2 m (Prod.ext hm rfl)).1 href

/-- **C61** Training succeeds exactly when all four data sets are given, the two dictionaries are different objects, and derivative data are given wherever
they are requested. -/
theorem C61_succeeds_iff (c : Config O nx) (h : Heap O) :
    (∃ m, (apply c h).1 = .ok m) ↔ c.dataLF ≠ none ∧ c.dataHF ≠ none ∧ c.refLF ≠ c.refBr ∧
      ((h c.refLF).deriv = some true → c.dyLF ≠ none) ∧ ((h c.refBr).deriv = some true → c.dyHF ≠ none) := by
  constructor
  · rintro ⟨m, hm⟩
    obtain ⟨href, dLF, dHF, gLF, gHF, e1, e2, -, -, e5, e6, -⟩ := apply_ok c h (apply c h).2 m (Prod.ext hm rfl)
    exact ⟨by simp [e1], by simp [e2], href, e5, e6⟩
  · rintro ⟨h1, h2, href, h3, h4⟩
    obtain ⟨dLF, e1⟩ := Option.ne_none_iff_exists'.1 h1
    obtain ⟨dHF, e2⟩ := Option.ne_none_iff_exists'.1 h2
    unfold apply
    rw [e1, e2]
    simp only
    cases e3 : c.dyLF <;> cases e4 : c.dyHF <;>
      rcases ha : (h c.refLF).deriv with _ | _ | _ <;> rcases hb : (h c.refBr).deriv with _ | _ | _ <;>
      simp_all [initDeriv, popDeriv, wanted, Heap.set, Ne.symm href]

/-- **C61** After the first successful prediction the model is frozen: however the options are changed afterwards, every later prediction (over any
sequence of operations) is that of the model trained first. -/
theorem C61_frozen (ops : List (Op O nx)) : ∀ (o : Obj O nx) (h : Heap O) (m : Trained nx) (out : List (Except Err ℝ)), o.model = some m →
    (ops.foldl Obj.step (o, h, out)).2.2 = out ++ ops.filterMap fun op => match op with | .setOptions _ => none | .predict x => some (.ok (m.val x)) := by
  induction ops with
  | nil => intro o h m out _; simp
  | cons op ops ih =>
    intro o h m out hm
    rw [List.foldl_cons]
    cases op with
    | setOptions c => simpa [Obj.step] using ih { o with config := c } h m out hm
    | predict x =>
      have e : Obj.step (o, h, out) (.predict x) = (o, h, out ++ [.ok (m.val x)]) := by simp [Obj.step, Obj.predict, hm]
      rw [e, ih o h m _ hm]
      simp

lemma predict_ok (o : Obj O nx) (h : Heap O) (x : Pt nx) (v : ℝ) (hv : (o.predict h x).1 = .ok v) :
    ∃ m, (o.predict h x).2.1.model = some m ∧ v = m.val x ∧ (o.model = none → (apply o.config h).1 = .ok m) := by
  unfold Obj.predict at hv ⊢
  cases hm : o.model with
  | some m => simp [hm] at hv ⊢; exact hv.symm
  | none =>
    rcases he : apply o.config h with ⟨_ | m, h'⟩
    · simp [hm, he] at hv
    · simp [hm, he] at hv ⊢; exact hv.symm

/-- **C61** The first successful prediction of an object, after any history of failed ones and option changes, fixes the model: it is what training with the options of that
moment gives, and every later prediction comes from it. -/
theorem C61_first_prediction_freezes (o : Obj O nx) (h : Heap O) (hm : o.model = none) (x : Pt nx) (v : ℝ) (hv : (o.predict h x).1 = .ok v) (ops : List (Op O nx)) :
    ∃ m, (apply o.config h).1 = .ok m ∧ v = m.val x ∧
      ((Op.predict x :: ops).foldl Obj.step (o, h, [])).2.2 =
        .ok v :: ops.filterMap fun op => match op with | .setOptions _ => none | .predict x => some (.ok (m.val x)) := by
  obtain ⟨m, h1, h2, h3⟩ := predict_ok o h x v hv
  refine ⟨m, h3 hm, h2, ?_⟩
  rw [List.foldl_cons]
  have e : Obj.step (o, h, []) (.predict x) = ((o.predict h x).2.1, (o.predict h x).2.2, [.ok v]) := by simp [Obj.step, hv]
  rw [e, C61_frozen ops _ _ m _ h1]
  rfl

/-- **C61** Without low- or high-fidelity data training raises `ValueError` and leaves the dictionaries alone. -/
theorem C61_missing_data (c : Config O nx) (h : Heap O) (hd : c.dataLF = none ∨ c.dataHF = none) : apply c h = (.error .valueError, h) := by
  unfold apply
  rcases hd with hd | hd
  · rw [hd]
  · rw [hd]; cases c.dataLF <;> rfl

/-! ## Concrete case -/

open Classical in
/-- A surrogate class that looks up its training data (0 elsewhere). -/
noncomputable def lookup : Trainer Unit nx := fun _ data g =>
  { val := fun x => ((data.find? fun p => p.1 = x).map (·.2)).getD 0
    der := fun i x => match g with
      | none => 0
      | some gs => (((data.zip gs).find? fun q => q.1.1 = x).map fun q => q.2 i).getD 0
    supportsDer := true }

/-- It reproduces its data: the hypotheses on the bridge class can be met. -/
theorem lookup_hermite : HermiteInterpolating (lookup (nx := nx)) := by
  constructor
  · intro o data g hnd p hp
    have : data.find? (fun q => decide (q.1 = p.1)) = some p := by
      induction data with
      | nil => simp at hp
      | cons a l ih =>
        rw [List.find?_cons]
        by_cases h : a.1 = p.1
        · rcases List.mem_cons.1 hp with rfl | hp
          · simp
          · simp only [List.map_cons, List.nodup_cons, List.mem_map, not_exists, not_and] at hnd
            exact absurd h.symm (hnd.1 p hp)
        · simp only [h, decide_false]
          refine ih (by simpa using (List.nodup_cons.1 hnd).2) ?_
          rcases List.mem_cons.1 hp with rfl | hp
          · exact absurd rfl h
          · exact hp
    simp [lookup, this]
  · intro o data gs hnd hlen q hq i
    have : (data.zip gs).find? (fun r => decide (r.1.1 = q.1.1)) = some q := by
      clear hlen
      induction data generalizing gs with
      | nil => simp at hq
      | cons a l ih =>
        cases gs with
        | nil => simp at hq
        | cons g gs =>
          rw [List.zip_cons_cons, List.find?_cons]
          rw [List.zip_cons_cons] at hq
          by_cases h : a.1 = q.1.1
          · rcases List.mem_cons.1 hq with rfl | hq
            · simp
            · simp only [List.map_cons, List.nodup_cons, List.mem_map, not_exists, not_and] at hnd
              exact absurd h.symm (hnd.1 q.1 (List.of_mem_zip hq).1)
          · simp only [h, decide_false]
            refine ih gs (by simpa using (List.nodup_cons.1 hnd).2) ?_
            rcases List.mem_cons.1 hq with rfl | hq
            · exact absurd rfl h
            · exact hq
    simp [lookup, this]

/-- Two one-dimensional data sets, gradient requested for the bridge: training succeeds, and the second training differs in its derivatives. -/
noncomputable def exC : Config Unit 1 :=
  { refLF := 0, refBr := 1, trainLF := fun _ _ _ => ⟨fun x => x 0 + 1, fun _ _ => 1, true⟩, trainBr := lookup, multiplicative := true
    dataLF := some [(![0], 1), (![1], 2)], dataHF := some [(![0], 3), (![1], 8)], dyLF := none, dyHF := some [![5], ![5]] }
def exH : Heap Unit := fun a => ⟨if a = 1 then some true else none, ()⟩

example : ∃ m, (apply exC exH).1 = .ok m :=
  (C61_succeeds_iff exC exH).2 ⟨by simp [exC], by simp [exC], by simp [exC], by simp [exC, exH], by simp [exC, exH]⟩

example (m : Trained 1) (h' : Heap Unit) (he : apply exC exH = (.ok m, h')) : m.val ![1] = 8 := by
  refine C49_interpolates_high_fidelity exC exH h' m he lookup_hermite.1 _ _ rfl rfl ?_ ![1] 8 (by simp) ?_
  · simp
  · intro _ g; simp [exC]

example (m : Trained 1) (h' : Heap Unit) (he : apply exC exH = (.ok m, h')) (d) (hd : m.der = some d) : d 0 ![1] = 5 := by
  refine C49_interpolates_gradients exC exH h' m he lookup_hermite _ _ _ rfl rfl rfl (by simp [exC, exH]) rfl ?_ ![1] 8 ![5] (by simp) ?_ d hd 0
  · simp
  · intro _ g; simp [exC]

end SMT.Vfm
