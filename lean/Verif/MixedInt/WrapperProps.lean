import Mathlib.Tactic
import Verif.MixedInt.Wrapper
import Verif.MixedInt.Props
/-!
# C93: the mixed-integer surrogate as an object
-/
set_option linter.unusedSectionVars false
set_option linter.unusedSimpArgs false
set_option linter.unusedVariables false
namespace SMT.MixedInt.Wrap

open SMT.MixedInt SMT.Surrogate

variable {K M : Type} [Field K] [LinearOrder K] [IsStrictOrderedRing K] [FloorRing K]

/-! ## Specification -/

/-- The same call with the arrays of inputs converted: training inputs unfolded (in folded mode), prediction inputs
unfolded and rounded to discrete values. A conversion may raise. -/
def converted (c : Spec) : Call K → Except Exc (Call K)
  | .setValues x y g => (trainInput c x).map fun a => .setValues (.nd a) y g
  | .values x => (predInput c x).map fun a => .values (.nd a)
  | .variances x => (predInput c x).map fun a => .variances (.nd a)
  | k => .ok k

/-- What one expects of the wrapper: the inner object called with converted inputs. -/
def expected (c : Spec) (I : Inner K M) (o : Obj K M) (k : Call K) : Obj K M × Out K :=
  match converted c k with
  | .error e => (o, .error e)
  | .ok k' => objCall I o k'

/-- The inner object after a history of such calls. -/
def expectedRun (c : Spec) (I : Inner K M) (o : Obj K M) (h : List (Call K)) : Obj K M := h.foldl (fun o k => (expected c I o k).1) o

/-- Calls about training derivatives. -/
def Call.isDeriv : Call K → Bool
  | .setDerivs .. => true
  | .updateDerivs .. => true
  | _ => false

/-- Training values without a name. -/
def Call.Unnamed : Call K → Prop
  | .setValues _ _ g => g = none
  | .updateValues _ g => g = none
  | _ => True

/-- Derivatives with respect to a proper index, `0, 1, …`. -/
def Call.ProperIndex : Call K → Prop
  | .setDerivs _ _ (.int k) _ => 0 ≤ k
  | .updateDerivs _ k _ => 0 ≤ k
  | _ => True

/-! ## Facts -/

theorem put_zero (s : Store K) (g g' : Group) (k : Int) (hk : 0 ≤ k) (x y : NdArray K) : (s.put g (k + 1) x y).tp g' 0 = s.tp g' 0 := by
  unfold Store.put
  simp only
  rw [if_neg]
  rintro ⟨-, h⟩; omega

theorem setDerivs_zero (b : Bool) (s : Store K) (x y : PyObj K) (k : KxArg) (g g' : Group) (hk : (Call.setDerivs x y k g : Call K).ProperIndex) : (setDerivs b s x y k g).1.tp g' 0 = s.tp g' 0 := by
  unfold setDerivs
  split
  · rfl
  · split
    · rfl
    · split
      · rfl
      · split
        · rfl
        · split
          · rfl
          · exact put_zero _ _ _ _ hk _ _

theorem updateDerivs_zero (b : Bool) (s : Store K) (y : PyObj K) (k : Int) (g g' : Group) (hk : 0 ≤ k) : (updateDerivs b s y k g).1.tp g' 0 = s.tp g' 0 := by
  unfold updateDerivs
  split
  · rfl
  · split
    · rfl
    · split
      · rfl
      · split
        · rfl
        · split
          · rfl
          · exact put_zero _ _ _ _ hk _ _

theorem setValues_result (s s' : Store K) (x y : PyObj K) (g g' : Group) : (setValues s x y g).2 = (setValues s' x y g').2 := by
  unfold setValues
  split
  · rfl
  · split
    · rfl
    · split <;> rfl

/-- Data of the unnamed group after a set. -/
theorem setValues_ok (s : Store K) (x y : PyObj K) (g : Group) (h : (setValues s x y g).2 = .ok ()) :
    ∃ a b, ensure2d x = .ok a ∧ ensure2d y = .ok b ∧ a.nrows = b.nrows ∧
      (setValues s x y g).1 = { s with dims := some (a.nrows, a.ncols, b.ncols) }.put g 0 a b := by
  unfold setValues at h ⊢
  split at h
  · cases h
  · rename_i a ha
    split at h
    · cases h
    · rename_i b hb
      split at h
      · cases h
      · rename_i hr
        rw [if_neg hr]
        exact ⟨a, b, ha, hb, not_not.1 hr, rfl⟩

theorem setValues_error (s : Store K) (x y : PyObj K) (g : Group) (e : Surrogate.Err) (h : (setValues s x y g).2 = .error e) : (setValues s x y g).1 = s := by
  unfold setValues at h ⊢
  split
  · rfl
  · split
    · rfl
    · split
      · rfl
      · rename_i h1 _ _ h2 h3
        simp only [h1, h2, if_neg h3, reduceCtorEq] at h

theorem updateValues_error (s : Store K) (y : PyObj K) (g : Group) (e : Surrogate.Err) (h : (updateValues s y g).2 = .error e) : (updateValues s y g).1 = s := by
  unfold updateValues at h ⊢
  split
  · rfl
  · split
    · rfl
    · split
      · rfl
      · rename_i h1 _ _ _ h2 h3
        simp only [h1, h2, if_neg h3, reduceCtorEq] at h

/-- The result and the new unnamed values of an update depend on the old ones only. -/
theorem updateValues_congr (s s' : Store K) (y : PyObj K) (h : s.tp none 0 = s'.tp none 0) :
    (updateValues s y none).2 = (updateValues s' y none).2 ∧ (updateValues s y none).1.tp none 0 = (updateValues s' y none).1.tp none 0 := by
  unfold updateValues
  split
  · exact ⟨rfl, h⟩
  · rw [← h]
    split
    · rename_i h1; exact ⟨rfl, by rw [h1, ← h, h1]⟩
    · rename_i h1
      split
      · exact ⟨rfl, by rw [h1, ← h, h1]⟩
      · exact ⟨rfl, by simp [Store.put]⟩

theorem unitOut_error (e : Surrogate.Err) : unitOut (K := K) (.error e) = .error (ofS e) := rfl

/-! ## Transparency -/

/-- Own and inner unnamed values agree. -/
def Agree (w : World K M) : Prop := w.own.tp none 0 = w.obj.data.tp none 0

theorem wSet_cases (c : Spec) (w : World K M) (x y : PyObj K) (g : Group) :
    (∃ e, trainInput c x = .error e ∧ wSet c w x y g = (w, .error e)) ∨
    (∃ a e, trainInput c x = .ok a ∧ (setValues w.obj.data (.nd a) y g).2 = .error e ∧ (setValues w.obj.data (.nd a) y g).1 = w.obj.data ∧ wSet c w x y g = (w, .error (ofS e))) ∨
    (∃ a, trainInput c x = .ok a ∧ (setValues w.obj.data (.nd a) y g).2 = .ok () ∧ (setValues w.own (.nd a) y none).2 = .ok () ∧
      wSet c w x y g = ({ own := (setValues w.own (.nd a) y none).1, obj := { w.obj with data := (setValues w.obj.data (.nd a) y g).1 } }, .ok none)) := by
  cases hx : trainInput c x with
  | error e => left; exact ⟨e, rfl, by unfold wSet; rw [hx]⟩
  | ok a =>
    right
    have hr := setValues_result w.obj.data w.own (.nd a) y g none
    rcases hv : setValues w.own (.nd a) y none with ⟨s, r⟩
    rw [hv] at hr
    cases r with
    | error e =>
      left
      exact ⟨a, e, rfl, hr, setValues_error _ _ _ _ e hr, by unfold wSet; simp only [hx, hv]⟩
    | ok u =>
      right
      cases u
      refine ⟨a, rfl, hr, by rw [hv], ?_⟩
      unfold wSet
      simp only [hx, hv]
      simp only at hr
      rw [hr]; rfl

theorem ensure2d_nd2 (a : NdArray K) (n m : ℕ) (h : a.shape = [n, m]) : ensure2d (.nd a) = .ok a := by
  simp [ensure2d, h]

/-- One call. -/
theorem call_step (c : Spec) (I : Inner K M) (w : World K M) (k : Call K) (hw : Agree w) (hu : k.Unnamed) (hp : k.ProperIndex) :
    Agree (call c I w k).1 ∧ (k.isDeriv = true → (call c I w k).1.obj = w.obj) ∧
      (k.isDeriv = false → (call c I w k).1.obj = (expected c I w.obj k).1 ∧ (call c I w k).2 = (expected c I w.obj k).2) := by
  cases k with
  | setValues x y g =>
    obtain rfl : g = none := hu
    simp only [call, expected, converted, Call.isDeriv, Bool.false_eq_true, false_implies, true_implies, true_and]
    rcases wSet_cases c w x y none with ⟨e, h1, h2⟩ | ⟨a, e, h1, h2, h3, h4⟩ | ⟨a, h1, h2, h3, h4⟩
    · simp only [h1, h2, Except.map]; exact ⟨hw, by first | trivial | rfl, by first | trivial | rfl⟩
    · simp only [h1, h4, Except.map, objCall, h2, h3]; exact ⟨hw, by first | trivial | rfl, by first | trivial | rfl⟩
    · simp only [h1, h4, Except.map, objCall, h2]
      refine ⟨?_, by first | trivial | rfl, by first | trivial | rfl⟩
      obtain ⟨a1, b1, e1, e2, -, e4⟩ := setValues_ok _ _ _ _ h2
      obtain ⟨a2, b2, f1, f2, -, f4⟩ := setValues_ok _ _ _ _ h3
      rw [e1] at f1; rw [e2] at f2
      obtain rfl := Except.ok.inj f1
      obtain rfl := Except.ok.inj f2
      simp [Agree, e4, f4, Store.put]
  | updateValues y g =>
    obtain rfl : g = none := hu
    simp only [call, expected, converted, Call.isDeriv, Bool.false_eq_true, false_implies, true_implies, true_and, objCall]
    obtain ⟨h1, h2⟩ := updateValues_congr w.own w.obj.data y hw
    unfold wUpdate
    rcases hv : updateValues w.own y none with ⟨s, r⟩
    rw [hv] at h1 h2
    cases r with
    | error e =>
      simp only at h1 ⊢
      have := updateValues_error w.obj.data y none e h1.symm
      rw [this, ← h1]
      exact ⟨hw, by first | trivial | rfl, by first | trivial | rfl⟩
    | ok u => exact ⟨h2, rfl, rfl⟩
  | setDerivs x y k g =>
    simp only [call, Call.isDeriv, Bool.true_eq_false, false_implies, and_true]
    exact ⟨by rw [Agree, setDerivs_zero _ _ _ _ _ _ _ hp]; exact hw, by first | trivial | exact fun _ => rfl⟩
  | updateDerivs y k g =>
    simp only [call, Call.isDeriv, Bool.true_eq_false, false_implies, and_true]
    exact ⟨by rw [Agree, updateDerivs_zero _ _ _ _ _ _ hp]; exact hw, by first | trivial | exact fun _ => rfl⟩
  | train =>
    simp only [call, expected, converted, Call.isDeriv, Bool.false_eq_true, false_implies, true_implies, true_and, objCall]
    have hw' := hw
    unfold Agree at hw'
    rw [hw']
    cases hv : w.obj.data.tp none 0 with
    | none => exact ⟨hw, by first | trivial | rfl, by first | trivial | rfl⟩
    | some p => exact ⟨hw, by first | trivial | rfl, by first | trivial | rfl⟩
  | values x =>
    simp only [call, expected, converted, Call.isDeriv, Bool.false_eq_true, false_implies, true_implies, true_and]
    cases predInput c x with
    | error e => exact ⟨hw, by first | trivial | rfl, by first | trivial | rfl⟩
    | ok a => exact ⟨hw, by first | trivial | rfl, by first | trivial | rfl⟩
  | variances x =>
    simp only [call, expected, converted, Call.isDeriv, Bool.false_eq_true, false_implies, true_implies, true_and]
    cases predInput c x with
    | error e => exact ⟨hw, by first | trivial | rfl, by first | trivial | rfl⟩
    | ok a => exact ⟨hw, by first | trivial | rfl, by first | trivial | rfl⟩

theorem run_step (c : Spec) (I : Inner K M) (h : List (Call K)) : ∀ (w : World K M), Agree w → (∀ k ∈ h, k.Unnamed ∧ k.ProperIndex) →
    Agree (run c I w h) ∧ (run c I w h).obj = expectedRun c I w.obj (h.filter fun k => !k.isDeriv) := by
  induction h with
  | nil => intro w hw _; exact ⟨hw, rfl⟩
  | cons k h ih =>
    intro w hw hh
    obtain ⟨h1, h2, h3⟩ := call_step c I w k hw (hh k (by simp)).1 (hh k (by simp)).2
    obtain ⟨i1, i2⟩ := ih (call c I w k).1 h1 fun k' hk' => hh k' (by simp [hk'])
    refine ⟨i1, ?_⟩
    show (run c I (call c I w k).1 h).obj = _
    rw [i2]
    cases hd : k.isDeriv with
    | true => rw [List.filter_cons_of_neg (by simp [hd]), h2 hd]
    | false => rw [List.filter_cons_of_pos (by simp [hd]), (h3 hd).1]; rfl

/-- **C93** Transparency. Wrap a surrogate that has no unnamed training values yet and make any calls, in any order: training values without names, training, predictions, derivatives for
input `0, 1, …`. Then every call other than about derivatives returns or raises exactly what the inner surrogate itself returns or raises when called with the converted
inputs (exceptions of the conversion first), having received the same calls without those about derivatives: training derivatives given to the wrapper have no effect whatever. -/
theorem C93_transparent (c : Spec) (I : Inner K M) (o : Obj K M) (ho : o.data.tp none 0 = none) (h : List (Call K)) (hh : ∀ k ∈ h, k.Unnamed ∧ k.ProperIndex)
    (k : Call K) (hk : k.Unnamed) (hd : k.isDeriv = false) :
    (call c I (run c I (wrap o) h) k).2 = (expected c I (expectedRun c I o (h.filter fun k => !k.isDeriv)) k).2 ∧
      (run c I (wrap o) h).obj = expectedRun c I o (h.filter fun k => !k.isDeriv) := by
  obtain ⟨h1, h2⟩ := run_step c I h (wrap o) (by show none = _; exact ho.symm) hh
  have hp : k.ProperIndex := by cases k <;> first | trivial | cases hd
  obtain ⟨-, -, h3⟩ := call_step c I _ k h1 hk hp
  refine ⟨?_, h2⟩
  rw [(h3 hd).2, h2]; rfl

/-! ## Names -/

theorem call_named (c : Spec) (I : Inner K M) (w : World K M) (n : String) (k : Call K) (hp : k.ProperIndex) (hw : w.own.tp (some n) 0 = none) : (call c I w k).1.own.tp (some n) 0 = none := by
  cases k with
  | setValues x y g =>
    simp only [call]
    rcases wSet_cases c w x y g with ⟨e, h1, h2⟩ | ⟨a, e, h1, h2, h3, h4⟩ | ⟨a, h1, h2, h3, h4⟩
    · rw [h2]; exact hw
    · rw [h4]; exact hw
    · rw [h4]
      obtain ⟨a2, b2, f1, f2, -, f4⟩ := setValues_ok _ _ _ _ h3
      simpa [f4, Store.put] using hw
  | updateValues y g =>
    simp only [call]
    unfold wUpdate
    rcases hv : updateValues w.own y g with ⟨s, r⟩
    cases r with
    | error e => exact hw
    | ok u =>
      simp only
      have hs : s = (updateValues w.own y g).1 := by rw [hv]
      rw [hs]
      unfold updateValues
      split
      · exact hw
      · split
        · exact hw
        · rename_i x _ h1
          split
          · exact hw
          · unfold Store.put
            simp only
            split
            · rename_i h; rw [← h.1] at h1; rw [h1] at hw; cases hw
            · exact hw
  | setDerivs x y k g => simp only [call]; rw [setDerivs_zero _ _ _ _ _ _ _ hp]; exact hw
  | updateDerivs y k g => simp only [call]; rw [updateDerivs_zero _ _ _ _ _ _ hp]; exact hw
  | train => simp only [call]; split <;> exact hw
  | values x => simp only [call]; split <;> exact hw
  | variances x => simp only [call]; split <;> exact hw

/-- **C93** `update_training_values(y, name)` with a name always raises, whatever was done before - also if the values of that name were set through the wrapper - and changes nothing. -/
theorem C93_named_update (c : Spec) (I : Inner K M) (o : Obj K M) (h : List (Call K)) (hh : ∀ k ∈ h, k.ProperIndex) (y : PyObj K) (n : String) :
    call c I (run c I (wrap o) h) (.updateValues y (some n)) = (run c I (wrap o) h, .error .value) := by
  have key : ∀ (h : List (Call K)) (w : World K M), (∀ k ∈ h, k.ProperIndex) → w.own.tp (some n) 0 = none → (run c I w h).own.tp (some n) 0 = none := by
    intro h
    induction h with
    | nil => intro w _ hw; exact hw
    | cons k h ih => intro w hh hw; exact ih _ (fun k' hk' => hh k' (by simp [hk'])) (call_named c I w n k (hh k (by simp)) hw)
  have h0 := key h (wrap o) hh rfl
  simp only [call, wUpdate, updateValues]
  cases y with
  | other => rfl
  | nd a =>
    cases he : ensure2d (.nd a) with
    | error e =>
      have : e = .value := by
        unfold ensure2d at he
        simp only at he
        split at he <;> first | (injection he with he; exact he.symm) | cases he
      subst this; rfl
    | ok b => simp only [h0]; rfl

/-- **C93** Values set under a name through the wrapper reach the inner surrogate under that name, so multi-fidelity data can be set: the inner training data are those of the same calls
on the inner surrogate with converted inputs. -/
theorem C93_named_sets (c : Spec) (I : Inner K M) (o : Obj K M) (h : List (Call K)) (hh : ∀ k ∈ h, ∃ x y g, k = .setValues x y g) (k : Call K) (hk : ∃ x y g, k = .setValues x y g) :
    (run c I (wrap o) h).obj = expectedRun c I o h ∧ (call c I (run c I (wrap o) h) k).2 = (expected c I (expectedRun c I o h) k).2 := by
  have step : ∀ (w : World K M) (k : Call K), (∃ x y g, k = .setValues x y g) → (call c I w k).1.obj = (expected c I w.obj k).1 ∧ (call c I w k).2 = (expected c I w.obj k).2 := by
    rintro w _ ⟨x, y, g, rfl⟩
    simp only [call, expected, converted]
    rcases wSet_cases c w x y g with ⟨e, h1, h2⟩ | ⟨a, e, h1, h2, h3, h4⟩ | ⟨a, h1, h2, h3, h4⟩
    · simp only [h1, h2, Except.map, and_self]
    · simp only [h1, h4, Except.map, objCall, h2, h3]; exact ⟨by first | trivial | rfl, by first | trivial | rfl⟩
    · simp only [h1, h4, Except.map, objCall, h2]; exact ⟨by first | trivial | rfl, by first | trivial | rfl⟩
  have key : ∀ (h : List (Call K)) (w : World K M), (∀ k ∈ h, ∃ x y g, k = .setValues x y g) → (run c I w h).obj = expectedRun c I w.obj h := by
    intro h
    induction h with
    | nil => intro w _; rfl
    | cons k h ih =>
      intro w hh
      show (run c I (call c I w k).1 h).obj = _
      rw [ih _ fun k' hk' => hh k' (by simp [hk']), (step w k (hh k (by simp))).1]; rfl
  have e := key h (wrap o) hh
  refine ⟨e, ?_⟩
  rw [(step _ k hk).2, e]; rfl

/-- **C93** With named values the wrapper's own checks are made against the wrong group: after values `x, y` without name and then values `x', y'` under a name, an update of the unnamed values
with as many values as `x` has rows raises, although the inner surrogate would accept it; an update with as many values as `x'` has rows is entered into the wrapper's data
before the inner surrogate refuses it. -/
theorem C93_update_after_named (c : Spec) (I : Inner K M) (o : Obj K M) (x y x' y' y2 : PyObj K) (n : String) (a b a' b' b2 : NdArray K) (hx : trainInput c x = .ok a) (ha : ensure2d (.nd a) = .ok a)
    (hy : ensure2d y = .ok b) (hr : a.nrows = b.nrows) (hx' : trainInput c x' = .ok a') (ha' : ensure2d (.nd a') = .ok a') (hy' : ensure2d y' = .ok b') (hr' : a'.nrows = b'.nrows)
    (hne : a.nrows ≠ a'.nrows) (hy2 : ensure2d y2 = .ok b2) :
    let w := run c I (wrap o) [.setValues x y none, .setValues x' y' (some n)]
    (b2.nrows = a.nrows → call c I w (.updateValues y2 none) = (w, .error .value) ∧ (objCall I w.obj (.updateValues y2 none)).2 = .ok none) ∧
    (b2.nrows = a'.nrows → (call c I w (.updateValues y2 none)).2 = .error .value ∧ (call c I w (.updateValues y2 none)).1.obj = w.obj ∧
      (call c I w (.updateValues y2 none)).1.own.tp none 0 = some (a', b2) ∧ w.own.tp none 0 = some (a', b')) := by
  have s1 : ∀ (s : Store K) (g : Group), setValues s (.nd a) y g = ({ s with dims := some (a.nrows, a.ncols, b.ncols) }.put g 0 a b, .ok ()) := by
    intro s g; unfold setValues; simp only [ha, hy, hr, ne_eq, not_true_eq_false, if_false]
  have s2 : ∀ (s : Store K) (g : Group), setValues s (.nd a') y' g = ({ s with dims := some (a'.nrows, a'.ncols, b'.ncols) }.put g 0 a' b', .ok ()) := by
    intro s g; unfold setValues; simp only [ha', hy', hr', ne_eq, not_true_eq_false, if_false]
  intro w
  have hw1 : w.own.tp none 0 = some (a', b') := by
    simp only [w, run, List.foldl_cons, List.foldl_nil, call, wSet, hx, hx', s1, s2, Store.put, and_self, if_true]
  have hw2 : w.obj.data.tp none 0 = some (a, b) := by
    simp only [w, run, List.foldl_cons, List.foldl_nil, call, wSet, hx, hx', s1, s2, Store.put, reduceCtorEq, false_and, if_false, and_self, if_true]
  refine ⟨fun h => ⟨?_, ?_⟩, fun h => ⟨?_, ?_, ?_, hw1⟩⟩
  · simp only [call, wUpdate, updateValues, hy2, hw1, h, ne_eq, Ne.symm hne, not_false_eq_true, if_true]; rfl
  · simp only [objCall, updateValues, hy2, hw2, h, ne_eq, not_true_eq_false, if_false]; rfl
  · simp only [call, wUpdate, updateValues, hy2, hw1, hw2, h, ne_eq, not_true_eq_false, if_false, hne, not_false_eq_true, if_true]; rfl
  · simp only [call, wUpdate, updateValues, hy2, hw1, hw2, h, ne_eq, not_true_eq_false, if_false, hne, not_false_eq_true, if_true]
  · simp only [call, wUpdate, updateValues, hy2, hw1, hw2, h, ne_eq, not_true_eq_false, if_false, hne, not_false_eq_true, if_true, Store.put, and_self]

/-- **C93** With named values only, `train` of the wrapper goes on to train the inner surrogate, which has no unnamed values (its own `train` raises `KeyError`). -/
theorem C93_named_only_train (c : Spec) (I : Inner K M) (o : Obj K M) (ho : o.data.tp none 0 = none) (x y : PyObj K) (n : String) (a b : NdArray K) (hx : trainInput c x = .ok a)
    (ha : ensure2d (.nd a) = .ok a) (hy : ensure2d y = .ok b) (hr : a.nrows = b.nrows) :
    let w := run c I (wrap o) [.setValues x y (some n)]
    (call c I w .train).2 = learnOut (I.learn w.obj.data w.obj.fit).2 ∧ w.obj.data.tp none 0 = none ∧ (objCall I w.obj .train).2 = .error .key := by
  have s1 : ∀ (s : Store K) (g : Group), setValues s (.nd a) y g = ({ s with dims := some (a.nrows, a.ncols, b.ncols) }.put g 0 a b, .ok ()) := by
    intro s g; unfold setValues; simp only [ha, hy, hr, ne_eq, not_true_eq_false, if_false]
  intro w
  have hw1 : w.own.tp none 0 = some (a, b) := by
    simp only [w, run, List.foldl_cons, List.foldl_nil, call, wSet, hx, s1, Store.put, and_self, if_true]
  have hw2 : w.obj.data.tp none 0 = none := by
    simp only [w, run, List.foldl_cons, List.foldl_nil, call, wSet, hx, s1, Store.put, reduceCtorEq, false_and, if_false]; exact ho
  refine ⟨?_, hw2, ?_⟩
  · simp only [call, hw1]
  · simp only [objCall, hw2]

/-- **C93** A surrogate trained before it is wrapped can be used for predictions through the wrapper at once, but `train` and `update_training_values` of the wrapper raise until values are set
through it. -/
theorem C93_wrap_trained (c : Spec) (I : Inner K M) (o : Obj K M) (x y : PyObj K) (g : Group) :
    (call c I (wrap o) (.values x)).2 = (expected c I o (.values x)).2 ∧ (call c I (wrap o) (.variances x)).2 = (expected c I o (.variances x)).2 ∧
      (call c I (wrap o) .train) = (wrap o, .error .key) ∧ call c I (wrap o) (.updateValues y g) = (wrap o, .error .value) := by
  refine ⟨?_, ?_, rfl, ?_⟩
  · simp only [call, expected, converted]; cases predInput c x <;> rfl
  · simp only [call, expected, converted]; cases predInput c x <;> rfl
  · simp only [call, wUpdate, updateValues]
    cases he : ensure2d y with
    | error e =>
      have : e = .value := by
        unfold ensure2d at he
        split at he
        · injection he with he; exact he.symm
        · split at he <;> first | (injection he with he; exact he.symm) | cases he
      subst this; rfl
    | ok b => rfl

/-! ## Derivatives -/

/-- **C93** The wrapper says it supports whatever the inner surrogate supports, but its derivative predictions never return anything: they raise for every input, in every state. -/
theorem C93_no_derivatives (I : Inner K M) (w : World K M) (x : PyObj K) :
    (∃ e, wDerivatives I w x = .error e) ∧ (∃ e, wOutputDerivatives I w x = .error e) ∧ (∃ e, wVarianceDerivatives I w x = .error e) ∧
      ∀ a d, ensure2d x = .ok a → w.own.dims = some d → a.ncols = d.2.1 → wDerivatives I w x = .error .notImplemented := by
  refine ⟨?_, ?_, ?_, ?_⟩
  · unfold wDerivatives predictDerivatives checkSupport
    cases I.derivs with
    | false => exact ⟨_, rfl⟩
    | true =>
      cases ensure2d x with
      | error e => exact ⟨_, rfl⟩
      | ok a =>
        cases hd : w.own.dims with
        | none => exact ⟨_, rfl⟩
        | some d =>
          by_cases hn : a.ncols = d.2.1
          · exact ⟨_, by simp [checkNx, hn, bind, Except.bind, arrOut]; rfl⟩
          · exact ⟨_, by simp [checkNx, hn, bind, Except.bind, arrOut]; rfl⟩
  · unfold wOutputDerivatives
    split
    · exact ⟨_, rfl⟩
    · split
      · exact ⟨_, rfl⟩
      · exact ⟨_, rfl⟩
      · split <;> exact ⟨_, rfl⟩
  · unfold wVarianceDerivatives
    split
    · exact ⟨_, rfl⟩
    · split
      · exact ⟨_, rfl⟩
      · exact ⟨_, rfl⟩
      · split <;> exact ⟨_, rfl⟩
  · intro a d ha hd hn
    unfold wDerivatives predictDerivatives checkSupport
    cases I.derivs with
    | false => rfl
    | true => simp [ha, hd, checkNx, hn, bind, Except.bind, arrOut]; rfl

end SMT.MixedInt.Wrap
