import Verif.Options.Model

/-!
# Properties C01, C02, C03 of the options dictionary
-/
namespace SMT.Options
set_option linter.unusedSectionVars false

variable {V T : Type} [DecidableEq V] [PyUniverse V T]

/-! ## Specification (independent of the model's helpers)

A history is the list of calls made, **most recent first**. -/

/-- "The value is acceptable": the three numbered conditions in the docstring of `__setitem__`
(lines 58-61): both given → either suffices; one given → that one; none given → anything. -/
def Acceptable (values : Option (List V)) (types : Option T) (v : V) : Prop :=
  (∃ vs, values = some vs ∧ v ∈ vs) ∨ (∃ ts, types = some ts ∧ PyUniverse.inst v ts = true) ∨
    (values = none ∧ types = none)

/-- The declaration in force for a name after a history: the most recent `declare` of it. -/
def declOf (n : String) : List (Op V T) → Option (Option (List V) × Option T)
  | [] => none
  | .declare m _ vs ts :: past => if m = n then some (vs, ts) else declOf n past
  | .set .. :: past => declOf n past
  | .update .. :: past => declOf n past

/-- A write of `v` to `n` is acceptable after a history. -/
def WriteOk (past : List (Op V T)) (n : String) (v : V) : Prop :=
  ∃ vs ts, declOf n past = some (vs, ts) ∧ Acceptable vs ts v

/-- `LastWrite past n r`: after the history `past` (most recent first) the last accepted write to
`n` was `r` (`none` if there was none). A declaration writes its default if that is `None` or
acceptable; a set writes if acceptable; an update is a sequence of sets, cut at the first
unacceptable one. -/
def KeepsOrWrites (past : List (Op V T)) (n : String) : List (String × V) → Option V → Option V → Prop
  | [], old, new => new = old
  | (m, v) :: rest, old, new =>
    (¬ WriteOk past m v ∧ new = old) ∨
    (WriteOk past m v ∧ KeepsOrWrites past n rest (if m = n then some v else old) new)

def LastWrite : List (Op V T) → String → Option V → Prop
  | [], _, r => r = none
  | .declare m df vs ts :: past, n, r =>
    (m = n ∧ (df = PyUniverse.pyNone ∨ Acceptable vs ts df) ∧ r = some df) ∨
    (¬ (m = n ∧ (df = PyUniverse.pyNone ∨ Acceptable vs ts df)) ∧ LastWrite past n r)
  | .set m v :: past, n, r =>
    (m = n ∧ WriteOk past m v ∧ r = some v) ∨ (¬ (m = n ∧ WriteOk past m v) ∧ LastWrite past n r)
  | .update kvs :: past, n, r =>
    ∃ old, LastWrite past n old ∧ KeepsOrWrites past n kvs old r

/-! ## Lemmas -/

theorem assertValid_iff (vs : Option (List V)) (ts : Option T) (df v : V) :
    assertValid ⟨vs, ts, df⟩ v = true ↔ Acceptable vs ts v := by
  unfold assertValid Acceptable
  cases vs <;> cases ts <;> simp

/-- Writes never touch declarations. -/
theorem setItem_declared (d : OptDict V T) (n : String) (v : V) :
    (setItem d n v).1.declared = d.declared := by
  unfold setItem; split
  · rfl
  · split <;> rfl

theorem update_declared (d : OptDict V T) (kvs : List (String × V)) :
    (update d kvs).1.declared = d.declared := by
  induction kvs generalizing d with
  | nil => rfl
  | cons p rest ih =>
    obtain ⟨n, v⟩ := p
    have h := setItem_declared d n v
    unfold update
    split
    · rename_i d' heq; rw [ih]; rw [heq] at h; exact h
    · rename_i d' e heq; rw [heq] at h; exact h

theorem run_snoc (d : OptDict V T) (h : List (Op V T)) (o : Op V T) :
    run d (h ++ [o]) = (step (run d h) o).1 := by
  simp [run, List.foldl_append]

/-- The declared entry in force is the one of the specification. -/
theorem declared_eq (past : List (Op V T)) (n : String) :
    ((run (init : OptDict V T) past.reverse).declared n).map (fun e => (e.values, e.types))
      = declOf n past := by
  induction past with
  | nil => rfl
  | cons o past ih =>
    rw [List.reverse_cons, run_snoc]
    cases o with
    | declare m df vs ts =>
      have : ((step (run (init : OptDict V T) past.reverse) (.declare m df vs ts)).1).declared
          = put (run (init : OptDict V T) past.reverse).declared m ⟨vs, ts, df⟩ := by
        simp only [step, declare]; split <;> rfl
      rw [this]
      simp only [put, declOf]
      by_cases hmn : m = n
      · subst hmn; simp
      · simp [hmn, Ne.symm hmn, ih]
    | set m v => simp only [step, setItem_declared, declOf]; exact ih
    | update kvs => simp only [step, update_declared, declOf]; exact ih

theorem setItem_ok_iff (past : List (Op V T)) (d : OptDict V T)
    (hd : ∀ m, (d.declared m).map (fun e => (e.values, e.types)) = declOf m past)
    (n : String) (v : V) :
    (WriteOk past n v → setItem d n v = ({ d with dict := put d.dict n v }, .ok ())) ∧
    (¬ WriteOk past n v → setItem d n v = (d, .error .assertion)) := by
  have h := hd n
  unfold setItem WriteOk
  cases hdn : d.declared n with
  | none => rw [hdn] at h; simp at h; simp [← h]
  | some e =>
    obtain ⟨vs, ts, df⟩ := e
    rw [hdn] at h; simp at h; rw [← h]
    simp only [Option.some.injEq, Prod.mk.injEq]
    constructor
    · rintro ⟨vs', ts', ⟨rfl, rfl⟩, ha⟩
      rw [← assertValid_iff _ _ df] at ha
      simp [ha]
    · intro hna
      have : assertValid ⟨vs, ts, df⟩ v = false := by
        rw [Bool.eq_false_iff]; intro ht
        exact hna ⟨vs, ts, ⟨rfl, rfl⟩, (assertValid_iff _ _ df v).1 ht⟩
      simp [this]

theorem update_keeps (past : List (Op V T)) (n : String) (kvs : List (String × V)) :
    ∀ d : OptDict V T,
    (∀ m, (d.declared m).map (fun e => (e.values, e.types)) = declOf m past) →
    KeepsOrWrites past n kvs (d.dict n) ((update d kvs).1.dict n) := by
  induction kvs with
  | nil => intro d _; simp [KeepsOrWrites, update]
  | cons p rest ih =>
    obtain ⟨m, v⟩ := p
    intro d hd
    have key := setItem_ok_iff past d hd m v
    simp only [KeepsOrWrites, update]
    by_cases hw : WriteOk past m v
    · right
      refine ⟨hw, ?_⟩
      rw [key.1 hw]
      have := ih { d with dict := put d.dict m v } hd
      simp only [put] at this ⊢
      by_cases hmn : m = n
      · subst hmn; simpa using this
      · have h2 : ¬ n = m := fun h => hmn h.symm
        simpa [hmn, h2] using this
    · left; refine ⟨hw, ?_⟩; rw [key.2 hw]

/-- Specification is functional: the last accepted write is unique (so C01 pins the read down). -/
theorem keeps_unique (past : List (Op V T)) (n : String) (kvs : List (String × V)) :
    ∀ old a b, KeepsOrWrites past n kvs old a → KeepsOrWrites past n kvs old b → a = b := by
  induction kvs with
  | nil => intro old a b ha hb; simp [KeepsOrWrites] at ha hb; rw [ha, hb]
  | cons p rest ih =>
    obtain ⟨m, v⟩ := p
    intro old a b ha hb
    simp only [KeepsOrWrites] at ha hb
    rcases ha with ⟨h1, rfl⟩ | ⟨h1, ha⟩ <;> rcases hb with ⟨h2, rfl⟩ | ⟨h2, hb⟩
    · rfl
    · exact absurd h2 h1
    · exact absurd h1 h2
    · exact ih _ _ _ ha hb

theorem lastWrite_unique (past : List (Op V T)) (n : String) :
    ∀ a b, LastWrite past n a → LastWrite past n b → a = b := by
  induction past with
  | nil => intro a b ha hb; simp [LastWrite] at ha hb; rw [ha, hb]
  | cons o past ih =>
    intro a b ha hb
    cases o with
    | declare m df vs ts =>
      simp only [LastWrite] at ha hb
      rcases ha with ⟨h1, h2, rfl⟩ | ⟨h1, ha⟩ <;> rcases hb with ⟨h3, h4, rfl⟩ | ⟨h3, hb⟩
      · rfl
      · exact absurd ⟨h1, h2⟩ h3
      · exact absurd ⟨h3, h4⟩ h1
      · exact ih _ _ ha hb
    | set m v =>
      simp only [LastWrite] at ha hb
      rcases ha with ⟨h1, h2, rfl⟩ | ⟨h1, ha⟩ <;> rcases hb with ⟨h3, h4, rfl⟩ | ⟨h3, hb⟩
      · rfl
      · exact absurd ⟨h1, h2⟩ h3
      · exact absurd ⟨h3, h4⟩ h1
      · exact ih _ _ ha hb
    | update kvs =>
      obtain ⟨o1, h1, h2⟩ := ha
      obtain ⟨o2, h3, h4⟩ := hb
      have := ih _ _ h1 h3; subst this
      exact keeps_unique past n kvs _ _ _ h2 h4

/-! ## C01 -/

/-- **C01** For every history of calls, reading a name returns the last accepted write to it, and
raises `KeyError` when there was none. -/
theorem C01_read_last_accepted_write (past : List (Op V T)) (n : String) :
    (∀ v, getItem (run init past.reverse) n = .ok v ↔ LastWrite past n (some v)) ∧
    (getItem (run (init : OptDict V T) past.reverse) n = .error .key ↔ LastWrite past n none) := by
  have main : ∀ past : List (Op V T), LastWrite past n ((run (init : OptDict V T) past.reverse).dict n) := by
    intro past
    induction past with
    | nil => simp [LastWrite, run, init]
    | cons o past ih =>
      rw [List.reverse_cons, run_snoc]
      have hd := declared_eq past
      cases o with
      | declare m df vs ts =>
        simp only [LastWrite, step, declare]
        by_cases hacc : df = PyUniverse.pyNone ∨ Acceptable vs ts df
        · have hno : ¬ (df ≠ PyUniverse.pyNone ∧ assertValid ⟨vs, ts, df⟩ df = false) := by
            rintro ⟨h1, h2⟩
            rcases hacc with h | h
            · exact h1 h
            · rw [(assertValid_iff vs ts df df).2 h] at h2; cases h2
          rw [if_neg hno]
          by_cases hmn : m = n
          · left; subst hmn; exact ⟨rfl, hacc, by simp [put]⟩
          · right
            refine ⟨fun h => hmn h.1, ?_⟩
            have h2 : ¬ n = m := fun h => hmn h.symm
            simpa [put, h2] using ih
        · have hyes : df ≠ PyUniverse.pyNone ∧ assertValid ⟨vs, ts, df⟩ df = false := by
            refine ⟨fun h => hacc (Or.inl h), ?_⟩
            rw [Bool.eq_false_iff]
            exact fun h => hacc (Or.inr ((assertValid_iff vs ts df df).1 h))
          rw [if_pos hyes]
          right; exact ⟨fun h => hacc h.2, ih⟩
      | set m v =>
        simp only [LastWrite, step]
        have key := setItem_ok_iff past _ hd m v
        by_cases hw : WriteOk past m v
        · rw [key.1 hw]
          by_cases hmn : m = n
          · left; subst hmn; exact ⟨rfl, hw, by simp [put]⟩
          · right
            refine ⟨fun h => hmn h.1, ?_⟩
            have h2 : ¬ n = m := fun h => hmn h.symm
            simpa [put, h2] using ih
        · rw [key.2 hw]; right; exact ⟨fun h => hw h.2, ih⟩
      | update kvs =>
        simp only [LastWrite, step]
        exact ⟨_, ih, update_keeps past n kvs _ hd⟩
  have h := main past
  unfold getItem
  cases hr : (run (init : OptDict V T) past.reverse).dict n with
  | none =>
    rw [hr] at h
    refine ⟨fun v => ⟨fun hh => by simp at hh, fun hh => ?_⟩, by simp [h]⟩
    exact absurd (lastWrite_unique past n _ _ h hh) (by simp)
  | some w =>
    rw [hr] at h
    refine ⟨fun v => ⟨fun hh => ?_, fun hh => ?_⟩, ⟨fun hh => by simp at hh, fun hh => ?_⟩⟩
    · simp at hh; subst hh; exact h
    · have := lastWrite_unique past n _ _ h hh; simp at this; subst this; rfl
    · exact absurd (lastWrite_unique past n _ _ h hh) (by simp)

/-- **C01** A set raises exactly when the name is undeclared or the value unacceptable; when it
raises nothing changes at all, and when it succeeds only that name changes. -/
theorem C01_set_guard (past : List (Op V T)) (n : String) (v : V) :
    let d := run (init : OptDict V T) past.reverse
    ((setItem d n v).2 = .ok () ↔ WriteOk past n v) ∧
    ((setItem d n v).2 ≠ .ok () → (setItem d n v).1 = d) ∧
    ((setItem d n v).2 = .ok () → getItem (setItem d n v).1 n = .ok v ∧
      ∀ m, m ≠ n → getItem (setItem d n v).1 m = getItem d m) := by
  intro d
  have key := setItem_ok_iff past d (declared_eq past) n v
  by_cases hw : WriteOk past n v
  · rw [key.1 hw]
    refine ⟨by simp [hw], by simp, fun _ => ⟨by simp [getItem, put], fun m hm => ?_⟩⟩
    simp [getItem, put, hm]
  · rw [key.2 hw]
    refine ⟨by simp [hw], by simp, by simp⟩

/-- **C01** `update` with acceptable values only: every key reads as its last value in the update,
all other keys are unchanged. -/
theorem C01_update_all_ok (past : List (Op V T)) (kvs : List (String × V))
    (hok : ∀ p ∈ kvs, WriteOk past p.1 p.2) :
    let d := run (init : OptDict V T) past.reverse
    (update d kvs).2 = .ok () ∧
    ∀ n, getItem (update d kvs).1 n =
      match (kvs.reverse.find? (fun p => p.1 = n)) with
      | some p => .ok p.2
      | none => getItem d n := by
  intro d
  have : ∀ d : OptDict V T,
      (∀ m, (d.declared m).map (fun e => (e.values, e.types)) = declOf m past) →
      (update d kvs).2 = .ok () ∧
      ∀ n, getItem (update d kvs).1 n =
        match (kvs.reverse.find? (fun p => p.1 = n)) with
        | some p => .ok p.2
        | none => getItem d n := by
    induction kvs with
    | nil => intro d _; simp [update]
    | cons p rest ih =>
      obtain ⟨m, v⟩ := p
      intro d hd
      have key := (setItem_ok_iff past d hd m v).1 (hok (m, v) (by simp))
      have := ih (fun p hp => hok p (by simp [hp])) { d with dict := put d.dict m v } hd
      simp only [update, key]
      refine ⟨this.1, fun n => ?_⟩
      rw [this.2 n]
      rw [List.reverse_cons, List.find?_append]
      cases hf : rest.reverse.find? (fun p => p.1 = n) with
      | some q => simp
      | none =>
        by_cases hmn : m = n
        · subst hmn; simp [getItem, put]
        · have h2 : ¬ n = m := fun h => hmn h.symm
          simp [getItem, put, hmn, h2]
  exact this d (declared_eq past)

/-! ## C02 -/

/-- A history in which no `declare` call raised. -/
def NoDeclareRaised : List (Op V T) → Prop
  | [] => True
  | .declare _ df vs ts :: past =>
    (df = PyUniverse.pyNone ∨ Acceptable vs ts df) ∧ NoDeclareRaised past
  | _ :: past => NoDeclareRaised past

/-- The default given by the most recent declaration of `n`. -/
def defaultOf (n : String) : List (Op V T) → Option V
  | [] => none
  | .declare m df _ _ :: past => if m = n then some df else defaultOf n past
  | _ :: past => defaultOf n past

/-- **C02** Every value that can be read satisfies the declaration in force, unless it is `None`
left there by a `None` default of that declaration. -/
theorem C02_stored_values_valid (past : List (Op V T)) (hno : NoDeclareRaised past)
    (n : String) (v : V) (hget : getItem (run init past.reverse) n = .ok v) :
    ∃ vs ts, declOf n past = some (vs, ts) ∧
      (Acceptable vs ts v ∨ (v = PyUniverse.pyNone ∧ defaultOf n past = some PyUniverse.pyNone)) := by
  rw [(C01_read_last_accepted_write past n).1 v] at hget
  have main : ∀ past : List (Op V T), NoDeclareRaised past → ∀ r, LastWrite past n r →
      ∀ v, r = some v → ∃ vs ts, declOf n past = some (vs, ts) ∧
      (Acceptable vs ts v ∨ (v = PyUniverse.pyNone ∧ defaultOf n past = some PyUniverse.pyNone)) := by
    intro past
    induction past with
    | nil => intro _ r hr v hv; simp [LastWrite] at hr; rw [hr] at hv; cases hv
    | cons o past ih =>
      intro hno r hr v hv
      cases o with
      | declare m df vs ts =>
        simp only [LastWrite] at hr
        rcases hr with ⟨h1, h2, h3⟩ | ⟨h1, h2⟩
        · subst h1; rw [h3] at hv; simp at hv; subst hv
          refine ⟨vs, ts, by simp [declOf], ?_⟩
          rcases h2 with h | h
          · right; exact ⟨h, by simp [defaultOf, h]⟩
          · left; exact h
        · have hmn : m ≠ n := fun h => h1 ⟨h, hno.1⟩
          simpa [declOf, defaultOf, hmn] using ih hno.2 r h2 v hv
      | set m w =>
        simp only [LastWrite] at hr
        rcases hr with ⟨h1, ⟨vs, ts, h2, h2'⟩, h3⟩ | ⟨h1, h2⟩
        · subst h1; rw [h3] at hv; simp at hv; subst hv
          exact ⟨vs, ts, by simpa [declOf] using h2, Or.inl h2'⟩
        · simpa [declOf, defaultOf] using ih hno r h2 v hv
      | update kvs =>
        obtain ⟨old, ho, hk⟩ := hr
        have inner : ∀ (kvs : List (String × V)) old,
            (∀ v, old = some v → ∃ vs ts, declOf n past = some (vs, ts) ∧
              (Acceptable vs ts v ∨ (v = PyUniverse.pyNone ∧ defaultOf n past = some PyUniverse.pyNone))) →
            KeepsOrWrites past n kvs old r → ∃ vs ts, declOf n past = some (vs, ts) ∧
              (Acceptable vs ts v ∨ (v = PyUniverse.pyNone ∧ defaultOf n past = some PyUniverse.pyNone)) := by
          intro kvs
          induction kvs with
          | nil => intro old h1 h2; simp [KeepsOrWrites] at h2; exact h1 v (h2 ▸ hv)
          | cons p rest ih2 =>
            obtain ⟨m, w⟩ := p
            intro old h1 h2
            simp only [KeepsOrWrites] at h2
            rcases h2 with ⟨_, h2⟩ | ⟨⟨vs, ts, hd, ha⟩, h2⟩
            · exact h1 v (h2 ▸ hv)
            · refine ih2 _ ?_ h2
              intro u hu
              by_cases hmn : m = n
              · subst hmn; simp at hu; subst hu; exact ⟨vs, ts, hd, Or.inl ha⟩
              · simp [hmn] at hu; exact h1 u hu
        simpa [declOf, defaultOf] using inner kvs old (ih hno old ho) hk
  exact main past hno _ hget v rfl

/-- **C02** Reads and declarations agree on names: in every history without a raising declaration, a
name can be read exactly when it is declared. -/
theorem C02_readable_iff_declared (past : List (Op V T)) (hno : NoDeclareRaised past) (n : String) :
    (∃ v, getItem (run (init : OptDict V T) past.reverse) n = .ok v) ↔ (∃ vt, declOf n past = some vt) := by
  constructor
  · rintro ⟨v, hv⟩
    obtain ⟨vs, ts, h, _⟩ := C02_stored_values_valid past hno n v hv
    exact ⟨_, h⟩
  · rintro ⟨vt, hvt⟩
    have main : ∀ past : List (Op V T), NoDeclareRaised past → ∀ vt, declOf n past = some vt →
        ¬ LastWrite past n none := by
      intro past
      induction past with
      | nil => intro _ vt h; simp [declOf] at h
      | cons o past ih =>
        intro hno vt h hl
        cases o with
        | declare m df vs ts =>
          simp only [LastWrite] at hl
          rcases hl with ⟨_, _, h3⟩ | ⟨h1, h2⟩
          · cases h3
          · have hmn : m ≠ n := fun h => h1 ⟨h, hno.1⟩
            simp [declOf, hmn] at h
            exact ih hno.2 vt h h2
        | set m v =>
          simp only [LastWrite] at hl
          rcases hl with ⟨_, _, h3⟩ | ⟨h1, h2⟩
          · cases h3
          · exact ih hno vt (by simpa [declOf] using h) h2
        | update kvs =>
          obtain ⟨old, ho, hk⟩ := hl
          have inner : ∀ (kvs : List (String × V)) old, KeepsOrWrites past n kvs old none → old = none := by
            intro kvs
            induction kvs with
            | nil => intro old h2; simp [KeepsOrWrites] at h2; exact h2.symm
            | cons p rest ih2 =>
              obtain ⟨m, w⟩ := p
              intro old h2
              simp only [KeepsOrWrites] at h2
              rcases h2 with ⟨_, h2⟩ | ⟨_, h2⟩
              · exact h2.symm
              · have := ih2 _ h2
                by_cases hmn : m = n
                · simp [hmn] at this
                · simpa [hmn] using this
          have := inner kvs old hk; subst this
          exact ih hno vt (by simpa [declOf] using h) ho
    cases hg : (run (init : OptDict V T) past.reverse).dict n with
    | some v => exact ⟨v, by simp [getItem, hg]⟩
    | none =>
      exact absurd ((C01_read_last_accepted_write past n).2.1 (by simp [getItem, hg])) (main past hno vt hvt)

/-- **C01** Membership: after every history, `name in options` holds exactly when reading the name succeeds, that is when some write to it was accepted; `is_declared(name)` exactly when some call
declared it, whether or not the call raised. -/
theorem C01_membership (past : List (Op V T)) (n : String) :
    (contains (run (init : OptDict V T) past.reverse) n = true ↔ ∃ v, LastWrite past n (some v)) ∧
    (contains (run (init : OptDict V T) past.reverse) n = true ↔ ∃ v, getItem (run (init : OptDict V T) past.reverse) n = .ok v) ∧
    (isDeclared (run (init : OptDict V T) past.reverse) n = true ↔ ∃ df vs ts, Op.declare n df vs ts ∈ past) := by
  have h2 : contains (run (init : OptDict V T) past.reverse) n = true ↔ ∃ v, getItem (run (init : OptDict V T) past.reverse) n = .ok v := by
    unfold contains getItem
    cases (run (init : OptDict V T) past.reverse).dict n <;> simp
  refine ⟨h2.trans (exists_congr fun v => (C01_read_last_accepted_write past n).1 v), h2, ?_⟩
  have h3 : isDeclared (run (init : OptDict V T) past.reverse) n = (declOf n past).isSome := by
    rw [← declared_eq past n]; simp [isDeclared]
  rw [h3]
  clear h2 h3
  induction past with
  | nil => simp [declOf]
  | cons o past ih =>
    cases o with
    | declare m df vs ts =>
      by_cases hmn : m = n
      · subst hmn; simp only [declOf, if_true, Option.isSome_some, true_iff]; exact ⟨df, vs, ts, by simp⟩
      · simp only [declOf, if_neg hmn, ih, List.mem_cons, Op.declare.injEq, Ne.symm hmn, false_and, false_or]
    | set m v => simp only [declOf, ih, List.mem_cons, reduceCtorEq, false_or]
    | update kvs => simp only [declOf, ih, List.mem_cons, reduceCtorEq, false_or]

/-! ### A concrete universe: strings, integers, `None` -/

inductive PyV where
  | none | int (i : Int) | str (s : String)
deriving DecidableEq

inductive PyT where
  | int | str
deriving DecidableEq

instance : PyUniverse PyV PyT where
  pyNone := .none
  inst v t := match v, t with
    | .int _, .int => true
    | .str _, .str => true
    | _, _ => false

/-- **C02 (hole 1)** If a re-declaration raises, the previous value survives although it is not
acceptable for the declaration now in force: the hypothesis of `C02_stored_values_valid` is needed. -/
theorem C02_hole_failed_redeclare :
    ∃ (past : List (Op PyV PyT)) (n : String) (v : PyV),
      getItem (run init past.reverse) n = .ok v ∧ v ≠ PyUniverse.pyNone ∧
      ∃ vs ts, declOf n past = some (vs, ts) ∧ ¬ Acceptable vs ts v := by
  refine ⟨[.declare "a" (.int 3) none (some .str), .declare "a" (.int 1) none (some .int)], "a", .int 1,
    by rfl, by decide, none, some .str, by rfl, ?_⟩
  unfold Acceptable
  simp [PyUniverse.inst]

/-- **C02 (hole 2)** Declaring both `values` and `types` (as SMT does for `poly`, `corr`,
`criterion`, `qEI`, …: `values=(…), types=str`) accepts every value of the type, in particular
strings outside `values`. -/
theorem C02_hole_values_and_types (n : String) (df : String) (choices : List String) (s : String) :
    let d := (declare (init : OptDict PyV PyT) n (.str df) (some (choices.map .str)) (some .str)).1
    (setItem d n (.str s)).2 = .ok () ∧ getItem (setItem d n (.str s)).1 n = .ok (.str s) := by
  simp [declare, setItem, assertValid, put, PyUniverse.inst, getItem]

/-- Non-vacuity for C01/C02: a history with a rejected and an accepted write, no raising declare. -/
example : let past : List (Op PyV PyT) :=
      [.set "p" (.str "no"), .update [("q", .int 4)], .set "p" (.int 7), .declare "q" .none none none,
       .declare "p" (.int 2) none (some .int)]
    NoDeclareRaised past ∧ getItem (run init past.reverse) "p" = .ok (.int 7) ∧
      getItem (run init past.reverse) "q" = .ok (.int 4) ∧
      getItem (run init past.reverse) "zz" = .error .key := by
  refine ⟨⟨Or.inl rfl, Or.inr (Or.inr (Or.inl ⟨.int, rfl, rfl⟩)), trivial⟩, rfl, rfl, rfl⟩

example : ∀ p ∈ [("p", PyV.int 7), ("p", PyV.int 8)],
    WriteOk [.declare "p" (.int 2) none (some .int)] p.1 p.2 := by
  intro p hp
  refine ⟨none, some .int, ?_, Or.inr (Or.inl ⟨.int, rfl, ?_⟩)⟩ <;>
  · simp at hp; rcases hp with rfl | rfl <;> rfl

/-- A declaration that raises leaves a name declared but not in the dictionary. -/
example : let d := run (init : OptDict PyV PyT) [.declare "a" (.int 3) none (some .str), .declare "b" (.int 3) none (some .int)]
    isDeclared d "a" = true ∧ contains d "a" = false ∧ isDeclared d "b" = true ∧ contains d "b" = true ∧ isDeclared d "c" = false := by
  exact ⟨rfl, rfl, rfl, rfl, rfl⟩

/-! ## C03 -/

/-- Every live object's dictionaries have been allocated, and no two objects share one. -/
def Heap.Separate (h : Heap V T) : Prop :=
  (∀ p ∈ h.objs, p.1 < h.next ∧ p.2 < h.next) ∧
  ∀ (i j : Nat) (p q : Nat × Nat), h.objs[i]? = some p → h.objs[j]? = some q → i ≠ j → p.1 ≠ q.1 ∧ p.2 ≠ q.2

theorem separate_append (h : Heap V T) (hs : h.Separate) (D : Nat → String → Option V)
    (E : Nat → String → Option (Entry V T)) :
    Heap.Separate ⟨D, E, h.next + 1, h.objs ++ [(h.next, h.next)]⟩ := by
  obtain ⟨h1, h2⟩ := hs
  constructor
  · intro p hp
    simp at hp
    rcases hp with hp | rfl
    · have := h1 p hp; exact ⟨by simp; omega, by simp; omega⟩
    · simp
  · intro i j p q hi hj hij
    rw [List.getElem?_append] at hi hj
    split at hi <;> split at hj
    · exact h2 i j p q hi hj hij
    · have hp := h1 p (List.mem_of_getElem? hi)
      have : q = (h.next, h.next) := by
        have := List.mem_of_getElem? hj; simpa using this
      subst this; simp; omega
    · have hq := h1 q (List.mem_of_getElem? hj)
      have : p = (h.next, h.next) := by
        have := List.mem_of_getElem? hi; simpa using this
      subst this; simp; omega
    · rename_i hi' hj'
      have a := (List.getElem?_eq_some_iff.1 hi).1
      have b := (List.getElem?_eq_some_iff.1 hj).1
      simp at a b; omega

theorem separate_step (h : Heap V T) (hs : h.Separate) (o : HOp V T) : (h.hstep o).Separate := by
  cases o with
  | new => exact separate_append h hs _ _
  | clone i =>
    simp only [Heap.hstep, Heap.clone]
    split
    · exact hs
    · exact separate_append h hs _ _
  | call i op =>
    simp only [Heap.hstep, Heap.call]
    split
    · exact hs
    · exact hs

theorem separate_run (ops : List (HOp V T)) : (Heap.empty.hrun ops : Heap V T).Separate := by
  have : ∀ (ops : List (HOp V T)) (h : Heap V T), h.Separate → (h.hrun ops).Separate := by
    intro ops
    induction ops with
    | nil => intro h hs; exact hs
    | cons o ops ih => intro h hs; exact ih _ (separate_step h hs o)
  exact this ops _ ⟨by simp [Heap.empty], by simp [Heap.empty]⟩

/-- The operation acts on an object other than `j`. -/
def HOp.NotOn (j : Nat) : HOp V T → Prop
  | .call i _ => i ≠ j
  | _ => True

theorem view_step_other (h : Heap V T) (hs : h.Separate) (j : Nat) (hj : j < h.objs.length)
    (o : HOp V T) (ho : o.NotOn j) : (h.hstep o).view j = h.view j ∧ j < (h.hstep o).objs.length := by
  obtain ⟨h1, h2⟩ := hs
  have hq := List.getElem?_eq_getElem hj
  have hb := h1 _ (List.getElem_mem hj)
  have n1 : h.objs[j].1 ≠ h.next := by omega
  have n2 : h.objs[j].2 ≠ h.next := by omega
  cases o with
  | new =>
    refine ⟨?_, by simp [Heap.hstep, Heap.new]; omega⟩
    simp [Heap.hstep, Heap.new, Heap.view, List.getElem?_append, hj, setAddr, n1, n2]
  | clone i =>
    simp only [Heap.hstep, Heap.clone]
    split
    · exact ⟨rfl, hj⟩
    · refine ⟨?_, by simp; omega⟩
      simp [Heap.view, List.getElem?_append, hj, setAddr, n1, n2]
  | call i op =>
    simp only [Heap.hstep, Heap.call]
    split
    · exact ⟨rfl, hj⟩
    · rename_i a b heq
      refine ⟨?_, hj⟩
      have := h2 i j _ _ heq hq ho
      simp only [Heap.view, hq, Option.map_some, setAddr]
      rw [if_neg (Ne.symm this.1), if_neg (Ne.symm this.2)]

/-- **C03** In every program with any number of options objects, no sequence of operations that makes
no call on object `j` changes anything a client of `j` can see. -/
theorem C03_independence (before after : List (HOp V T)) (j : Nat)
    (hj : j < ((Heap.empty : Heap V T).hrun before).objs.length)
    (hnot : ∀ o ∈ after, o.NotOn j) :
    ((Heap.empty.hrun before).hrun after).view j = ((Heap.empty : Heap V T).hrun before).view j := by
  have : ∀ (after : List (HOp V T)) (h : Heap V T), h.Separate → j < h.objs.length →
      (∀ o ∈ after, o.NotOn j) → (h.hrun after).view j = h.view j := by
    intro after
    induction after with
    | nil => intros; rfl
    | cons o ops ih =>
      intro h hs hj hn
      have hv := view_step_other h hs j hj o (hn o (by simp))
      show ((h.hstep o).hrun ops).view j = _
      rw [ih _ (separate_step h hs o) hv.2 (fun o' ho' => hn o' (by simp [ho'])), hv.1]
  exact this after _ (separate_run before) hj hnot

/-- **C03** A clone is a new object and initially answers every query as the original does. -/
theorem C03_clone_equal (before : List (HOp V T)) (i : Nat)
    (hi : i < ((Heap.empty : Heap V T).hrun before).objs.length) :
    let h := (Heap.empty : Heap V T).hrun before
    (h.clone i).objs.length = h.objs.length + 1 ∧ (h.clone i).view h.objs.length = h.view i := by
  intro h
  have hq : h.objs[i]? = some h.objs[i] := List.getElem?_eq_getElem hi
  constructor
  · simp [Heap.clone, hq]
  · simp [Heap.clone, hq, Heap.view, setAddr]

/-- Non-vacuity for C03: clone, then write to the clone; the original still reads the old value. -/
example : let pre : List (HOp PyV PyT) :=
      [.new, .call 0 (.declare "a" (.int 1) none none), .clone 0]
    let h := ((Heap.empty : Heap PyV PyT).hrun pre).hrun [.call 1 (.set "a" (.int 5))]
    (h.view 0).map (fun d => d.dict "a") = some (some (.int 1)) ∧
    (h.view 1).map (fun d => d.dict "a") = some (some (.int 5)) := by
  refine ⟨rfl, rfl⟩

end SMT.Options
