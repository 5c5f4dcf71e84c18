import Verif.Caching.Model

/-!
# Properties C07 and C08: caching
-/
namespace SMT.Caching

variable {I R : Type}

/-- The invariant of the cache directory: a readable non-empty file holds the result of the operation it
is named after, for the inputs it is named after. -/
def Sound (cks : I → String) (compute : String → I → R) (fs : FS R) : Prop :=
  ∀ dir desc i r, fs ⟨dir, desc, cks i⟩ = some (.pickle (some r)) → r = compute desc i

theorem runCached_sound (cks : I → String) (hinj : ∀ i j, cks i = cks j → i = j)
    (compute : String → I → R) (fs : FS R) (h : Sound cks compute fs) (dd : Option String) (desc : String)
    (i : I) (fills : Bool) (bf : BodyFate) (wf : WriteFate) :
    Sound cks compute (runCached cks fs dd desc i (compute desc) fills bf wf).1 := by
  unfold runCached
  cases bf with
  | raises => exact h
  | completes =>
    simp only
    split
    · rename_i hc
      cases wf with
      | openFails => exact h
      | torn =>
        intro dir desc' j r hr
        simp only [setFile] at hr
        split at hr
        · simp at hr
        · exact h _ _ _ _ hr
      | ok =>
        intro dir desc' j r hr
        simp only [setFile] at hr
        split at hr
        · rename_i hp
          simp at hp; obtain ⟨_, rfl, hcj⟩ := hp
          have := hinj _ _ hcj; subst this
          simp at hr
          unfold load at hr hc
          cases hf : fs ⟨dirString dd, desc', cks j⟩ with
          | none => simp [hf] at hr; cases fills <;> simp at hr; exact hr.symm
          | some b =>
            cases b with
            | junk => simp [hf] at hr; cases fills <;> simp at hr; exact hr.symm
            | pickle o => simp [hf] at hc
        · exact h _ _ _ _ hr
    · exact h

theorem run_sound (cks : I → String) (hinj : ∀ i j, cks i = cks j → i = j)
    (compute : String → I → R) (fills : String → Bool) (hist : List (Event I)) :
    Sound cks compute (run cks compute fills hist) := by
  have : ∀ (hist : List (Event I)) (fs : FS R), Sound cks compute fs →
      Sound cks compute (hist.foldl (step cks compute fills) fs) := by
    intro hist
    induction hist with
    | nil => intro fs h; exact h
    | cons e es ih =>
      intro fs h
      refine ih _ ?_
      cases e with
      | train dd desc i bf wf => exact runCached_sound cks hinj compute fs h dd desc i _ bf wf
      | corrupt p =>
        intro dir desc j r hr
        simp only [step, setFile] at hr
        split at hr
        · simp at hr
        · exact h _ _ _ _ hr
      | delete p =>
        intro dir desc j r hr
        simp only [step, setFile] at hr
        split at hr
        · simp at hr
        · exact h _ _ _ _ hr
  exact this hist _ (by intro _ _ _ _ h; simp at h)

/-- **C07** After every history of trainings (with any data directory, inputs, crashes of the
operation, failed or torn writes), file corruptions and deletions, a training that returns gives exactly
the result of computing without a cache. Assumption: the checksum does not collide. -/
theorem C07_transparent (cks : I → String) (hinj : ∀ i j, cks i = cks j → i = j)
    (compute : String → I → R) (fills : String → Bool) (hist : List (Event I))
    (dd : Option String) (desc : String) (i : I) (bf : BodyFate) (wf : WriteFate) (r : R)
    (hr : (runCached cks (run cks compute fills hist) dd desc i (compute desc) (fills desc) bf wf).2 = .ok r) :
    r = compute desc i := by
  have hs := run_sound cks hinj compute fills hist
  generalize run cks compute fills hist = fs at hs hr
  unfold runCached at hr
  cases bf with
  | raises => simp at hr
  | completes =>
    have key : ∀ o l, load fs ⟨dirString dd, desc, cks i⟩ = (o, l) →
        (match o with | some r => r | none => compute desc i) = compute desc i := by
      intro o l hol
      cases o with
      | none => rfl
      | some r' =>
        unfold load at hol
        split at hol
        · rename_i o' hf
          simp at hol; obtain ⟨rfl, _⟩ := hol
          exact hs _ _ _ _ hf
        · simp at hol
    rcases hl : load fs ⟨dirString dd, desc, cks i⟩ with ⟨o, l⟩
    have k := key o l hl
    simp only [hl] at hr
    split at hr
    · cases wf <;> simp at hr
      rw [← k, ← hr]; cases o <;> rfl
    · simp at hr; rw [← k, ← hr]; cases o <;> rfl

/-- **C07** Liveness: a training whose body completes and whose file (if one is written) is written
completely always returns — a torn, corrupt or missing cache file never makes it fail. -/
theorem C07_returns (cks : I → String) (compute : I → R) (fs : FS R) (dd : Option String) (desc : String)
    (i : I) (fills : Bool) : ∃ r, (runCached cks fs dd desc i compute fills .completes .ok).2 = .ok r := by
  unfold runCached
  simp only
  split <;> exact ⟨_, rfl⟩

/-- **C07** The cache is effective: after a completed training that stores its result in a named
directory, the next training with the same inputs returns the stored result without computing
(its result does not depend on `compute'`) — unless the file was corrupted or deleted in between. -/
theorem C07_second_run_is_a_hit (cks : I → String) (compute compute' : I → R) (fs : FS R) (d : String)
    (hd : d ≠ "") (desc : String) (i : I) (r : R) (bf wf)
    (hr : (runCached cks fs (some d) desc i compute true .completes .ok).2 = .ok r)
    (hfs : ∀ o, fs ⟨d, desc, cks i⟩ ≠ some (.pickle o))
    (hbf : bf = BodyFate.completes) :
    (runCached cks (runCached cks fs (some d) desc i compute true .completes .ok).1 (some d) desc i
      compute' true bf wf).2 = .ok r := by
  subst hbf
  have hl : load fs ⟨d, desc, cks i⟩ = (none, false) := by
    unfold load; split
    · rename_i o hf; exact absurd hf (hfs o)
    · rfl
  simp [runCached, dirString, hl, truthy, hd] at hr ⊢
  subst hr
  simp [load, setFile]

/-- **C07 (violation)** RBF: what a cache hit restores is not enough for `predict_output_derivatives`:
after a hit on a fresh object it raises, whereas after an uncached training it returns. -/
theorem C07_rbf_hit_loses_matrix {M S D : Type} (mtx : M) (stored sol : S) (f : M → D) :
    rbfOutputDerivs (rbfTrain ⟨none, none⟩ (some stored) mtx sol) f = .error () ∧
    rbfOutputDerivs (rbfTrain ⟨none, none⟩ none mtx sol) f = .ok (f mtx) := ⟨rfl, rfl⟩

/-- **C07** RBF: the solution used after a hit is the stored one (it is not recomputed), whatever the object held before; after a
miss it is the freshly computed one. -/
theorem C07_rbf_solution {M S : Type} (a : RbfAttrs M S) (mtx : M) (stored sol : S) :
    (rbfTrain a (some stored) mtx sol).sol = some stored ∧ (rbfTrain a none mtx sol).sol = some sol := ⟨rfl, rfl⟩

/-! ## C08 -/

/-- **C08** Nothing is written when `data_dir` is `None` or empty. -/
theorem C08_no_write_without_dir (cks : I → String) (compute : I → R) (fs : FS R) (dd : Option String)
    (hdd : dd = none ∨ dd = some "") (desc : String) (i : I) (fills : Bool) (bf : BodyFate) (wf : WriteFate) :
    (runCached cks fs dd desc i compute fills bf wf).1 = fs := by
  unfold runCached
  cases bf with
  | raises => rfl
  | completes =>
    rcases hdd with rfl | rfl <;> simp [truthy]

/-- **C08** Nothing is written when the body raises. -/
theorem C08_no_write_on_exception (cks : I → String) (compute : I → R) (fs : FS R) (dd : Option String)
    (desc : String) (i : I) (fills : Bool) (wf : WriteFate) :
    runCached cks fs dd desc i compute fills .raises wf = (fs, .raised) := rfl

/-- **C08** A file that can be loaded is never overwritten, and no file other than the operation's own
is ever touched. -/
theorem C08_only_own_unreadable_file (cks : I → String) (compute : I → R) (fs : FS R) (dd : Option String)
    (desc : String) (i : I) (fills : Bool) (bf : BodyFate) (wf : WriteFate) (p : Path)
    (hp : (∃ o, fs p = some (.pickle o)) ∨ p ≠ ⟨dirString dd, desc, cks i⟩) :
    (runCached cks fs dd desc i compute fills bf wf).1 p = fs p := by
  unfold runCached
  cases bf with
  | raises => rfl
  | completes =>
    simp only
    split
    · rename_i hc
      have hne : p ≠ ⟨dirString dd, desc, cks i⟩ := by
        rcases hp with ⟨o, ho⟩ | h
        · rintro rfl
          simp [load, ho] at hc
        · exact h
      cases wf <;> simp [setFile, hne]
    · rfl

/-- **C08** With a non-empty directory and no readable file, the completed operation does write. -/
theorem C08_writes_on_success (cks : I → String) (compute : I → R) (fs : FS R) (d : String) (hd : d ≠ "")
    (desc : String) (i : I) (hfs : ∀ o, fs ⟨d, desc, cks i⟩ ≠ some (.pickle o)) :
    (runCached cks fs (some d) desc i compute true .completes .ok).1 ⟨d, desc, cks i⟩
      = some (.pickle (some (compute i))) := by
  have hl : load fs ⟨d, desc, cks i⟩ = (none, false) := by
    unfold load; split
    · rename_i o hf; exact absurd hf (hfs o)
    · rfl
  simp [runCached, dirString, hl, truthy, hd, setFile]

/-- **C08 (disagreement with the docstring "if None, do not load or save")** With `data_dir=None` a file
in a directory called `None` is loaded and used. -/
theorem C08_none_dir_is_loaded (cks : I → String) (compute : I → R) (desc : String) (i : I) (r : R)
    (fills : Bool) (wf : WriteFate) :
    (runCached cks (fun p => if p = ⟨"None", desc, cks i⟩ then some (.pickle (some r)) else none) none desc i
      compute fills .completes wf).2 = .ok r := by
  simp [runCached, dirString, load]

/-- **C08** The checksum leaves the object's printer as it was, unless pickling raises, in which case the
printer attribute is lost. -/
theorem C08_checksum_printer {P : Type} (pr : Option P) :
    checksumPrinter pr true = (pr, .ok ()) ∧ checksumPrinter pr false = (none, .error ()) := ⟨rfl, rfl⟩

/-- Non-vacuity: a torn write, then a recomputation that succeeds and a hit. -/
example : let cks : Nat → String := fun n => String.ofList (List.replicate n 'a')
    let compute : String → Nat → Nat := fun _ n => n + 1
    (∀ i j, cks i = cks j → i = j) ∧
    (runCached cks (run cks compute (fun _ => true) [.train (some "d") "x" 4 .completes .torn]) (some "d") "x" 4
      (compute "x") true .completes .ok).2 = .ok 5 := by
  refine ⟨fun i j h => ?_, by decide⟩
  have := congrArg String.toList h
  simpa using this

end SMT.Caching
