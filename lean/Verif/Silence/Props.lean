import Verif.Silence.Model
import Mathlib.Tactic

/-!
# C85: suppressing output
-/
namespace SMT.Silence
set_option linter.unusedSectionVars false
set_option linter.unusedSimpArgs false
set_option linter.unusedVariables false

/-! ## Specification -/

/-- Nothing but prints, exceptions and `try`. -/
def Plain : Prog → Prop
  | .print _ => True
  | .fail => True
  | .assign _ => False
  | .seq p q => Plain p ∧ Plain q
  | .silence _ => False
  | .attempt p => Plain p

/-- `Silence` blocks are not nested, and `sys.stdout` is not assigned to. -/
def Flat : Prog → Prop
  | .print _ => True
  | .fail => True
  | .assign _ => False
  | .seq p q => Flat p ∧ Flat q
  | .silence p => Plain p
  | .attempt p => Flat p

/-- What a program should show, and whether it raises: silenced parts show nothing but raise as they would. -/
def shown : Prog → List String × Bool
  | .print s => ([s], false)
  | .fail => ([], true)
  | .assign _ => ([], false)
  | .seq p q => if (shown p).2 then shown p else ((shown p).1 ++ (shown q).1, (shown q).2)
  | .silence p => ([], (shown p).2)
  | .attempt p => ((shown p).1, false)

/-- A state as at the start of the interpreter: standard output open and installed, streams not yet opened are not closed. -/
structure Fresh (st : St) : Prop where
  cur : st.cur = 0
  open0 : st.closed 0 = false
  later : ∀ k, st.next ≤ k → st.closed k = false
  pos : 0 < st.next

/-! ## Theorems -/

/-- A plain program writes to the current stream. -/
theorem run_plain (p : Prog) (hp : Plain p) : ∀ st, st.closed st.cur = false →
    (run p st).2 = (shown p).2 ∧ (run p st).1 = { st with text := Function.update st.text st.cur (st.text st.cur ++ (shown p).1) } := by
  induction p with
  | print s => intro st h; simp [run, doPrint, h, shown]
  | fail => intro st h; simp [run, shown]
  | assign k => exact absurd hp (by simp [Plain])
  | silence p _ => exact absurd hp (by simp [Plain])
  | attempt p ih =>
    intro st h
    obtain ⟨-, h2⟩ := ih hp st h
    exact ⟨rfl, h2⟩
  | seq p q ihp ihq =>
    intro st h
    obtain ⟨h1, h2⟩ := ihp hp.1 st h
    unfold run shown
    simp only []
    rw [h1]
    split_ifs with hb
    · exact ⟨h1, h2⟩
    · rw [h2]
      obtain ⟨h3, h4⟩ := ihq hp.2 { st with text := Function.update st.text st.cur (st.text st.cur ++ (shown p).1) } h
      refine ⟨h3, ?_⟩
      rw [h4]
      simp [List.append_assoc]

/-- **C85** Blocks that are not nested, in any sequence and inside any `try`: standard output receives exactly what is printed outside the blocks, exceptions propagate as without the blocks, and afterwards standard
output is installed and open. -/
theorem C85_flat (p : Prog) (hp : Flat p) : ∀ st, Fresh st →
    (run p st).2 = (shown p).2 ∧ (run p st).1.text 0 = st.text 0 ++ (shown p).1 ∧ Fresh (run p st).1 ∧ st.next ≤ (run p st).1.next := by
  induction p with
  | print s =>
    intro st h
    have h1 := run_plain (.print s) trivial st (by rw [h.cur]; exact h.open0)
    refine ⟨h1.1, ?_, ?_, ?_⟩
    · rw [h1.2, h.cur]; simp
    · rw [h1.2]; exact ⟨h.cur, h.open0, h.later, h.pos⟩
    · rw [h1.2]
  | fail => intro st h; exact ⟨rfl, by simp [run, shown], h, le_rfl⟩
  | assign k => exact absurd hp (by simp [Flat])
  | attempt p ih =>
    intro st h
    obtain ⟨-, h2, h3, h4⟩ := ih hp st h
    exact ⟨rfl, h2, h3, h4⟩
  | seq p q ihp ihq =>
    intro st h
    obtain ⟨h1, h2, h3, h4⟩ := ihp hp.1 st h
    unfold run shown
    simp only []
    rw [h1]
    split_ifs with hb
    · exact ⟨h1, h2, h3, h4⟩
    · obtain ⟨k1, k2, k3, k4⟩ := ihq hp.2 _ h3
      exact ⟨k1, by rw [k2, h2, List.append_assoc], k3, h4.trans k4⟩
  | silence p _ =>
    intro st h
    have hc : (enter st).closed (enter st).cur = false := h.later _ le_rfl
    obtain ⟨h1, h2⟩ := run_plain p hp (enter st) hc
    have hne : (0 : ℕ) ≠ st.next := h.pos.ne
    unfold run shown
    simp only []
    rw [h1, h2]
    refine ⟨rfl, ?_, ⟨rfl, ?_, fun k hk => ?_, ?_⟩, ?_⟩
    · simp [exit, enter, Function.update_of_ne hne]
    · show Function.update st.closed st.next true 0 = false
      rw [Function.update_of_ne hne]; exact h.open0
    · show Function.update st.closed st.next true k = false
      have hk' : st.next + 1 ≤ k := hk
      rw [Function.update_of_ne (by omega)]; exact h.later k (by omega)
    · show 0 < st.next + 1; omega
    · show st.next ≤ st.next + 1; omega

/-- **C85** Nested blocks: what is printed in the outer block after the inner one ends is shown, and when the outer block ends, standard output is closed, so the next `print` raises. -/
theorem C85_nested (a b c : Prog) (ha : Plain a) (hb : Plain b) (hc : Plain c) (na : (shown a).2 = false) (nb : (shown b).2 = false) (st : St) (h : Fresh st) :
    let r := run (.silence (.seq a (.seq (.silence b) c))) st
    r.1.text 0 = st.text 0 ++ (shown c).1 ∧ r.1.closed 0 = true ∧ r.1.cur = 0 ∧ ∀ s, (run (.print s) r.1).2 = true := by
  intro r
  have hca : (enter st).closed (enter st).cur = false := h.later _ le_rfl
  obtain ⟨a1, a2⟩ := run_plain a ha (enter st) hca
  set st1 := (run a (enter st)).1 with hst1
  have e1 : st1.next = st.next + 1 := by rw [a2]; rfl
  have e1c : st1.closed = st.closed := by rw [a2]; rfl
  have hcb : (enter st1).closed (enter st1).cur = false := by
    show st1.closed st1.next = false
    rw [e1c, e1]; exact h.later _ (by omega)
  obtain ⟨b1, b2⟩ := run_plain b hb (enter st1) hcb
  set st2 := exit (run b (enter st1)).1 with hst2
  have hcc : st2.closed st2.cur = false := by
    show Function.update (run b (enter st1)).1.closed (run b (enter st1)).1.cur true 0 = false
    rw [b2]
    show Function.update st1.closed st1.next true 0 = false
    rw [Function.update_of_ne (by have := h.pos; omega), e1c]; exact h.open0
  obtain ⟨c1, c2⟩ := run_plain c hc st2 hcc
  have hr : r = (exit (run c st2).1, (run c st2).2) := by
    show run (.silence (.seq a (.seq (.silence b) c))) st = _
    simp only [run]
    rw [a1, na]
    simp only [Bool.false_eq_true, if_false, ← hst1]
    rw [b1, nb]
    simp only [Bool.false_eq_true, if_false, ← hst2]
  have hcur : st2.cur = 0 := rfl
  have t2 : st2.text 0 = st.text 0 := by
    show (run b (enter st1)).1.text 0 = _
    rw [b2]
    show Function.update st1.text st1.next _ 0 = _
    rw [Function.update_of_ne (by have := h.pos; omega), a2]
    show Function.update st.text st.next _ 0 = _
    rw [Function.update_of_ne h.pos.ne]
  have hcl : r.1.closed 0 = true := by
    rw [hr]
    show Function.update (run c st2).1.closed (run c st2).1.cur true 0 = true
    rw [c2]
    show Function.update st2.closed st2.cur true 0 = true
    rw [hcur]; simp
  refine ⟨?_, hcl, ?_, fun s => ?_⟩
  · rw [hr]
    show (run c st2).1.text 0 = _
    rw [c2, hcur]
    simp [t2]
  · rw [hr]; rfl
  · have hr0 : r.1.cur = 0 := by rw [hr]; rfl
    simp [run, doPrint, hr0, hcl]

/-- **C85** A caller that has redirected `sys.stdout` (a notebook, a test runner, a log file) loses the redirection: after a block, prints go to `sys.__stdout__`; the caller's stream receives nothing more. -/
theorem C85_redirection_lost (k : ℕ) (a : Prog) (ha : Plain a) (na : (shown a).2 = false) (s : String) (st : St) (h : Fresh st) (hk : 0 < k) (hkn : k < st.next) :
    let r := run (.seq (.assign k) (.seq (.silence a) (.print s))) st
    r.2 = false ∧ r.1.text 0 = st.text 0 ++ [s] ∧ r.1.text k = st.text k := by
  intro r
  set st0 : St := { st with cur := k } with hst0
  have hca : (enter st0).closed (enter st0).cur = false := h.later _ le_rfl
  obtain ⟨a1, a2⟩ := run_plain a ha (enter st0) hca
  set st1 := exit (run a (enter st0)).1 with hst1
  have hc1 : st1.closed st1.cur = false := by
    show Function.update (run a (enter st0)).1.closed (run a (enter st0)).1.cur true 0 = false
    rw [a2]
    show Function.update st.closed st.next true 0 = false
    rw [Function.update_of_ne h.pos.ne]; exact h.open0
  have hcl0 : st1.closed 0 = false := hc1
  have hr : r = run (.print s) st1 := by
    show run (.seq (.assign k) (.seq (.silence a) (.print s))) st = _
    simp only [run, Bool.false_eq_true, if_false, ← hst0]
    rw [a1, na]
    simp only [Bool.false_eq_true, if_false, ← hst1]
  have ht : ∀ j, j ≠ st.next → st1.text j = st.text j := by
    intro j hj
    show (run a (enter st0)).1.text j = _
    rw [a2]
    show Function.update st.text st.next _ j = _
    rw [Function.update_of_ne hj]
  have hcur : st1.cur = 0 := rfl
  rw [hr]
  have hpr : run (.print s) st1 = ({ st1 with text := Function.update st1.text 0 (st1.text 0 ++ [s]) }, false) := by
    simp only [run, doPrint, hcur, hcl0, Bool.false_eq_true, if_false]
  rw [hpr]
  refine ⟨rfl, ?_, ?_⟩
  · show Function.update st1.text 0 (st1.text 0 ++ [s]) 0 = _
    rw [Function.update_self, ht 0 h.pos.ne]
  · show Function.update st1.text 0 (st1.text 0 ++ [s]) k = _
    rw [Function.update_of_ne hk.ne', ht k (by omega)]

/-- **C85** `Silence2` under Python 3 never redirects: with a text mode, or with one file other than the null device for
both streams, it raises; otherwise it leaves standard output connected to what it was connected to. -/
theorem C85_silence2 (stdout stderr : String) (textMode : Bool) (st : Fds) :
    (textMode = true ∨ (stdout = stderr ∧ stdout ≠ "/dev/null") → enter2 stdout stderr textMode st = none) ∧
    (textMode = false → (stdout ≠ stderr ∨ stdout = "/dev/null") → enter2 stdout stderr textMode st = some st) := by
  unfold enter2 lazyMap
  constructor
  · rintro (h | h)
    · rw [if_pos h]
    · rw [if_pos h, ite_self]
  · intro h h'
    rw [h, if_neg (by simp), if_neg (by tauto)]

/-- A fresh state exists, and a program with two blocks and a raising one inside `try` is flat. -/
example : Fresh ⟨0, fun _ => false, fun _ => [], 1⟩ := ⟨rfl, rfl, fun _ _ => rfl, one_pos⟩

example : Flat (.seq (.print "a") (.seq (.silence (.print "b")) (.seq (.attempt (.silence (.seq (.print "c") .fail))) (.print "d")))) ∧
    shown (.seq (.print "a") (.seq (.silence (.print "b")) (.seq (.attempt (.silence (.seq (.print "c") .fail))) (.print "d")))) = (["a", "d"], false) := by
  simp [Flat, Plain, shown]

end SMT.Silence
