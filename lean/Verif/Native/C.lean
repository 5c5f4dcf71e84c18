import Mathlib.Logic.Function.Basic
import Mathlib.Data.Int.Notation
import Mathlib.Tactic.Linarith
import Mathlib.Tactic.Ring
import Mathlib.Data.Real.Basic

/-!
# A small model of what the C++ extensions are written in

Memory is a set of separate buffers with a length and cells that may not have been written yet (`new double[n]`, `np.empty(n)`); arithmetic on `int` is exact as long as the result fits in 32 bits.
Reading or writing outside a buffer, reading a cell that was never written, and overflow are undefined behaviour: the program has no result, whatever it does afterwards.
Floating-point numbers are exact.
-/
namespace SMT.Native

/-- Undefined behaviour. -/
inductive UB where
  | outside   -- access outside a buffer
  | unset     -- value of a cell that was never written
  | overflow  -- result of `int` arithmetic, or of a conversion to `int`, that is not an `int`
  | divzero   -- `int` division by zero
  | alloc     -- `new` of a negative length: a C++ exception that nobody catches
deriving DecidableEq, Repr

/-- What a call of a compiled method can end with instead of a result. -/
inductive Exc where
  | ub (u : UB)
  | index     -- `IndexError` of the generated code (`&a[0]` of an array of size 0)
  | intArg    -- `OverflowError`: a Python integer that is no C `int`
  | buffer    -- `ValueError`: buffer of another type than `double` or of another rank
  | key       -- `KeyError`: no training data
  | attribute -- `AttributeError`: never trained, or no training data
  | value     -- `ValueError`: refused argument
  | type      -- `TypeError`: an option that was never given
deriving DecidableEq, Repr

abbrev C := Except UB

/-- A 32-bit `int`. -/
def isInt (z : ℤ) : Prop := -2 ^ 31 ≤ z ∧ z < 2 ^ 31

/-- Not meant to be evaluated: `x + 2 ^ 31` would be unfolded in unary. -/
noncomputable instance (z : ℤ) : Decidable (isInt z) := Classical.propDecidable _

/-- Result of an arithmetic operation on `int`s. -/
noncomputable def chk (z : ℤ) : C ℤ := if isInt z then .ok z else .error .overflow

/-- `a * b + c` on `int`s, from left to right. -/
noncomputable def lin (a b c : ℤ) : C ℤ := do
  let p ← chk (a * b)
  chk (p + c)

/-- `a / b` on `int`s. -/
noncomputable def cdiv (a b : ℤ) : C ℤ := if b = 0 then .error .divzero else chk (a.tdiv b)

/-- A block of memory: a pointer into it is not modelled apart from the start. -/
structure Buf (α : Type) where
  len : ℕ
  cell : ℕ → Option α

/-- `new double[n]`, `np.empty(n)`. -/
def Buf.fresh {α : Type} (n : ℕ) : Buf α := ⟨n, fun _ => none⟩

/-- `new double[n]` for an `int n`. -/
def alloc {α : Type} (n : ℤ) : C (Buf α) := if 0 ≤ n then .ok (Buf.fresh n.toNat) else .error .alloc

/-- An array with the given contents, e.g. `x.flatten()`. -/
def Buf.of {α : Type} (l : List α) : Buf α := ⟨l.length, fun i => l[i]?⟩

/-- `b[i]` as a value. -/
def read {α : Type} (b : Buf α) (i : ℤ) : C α :=
  if 0 ≤ i ∧ i < b.len then
    match b.cell i.toNat with
    | some v => .ok v
    | none => .error .unset
  else .error .outside

/-- `b[i] = v`. -/
def write {α : Type} (b : Buf α) (i : ℤ) (v : α) : C (Buf α) :=
  if 0 ≤ i ∧ i < b.len then .ok ⟨b.len, Function.update b.cell i.toNat (some v)⟩ else .error .outside

/-- `memcpy(dst, src, n * sizeof(*src))`. -/
def memcpy {α : Type} (dst src : Buf α) (n : ℕ) : C (Buf α) :=
  if n ≤ dst.len ∧ n ≤ src.len then .ok ⟨dst.len, fun i => if i < n then src.cell i else dst.cell i⟩ else .error .outside

/-- `for (int i = 0; i < n; i++)`. -/
def loop {σ : Type} (n : ℕ) (s : σ) (body : ℕ → σ → C σ) : C σ := (List.range n).foldlM (fun s i => body i s) s

/-! ## Arrays that come from Python -/

/-- A two-dimensional array: whether it holds `double`s, shape, entries. -/
structure Arr where
  dbl : Bool
  n : ℕ
  m : ℕ
  f : ℕ → ℕ → ℝ

/-- `x.flatten()`. -/
def Arr.flat (a : Arr) : Buf ℝ := ⟨a.n * a.m, fun c => if c < a.n * a.m then some (a.f (c / a.m) (c % a.m)) else none⟩

/-- What the generated code does with an argument `int n` (`idwclib.pyx` 23-28, `rbfclib.pyx` 22-30, `rmtsclib.pyx` 36-71). -/
noncomputable def intArg (z : ℤ) : Except Exc Unit := if isInt z then .ok () else .error .intArg

/-- What it does with an argument `np.ndarray[double] a`: type check. -/
def bufArg (dbl : Bool) : Except Exc Unit := if dbl then .ok () else .error .buffer

/-- `&a[0]`, with bounds checking. -/
def addr {α : Type} (b : Buf α) : Except Exc Unit := if b.len = 0 then .error .index else .ok ()

/-- The call of a C++ method. -/
def native {α : Type} (x : C α) : Except Exc α :=
  match x with
  | .ok a => .ok a
  | .error u => .error (.ub u)

/-- The attribute that holds the compiled object: missing, constructed but not set up (its members have no values), set up. -/
inductive Handle (O : Type) where
  | missing
  | raw
  | ready (o : O)

/-! ## Rules for reasoning about programs -/

@[simp] lemma ok_bind {ε α β : Type} (a : α) (f : α → Except ε β) : (Except.ok a >>= f) = f a := rfl
@[simp] lemma err_bind {ε α β : Type} (e : ε) (f : α → Except ε β) : ((Except.error e : Except ε α) >>= f) = .error e := rfl
@[simp] lemma pure_ok {ε α : Type} (a : α) : (pure a : Except ε α) = .ok a := rfl

lemma bind_eq_ok {ε α β : Type} {x : Except ε α} {f : α → Except ε β} {b : β} : (x >>= f) = .ok b ↔ ∃ a, x = .ok a ∧ f a = .ok b := by
  cases x <;> simp

lemma loop_zero {σ : Type} (s : σ) (body : ℕ → σ → C σ) : loop 0 s body = .ok s := rfl

lemma loop_succ {σ : Type} (n : ℕ) (s : σ) (body : ℕ → σ → C σ) : loop (n + 1) s body = loop n s body >>= body n := by
  unfold loop
  rw [List.range_succ, List.foldlM_append]
  congr 1
  funext s'
  simp only [List.foldlM_cons, List.foldlM_nil]
  cases body n s' <;> rfl

/-- Total correctness: an invariant that every turn keeps, and under which every turn has a result. -/
lemma loop_ok {σ : Type} {n : ℕ} {s : σ} {body : ℕ → σ → C σ} (P : ℕ → σ → Prop) (h0 : P 0 s)
    (hs : ∀ i < n, ∀ s, P i s → ∃ s', body i s = .ok s' ∧ P (i + 1) s') : ∃ s', loop n s body = .ok s' ∧ P n s' := by
  induction n with
  | zero => exact ⟨s, rfl, h0⟩
  | succ n ih =>
    obtain ⟨s1, e1, p1⟩ := ih fun i hi => hs i (by omega)
    obtain ⟨s2, e2, p2⟩ := hs n (by omega) s1 p1
    exact ⟨s2, by rw [loop_succ, e1]; exact e2, p2⟩

/-- Partial correctness: if the loop has a result, every turn had one, in a state satisfying what all turns preserve. -/
lemma loop_inv {σ : Type} {n : ℕ} {s r : σ} {body : ℕ → σ → C σ} (P : σ → Prop) (h0 : P s) (hs : ∀ i < n, ∀ s s', P s → body i s = .ok s' → P s')
    (h : loop n s body = .ok r) : P r ∧ ∀ i < n, ∃ s s', P s ∧ body i s = .ok s' := by
  induction n generalizing r with
  | zero => cases h; exact ⟨h0, fun i hi => by omega⟩
  | succ n ih =>
    rw [loop_succ] at h
    obtain ⟨s1, e1, e2⟩ := bind_eq_ok.1 h
    obtain ⟨p1, q1⟩ := ih (fun i hi => hs i (by omega)) e1
    refine ⟨hs n (by omega) _ _ p1 e2, fun i hi => ?_⟩
    rcases Nat.lt_succ_iff_lt_or_eq.1 hi with hi | rfl
    · exact q1 i hi
    · exact ⟨s1, r, p1, e2⟩

lemma chk_ok {z : ℤ} (h : isInt z) : chk z = .ok z := if_pos h

lemma chk_eq_ok {z w : ℤ} (h : chk z = .ok w) : isInt z ∧ w = z := by
  unfold chk at h; split at h
  · next hz => cases h; exact ⟨hz, rfl⟩
  · cases h

lemma lin_ok {a b c : ℕ} (h : a * b + c < 2 ^ 31) : lin a b c = .ok ((a * b + c : ℕ) : ℤ) := by
  have h1 : a * b < 2 ^ 31 := by omega
  unfold lin
  have i1 : isInt ((a : ℤ) * b) := ⟨le_trans (by norm_num) (show (0 : ℤ) ≤ (a : ℤ) * b by positivity), by exact_mod_cast h1⟩
  have i2 : isInt ((a : ℤ) * b + c) := ⟨le_trans (by norm_num) (show (0 : ℤ) ≤ (a : ℤ) * b + c by positivity), by exact_mod_cast h⟩
  rw [chk_ok i1, ok_bind, chk_ok i2]
  push_cast; rfl

lemma lin_eq_ok {a b c w : ℤ} (h : lin a b c = .ok w) : w = a * b + c ∧ isInt w := by
  unfold lin at h
  obtain ⟨p, e1, e2⟩ := bind_eq_ok.1 h
  obtain ⟨-, rfl⟩ := chk_eq_ok e1
  obtain ⟨h2, rfl⟩ := chk_eq_ok e2
  exact ⟨rfl, h2⟩

lemma read_ok {α : Type} {b : Buf α} {i : ℕ} {v : α} (h : i < b.len) (hv : b.cell i = some v) : read b (i : ℤ) = .ok v := by
  unfold read
  rw [if_pos ⟨by positivity, by exact_mod_cast h⟩, Int.toNat_natCast, hv]

lemma read_eq_ok {α : Type} {b : Buf α} {i : ℤ} {v : α} (h : read b i = .ok v) : 0 ≤ i ∧ i < b.len ∧ b.cell i.toNat = some v := by
  unfold read at h
  split at h
  · next hi =>
    split at h
    · next w hw => cases h; exact ⟨hi.1, hi.2, hw⟩
    · cases h
  · cases h

lemma write_ok {α : Type} {b : Buf α} {i : ℕ} (v : α) (h : i < b.len) : write b (i : ℤ) v = .ok ⟨b.len, Function.update b.cell i (some v)⟩ := by
  unfold write
  rw [if_pos ⟨by positivity, by exact_mod_cast h⟩, Int.toNat_natCast]

lemma write_eq_ok {α : Type} {b b' : Buf α} {i : ℤ} {v : α} (h : write b i v = .ok b') : 0 ≤ i ∧ i < b.len ∧ b'.len = b.len := by
  unfold write at h
  split at h
  · next hi => cases h; exact ⟨hi.1, hi.2, rfl⟩
  · cases h

lemma flat_lt {i n j m : ℕ} (hi : i < n) (hj : j < m) : i * m + j < n * m := by nlinarith

lemma flat_inj {i i' j j' m : ℕ} (hj : j < m) (hj' : j' < m) (h : i * m + j = i' * m + j') : i = i' ∧ j = j' := by
  have hm : 0 < m := by omega
  have e1 : (i * m + j) / m = i := by rw [mul_comm, Nat.mul_add_div hm, Nat.div_eq_of_lt hj]; rfl
  have e2 : (i' * m + j') / m = i' := by rw [mul_comm, Nat.mul_add_div hm, Nat.div_eq_of_lt hj']; rfl
  have : i = i' := by rw [← e1, h, e2]
  subst this
  exact ⟨rfl, by omega⟩

/-- Specification: a buffer starts with the rows `0..n-1` of a table with `m` columns, row after row. -/
def Holds {α : Type} (b : Buf α) (n m : ℕ) (f : ℕ → ℕ → α) : Prop := n * m ≤ b.len ∧ ∀ i < n, ∀ j < m, b.cell (i * m + j) = some (f i j)

lemma Holds.read {α : Type} {b : Buf α} {n m : ℕ} {f : ℕ → ℕ → α} (h : Holds b n m f) {i j : ℕ} (hi : i < n) (hj : j < m) :
    Native.read b ((i * m + j : ℕ) : ℤ) = .ok (f i j) := read_ok (lt_of_lt_of_le (flat_lt hi hj) h.1) (h.2 i hi j hj)

lemma Holds.read' {α : Type} {b : Buf α} {n m : ℕ} {f : ℕ → ℕ → α} (h : Holds b n m f) (hb : n * m ≤ 2 ^ 31) {i j : ℕ} (hi : i < n) (hj : j < m) :
    (lin i m j >>= Native.read b) = .ok (f i j) := by
  have := flat_lt hi hj
  rw [lin_ok (by omega), ok_bind, h.read hi hj]

lemma flat_holds (a : Arr) : Holds a.flat a.n a.m a.f := by
  refine ⟨le_rfl, fun i hi j hj => ?_⟩
  have hm : 0 < a.m := by omega
  unfold Arr.flat
  dsimp only
  rw [if_pos (flat_lt hi hj), mul_comm, Nat.mul_add_div hm, Nat.div_eq_of_lt hj, Nat.mul_add_mod, Nat.mod_eq_of_lt hj]; rfl

lemma native_ok {α : Type} {x : C α} {a : α} (h : x = .ok a) : native x = .ok a := by rw [h]; rfl

lemma native_cases {α : Type} (x : C α) : (∃ a, x = .ok a ∧ native x = .ok a) ∨ ∃ u, x = .error u ∧ native x = .error (.ub u) := by
  cases x with
  | ok a => exact .inl ⟨a, rfl, rfl⟩
  | error u => exact .inr ⟨u, rfl, rfl⟩

end SMT.Native
