import Mathlib.Algebra.Order.Field.Basic
import Mathlib.Algebra.BigOperators.Fin
import Mathlib.Algebra.Order.AbsoluteValue.Basic
import Mathlib.LinearAlgebra.Matrix.Notation

/-!
# Model of `smt/utils/line_search.py`

Exact field arithmetic. Loops without a bound in the code take `fuel`; running out of fuel is a separate outcome.
`np.linalg.solve` and `np.roots` are parameters that may raise.
-/
namespace SMT.LineSearch

variable {K : Type} [Field K] [LinearOrder K] {n : ℕ}

/-- Attributes of `LineSearch`, `line_search.py` 50-59. -/
structure LS (K : Type) (n : ℕ) where
  x : Fin n → K
  dx : Fin n → K
  func : (Fin n → K) → K
  grad : (Fin n → K) → Fin n → K
  u1 : K
  u2 : K

/-- `self.x + a * self.dx`. -/
def LS.at (L : LS K n) (a : K) : Fin n → K := fun i => L.x i + a * L.dx i

/-- `_phi`, `line_search.py` 61-67. -/
def LS.phi (L : LS K n) (a : K) : K := L.func (L.at a)

/-- `_dphi`, `line_search.py` 69-73. -/
def LS.dphi (L : LS K n) (a : K) : K := ∑ i, L.grad (L.at a) i * L.dx i

/-- `_func_decreased`, `line_search.py` 75-79. -/
def LS.funcDecreased (L : LS K n) (a : K) : Prop := L.phi a ≤ L.phi 0 + L.u1 * a * L.dphi 0

/-- `_grad_decreased`, `line_search.py` 81-85. -/
def LS.gradDecreased (L : LS K n) (a : K) : Prop := |L.dphi a| ≤ |L.u2 * L.dphi 0|

instance (L : LS K n) (a : K) : Decidable (L.funcDecreased a) := by unfold LS.funcDecreased; infer_instance
instance (L : LS K n) (a : K) : Decidable (L.gradDecreased a) := by unfold LS.gradDecreased; infer_instance

/-- `NullLineSearch.__call__`, `line_search.py` 115-116. -/
def LS.null (L : LS K n) (a : K) : Fin n → K := L.at a

/-- The loop of `BacktrackingLineSearch.__call__`, `line_search.py` 125-127; `none` = fuel exhausted. The result is the accepted
step. -/
def LS.backtrack (L : LS K n) (rho : K) : ℕ → K → Option K
  | 0, _ => none
  | fuel + 1, a => if ¬ L.funcDecreased a then L.backtrack rho fuel (a * rho) else some a

/-- `BacktrackingLineSearch.__call__`, `line_search.py` 124-128 (defaults `initial_a = 1`, `rho = 0.5`). -/
def LS.backtracking (L : LS K n) (fuel : ℕ) (initial_a rho : K) : Option (Fin n → K) :=
  (L.backtrack rho fuel initial_a).map L.at

/-- The triples `(a, p, dp)` passed around. -/
structure Pt (K : Type) where
  a : K
  p : K
  dp : K

/-- `a`, `self._phi(a)`, `self._dphi(a)`. -/
def LS.eval (L : LS K n) (a : K) : Pt K := ⟨a, L.phi a, L.dphi a⟩

/-- How a call ends. -/
inductive Out (K : Type) where
  | step (a : K)      -- returns `self.x + a * self.dx`
  | nothing           -- falls off the end: returns `None`
  | raised
  | fuel
  deriving DecidableEq

/-- `_zoom`, `line_search.py` 170-194; `cm` is `_compute_minimum` (`none` when it raises). -/
def LS.zoom (L : LS K n) (cm : Pt K → Pt K → Option (Pt K)) : ℕ → Pt K → Pt K → Out K
  | 0, _, _ => .fuel
  | fuel + 1, s1, s2 =>
    match cm s1 s2 with
    | none => .raised
    | some s =>
      if ¬ L.funcDecreased s.a ∨ s.p > s1.p then L.zoom cm fuel s1 s
      else if L.gradDecreased s.a then .step s.a
      else if s.dp * (s2.a - s1.a) ≥ 0 then L.zoom cm fuel s s1
      else L.zoom cm fuel s s2

/-- The `for ind in range(20)` loop of `BracketedLineSearch.__call__`, `line_search.py` 144-168. -/
def LS.bracket (L : LS K n) (cm : Pt K → Pt K → Option (Pt K)) (fuel : ℕ) : ℕ → Pt K → Pt K → Out K
  | 0, _, _ => .nothing
  | it + 1, s1, s2 =>
    if ¬ L.funcDecreased s2.a ∨ s2.p > s1.p then L.zoom cm fuel s1 s2
    else if L.gradDecreased s2.a then .step s2.a
    else if s2.dp ≥ 0 then L.zoom cm fuel s2 s1
    else L.bracket cm fuel it s2 (L.eval (s2.a * (3 / 2)))

/-- `BracketedLineSearch.__call__`, `line_search.py` 136-168. -/
def LS.bracketed (L : LS K n) (cm : Pt K → Pt K → Option (Pt K)) (fuel : ℕ) (initial_a : K) : Out K :=
  L.bracket cm fuel 20 (L.eval 0) (L.eval initial_a)

/-- `BracketedLineSearch._compute_minimum`, `line_search.py` 196-203. -/
def LS.midpoint (L : LS K n) (s1 s2 : Pt K) : Option (Pt K) := some (L.eval (1 / 2 * s1.a + 1 / 2 * s2.a))

/-- `QuadraticLineSearch._compute_minimum`, `line_search.py` 211-224. `solve` is `np.linalg.solve`. (Division by a zero `d1` gives
an infinity in NumPy; it is 0 here.) -/
def LS.quadratic (L : LS K n) (solve : Matrix (Fin 3) (Fin 3) K → (Fin 3 → K) → Option (Fin 3 → K)) (s1 s2 : Pt K) : Option (Pt K) :=
  (solve !![1, s1.a, s1.a ^ 2; 1, s2.a, s2.a ^ 2; 0, 1, 2 * s1.a] ![s1.p, s2.p, s1.dp]).map fun c =>
    let d0 := c 1
    let d1 := 2 * c 2
    L.eval (-d0 / d1)

/-- One of the two acceptance blocks of `CubicLineSearch._compute_minimum`, `line_search.py` 247-258; `r = none` is a non-real root. The
state is `(a, p, dp)` if a root was accepted, with the running bound `p`. -/
def LS.cubicTry (L : LS K n) (a1 a2 : K) (r : Option K) (st : Option (Pt K) × K) : Option (Pt K) × K :=
  match r with
  | none => st
  | some r =>
    if (a1 ≤ r ∧ r ≤ a2) ∨ (a2 ≤ r ∧ r ≤ a1) then
      if L.phi r < st.2 then (some (L.eval r), L.phi r) else st
    else st

/-- `CubicLineSearch._compute_minimum`, `line_search.py` 232-260. `roots` is `np.roots` with the unpacking into two names (it raises for
fewer than two roots). If no root is accepted, `dp` is unbound and the `return` raises. -/
def LS.cubic (L : LS K n) (solve : Matrix (Fin 4) (Fin 4) K → (Fin 4 → K) → Option (Fin 4 → K))
    (roots : K → K → K → Option (Option K × Option K)) (s1 s2 : Pt K) : Option (Pt K) :=
  match solve !![1, s1.a, s1.a ^ 2, s1.a ^ 3; 1, s2.a, s2.a ^ 2, s2.a ^ 3; 0, 1, 2 * s1.a, 3 * s1.a ^ 2; 0, 1, 2 * s2.a, 3 * s2.a ^ 2]
      ![s1.p, s2.p, s1.dp, s2.dp] with
  | none => none
  | some c =>
    match roots (3 * c 3) (2 * c 2) (c 1) with
    | none => none
    | some (r1, r2) => (L.cubicTry s1.a s2.a r2 (L.cubicTry s1.a s2.a r1 (none, max s1.p s2.p))).1

end SMT.LineSearch
