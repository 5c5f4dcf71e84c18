import Verif.Solvers.Model
import Mathlib.Algebra.Order.Field.Basic

/-!
# Model of `KrylovSolver` with its default method, conjugate gradients

`smt/utils/linear_solvers.py` 227-313. SciPy's `cg` is not in the repository; it is modelled by the preconditioned conjugate gradient method it documents, in exact arithmetic, with the stopping rule
of `atol="legacy"`. The other methods (`bicgstab`, `gmres`) can be chosen only by passing a solver object and are not modelled.
-/
set_option linter.unusedSectionVars false
set_option linter.unusedSimpArgs false
set_option linter.unusedVariables false

namespace SMT.Solvers
open Matrix

variable {K : Type} [Field K] {n : ℕ}

/-- Iterate, residual and search direction. -/
structure CgSt (K : Type) (n : ℕ) where
  x : Fin n → K
  r : Fin n → K
  p : Fin n → K

/-- Start of `scipy.sparse.linalg.cg(A, b, x0=x0, M=M)`, called in `linear_solvers.py` 301-310. -/
def cgStart (A M : Matrix (Fin n) (Fin n) K) (b x0 : Fin n → K) : CgSt K n :=
  let r := b - A *ᵥ x0
  ⟨x0, r, M *ᵥ r⟩

/-- One iteration of conjugate gradients (SciPy; the update of the direction is written at the end of an iteration instead of the beginning of the next). -/
def cgStep (A M : Matrix (Fin n) (Fin n) K) (s : CgSt K n) : CgSt K n :=
  let rho := s.r ⬝ᵥ (M *ᵥ s.r)
  let q := A *ᵥ s.p
  let alpha := rho / (s.p ⬝ᵥ q)
  let r := s.r - alpha • q
  let beta := (r ⬝ᵥ (M *ᵥ r)) / rho
  ⟨s.x + alpha • s.p, r, M *ᵥ r + beta • s.p⟩

/-- The iterations: stop when the residual is small (`∑ r² ≤ thr`) or after `maxiter` of them. -/
def cgLoop [LinearOrder K] (A M : Matrix (Fin n) (Fin n) K) (thr : K) : ℕ → CgSt K n → CgSt K n
  | 0, s => s
  | k + 1, s => if s.r ⬝ᵥ s.r ≤ thr then s else cgLoop A M thr k (cgStep A M s)

/-- `cg(..., tol=tol, atol="legacy", maxiter=ilimit)`, `linear_solvers.py` 261-268 and 301-310: the initial guess is returned if its residual norm is at most `tol`; the iterations stop at a residual
norm of `tol` times the norm of the right-hand side. -/
def cg [LinearOrder K] (A M : Matrix (Fin n) (Fin n) K) (tol : K) (ilimit : ℕ) (b x0 : Fin n → K) : Fin n → K :=
  let s := cgStart A M b x0
  if s.r ⬝ᵥ s.r ≤ tol ^ 2 then x0 else (cgLoop A M (tol ^ 2 * (b ⬝ᵥ b)) ilimit s).x

end SMT.Solvers
