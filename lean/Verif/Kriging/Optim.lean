import Mathlib.Order.Defs.LinearOrder
import Mathlib.Algebra.Order.Field.Basic
import Mathlib.Data.List.Basic

/-!
# Model of the hyper-parameter optimisation loop

`smt/surrogate_models/krg_based.py` 842-1125 `_optimize_hyperparam` and the bookkeeping at the end of `_reduced_likelihood_function` (315-328). The optimiser (scipy COBYLA or TNC) is a
parameter: an attempt is the list of hyper-parameters it evaluates, and how it ends. `Θ` is the type of hyper-parameter vectors (with the noise if it is estimated); values of the likelihood
are minus infinity, finite (in any linear order), or plus infinity. Not a number is not modelled.
-/
namespace SMT.Krg.Optim

variable {Θ K : Type} [LinearOrder K]

/-- A value of the reduced likelihood: minus infinity (failed factorisation), finite, plus infinity (zero process variance). -/
inductive Val (K : Type)
  | ninf
  | fin (v : K)
  | pinf
  deriving DecidableEq, Repr

/-- Comparison of floating-point values. -/
def Val.lt : Val K → Val K → Bool
  | .ninf, .ninf => false
  | .ninf, _ => true
  | .fin _, .ninf => false
  | .fin a, .fin b => decide (a < b)
  | .fin _, .pinf => true
  | .pinf, _ => false

/-- `not np.isinf(v)`. -/
def Val.finite? : Val K → Option K
  | .fin v => some v
  | _ => none

/-- One pass of the `try` block, `krg_based.py` 997-1079. `raises`: a `ValueError` during the optimisation after evaluating the likelihood at the given hyper-parameters. `fatal`: any other
exception. `done`: the optimisers returned `x1` and `x2` (TNC starts twice; with COBYLA `x2 = x1`). -/
inductive Attempt (Θ : Type)
  | raises (visits : List Θ)
  | fatal (visits : List Θ)
  | done (visits : List Θ) (x1 x2 : Θ)
  deriving Repr

/-- Variables of the loop. `mem` is `best_iteration_fail` with `_thetaMemory`; `nbIll` is `nb_ill_matrix`, an attribute set in `_initialize` (5, `krg_based.py` 111) and never reset; `best` is
`best_optimal_theta` with its `best_optimal_par` (`none`: still the empty list), `bestVal` is `best_optimal_rlf_value`. -/
structure St (Θ K : Type) where
  mem : Option (K × Θ)
  nbIll : ℕ
  k : ℕ
  stop : ℕ
  bestVal : K
  best : Option Θ
  deriving DecidableEq, Repr

/-- `max_retry`, `krg_based.py` 959. -/
def maxRetry : ℕ := 10

/-- One evaluation of the likelihood: the bookkeeping of `krg_based.py` 315-328. -/
def visit (rlf : Θ → Val K) (s : St Θ K) (θ : Θ) : St Θ K :=
  match (rlf θ).finite?, s.mem with
  | none, _ => s
  | some v, none => { s with mem := some (v, θ) }
  | some v, some (b, _) => if b < v then { s with mem := some (v, θ) } else s

/-- Result of one pass. -/
inductive Out (Θ K : Type)
  | cont (s : St Θ K)
  | fail (s : St Θ K)
  | crash (s : St Θ K)
  deriving DecidableEq, Repr

/-- The `except ValueError` block, `krg_based.py` 1080-1104. Taking `_thetaMemory` evaluates the likelihood again, which gives the remembered value. -/
def handler (s : St Θ K) : Out Θ K :=
  if 0 < s.nbIll then
    let s := { s with nbIll := s.nbIll - 1, k := s.k + 1, stop := s.stop + 1 }
    match s.mem with
    | none => .cont s
    | some (b, θ) => if s.bestVal < b then .cont { s with best := some θ, bestVal := b } else .cont s
  else if s.best.isNone then .fail s
  else .cont { s with k := s.stop + 1 }

/-- `if optimal_theta_res["fun"] > optimal_theta_res_2["fun"]`, `krg_based.py` 1032-1033: `fun` is minus the likelihood at the returned point. -/
def pick (rlf : Θ → Val K) (x1 x2 : Θ) : Θ := if (rlf x1).lt (rlf x2) then x2 else x1

/-- The comparison with the best so far for `k > 0` and a finite value `v` at `x`, `krg_based.py` 1055-1072. (`mem` is not `None` here: `x` has been evaluated.) -/
def compare (s : St Θ K) (x : Θ) (v : K) : St Θ K :=
  match s.mem with
  | none => s
  | some (b, θ) =>
    if b ≤ v then
      if s.bestVal < v then { s with best := some x, bestVal := v }
      else if s.bestVal < b then { s with best := some θ, bestVal := b } else s
    else s

/-- One pass of `while k < stop`, `krg_based.py` 960-1104. -/
def step (rlf : Θ → Val K) (s : St Θ K) : Attempt Θ → Out Θ K
  | .fatal vs => .crash (vs.foldl (visit rlf) s)
  | .raises vs => handler (vs.foldl (visit rlf) s)
  | .done vs x1 x2 =>
    let x := pick rlf x1 x2
    let s := visit rlf (vs.foldl (visit rlf) s) x
    if 0 < s.k then
      match (rlf x).finite? with
      | none =>
        let s := { s with stop := s.stop + 1 }
        if maxRetry < s.stop then handler s else .cont { s with k := s.k + 1 }
      | some v => .cont { compare s x v with k := s.k + 1 }
    else
      match (rlf x).finite? with
      | none => .cont { s with stop := s.stop + 1, k := s.k + 1 }
      | some v => .cont { s with best := some x, bestVal := v, k := s.k + 1 }

/-- How the loop ends: normally, with a `ValueError`, with another exception; and after how many attempts. -/
inductive Res (Θ K : Type)
  | returned (s : St Θ K) (attempts : ℕ)
  | failed (s : St Θ K) (attempts : ℕ)
  | crashed (s : St Θ K) (attempts : ℕ)
  deriving DecidableEq, Repr

/-- The loop from attempt `i` on, with at most `fuel` attempts (`none`: not finished by then). -/
def loop (rlf : Θ → Val K) (att : ℕ → Attempt Θ) : ℕ → ℕ → St Θ K → Option (Res Θ K)
  | fuel, i, s =>
    if s.k < s.stop then
      match fuel with
      | 0 => none
      | fuel + 1 =>
        match step rlf s (att i) with
        | .cont s => loop rlf att fuel (i + 1) s
        | .fail s => some (.failed s (i + 1))
        | .crash s => some (.crashed s (i + 1))
    else some (.returned s i)

/-- Initial values, `krg_based.py` 864-865, 959; `floor` is `-1e20`. -/
def init (floor : K) (nbIll : ℕ) : St Θ K := { mem := none, nbIll := nbIll, k := 0, stop := 1, bestVal := floor, best := none }

/-- One call of `_optimize_hyperparam` (models other than KPLSK, which runs the loop twice). -/
def optimize (rlf : Θ → Val K) (floor : K) (nbIll fuel : ℕ) (att : ℕ → Attempt Θ) : Option (Res Θ K) := loop rlf att fuel 0 (init floor nbIll)

/-- `nb_ill_matrix` after a call. -/
def Res.nbIll : Res Θ K → ℕ
  | .returned s _ => s.nbIll
  | .failed s _ => s.nbIll
  | .crashed s _ => s.nbIll

/-- Successive trainings of one object: each starts with the `nb_ill_matrix` left by the previous one. Fuel is a parameter (`C65_terminates` says how much is enough). -/
def trainings (floor : K) : ℕ → List ((Θ → Val K) × ℕ × (ℕ → Attempt Θ)) → List (Option (Res Θ K))
  | _, [] => []
  | nb, (rlf, fuel, att) :: rest =>
    let r := optimize rlf floor nb fuel att
    r :: trainings floor ((r.map Res.nbIll).getD nb) rest

/-! ### Starting points -/

/-- Start of one hyper-parameter, `krg_based.py` 920-929; `rand` is the drawn number. -/
def startTheta {F : Type} [Field F] [LinearOrder F] (lo hi rand θ : F) : F := if θ < lo ∨ hi < θ then rand * (hi - lo) + lo else θ

/-- Start of the noise, `krg_based.py` 962-974. -/
def startNoise {F : Type} [Field F] [LinearOrder F] (lo hi ν : F) : F :=
  let ν := if ν = 0 then lo else ν
  if ν < lo ∨ hi < ν then lo else ν

/-- Start vector of attempt `j` (counted from 0) when the noise is estimated, `krg_based.py` 976-978: each pass of the loop appends the noise to the vector of the previous pass. -/
def startVec {F : Type} (theta0 noise0 : List F) : ℕ → List F
  | 0 => theta0 ++ noise0
  | j + 1 => startVec theta0 noise0 j ++ noise0

/-- Shape rule of `np.eye(nt) * (1.0 + nugget + noise)`, `krg_based.py` 250-255, for a vector of `h` thetas followed by the noise: the noise has to have one entry or `nt`
(a matrix with one column stretches). `false`: `ValueError`. -/
def shapeOk (h nt len : ℕ) : Bool := decide (len - h = 1 ∨ len - h = nt ∨ nt = 1)

end SMT.Krg.Optim
