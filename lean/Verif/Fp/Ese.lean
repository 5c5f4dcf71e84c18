import Verif.Fp.StandardProps2

/-!
# Model of the ESE optimisation of `smt/sampling_methods/lhs.py` 77-302 in rounded arithmetic

`Verif/Ese/Model.lean` computes the criterion exactly. Here every operation rounds (unbounded exponent: no overflow, no underflow), and infinities
and NaN appear where NumPy produces them: `0.0 ** (-p)` is infinite, the square root and the power `1/p` of a negative number are NaN,
comparisons with NaN are false, and `np.argmin` returns the first NaN if there is one.
-/
set_option linter.unusedSectionVars false
set_option linter.unusedSimpArgs false
set_option linter.unusedVariables false

namespace SMT.Fp

variable {K : Type} [Field K] [LinearOrder K] [IsStrictOrderedRing K]

/-- `a <= b` (false if one of them is NaN). -/
def X.le : X K → X K → Bool
  | .nan, _ => false
  | _, .nan => false
  | .fin a, .fin b => decide (a ≤ b)
  | .fin _, .inf s => !s
  | .inf s, .fin _ => s
  | .inf s, .inf t => s || !t

namespace Rounding
variable (R : Rounding K)

/-- `a + b`. -/
def addR : X K → X K → X K
  | .nan, _ => .nan
  | _, .nan => .nan
  | .fin a, .fin b => .fin (R.rnd (a + b))
  | .fin _, .inf s => .inf s
  | .inf s, .fin _ => .inf s
  | .inf s, .inf t => if s = t then .inf s else .nan

/-- `a - b`. -/
def subR (a b : X K) : X K := R.addR a b.neg

/-- `a * b`. -/
def mulR : X K → X K → X K
  | .nan, _ => .nan
  | _, .nan => .nan
  | .fin a, .fin b => .fin (R.rnd (a * b))
  | .fin a, .inf s => if a = 0 then .nan else .inf (decide (a < 0) != s)
  | .inf s, .fin b => if b = 0 then .nan else .inf (decide (b < 0) != s)
  | .inf s, .inf t => .inf (s != t)

/-- `a / b` for a number `b ≠ 0` (the code divides by literals only). -/
def divR : X K → K → X K
  | .nan, _ => .nan
  | .fin a, b => .fin (R.rnd (a / b))
  | .inf s, b => .inf (decide (b < 0) != s)

end Rounding

/-- `np.sum` of values with infinities and NaN. -/
def Tree.evalR (R : Rounding K) (f : ℕ → X K) : Tree → X K
  | .leaf i => f i
  | .node a b => R.addR (a.evalR R f) (b.evalR R f)

namespace Ese

abbrev Design (K : Type) (n d : ℕ) := Fin n → Fin d → K

/-- `self.random_state`: any generator with any hidden state. -/
structure Rng (K : Type) (n : ℕ) where
  σ : Type
  randint : σ → Fin n × σ
  rand : σ → K × σ

/-- The arithmetic: the rounding of sums, differences, products and quotients; the functions computed by NumPy, SciPy and the C library; and the order in which
`m` values are added. -/
structure Arith (K : Type) [Field K] [LinearOrder K] [IsStrictOrderedRing K] where
  R : Rounding K
  /-- the square root of a number `≥ 0` -/
  sq : K → K
  /-- `x ** (-p)`, for `x > 0` -/
  npow : K → K
  /-- `x ** p`, for `x ≥ 0` -/
  ppow : K → K
  /-- `x ** (1.0 / p)`, for `x ≥ 0` -/
  root : K → K
  tree : ℕ → Tree

variable {n d : ℕ} (A : Arith K)

/-- `x ** 2`: NumPy multiplies, `lhs.py` 291, 294. -/
def sqr (x : K) : K := A.R.rnd (x * x)

/-- The sum of the squared differences, as `pdist` and `cdist` compute it (`lhs.py` 242, 288-289; SciPy). -/
def sqDist (u v : Fin d → K) : K :=
  (A.tree d).eval A.R fun c => if h : c < d then sqr A (A.R.rnd (u ⟨c, h⟩ - v ⟨c, h⟩)) else 0

/-- The Euclidean distance, as computed by `pdist`/`cdist` (`lhs.py` 242, 288-289). -/
def dist (u v : Fin d → K) : K := A.sq (sqDist A u v)

/-- `np.sqrt` (`lhs.py` 290, 293). -/
def sqrtX (v : K) : X K := if v < 0 then .nan else .fin (A.sq v)

/-- `x ** (-p)` (`lhs.py` 242, 298). -/
def npowX : X K → X K
  | .nan => .nan
  | .inf _ => .fin 0
  | .fin x => if x = 0 then .inf false else .fin (A.npow x)

/-- `PhiP_ ** p` (`lhs.py` 298). -/
def ppowX : X K → X K
  | .nan => .nan
  | .inf _ => .inf false
  | .fin x => .fin (A.ppow x)

/-- `x ** (1.0 / p)` (`lhs.py` 242, 299): NaN for a negative number, `+∞` for `-∞`. -/
def rootX : X K → X K
  | .nan => .nan
  | .inf _ => .inf false
  | .fin x => if x < 0 then .nan else .fin (A.root x)

/-- `.sum()` (`lhs.py` 242, 298). -/
def sumX (l : List (X K)) : X K := if l = [] then .fin 0 else (A.tree l.length).evalR A.R fun i => l.getD i .nan

/-- The pairs of `pdist`. -/
def pairs (n : ℕ) : List (Fin n × Fin n) := (List.finRange n ×ˢ List.finRange n).filter fun q => q.1 < q.2

/-- `_PhiP`, `lhs.py` 232-242. -/
def phiP (P : Design K n d) : X K := rootX A (sumX A ((pairs n).map fun q => npowX A (.fin (dist A (P q.1) (P q.2)))))

/-- A rejection loop `i = randint(n); while bad(i): i = randint(n)`, `lhs.py` 278-284. -/
def drawRow (G : Rng K n) (bad : Fin n → Bool) : ℕ → G.σ → Option (Fin n × G.σ)
  | 0, _ => none
  | fuel + 1, s =>
    if bad (G.randint s).1 then drawRow G bad fuel (G.randint s).2 else some (G.randint s)

/-- `X[i1, k], X[i2, k] = X[i2, k], X[i1, k]`, `lhs.py` 300. -/
def swapEntry (P : Design K n d) (k : Fin d) (i1 i2 : Fin n) : Design K n d :=
  Function.update (Function.update P i1 (Function.update (P i1) k (P i2 k)))
    i2 (Function.update (P i2) k (P i1 k))

/-- The rows of `X_ = np.delete(X, [i1, i2], axis=0)`, `lhs.py` 286. -/
def others (i1 i2 : Fin n) : List (Fin n) := (List.finRange n).filter fun j => j ≠ i1 ∧ j ≠ i2

/-- `d1` for row `j`, `lhs.py` 290-292. -/
def d1 (P : Design K n d) (k : Fin d) (i1 i2 j : Fin n) : X K :=
  sqrtX A (A.R.rnd (A.R.rnd (sqr A (dist A (P i1) (P j)) + sqr A (A.R.rnd (P i2 k - P j k))) - sqr A (A.R.rnd (P i1 k - P j k))))

/-- `d2` for row `j`, `lhs.py` 293-295. -/
def d2 (P : Design K n d) (k : Fin d) (i1 i2 j : Fin n) : X K :=
  sqrtX A (A.R.rnd (A.R.rnd (sqr A (dist A (P i2) (P j)) - sqr A (A.R.rnd (P i2 k - P j k))) + sqr A (A.R.rnd (P i1 k - P j k))))

/-- `d1 ** (-p) - dist1 ** (-p) + d2 ** (-p) - dist2 ** (-p)` for row `j`, `lhs.py` 298. -/
def term (P : Design K n d) (k : Fin d) (i1 i2 j : Fin n) : X K :=
  A.R.subR (A.R.addR (A.R.subR (npowX A (d1 A P k i1 i2 j)) (npowX A (.fin (dist A (P i1) (P j)))))
    (npowX A (d2 A P k i1 i2 j))) (npowX A (.fin (dist A (P i2) (P j))))

/-- The criterion of the exchanged design, `lhs.py` 286-299. -/
def exchangeVal (P : Design K n d) (k : Fin d) (i1 i2 : Fin n) (phi : X K) : X K :=
  rootX A (A.R.addR (ppowX A phi) (sumX A ((others i1 i2).map (term A P k i1 i2))))

/-- `_PhiP_exchange`, `lhs.py` 244-302: the modified copy of the design and its criterion. -/
def exchange (G : Rng K n) (fuel : ℕ) (fixed : List (Fin n)) (P : Design K n d) (k : Fin d)
    (phi : X K) (s : G.σ) : Option ((Design K n d × X K) × G.σ) :=
  match drawRow G (fun i => decide (i ∈ fixed)) fuel s with
  | none => none
  | some (i1, s1) =>
    match drawRow G (fun i => decide (i = i1) || decide (i ∈ fixed)) fuel s1 with
    | none => none
    | some (i2, s2) => some ((swapEntry P k i1 i2, exchangeVal A P k i1 i2 phi), s2)

/-- The `for j in range(J)` loop, `lhs.py` 178-184. -/
def candidates (G : Rng K n) (fuel : ℕ) (fixed : List (Fin n)) (P : Design K n d) (k : Fin d)
    (phi : X K) : ℕ → G.σ → Option (List (Design K n d × X K) × G.σ)
  | 0, s => some ([], s)
  | J + 1, s =>
    match exchange A G fuel fixed P k phi s with
    | none => none
    | some (c, s1) =>
      match candidates G fuel fixed P k phi J s1 with
      | none => none
      | some (cs, s2) => some (c :: cs, s2)

/-- `np.argmin`, `lhs.py` 186-188, 194: does a later value replace the best one so far? NaN counts as the least, and the first of equals is kept. -/
def takes (best v : X K) : Bool :=
  match best, v with
  | .nan, _ => false
  | _, .nan => true
  | b, v => v.lt b

/-- `k = np.argmin(l_PhiP)` and the two look-ups, `lhs.py` 186-188, 194. -/
def firstMin (best : Design K n d × X K) : List (Design K n d × X K) → Design K n d × X K
  | [] => best
  | c :: cs => firstMin (if takes best.2 c.2 then c else best) cs

/-- Local variables of `_maximinESE` that change in the inner loop, `lhs.py` 151-174. -/
structure St (K : Type) (G : Rng K n) (d : ℕ) where
  P : Design K n d       -- X_
  phi : X K              -- PhiP_
  best : Design K n d    -- X_best
  phiBest : X K          -- PhiP_best
  nAcc : ℕ
  nImp : ℕ
  hist : List (X K)      -- hist_PhiP
  rng : G.σ

/-- Body of the inner loop, `lhs.py` 172-202. -/
def innerStep [NeZero d] (G : Rng K n) (fuel : ℕ) (fixed : List (Fin n)) (J : ℕ) (T : X K) (i : ℕ)
    (st : St K G d) : Option (St K G d) :=
  match candidates A G fuel fixed st.P (Fin.ofNat d (i + 1)) st.phi J st.rng with
  | none => none
  | some ([], _) => none
  | some (c :: cs, s) =>
    let t := firstMin c cs
    let u := G.rand s
    if (A.R.subR t.2 st.phi).le (A.R.mulR T (.fin u.1)) then
      if t.2.lt st.phiBest then
        some { st with P := t.1, phi := t.2, nAcc := st.nAcc + 1, best := t.1, phiBest := t.2,
                       nImp := st.nImp + 1, hist := st.hist ++ [t.2], rng := u.2 }
      else
        some { st with P := t.1, phi := t.2, nAcc := st.nAcc + 1, hist := st.hist ++ [st.phiBest], rng := u.2 }
    else some { st with hist := st.hist ++ [st.phiBest], rng := u.2 }

/-- `for i in range(inner_loop)`, `lhs.py` 170. -/
def innerLoop [NeZero d] (G : Rng K n) (fuel : ℕ) (fixed : List (Fin n)) (J : ℕ) (T : X K) :
    ℕ → ℕ → St K G d → Option (St K G d)
  | _, 0, st => some st
  | i, m + 1, st =>
    match innerStep A G fuel fixed J T i st with
    | none => none
    | some st' => innerLoop G fuel fixed J T (i + 1) m st'

/-- Temperature update, `lhs.py` 210-223. `old` is `PhiP_oldbest`; the literals are rounded. -/
def newT (T best old : X K) (tol pAcc pImp : K) : X K :=
  if (A.R.subR best old).lt (.fin tol) then
    if A.R.rnd (1 / 10) ≤ pAcc ∧ pImp < pAcc then A.R.mulR (.fin (A.R.rnd (8 / 10))) T
    else if A.R.rnd (1 / 10) ≤ pAcc ∧ pImp = pAcc then T
    else A.R.divR T (A.R.rnd (8 / 10))
  else if pAcc ≤ A.R.rnd (1 / 10) then A.R.divR T (A.R.rnd (7 / 10)) else A.R.mulR (.fin (A.R.rnd (9 / 10))) T

/-- `for z in range(outer_loop)`, `lhs.py` 164-223. The histories of the temperature and of the acceptance rates are in
`Verif/Ese/Model.lean`. -/
def outerLoop [NeZero d] (G : Rng K n) (fuel : ℕ) (fixed : List (Fin n)) (J inner : ℕ) (tol : K) :
    ℕ → X K → St K G d → Option (St K G d)
  | 0, _, st => some st
  | m + 1, T, st =>
    match innerLoop A G fuel fixed J T 0 inner { st with nAcc := 0, nImp := 0 } with
    | none => none
    | some st' =>
      if inner = 0 then none   -- float(n_acpt) / 0
      else
        outerLoop G fuel fixed J inner tol m
          (newT A T st'.phiBest st.phiBest tol (A.R.rnd (st'.nAcc / inner)) (A.R.rnd (st'.nImp / inner))) st'

/-- `_maximinESE`, `lhs.py` 77-230: the design and `hist["PhiP"]`. `T0 = none` is the default temperature. -/
def maximinESE [NeZero d] (G : Rng K n) (fuel : ℕ) (P : Design K n d) (T0 : Option (X K))
    (outer inner J : ℕ) (tol : K) (fixed : List (Fin n)) (seed : G.σ) : Option (Design K n d × List (X K)) :=
  let T := T0.getD (A.R.mulR (.fin (A.R.rnd (5 / 1000))) (phiP A P))
  match outerLoop A G fuel fixed J inner tol outer T ⟨P, phiP A P, P, phiP A P, 0, 0, [phiP A P], seed⟩ with
  | none => none
  | some st => some (st.best, st.hist)

/-- `_ese`, `lhs.py` 304-325, after the initial design `P0` has been drawn: the parameters of the call. The literal `1e-3` is rounded; `p` is 10 (in `A`). -/
def ese [NeZero d] (G : Rng K n) (fuel : ℕ) (P0 : Design K n d) (seed : G.σ) : Option (Design K n d × List (X K)) :=
  maximinESE A G fuel P0 none (min (3 * d / 2) 30) (min (20 * d) 100) 20 (A.R.rnd (1 / 1000)) [] seed

end Ese
end SMT.Fp
