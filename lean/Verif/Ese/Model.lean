import Mathlib.Analysis.SpecialFunctions.Pow.Real
import Mathlib.Algebra.BigOperators.Fin

/-!
# Model of the ESE optimisation in `smt/sampling_methods/lhs.py`

A design with `n` points in `d` dimensions is a function `Fin n → Fin d → ℝ`. The NumPy `RandomState`
is an arbitrary state machine producing row numbers (`randint`) and reals (`rand`). Real arithmetic is
exact (simplification: no rounding; NumPy's `0.0 ** -p = inf` is `0` here, which only matters for designs
with two equal points; `C13_points_stay_distinct` shows they are not reachable from a Latin design).
`none` stands for an exception (`argmin` of no candidates, `0/0` acceptance rate) or for exhausting the
`fuel` given to a rejection loop.
-/
namespace SMT.Ese

abbrev Design (n d : ℕ) := Fin n → Fin d → ℝ

/-- `self.random_state`: any generator with any hidden state. -/
structure Rng (n : ℕ) where
  σ : Type
  randint : σ → Fin n × σ
  rand : σ → ℝ × σ

variable {n d : ℕ}

/-- Euclidean distance, as computed by `pdist`/`cdist` (`lhs.py` 242, 288-289). -/
noncomputable def dist (u v : Fin d → ℝ) : ℝ := Real.sqrt (∑ c, (u c - v c) ^ 2)

/-- `_PhiP`, `lhs.py` 232-242: `((pdist(X) ** (-p)).sum()) ** (1.0 / p)`; `pdist` lists the pairs
`i < j`. -/
noncomputable def phiP (X : Design n d) (p : ℕ) : ℝ :=
  (∑ q ∈ (Finset.univ : Finset (Fin n × Fin n)).filter (fun q => q.1 < q.2),
    dist (X q.1) (X q.2) ^ (-(p : ℤ))) ^ (1 / (p : ℝ))

/-- A rejection loop `i = randint(n); while bad(i): i = randint(n)`, `lhs.py` 278-284. -/
def drawRow (R : Rng n) (bad : Fin n → Bool) : ℕ → R.σ → Option (Fin n × R.σ)
  | 0, _ => none
  | fuel + 1, s =>
    if bad (R.randint s).1 then drawRow R bad fuel (R.randint s).2 else some (R.randint s)

/-- `X[i1, k], X[i2, k] = X[i2, k], X[i1, k]`, `lhs.py` 300. -/
def swapEntry (X : Design n d) (k : Fin d) (i1 i2 : Fin n) : Design n d :=
  Function.update (Function.update X i1 (Function.update (X i1) k (X i2 k)))
    i2 (Function.update (X i2) k (X i1 k))

/-- The incremental criterion, `lhs.py` 286-299 (`X_` = the rows other than `i1`, `i2`). -/
noncomputable def exchangeVal (X : Design n d) (k : Fin d) (i1 i2 : Fin n) (phi : ℝ) (p : ℕ) : ℝ :=
  (phi ^ p + ∑ j ∈ (Finset.univ : Finset (Fin n)).filter (fun j => j ≠ i1 ∧ j ≠ i2),
    (Real.sqrt (dist (X i1) (X j) ^ 2 + (X i2 k - X j k) ^ 2 - (X i1 k - X j k) ^ 2) ^ (-(p : ℤ))
      - dist (X i1) (X j) ^ (-(p : ℤ))
      + Real.sqrt (dist (X i2) (X j) ^ 2 - (X i2 k - X j k) ^ 2 + (X i1 k - X j k) ^ 2) ^ (-(p : ℤ))
      - dist (X i2) (X j) ^ (-(p : ℤ)))) ^ (1 / (p : ℝ))

/-- `_PhiP_exchange`, `lhs.py` 244-302: returns the modified copy of the design (the caller passes a copy
and reads it back) and its criterion. -/
noncomputable def exchange (R : Rng n) (fuel : ℕ) (fixed : List (Fin n)) (p : ℕ) (X : Design n d) (k : Fin d)
    (phi : ℝ) (s : R.σ) : Option ((Design n d × ℝ) × R.σ) :=
  match drawRow R (fun i => decide (i ∈ fixed)) fuel s with
  | none => none
  | some (i1, s1) =>
    match drawRow R (fun i => decide (i = i1) || decide (i ∈ fixed)) fuel s1 with
    | none => none
    | some (i2, s2) => some ((swapEntry X k i1 i2, exchangeVal X k i1 i2 phi p), s2)

/-- The `for j in range(J)` loop, `lhs.py` 178-184. -/
noncomputable def candidates (R : Rng n) (fuel : ℕ) (fixed : List (Fin n)) (p : ℕ) (X : Design n d) (k : Fin d)
    (phi : ℝ) : ℕ → R.σ → Option (List (Design n d × ℝ) × R.σ)
  | 0, s => some ([], s)
  | J + 1, s =>
    match exchange R fuel fixed p X k phi s with
    | none => none
    | some (c, s1) =>
      match candidates R fuel fixed p X k phi J s1 with
      | none => none
      | some (cs, s2) => some (c :: cs, s2)

/-- `k = np.argmin(l_PhiP)` and the two look-ups, `lhs.py` 186-188, 194: the first candidate with the
least criterion. -/
noncomputable def firstMin (best : Design n d × ℝ) : List (Design n d × ℝ) → Design n d × ℝ
  | [] => best
  | c :: cs => firstMin (if c.2 < best.2 then c else best) cs

/-- Local variables of `_maximinESE` that change in the inner loop. -/
structure St (R : Rng n) (d : ℕ) where
  X : Design n d       -- X_
  phi : ℝ              -- PhiP_
  best : Design n d    -- X_best
  phiBest : ℝ          -- PhiP_best
  nAcc : ℕ
  nImp : ℕ
  hist : List ℝ        -- hist_PhiP
  rng : R.σ

/-- Body of the inner loop, `lhs.py` 172-202. -/
noncomputable def innerStep [NeZero d] (R : Rng n) (fuel : ℕ) (fixed : List (Fin n)) (p J : ℕ) (T : ℝ) (i : ℕ)
    (st : St R d) : Option (St R d) :=
  match candidates R fuel fixed p st.X (Fin.ofNat d (i + 1)) st.phi J st.rng with
  | none => none
  | some ([], _) => none
  | some (c :: cs, s) =>
    let t := firstMin c cs
    let u := R.rand s
    if t.2 - st.phi ≤ T * u.1 then
      if t.2 < st.phiBest then
        some { st with X := t.1, phi := t.2, nAcc := st.nAcc + 1, best := t.1, phiBest := t.2,
                       nImp := st.nImp + 1, hist := st.hist ++ [t.2], rng := u.2 }
      else
        some { st with X := t.1, phi := t.2, nAcc := st.nAcc + 1, hist := st.hist ++ [st.phiBest], rng := u.2 }
    else some { st with hist := st.hist ++ [st.phiBest], rng := u.2 }

/-- `for i in range(inner_loop)`, `lhs.py` 170. -/
noncomputable def innerLoop [NeZero d] (R : Rng n) (fuel : ℕ) (fixed : List (Fin n)) (p J : ℕ) (T : ℝ) :
    ℕ → ℕ → St R d → Option (St R d)
  | _, 0, st => some st
  | i, m + 1, st =>
    match innerStep R fuel fixed p J T i st with
    | none => none
    | some st' => innerLoop R fuel fixed p J T (i + 1) m st'

/-- Temperature update, `lhs.py` 210-223. `old` is `PhiP_oldbest`. -/
noncomputable def newT (T tol best old pAcc pImp : ℝ) : ℝ :=
  if best - old < tol then
    if 1 / 10 ≤ pAcc ∧ pImp < pAcc then 8 / 10 * T
    else if 1 / 10 ≤ pAcc ∧ pImp = pAcc then T
    else T / (8 / 10)
  else if pAcc ≤ 1 / 10 then T / (7 / 10) else 9 / 10 * T

/-- `for z in range(outer_loop)`, `lhs.py` 164-223; also accumulates `hist_T` and `hist_proba`. -/
noncomputable def outerLoop [NeZero d] (R : Rng n) (fuel : ℕ) (fixed : List (Fin n)) (p J inner : ℕ) (tol : ℝ) :
    ℕ → ℝ → St R d → List ℝ → List ℝ → Option (St R d × List ℝ × List ℝ)
  | 0, _, st, hT, hP => some (st, hT, hP)
  | m + 1, T, st, hT, hP =>
    match innerLoop R fuel fixed p J T 0 inner { st with nAcc := 0, nImp := 0 } with
    | none => none
    | some st' =>
      if inner = 0 then none   -- float(n_acpt) / 0
      else
        let pAcc := (st'.nAcc : ℝ) / inner
        let pImp := (st'.nImp : ℝ) / inner
        outerLoop R fuel fixed p J inner tol m (newT T tol st'.phiBest st.phiBest pAcc pImp) st'
          (hT ++ List.replicate inner T) (hP ++ List.replicate inner pAcc)

structure Result (n d : ℕ) where
  X : Design n d
  histPhi : List ℝ
  histT : List ℝ
  histProba : List ℝ

/-- `_maximinESE`, `lhs.py` 77-230, with `return_hist=True`. `T0 = none` is the default temperature. -/
noncomputable def maximinESE [NeZero d] (R : Rng n) (fuel : ℕ) (X : Design n d) (T0 : Option ℝ)
    (outer inner J : ℕ) (tol : ℝ) (p : ℕ) (fixed : List (Fin n)) (seed : R.σ) : Option (Result n d) :=
  let T := T0.getD (5 / 1000 * phiP X p)
  let st : St R d := ⟨X, phiP X p, X, phiP X p, 0, 0, [phiP X p], seed⟩
  match outerLoop R fuel fixed p J inner tol outer T st [] [] with
  | none => none
  | some (st', hT, hP) => some ⟨st'.best, st'.hist, hT, hP⟩

/-- `_ese`, `lhs.py` 304-325, after the initial design `P0` has been drawn by pyDOE2 (not modelled) and the
diagnostic `corrcoef` lines succeeded: the fixed parameters of the call. -/
noncomputable def ese [NeZero d] (R : Rng n) (fuel : ℕ) (P0 : Design n d) (seed : R.σ) : Option (Result n d) :=
  maximinESE R fuel P0 none (min (3 * d / 2) 30) (min (20 * d) 100) 20 (1 / 1000) 10 [] seed

end SMT.Ese
