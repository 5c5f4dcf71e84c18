import Verif.Fp.LineSearch
import Verif.Nn.Train

/-!
# Model: the optimiser of the neural network in floating-point arithmetic

`smt/utils/neural_net/optimizer.py` (`Optimizer.optimize`, `backtracking_line_search`, `GD`, `Adam`) on values of a format with overflow, underflow, infinities and NaN. The exact
version is `Verif.Nn.Train`, whose record of attributes is used again. The cost, its gradient, `np.sqrt` and `**` are parameters: whatever NumPy computes, as functions of their
arguments. A design is the family of all entries of all arrays of the dictionary of parameters. Printing is left out; signs of zeros are not distinguished.
-/
namespace SMT.Fp.Optim
open SMT.Nn

variable {K ι : Type} [Field K] [LinearOrder K] [IsStrictOrderedRing K] (F : Format K)

/-- `max(a, b)` of Python: the second argument replaces the first only if it is larger. -/
def pyMax (a b : X K) : X K := if a.lt b then b else a

/-- `GD._update_current_design`, `optimizer.py` 255-261. -/
def gdX (rate : X K) (o : Opt (X K) ι) : Opt (X K) ι := { o with cur := fun i => F.subX (o.prev i) (F.mulX rate (o.dir i)) }

/-- `Adam._update_current_design`, `optimizer.py` 264-298, with the default arguments `beta_1 = 0.9`, `beta_2 = 0.99`. `root` is `np.sqrt`, `pow` is `**` with an integer exponent,
`eps` the machine epsilon. -/
def adamX (root : X K → X K) (pow : X K → ℕ → X K) (eps : X K) (rate : X K) (o : Opt (X K) ι) : Opt (X K) ι :=
  let b1 : X K := F.of (9 / 10)
  let b2 : X K := F.of (99 / 100)
  let t := o.iter + 1
  let v0 := o.v.getD fun _ => .fin 0
  let s0 := o.s.getD fun _ => .fin 0
  let v1 := fun i => F.addX (F.mulX b1 (v0 i)) (F.mulX (F.subX (.fin 1) b1) (o.dir i))
  let s1 := fun i => F.addX (F.mulX b2 (s0 i)) (F.mulX (F.subX (.fin 1) b2) (F.mulX (o.dir i) (o.dir i)))
  { o with
    beta1 := b1
    beta2 := b2
    v := some v1
    s := some s1
    cur := fun i => F.subX (o.prev i) (F.divX (F.mulX rate (F.divX (v1 i) (F.subX (.fin 1) (pow b1 t))))
      (F.addX (root (F.divX (s1 i) (F.subX (.fin 1) (pow b2 t)))) eps)) }

/-- The loop of `backtracking_line_search`, `optimizer.py` 167-177. `none`: still running after the given number of rounds. -/
def lsLoopX (f : (ι → X K) → X K) (upd : X K → Opt (X K) ι → Opt (X K) ι) (rate : X K) : ℕ → X K → Opt (X K) ι → Option (Opt (X K) ι)
  | 0, _, _ => none
  | n + 1, tau, o =>
    let o' := upd (F.mulX rate tau) o
    if (f o'.cur).lt (f o'.prev) then some o'
    else if (F.mulX rate tau).lt (F.of (1 / 1000000)) then some o'
    else lsLoopX f upd rate n (F.mulX tau tau) o'

/-- `backtracking_line_search()` with its default `tau = 0.5`, `optimizer.py` 154-177. -/
def lineSearchX (fuel : ℕ) (f : (ι → X K) → X K) (upd : X K → Opt (X K) ι → Opt (X K) ι) (rate : X K) (o : Opt (X K) ι) : Option (Opt (X K) ι) :=
  lsLoopX F f upd rate fuel (pyMax (.fin 0) (if (X.fin (1 / 2 : K)).lt (.fin 1) then .fin (1 / 2) else .fin 1)) { o with prev := o.cur }

/-- One pass of the loop of `optimize` up to the bookkeeping, `optimizer.py` 201-208. -/
def optStepX (fuel : ℕ) (f : (ι → X K) → X K) (g : (ι → X K) → ι → X K) (upd : X K → Opt (X K) ι → Opt (X K) ι) (rate : X K) (i : ℕ) (o : Opt (X K) ι) : Option (Opt (X K) ι) :=
  (lineSearchX F fuel f upd rate { o with iter := i, dir := g o.cur }).map fun o =>
    { o with costs := o.costs ++ [f o.cur], designs := o.designs ++ [o.cur] }

/-- New values of the two counters, `optimizer.py` 218-239; only from the third pass on (`i > 1`). -/
def countersX (i : ℕ) (n : ℕ × ℕ) (costs : List (X K)) : ℕ × ℕ :=
  if i > 1 then
    let a := costs.getD (costs.length - 1) .nan
    let b := costs.getD (costs.length - 2) .nan
    (if (F.subX a b).abs.lt (F.mulX (F.of (1 / 10000000)) (costs.getD 0 .nan)) then n.1 + 1 else 0,
     if (F.divX (F.subX a b).abs (pyMax a.abs (F.of (1 / 1000000)))).lt (F.of (1 / 10000000)) then n.2 + 1 else 0)
  else n

/-- The loop `for i in range(0, max_iter)`, `optimizer.py` 200-248. -/
def optLoopX (fuel : ℕ) (f : (ι → X K) → X K) (g : (ι → X K) → ι → X K) (upd : X K → Opt (X K) ι → Opt (X K) ι) (rate : X K) : ℕ → ℕ → ℕ × ℕ → Opt (X K) ι → Option (Opt (X K) ι)
  | 0, _, _, o => some o
  | left + 1, i, n, o =>
    match optStepX F fuel f g upd rate i o with
    | none => none
    | some o' =>
      let n' := countersX F i n o'.costs
      if i > 1 ∧ (n'.1 > 100 ∨ n'.2 > 100) then some o' else optLoopX fuel f g upd rate left (i + 1) n' o'

/-- `optimize(max_iter)` on a fresh optimiser, `optimizer.py` 99-117, 179-252. -/
def optimizeX (fuel : ℕ) (f : (ι → X K) → X K) (g : (ι → X K) → ι → X K) (upd : X K → Opt (X K) ι → Opt (X K) ι) (rate : X K) (maxIter : ℕ) (x0 : ι → X K) : Option (Opt (X K) ι) :=
  optLoopX F fuel f g upd rate maxIter 0 (0, 0)
    { cur := x0, prev := x0, dir := fun _ => .fin 0, iter := 0, beta1 := .fin 0, beta2 := .fin 0, v := none, s := none, costs := [f x0], designs := [x0] }

end SMT.Fp.Optim
