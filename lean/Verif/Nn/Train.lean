import Mathlib.Algebra.Order.Field.Basic
import Mathlib.Data.List.Basic
import Mathlib.Data.List.GetD

/-!
# Model of the training drivers of the neural network

`smt/utils/neural_net/data.py` `random_mini_batches`, `optimizer.py` (`Optimizer.optimize`, `backtracking_line_search`, `GD`, `Adam`).
-/
namespace SMT.Nn

/-! ### Mini-batches -/

section batches
variable {α β γ : Type}

/-- `A[:, permutations]`, `data.py` 104-107: the examples of one array in the order of the permutation (indices are in range for a permutation of `range(m)`). -/
def shuffle (perm : List ℕ) (A : List α) : List α := perm.filterMap (A[·]?)

/-- `A[:, lo:hi]`. -/
def slice (A : List α) (lo hi : ℕ) : List α := (A.take hi).drop lo

/-- `random_mini_batches`, `data.py` 86-138, for a given permutation (drawn by NumPy). Arrays are lists of examples. `none` is the `ZeroDivisionError` of `m / mini_batch_size`
(no example, or batch size 0). The last, shorter batch starts at `(k + 1) * mini_batch_size` for the last `k` of the loop. -/
def miniBatches (perm : List ℕ) (X : List α) (Y : List β) (J : Option (List γ)) (size : ℕ) : Option (List (List α × List β × Option (List γ))) :=
  let m := X.length
  let X := shuffle perm X
  let Y := shuffle perm Y
  let J := J.map (shuffle perm)
  let size := min size m
  if size = 0 then none
  else
    let full := (List.range (m / size)).map fun k =>
      (slice X (k * size) ((k + 1) * size), slice Y (k * size) ((k + 1) * size), J.map fun J => slice J (k * size) ((k + 1) * size))
    let k := m / size - 1
    if m % size ≠ 0 then
      some (full ++ [(X.drop ((k + 1) * size), Y.drop ((k + 1) * size), J.map fun J => J.drop ((k + 1) * size))])
    else some full

end batches

/-! ### Optimiser -/

section opt
variable {K ι : Type} [Field K] [LinearOrder K]

/-- Attributes of `Optimizer`/`Adam` that change, `optimizer.py` 78-96, 265-268. A design is the family of all entries of all arrays of the dictionary. -/
structure Opt (K ι : Type) where
  cur : ι → K
  prev : ι → K
  dir : ι → K
  iter : ℕ
  beta1 : K
  beta2 : K
  v : Option (ι → K)
  s : Option (ι → K)
  costs : List K
  designs : List (ι → K)

/-- `GD._update_current_design`, `optimizer.py` 255-261. -/
def gdUpdate (rate : K) (o : Opt K ι) : Opt K ι := { o with cur := fun i => o.prev i - rate * o.dir i }

/-- `Adam._update_current_design`, `optimizer.py` 264-298, with the default arguments `beta_1 = 0.9`, `beta_2 = 0.99` (no caller passes others). `root` is `np.sqrt`, `eps` the
machine epsilon. -/
def adamUpdate (root : K → K) (eps : K) (rate : K) (o : Opt K ι) : Opt K ι :=
  let b1 : K := 9 / 10
  let b2 : K := 99 / 100
  let t := o.iter + 1
  let v0 := o.v.getD fun _ => 0
  let s0 := o.s.getD fun _ => 0
  let v1 := fun i => b1 * v0 i + (1 - b1) * o.dir i
  let s1 := fun i => b2 * s0 i + (1 - b2) * o.dir i ^ 2
  { o with
    beta1 := b1
    beta2 := b2
    v := some v1
    s := some s1
    cur := fun i => o.prev i - rate * (v1 i / (1 - b1 ^ t)) / (root (s1 i / (1 - b2 ^ t)) + eps) }

/-- The loop of `backtracking_line_search`, `optimizer.py` 167-177: try the step, accept it if the cost decreases or the step is below `1e-6`, else square `tau`. `none`: still
running after the given number of rounds. -/
def lsLoop (f : (ι → K) → K) (upd : K → Opt K ι → Opt K ι) (rate : K) : ℕ → K → Opt K ι → Option (Opt K ι)
  | 0, _, _ => none
  | n + 1, tau, o =>
    let o' := upd (rate * tau) o
    if f o'.cur < f o'.prev then some o'
    else if rate * tau < 1 / 1000000 then some o'
    else lsLoop f upd rate n (tau * tau) o'

/-- `backtracking_line_search()` with its default `tau = 0.5`, `optimizer.py` 154-177. -/
def lineSearch (fuel : ℕ) (f : (ι → K) → K) (upd : K → Opt K ι → Opt K ι) (rate : K) (o : Opt K ι) : Option (Opt K ι) :=
  lsLoop f upd rate fuel (max 0 (min 1 (1 / 2))) { o with prev := o.cur }

/-- One pass of the loop of `optimize` up to the bookkeeping, `optimizer.py` 201-208. -/
def optStep (fuel : ℕ) (f : (ι → K) → K) (g : (ι → K) → ι → K) (upd : K → Opt K ι → Opt K ι) (rate : K) (i : ℕ) (o : Opt K ι) : Option (Opt K ι) :=
  (lineSearch fuel f upd rate { o with iter := i, dir := g o.cur }).map fun o =>
    { o with costs := o.costs ++ [f o.cur], designs := o.designs ++ [o.cur] }

/-- New values of the two counters, `optimizer.py` 218-239; only from the third pass on (`i > 1`). -/
def counters (i : ℕ) (n : ℕ × ℕ) (costs : List K) : ℕ × ℕ :=
  if i > 1 then
    let a := costs.getD (costs.length - 1) 0
    let b := costs.getD (costs.length - 2) 0
    (if |a - b| < 1 / 10000000 * costs.getD 0 0 then n.1 + 1 else 0, if |a - b| / max |a| (1 / 1000000) < 1 / 10000000 then n.2 + 1 else 0)
  else n

/-- The loop `for i in range(0, max_iter)`, `optimizer.py` 200-248. -/
def optLoop (fuel : ℕ) (f : (ι → K) → K) (g : (ι → K) → ι → K) (upd : K → Opt K ι → Opt K ι) (rate : K) : ℕ → ℕ → ℕ × ℕ → Opt K ι → Option (Opt K ι)
  | 0, _, _, o => some o
  | left + 1, i, n, o =>
    match optStep fuel f g upd rate i o with
    | none => none
    | some o' =>
      let n' := counters i n o'.costs
      if i > 1 ∧ (n'.1 > 100 ∨ n'.2 > 100) then some o' else optLoop fuel f g upd rate left (i + 1) n' o'

/-- `optimize(max_iter)` on a fresh optimiser, `optimizer.py` 99-117, 179-252: the first cost and design are recorded before the loop; the optimum is the current design at the end. -/
def optimize (fuel : ℕ) (f : (ι → K) → K) (g : (ι → K) → ι → K) (upd : K → Opt K ι → Opt K ι) (rate beta1 beta2 : K) (maxIter : ℕ) (x0 : ι → K) : Option (Opt K ι) :=
  optLoop fuel f g upd rate maxIter 0 (0, 0)
    { cur := x0, prev := x0, dir := fun _ => 0, iter := 0, beta1 := beta1, beta2 := beta2, v := none, s := none, costs := [f x0], designs := [x0] }

end opt

end SMT.Nn
