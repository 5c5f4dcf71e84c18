import Mathlib.Data.List.Nodup
import Mathlib.Data.Real.Sqrt
import Mathlib.Algebra.BigOperators.Fin
import Mathlib.Data.Finset.Range

/-!
# Model of the finite-difference gradient of the network optimiser

`smt/utils/neural_net/optimizer.py`: `finite_difference`, `Optimizer._grad_function` without a user gradient, `grad_check`, and what `optimize` and `initialize` do with arrays (shallow
copies of dictionaries). Arrays live in a heap, because `finite_difference` writes into the arrays of the dictionary it is given.
-/
namespace SMT.Nn.FD

variable {K : Type}

/-- A 2-D `ndarray`: `x.shape` and entries (those outside the shape are never looked at by the code). -/
structure Arr (K : Type) where
  n : ℕ
  p : ℕ
  e : ℕ → ℕ → K

/-- A Python `dict` of arrays, in insertion order: keys and references. -/
abbrev Dict := List (String × ℕ)

/-- Arrays by reference; `next` is the next free reference. -/
structure Heap (K : Type) where
  next : ℕ
  mem : ℕ → Arr K

/-- What a function called with a dictionary can read. -/
abbrev View (K : Type) := List (String × Arr K)

def view (h : Heap K) (d : Dict) : View K := d.map fun q => (q.1, h.mem q.2)

/-- `A[i, j] = v`. -/
def Arr.set (A : Arr K) (i j : ℕ) (v : K) : Arr K := { A with e := fun a b => if a = i ∧ b = j then v else A.e a b }

def Heap.write (h : Heap K) (a : ℕ) (A : Arr K) : Heap K := { h with mem := fun c => if c = a then A else h.mem c }

/-- A new array. -/
def Heap.alloc (h : Heap K) (A : Arr K) : Heap K := { next := h.next + 1, mem := fun c => if c = h.next then A else h.mem c }

/-- `d[k] = a` for an existing key. -/
def setKey (d : Dict) (k : String) (a : ℕ) : Dict := d.map fun q => if q.1 = k then (k, a) else q

/-- The reference stored under a key. -/
def getKey (d : Dict) (k : String) : Option ℕ := (d.find? fun q => q.1 = k).map Prod.snd

/-- `parameters[key][i, j] = v; y = fun(parameters); parameters[key] = np.copy(x)`, `optimizer.py` 34-36, 39-41: note that the entry is written into the array the dictionary holds, and that
the restored array is a *new* one. (`none`: no such key, which does not happen, the key comes from `parameters.keys()`.) -/
def probe (f : View K → K) (k : String) (x : Arr K) (i j : ℕ) (v : K) (s : Heap K × Dict) : Option ((Heap K × Dict) × K) :=
  match getKey s.2 k with
  | none => none
  | some a =>
    let h1 := s.1.write a ((s.1.mem a).set i j v)
    some ((h1.alloc x, setKey s.2 k h1.next), f (view h1 s.2))

variable [Field K]

/-- Forward step, backward step, central difference for one entry, `optimizer.py` 33-44. -/
def cell (f : View K → K) (dx : K) (k : String) (x : Arr K) (i j : ℕ) (s : Heap K × Dict) : Option ((Heap K × Dict) × K) :=
  (probe f k x i j (x.e i j + dx) s).bind fun r => (probe f k x i j (x.e i j - dx) r.1).map fun r' => (r'.1, (r.2 - r'.2) / (2 * dx))

/-- The two loops over the entries, `optimizer.py` 31-44, on the remaining entries; `dy` is filled. -/
def cells (f : View K → K) (dx : K) (k : String) (x : Arr K) : List (ℕ × ℕ) → (Heap K × Dict) × Arr K → Option ((Heap K × Dict) × Arr K)
  | [], r => some r
  | c :: l, r => (cell f dx k x c.1 c.2 r.1).bind fun r' => cells f dx k x l (r'.1, r.2.set c.1 c.2 r'.2)

/-- `for i in range(0, n): for j in range(0, p)`. -/
def entries (n p : ℕ) : List (ℕ × ℕ) := (List.range n).flatMap fun i => (List.range p).map fun j => (i, j)

/-- The body of the loop over keys, `optimizer.py` 28-46. -/
def perKey (f : View K → K) (dx : K) (k : String) (s : Heap K × Dict) : Option ((Heap K × Dict) × Arr K) :=
  match getKey s.2 k with
  | none => none
  | some a =>
    let x := s.1.mem a
    cells f dx k x (entries x.n x.p) (s, { n := x.n, p := x.p, e := fun _ _ => 0 })

/-- The loop over keys, `optimizer.py` 27-46. -/
def perKeys (f : View K → K) (dx : K) : List String → Heap K × Dict → Option ((Heap K × Dict) × View K)
  | [], s => some (s, [])
  | k :: ks, s => (perKey f dx k s).bind fun r => (perKeys f dx ks r.1).map fun r' => (r'.1, (k, r.2) :: r'.2)

/-- `finite_difference(parameters, fun, dx)`, `optimizer.py` 17-48. -/
def finiteDifference (f : View K → K) (dx : K) (s : Heap K × Dict) : Option ((Heap K × Dict) × View K) := perKeys f dx (s.2.map Prod.fst) s

/-- New arrays for all keys, in order: what the updates of the current design amount to (`self._current_design[key] = …`, `optimizer.py` 256-261, 284-298). -/
def assign (h : Heap K) : View K → Heap K × Dict
  | [] => (h, [])
  | q :: l => let r := assign (h.alloc q.2) l
              (r.1, (q.1, h.next) :: r.2)

/-- One iteration of `optimize` without a user gradient, `optimizer.py` 119-128, 201-208: gradient by finite differences on the current design, then a line search (`move`: any function of the
values of the design and of the gradient) that assigns new arrays to the keys of the current design, then `design_history.append(self._current_design.copy())` - a copy of the dictionary,
not of the arrays. State: heap, current design, history. Simplification: stopping tests are not modelled (any number of iterations is considered). -/
def iteration (f : View K → K) (dx : K) (move : View K → View K → View K) (st : Heap K × Dict × List Dict) : Option (Heap K × Dict × List Dict) :=
  (finiteDifference f dx (st.1, st.2.1)).map fun r =>
    let a := assign r.1.1 (move (view r.1.1 r.1.2) r.2)
    (a.1, a.2, st.2.2 ++ [a.2])

/-- `T` iterations of `optimize` after `Optimizer.initialize(initial_guess, …)`, `optimizer.py` 108-117, 195-208: the current design is `initial_guess.copy()`, hence holds the arrays of the user. -/
def optimize (f : View K → K) (dx : K) (move : View K → View K → View K) (h : Heap K) (guess : Dict) : ℕ → Option (Heap K × Dict × List Dict)
  | 0 => some (h, guess, [guess])
  | T + 1 => (optimize f dx move h guess T).bind (iteration f dx move)

/-! ### `grad_check` -/

noncomputable section

/-- `np.linalg.norm` of a 2-D array. -/
def Arr.norm (A : Arr ℝ) : ℝ := √(∑ i ∈ Finset.range A.n, ∑ j ∈ Finset.range A.p, A.e i j ^ 2)

def Arr.sub (A B : Arr ℝ) : Arr ℝ := { n := A.n, p := A.p, e := fun i j => A.e i j - B.e i j }

open Classical in
/-- The verdict on one key, `optimizer.py` 141-148: `true` for "is correct". -/
def verdict (tol eps : ℝ) (g fd : Arr ℝ) : Bool :=
  let numerator := (g.sub fd).norm
  let denominator := g.norm + fd.norm
  let difference := numerator / (denominator + eps)
  decide (difference ≤ tol ∨ numerator ≤ tol)

/-- `grads[key]` (a missing key raises). -/
def getArr (g : View ℝ) (k : String) : Option (Arr ℝ) := (g.find? fun q => q.1 = k).map Prod.snd

/-- `grad_check(parameters, tol)`, `optimizer.py` 132-152: verdict per key, in the order of the keys; `grad` is the user gradient if there is one (`_grad_function`, 122-126). The printed
numbers are not modelled. -/
def gradCheck (f : View ℝ → ℝ) (grad : Option (View ℝ → View ℝ)) (dx tol eps : ℝ) (s : Heap ℝ × Dict) : Option (List (String × Bool)) :=
  (match grad with
    | some g => some (s, g (view s.1 s.2))
    | none => finiteDifference f dx s).bind fun r =>
  (finiteDifference f dx r.1).bind fun r' =>
    (r'.1.2.map Prod.fst).mapM fun k => (getArr r.2 k).bind fun g => (getArr r'.2 k).map fun fd => (k, verdict tol eps g fd)

end

end SMT.Nn.FD
