import Verif.Index.Model
import Mathlib.Algebra.Order.Field.Basic
import Mathlib.Algebra.Order.Ring.Defs

/-!
# Model of `smt/sampling_methods/{sampling_method,full_factorial,random}.py`

Scalars are exact elements of an ordered field `K`. Sample matrices are lists of rows.
-/
namespace SMT.Sampling

variable {K : Type} [Field K] [LinearOrder K] [IsStrictOrderedRing K]

/-- One column assignment of `_scale_to_xlimits`, `sampling_method.py` 150:
`samples[:, kx] = lo + samples[:, kx] * (hi - lo)`. -/
def scaleColumn (samples : List (List K)) (kx : Nat) (lim : K × K) : List (List K) :=
  samples.map fun row => row.modify kx fun s => lim.1 + s * (lim.2 - lim.1)

/-- `_scale_to_xlimits`, `sampling_method.py` 133-151: loop over the columns `0..nx-1`
(`xlimits` is the list of `(lower, upper)` rows). -/
def scaleFrom (samples : List (List K)) (kx : Nat) : List (K × K) → List (List K)
  | [] => samples
  | lim :: rest => scaleFrom (scaleColumn samples kx lim) (kx + 1) rest

def scaleToXlimits (samples : List (List K)) (xlimits : List (K × K)) : List (List K) :=
  scaleFrom samples 0 xlimits

/-! ## Full factorial -/

/-- `np.argmax` of a list: index of the first maximal element (0 for the empty list, where NumPy
raises; never reached in the guarded use below). -/
def argmaxGo : K → Nat → Nat → List K → Nat
  | _, best, _, [] => best
  | m, best, i, a :: as => if m < a then argmaxGo a i (i + 1) as else argmaxGo m best (i + 1) as

def argmax : List K → Nat
  | [] => 0
  | a :: as => argmaxGo a 0 1 as

/-- `weights - num_list / np.sum(num_list)`, `full_factorial.py` 55. -/
def scores (weights : List K) (nums : List Nat) : List K :=
  List.zipWith (fun (w : K) (n : Nat) => w - (n : K) / (nums.sum : K)) weights nums

/-- Body of the `while` loop, `full_factorial.py` 55-56. -/
def levelStep (weights : List K) (nums : List Nat) : List Nat :=
  nums.modify (argmax (scores weights nums)) (· + 1)

/-- The `while np.prod(num_list) < nt` loop, `full_factorial.py` 54-56, run for at most `fuel` bodies;
`none` when the fuel runs out (non-termination in the limit). -/
def levelLoop (weights : List K) (nt : Nat) : Nat → List Nat → Option (List Nat)
  | fuel, nums =>
    if nums.prod < nt then
      match fuel with
      | 0 => none
      | fuel + 1 => levelLoop weights nt fuel (levelStep weights nums)
    else some nums

/-- Weights as used by the loop, `full_factorial.py` 47-51: equal weights by default, else normalised by
their sum. (Integer arrays raise in NumPy's in-place division; a one-element list would be broadcast:
both are outside this model, which takes one weight per dimension.) -/
def normWeights (nx : Nat) : Option (List K) → List K
  | none => List.replicate nx (1 / (nx : K))
  | some w => w.map (· / w.sum)

/-- `np.linspace(0.0, 1.0, k)[l]`, `full_factorial.py` 58: `l / (k-1)`, and `[0.0]` for `k = 1`. -/
def level (k l : Nat) : K := if k ≤ 1 then 0 else (l : K) / ((k - 1 : Nat) : K)

/-- Row `t` of the grid: `np.meshgrid(*lins_list, indexing="ij")` followed by a row-major `reshape`
(lines 59-66): coordinate `kx` of row `t` is the level number "digit `kx` of `t`" where digits are
row-major in the shape `num_list`. -/
def gridRow (nums : List Nat) (t : Nat) : List K :=
  List.zipWith (fun k l => level k l) nums (Index.expand nums t)

/-- Errors of the model. -/
inductive Err where
  | emptyArgmax     -- `np.argmax` of an empty array (no dimensions)
  | diverges        -- fuel exhausted
deriving DecidableEq, Repr

/-- `FullFactorial._compute`, `full_factorial.py` 28-68, with the loop limited by `fuel`.
`x = np.zeros((nt, nx)); x[:, kx] = ....reshape(prod)[:nt]`: first `nt` rows, all rows with `clip`. -/
def fullFactorial (fuel : Nat) (nx : Nat) (weights : Option (List K)) (clip : Bool) (nt : Nat) :
    Except Err (List (List K)) :=
  if nx = 0 ∧ 1 < nt then .error .emptyArgmax
  else
    match levelLoop (normWeights nx weights) nt fuel (List.replicate nx 1) with
    | none => .error .diverges
    | some nums =>
      let n := if clip then nums.prod else nt
      .ok ((List.range n).map (gridRow nums))

/-- `Random._compute`, `random.py` 14-34: `np.random.rand(nt, nx)`; the generator is a parameter. -/
def randomDesign (rand : Nat → Nat → K) (nt nx : Nat) : List (List K) :=
  (List.range nt).map fun i => (List.range nx).map fun j => rand i j

end SMT.Sampling
