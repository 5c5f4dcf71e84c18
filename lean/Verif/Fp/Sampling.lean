import Verif.Fp.Core
import Verif.Sampling.Model

/-!
# Model: sampling, the bounds check of RMTS and the interval search of RMTC in rounded arithmetic

Every arithmetic operation of the code is followed by `R.rnd`; operations whose result is a number of the format
whatever the rounding (conversion of a small integer, comparison, `min`, `max`, copying) are not.
-/
namespace SMT.Fp

variable {K : Type} [Field K] [LinearOrder K] [IsStrictOrderedRing K]

/-- `xlimits[kx, 0] + s * (xlimits[kx, 1] - xlimits[kx, 0])`, `sampling_method.py` 150. -/
def scaleF (R : Rounding K) (lim : K × K) (s : K) : K :=
  R.rnd (lim.1 + R.rnd (s * R.rnd (lim.2 - lim.1)))

/-- `_scale_to_xlimits`, `sampling_method.py` 133-151, on one sample (one coordinate per row of `xlimits`). -/
def scaleRowF (R : Rounding K) (limits : List (K × K)) (row : List K) : List K :=
  List.zipWith (scaleF R) limits row

/-- `np.linspace(0.0, 1.0, k)[l]`, `full_factorial.py` 58. NumPy computes `step = 1.0 / (k - 1)`, `l * step`, adds
`0.0`, and stores `1.0` in the last place if `k > 1`. -/
def levelF (R : Rounding K) (k l : ℕ) : K :=
  if k ≤ 1 then 0
  else if l = k - 1 then 1
  else R.rnd ((l : K) * R.rnd (1 / ((k - 1 : ℕ) : K)))

/-- Row `t` of a full-factorial design with `nums` levels, scaled: `full_factorial.py` 58-66 (`np.meshgrid` with
row-major `reshape`), `sampling_method.py` 111. -/
def gridRowF (R : Rounding K) (limits : List (K × K)) (nums : List ℕ) (t : ℕ) : List K :=
  scaleRowF R limits (List.zipWith (levelF R) nums (Index.expand nums t))

/-- `weights - num_list / np.sum(num_list)`, `full_factorial.py` 55 (sums of integers are exact). -/
def scoresF (R : Rounding K) (weights : List K) (nums : List ℕ) : List K :=
  List.zipWith (fun (w : K) (n : ℕ) => R.rnd (w - R.rnd ((n : K) / (nums.sum : K)))) weights nums

/-- The `while np.prod(num_list) < nt` loop, `full_factorial.py` 53-56, for at most `fuel` rounds. -/
def levelLoopF (R : Rounding K) (weights : List K) (nt : ℕ) : ℕ → List ℕ → Option (List ℕ)
  | fuel, nums =>
    if nums.prod < nt then
      match fuel with
      | 0 => none
      | fuel + 1 => levelLoopF R weights nt fuel (nums.modify (Sampling.argmax (scoresF R weights nums)) (· + 1))
    else some nums

/-- `np.sum` in the order of the list (NumPy changes the order for long arrays). -/
def sumF (R : Rounding K) (w : List K) : K := w.foldl (fun s v => R.rnd (s + v)) 0

/-- The weights, `full_factorial.py` 47-51 (one weight per input). -/
def normWeightsF (R : Rounding K) (nx : ℕ) : Option (List K) → List K
  | none => List.replicate nx (R.rnd (1 / (nx : K)))
  | some w => w.map fun v => R.rnd (v / sumF R w)

/-- `FullFactorial(xlimits=limits, weights=weights, clip=clip)(nt)` for at least one input, `full_factorial.py` 28-68,
`sampling_method.py` 111. `none`: the loop has not ended after `fuel` rounds. -/
def fullFactorialF (R : Rounding K) (fuel : ℕ) (limits : List (K × K)) (weights : Option (List K)) (clip : Bool) (nt : ℕ) :
    Option (List (List K)) :=
  match levelLoopF R (normWeightsF R limits.length weights) nt fuel (List.replicate limits.length 1) with
  | none => none
  | some nums => some ((List.range (if clip then nums.prod else nt)).map (gridRowF R limits nums))

/-- The two assertions on the training points, `rmts.py` 158-165, on one data set (a list of points): no input below its
lower or above its upper limit. (`np.min`, `np.max` and comparisons do not round.) -/
def boundsCheck (limits : List (K × K)) (xt : List (List K)) : Bool :=
  xt.all fun row => (List.zipWith (fun lim x => decide (lim.1 ≤ x) && decide (x ≤ lim.2)) limits row).all id

/-- `RMTS::compute_ext_dist`, `rmts.cpp` 83-86: distance from the nearest point of the domain. -/
def extF (R : Rounding K) (lim : K × K) (x : K) : K := R.rnd (x - min lim.2 (max lim.1 x))

/-- A coordinate of a quadrature point, `rmts.cpp` 103-104: `t = (1. + 2. * i) / 2. / n`,
`lower + t * (upper - lower)`. -/
def quadF (R : Rounding K) (lim : K × K) (n i : ℕ) : K :=
  scaleF R lim (R.rnd (R.rnd (R.rnd (1 + R.rnd (2 * (i : K))) / 2) / (n : K)))

/-- The argument of `ceil` in `RMTC::find_interval`, `rmtc.cpp` 46. -/
def cellF (R : Rounding K) (lim : K × K) (num : ℕ) (x : K) : K :=
  R.rnd (R.rnd (R.rnd (x - lim.1) / R.rnd (lim.2 - lim.1)) * (num : K))

/-- `*index` at the end of `RMTC::find_interval`, `rmtc.cpp` 46-48, 60. -/
def cellIndexF [FloorRing K] (R : Rounding K) (lim : K × K) (num : ℕ) (x : K) : ℤ :=
  min (num : ℤ) (max 1 ⌈cellF R lim num x⌉) - 1

end SMT.Fp
