import Mathlib.Analysis.SpecialFunctions.Pow.Real
import Mathlib.Analysis.SpecialFunctions.Pow.Complex
import Mathlib.Analysis.SpecialFunctions.Trigonometric.Basic

/-!
# Model of the test problems with complex-step derivatives

`smt/problems/water_flow.py`, `water_flow_lfidelity.py`, `welded_beam.py`, `wing_weight.py`, `torsion_vibration.py`. The formula `func` of each problem is an expression that NumPy
evaluates with real functions on real arguments and with complex functions (principal branches) as soon as an argument is complex; `Expr` is that expression, `evalR` and `evalC` are the two
evaluations. Arithmetic is exact. The step sizes `1e-20` and `1e-6` are parameters of `cstep` and `fd`.
-/
namespace SMT.CStep

noncomputable section

/-- Expressions built by the functions `func` of the five problems. -/
inductive Expr (n : ℕ) : Type
  | var (i : Fin n)
  | const (c : ℝ)
  | add (a b : Expr n)
  | sub (a b : Expr n)
  | mul (a b : Expr n)
  | div (a b : Expr n)
  | npow (a : Expr n) (k : ℕ)
  | rpow (a : Expr n) (c : ℝ)
  | log (a : Expr n)
  | sqrt (a : Expr n)
  | cos (a : Expr n)

namespace Expr
variable {n : ℕ}

instance : Add (Expr n) := ⟨.add⟩
instance : Sub (Expr n) := ⟨.sub⟩
instance : Mul (Expr n) := ⟨.mul⟩
instance : Div (Expr n) := ⟨.div⟩
instance : Neg (Expr n) := ⟨fun a => .sub (.const 0) a⟩
instance : Pow (Expr n) ℕ := ⟨.npow⟩
instance : Coe ℝ (Expr n) := ⟨.const⟩

/-- Evaluation on real arguments: `np.log`, `np.sqrt`, `np.cos`, `**` of floats. -/
def evalR (x : Fin n → ℝ) : Expr n → ℝ
  | var i => x i
  | const c => c
  | add a b => a.evalR x + b.evalR x
  | sub a b => a.evalR x - b.evalR x
  | mul a b => a.evalR x * b.evalR x
  | div a b => a.evalR x / b.evalR x
  | npow a k => a.evalR x ^ k
  | rpow a c => (a.evalR x) ^ c
  | log a => Real.log (a.evalR x)
  | sqrt a => √(a.evalR x)
  | cos a => Real.cos (a.evalR x)

/-- Evaluation on complex arguments: principal branches. -/
def evalC (z : Fin n → ℂ) : Expr n → ℂ
  | var i => z i
  | const c => c
  | add a b => a.evalC z + b.evalC z
  | sub a b => a.evalC z - b.evalC z
  | mul a b => a.evalC z * b.evalC z
  | div a b => a.evalC z / b.evalC z
  | npow a k => a.evalC z ^ k
  | rpow a c => (a.evalC z) ^ (c : ℂ)
  | log a => Complex.log (a.evalC z)
  | sqrt a => (a.evalC z) ^ (1 / 2 : ℂ)
  | cos a => Complex.cos (a.evalC z)

end Expr
open Expr

/-- The value (`kx is None`), `water_flow.py` 78-79 and the same lines of the other problems. -/
def value {n : ℕ} (e : Expr n) (x : Fin n → ℝ) : ℝ := e.evalR x

/-- Complex step, `water_flow.py` 86-89: `point[kx] += complex(0, ch); np.imag(func(*point)) / ch`. -/
def cstep {n : ℕ} (e : Expr n) (ch : ℝ) (x : Fin n → ℝ) (kx : Fin n) : ℝ :=
  (e.evalC (Function.update (fun i => (x i : ℂ)) kx ((x kx : ℂ) + ⟨0, ch⟩))).im / ch

/-- Finite differences (`use_FD`), `water_flow.py` 48-55, 82-84: `scipy.misc.derivative(wraps, point[var], dx=dx)` with its default `n=1, order=3`, the central difference. -/
def fd {n : ℕ} (e : Expr n) (dx : ℝ) (x : Fin n → ℝ) (kx : Fin n) : ℝ :=
  (e.evalR (Function.update x kx (x kx + dx)) - e.evalR (Function.update x kx (x kx - dx))) / (2 * dx)

/-- `_evaluate` of one point, `water_flow.py` 69-91: value or derivative. `np.real` of the result is the result. -/
def evaluate {n : ℕ} (e : Expr n) (useFD : Bool) (ch dx : ℝ) (x : Fin n → ℝ) : Option (Fin n) → ℝ
  | none => value e x
  | some kx => if useFD then fd e dx x kx else cstep e ch x kx

/-- `WaterFlow.func`, `water_flow.py` 57-67. -/
def waterFlow : Expr 8 :=
  let x0 : Expr 8 := var 0; let x1 : Expr 8 := var 1; let x2 : Expr 8 := var 2; let x3 : Expr 8 := var 3
  let x4 : Expr 8 := var 4; let x5 : Expr 8 := var 5; let x6 : Expr 8 := var 6; let x7 : Expr 8 := var 7
  const 2 * const Real.pi * x2 * (x3 - x5) / (log (x1 / x0) * (const 1 + const 2 * x6 * x2 / (log (x1 / x0) * x0 ^ 2 * x7) + x2 / x4))

/-- `WaterFlowLFidelity.func`, `water_flow_lfidelity.py` 54-63. -/
def waterFlowLF : Expr 8 :=
  let x0 : Expr 8 := var 0; let x1 : Expr 8 := var 1; let x2 : Expr 8 := var 2; let x3 : Expr 8 := var 3
  let x4 : Expr 8 := var 4; let x5 : Expr 8 := var 5; let x6 : Expr 8 := var 6; let x7 : Expr 8 := var 7
  const 5 * x2 * (x3 - x5) / (log (x1 / x0) * (const 1.5 + const 2 * x6 * x2 / (log (x1 / x0) * x0 ^ 2 * x7) + x2 / x4))

/-- `WeldedBeam.func`, `welded_beam.py` 54-66. -/
def weldedBeam : Expr 3 :=
  let x0 : Expr 3 := var 0; let x1 : Expr 3 := var 1; let x2 : Expr 3 := var 2
  let tau1 := const 6000 / (const (√2) * x1 * x2)
  let tau2 := const 6000 * (const 14 + const 0.5 * x2) * sqrt (const 0.25 * (x2 ^ 2 + (x1 + x0) ^ 2)) /
    (const 2 * (const 0.707 * x1 * x2 * (x2 / const 12 + const 0.25 * (x1 + x0) ^ 2)))
  sqrt (tau1 ^ 2 + tau2 ^ 2 + x2 * tau1 * tau2 / sqrt (const 0.25 * (x2 ^ 2 + (x1 + x0) ^ 2)))

/-- `WingWeight.func`, `wing_weight.py` 49-51, 62-73. -/
def wingWeight : Expr 10 :=
  let x0 : Expr 10 := var 0; let x1 : Expr 10 := var 1; let x2 : Expr 10 := var 2; let x3 : Expr 10 := var 3; let x4 : Expr 10 := var 4
  let x5 : Expr 10 := var 5; let x6 : Expr 10 := var 6; let x7 : Expr 10 := var 7; let x8 : Expr 10 := var 8; let x9 : Expr 10 := var 9
  let deg2rad : Expr 10 → Expr 10 := fun deg => deg / const 180 * const Real.pi
  const 0.036 * rpow x0 0.758 * rpow x1 0.0035 * (x2 / cos (deg2rad x3) ^ 2) * rpow x4 0.006 * rpow x5 0.04 * rpow (const 100 * x6 / cos (deg2rad x3)) (-0.3) *
    rpow (x7 * x8) 0.49 + x0 * x9

/-- `TorsionVibration.func`, `torsion_vibration.py` 89-100. -/
def torsion : Expr 15 :=
  let x0 : Expr 15 := var 0; let x1 : Expr 15 := var 1; let x2 : Expr 15 := var 2; let x3 : Expr 15 := var 3; let x4 : Expr 15 := var 4
  let x5 : Expr 15 := var 5; let x6 : Expr 15 := var 6; let x7 : Expr 15 := var 7; let x8 : Expr 15 := var 8; let x9 : Expr 15 := var 9
  let x10 : Expr 15 := var 10; let x11 : Expr 15 := var 11; let x12 : Expr 15 := var 12; let x13 : Expr 15 := var 13; let x14 : Expr 15 := var 14
  let K1 := const Real.pi * x2 * x0 / (const 32 * x1)
  let K2 := const Real.pi * x8 * x6 / (const 32 * x7)
  let K3 := const Real.pi * x4 * x9 / (const 32 * x3)
  let M1 := x11 * const Real.pi * x10 * x5 / const (4 * 9.80665)
  let M2 := x14 * const Real.pi * x13 * x12 / const (4 * 9.80665)
  let J1 := const 0.5 * M1 * (x5 / const 2) ^ 2
  let J2 := const 0.5 * M2 * (x12 / const 2) ^ 2
  let a : Expr 15 := const 1
  let b := -((K1 + K2) / J1 + (K2 + K3) / J2)
  let c := (K1 * K2 + K2 * K3 + K3 * K1) / (J1 * J2)
  sqrt ((-b - sqrt (b ^ 2 - const 4 * a * c)) / (const 2 * a)) / const (2 * Real.pi)

/-- `xlimits` of WaterFlow and WaterFlowLFidelity, `water_flow.py` 26-27, `water_flow_lfidelity.py` 23-24. -/
def waterLo : Fin 8 → ℝ := ![0.05, 100, 63070, 990, 63.1, 700, 1120, 9855]
def waterHi : Fin 8 → ℝ := ![0.15, 50000, 115600, 1110, 116, 820, 1680, 12045]
/-- `xlimits` of WeldedBeam, `welded_beam.py` 24-25. -/
def weldedLo : Fin 3 → ℝ := ![5, 0.125, 5]
def weldedHi : Fin 3 → ℝ := ![10, 1, 10]
/-- `xlimits` of WingWeight, `wing_weight.py` 27-28. -/
def wingLo : Fin 10 → ℝ := ![150, 220, 6, -10, 16, 0.5, 0.08, 2.5, 1700, 0.025]
def wingHi : Fin 10 → ℝ := ![200, 300, 10, 10, 45, 1, 0.18, 6, 2500, 0.08]
/-- `xlimits` of TorsionVibration, `torsion_vibration.py` 26-59. -/
def torsionLo : Fin 15 → ℝ := ![1.8, 9, 10530000, 7.2, 3510000, 10.8, 1.6425, 10.8, 5580000, 2.025, 2.7, 0.252, 12.6, 3.6, 0.09]
def torsionHi : Fin 15 → ℝ := ![2.2, 11, 12870000, 8.8, 4290000, 13.2, 2.0075, 13.2, 6820000, 2.475, 3.3, 0.308, 15.4, 4.4, 0.11]

end

end SMT.CStep
