import Verif.CStep.Props
import Mathlib.Analysis.Real.Pi.Bounds

/-!
# C62 (continued): the five problems
-/
namespace SMT.CStep
open Expr Filter Topology
set_option linter.unusedSectionVars false
set_option linter.unusedSimpArgs false
set_option linter.unusedVariables false

/-! ## Specification: the published formulas -/

/-- Water flow through a borehole: `2 pi Tu (Hu - Hl) / (log(r/rw) (a + 2 L Tu / (log(r/rw) rw² Kw) + Tu/Tl))`. -/
noncomputable def borehole (num a rw r Tu Hu Tl Hl L Kw : ℝ) : ℝ :=
  num * Tu * (Hu - Hl) / (Real.log (r / rw) * (a + 2 * L * Tu / (Real.log (r / rw) * rw ^ 2 * Kw) + Tu / Tl))

/-- `x` lies in the box of design limits. -/
def InBox {n : ℕ} (lo hi x : Fin n → ℝ) : Prop := ∀ i, lo i ≤ x i ∧ x i ≤ hi i

section water
variable {x : Fin 8 → ℝ}

/-- **C62** The values are the published formulas. -/
theorem C62_water_values (x : Fin 8 → ℝ) : value waterFlow x = borehole (2 * Real.pi) 1 (x 0) (x 1) (x 2) (x 3) (x 4) (x 5) (x 6) (x 7) ∧
    value waterFlowLF x = borehole 5 1.5 (x 0) (x 1) (x 2) (x 3) (x 4) (x 5) (x 6) (x 7) := ⟨rfl, rfl⟩

lemma water_good (a : ℝ) (num : Expr 8) (hnum : Good x num) (ha : 0 < a) (h0 : 0 < x 0) (h1 : x 0 < x 1) (h2 : 0 < x 2) (h4 : 0 < x 4) (h6 : 0 < x 6) (h7 : 0 < x 7) :
    Good x (num / (log (var 1 / var 0) * (const a + const 2 * var 6 * var 2 / (log (var 1 / var 0) * var 0 ^ 2 * var 7) + var 2 / var 4))) := by
  have hl : 0 < x 1 / x 0 := div_pos (h0.trans h1) h0
  have hlog : 0 < Real.log (x 1 / x 0) := Real.log_pos (by rwa [one_lt_div h0])
  have g0 : Good x (log (var 1 / var 0 : Expr 8)) := ⟨⟨trivial, trivial, h0.ne'⟩, hl⟩
  refine ⟨hnum, ⟨g0, ⟨⟨trivial, ⟨⟨⟨trivial, trivial⟩, trivial⟩, ⟨⟨g0, trivial⟩, trivial⟩, ?_⟩⟩, trivial, trivial, h4.ne'⟩⟩, ?_⟩
  · show Real.log (x 1 / x 0) * x 0 ^ 2 * x 7 ≠ 0
    positivity
  · show Real.log (x 1 / x 0) * (a + 2 * x 6 * x 2 / (Real.log (x 1 / x 0) * x 0 ^ 2 * x 7) + x 2 / x 4) ≠ 0
    positivity

/-- **C62** Water flow, both fidelities: for a borehole radius smaller than the radius of influence and positive parameters the derivatives are those of the value, to second order in the step. -/
theorem C62_water (h0 : 0 < x 0) (h1 : x 0 < x 1) (h2 : 0 < x 2) (h4 : 0 < x 4) (h6 : 0 < x 6) (h7 : 0 < x 7) {e : Expr 8} (he : e = waterFlow ∨ e = waterFlowLF) (k : Fin 8) :
    ∃ d, HasDerivAt (fun s => value e (Function.update x k s)) d (x k) ∧ ∃ c, ∀ᶠ s in 𝓝[≠] (0 : ℝ), |cstep e s x k - d| ≤ c * s ^ 2 ∧ |fd e s x k - d| ≤ c * s ^ 2 := by
  refine C62_second_order e ?_ k
  rcases he with rfl | rfl
  · exact water_good 1 _ ⟨⟨⟨trivial, trivial⟩, trivial⟩, trivial, trivial⟩ one_pos h0 h1 h2 h4 h6 h7
  · exact water_good 1.5 _ ⟨⟨trivial, trivial⟩, trivial, trivial⟩ (by norm_num) h0 h1 h2 h4 h6 h7

/-- **C62** In particular on the whole design box. -/
theorem C62_water_box (hx : InBox waterLo waterHi x) {e : Expr 8} (he : e = waterFlow ∨ e = waterFlowLF) (k : Fin 8) :
    ∃ d, HasDerivAt (fun s => value e (Function.update x k s)) d (x k) ∧ ∃ c, ∀ᶠ s in 𝓝[≠] (0 : ℝ), |cstep e s x k - d| ≤ c * s ^ 2 ∧ |fd e s x k - d| ≤ c * s ^ 2 := by
  have a0 := hx 0; have a1 := hx 1; have a2 := hx 2; have a4 := hx 4; have a6 := hx 6; have a7 := hx 7
  simp [waterLo, waterHi] at a0 a1 a2 a4 a6 a7
  norm_num at a0 a1 a2 a4 a6 a7
  exact C62_water (by linarith) (by linarith) (by linarith) (by linarith) (by linarith) (by linarith) he k

end water

section welded
variable {x : Fin 3 → ℝ}

/-- Shear stress of a welded beam with height `t`, weld thickness `h`, weld length `l`. -/
noncomputable def shear (t h l : ℝ) : ℝ :=
  let ρ := √(0.25 * (l ^ 2 + (h + t) ^ 2))
  let τ₁ := 6000 / (√2 * h * l)
  let τ₂ := 6000 * (14 + 0.5 * l) * ρ / (2 * (0.707 * h * l * (l / 12 + 0.25 * (h + t) ^ 2)))
  √(τ₁ ^ 2 + τ₂ ^ 2 + l * τ₁ * τ₂ / ρ)

/-- **C62** Welded beam: value, and derivatives for positive dimensions. -/
theorem C62_welded (h0 : 0 < x 0) (h1 : 0 < x 1) (h2 : 0 < x 2) (k : Fin 3) : value weldedBeam x = shear (x 0) (x 1) (x 2) ∧
    ∃ d, HasDerivAt (fun s => value weldedBeam (Function.update x k s)) d (x k) ∧
      ∃ c, ∀ᶠ s in 𝓝[≠] (0 : ℝ), |cstep weldedBeam s x k - d| ≤ c * s ^ 2 ∧ |fd weldedBeam s x k - d| ≤ c * s ^ 2 := by
  refine ⟨rfl, C62_second_order _ ?_ k⟩
  have hq : 0 < 0.25 * (x 2 ^ 2 + (x 1 + x 0) ^ 2) := by positivity
  have hr : 0 < √(0.25 * (x 2 ^ 2 + (x 1 + x 0) ^ 2)) := Real.sqrt_pos.2 hq
  have gr : Good x (sqrt (const 0.25 * (var 2 ^ 2 + (var 1 + var 0) ^ 2)) : Expr 3) := ⟨⟨trivial, trivial, trivial, trivial⟩, hq⟩
  have g1 : Good x (const 6000 / (const (√2) * var 1 * var 2) : Expr 3) := ⟨trivial, ⟨⟨trivial, trivial⟩, trivial⟩, by show √2 * x 1 * x 2 ≠ 0; positivity⟩
  have g2 : Good x (const 6000 * (const 14 + const 0.5 * var 2) * sqrt (const 0.25 * (var 2 ^ 2 + (var 1 + var 0) ^ 2)) /
      (const 2 * (const 0.707 * var 1 * var 2 * (var 2 / const 12 + const 0.25 * (var 1 + var 0) ^ 2))) : Expr 3) := by
    refine ⟨⟨⟨trivial, trivial, trivial, trivial⟩, gr⟩, ⟨trivial, ⟨⟨trivial, trivial⟩, trivial⟩, ⟨trivial, trivial, ?_⟩, trivial, trivial, trivial⟩, ?_⟩
    · show (12 : ℝ) ≠ 0; norm_num
    · show (2 : ℝ) * (0.707 * x 1 * x 2 * (x 2 / 12 + 0.25 * (x 1 + x 0) ^ 2)) ≠ 0; positivity
  refine ⟨⟨⟨g1, g2⟩, ⟨⟨trivial, g1⟩, g2⟩, gr, hr.ne'⟩, ?_⟩
  show 0 < (6000 / (√2 * x 1 * x 2)) ^ 2 + (6000 * (14 + 0.5 * x 2) * √(0.25 * (x 2 ^ 2 + (x 1 + x 0) ^ 2)) / (2 * (0.707 * x 1 * x 2 * (x 2 / 12 + 0.25 * (x 1 + x 0) ^ 2)))) ^ 2 +
    x 2 * (6000 / (√2 * x 1 * x 2)) * (6000 * (14 + 0.5 * x 2) * √(0.25 * (x 2 ^ 2 + (x 1 + x 0) ^ 2)) / (2 * (0.707 * x 1 * x 2 * (x 2 / 12 + 0.25 * (x 1 + x 0) ^ 2)))) /
      √(0.25 * (x 2 ^ 2 + (x 1 + x 0) ^ 2))
  positivity

/-- **C62** In particular on the whole design box. -/
theorem C62_welded_box (hx : InBox weldedLo weldedHi x) (k : Fin 3) : ∃ d, HasDerivAt (fun s => value weldedBeam (Function.update x k s)) d (x k) ∧
      ∃ c, ∀ᶠ s in 𝓝[≠] (0 : ℝ), |cstep weldedBeam s x k - d| ≤ c * s ^ 2 ∧ |fd weldedBeam s x k - d| ≤ c * s ^ 2 := by
  have a0 := hx 0; have a1 := hx 1; have a2 := hx 2
  simp [weldedLo, weldedHi] at a0 a1 a2
  norm_num at a0 a1 a2
  exact (C62_welded (by linarith) (by linarith) (by linarith) k).2

end welded

section wing
variable {x : Fin 10 → ℝ}

/-- Weight of a light aircraft wing (Forrester et al.), sweep `Λ` in degrees. -/
noncomputable def wing (Sw Wfw A Λ q lam tc Nz Wdg Wp : ℝ) : ℝ :=
  let cosΛ := Real.cos (Λ / 180 * Real.pi)
  0.036 * Sw ^ (0.758 : ℝ) * Wfw ^ (0.0035 : ℝ) * (A / cosΛ ^ 2) * q ^ (0.006 : ℝ) * lam ^ (0.04 : ℝ) * (100 * tc / cosΛ) ^ (-0.3 : ℝ) * (Nz * Wdg) ^ (0.49 : ℝ) + Sw * Wp

/-- **C62** Wing weight: value, and derivatives for positive parameters and a sweep below 90 degrees. -/
theorem C62_wing (h0 : 0 < x 0) (h1 : 0 < x 1) (h3 : |x 3| < 90) (h4 : 0 < x 4) (h5 : 0 < x 5) (h6 : 0 < x 6) (h7 : 0 < x 7) (h8 : 0 < x 8) (k : Fin 10) :
    value wingWeight x = wing (x 0) (x 1) (x 2) (x 3) (x 4) (x 5) (x 6) (x 7) (x 8) (x 9) ∧
    ∃ d, HasDerivAt (fun s => value wingWeight (Function.update x k s)) d (x k) ∧
      ∃ c, ∀ᶠ s in 𝓝[≠] (0 : ℝ), |cstep wingWeight s x k - d| ≤ c * s ^ 2 ∧ |fd wingWeight s x k - d| ≤ c * s ^ 2 := by
  refine ⟨rfl, C62_second_order _ ?_ k⟩
  have hc : 0 < Real.cos (x 3 / 180 * Real.pi) := by
    have := abs_lt.1 h3
    have hp := Real.pi_pos
    refine Real.cos_pos_of_mem_Ioo ⟨?_, ?_⟩ <;> nlinarith
  have gc : Good x (cos (var 3 / const 180 * const Real.pi) : Expr 10) := ⟨⟨trivial, trivial, by show (180 : ℝ) ≠ 0; norm_num⟩, trivial⟩
  refine ⟨⟨⟨⟨⟨⟨⟨⟨trivial, trivial, h0⟩, trivial, h1⟩, trivial, gc, ?_⟩, trivial, h4⟩, trivial, h5⟩, ⟨⟨trivial, trivial⟩, gc, hc.ne'⟩, ?_⟩, ⟨trivial, trivial⟩, mul_pos h7 h8⟩, trivial, trivial⟩
  · show Real.cos (x 3 / 180 * Real.pi) ^ 2 ≠ 0; positivity
  · show 0 < 100 * x 6 / Real.cos (x 3 / 180 * Real.pi); positivity

/-- **C62** In particular on the whole design box. -/
theorem C62_wing_box (hx : InBox wingLo wingHi x) (k : Fin 10) : ∃ d, HasDerivAt (fun s => value wingWeight (Function.update x k s)) d (x k) ∧
      ∃ c, ∀ᶠ s in 𝓝[≠] (0 : ℝ), |cstep wingWeight s x k - d| ≤ c * s ^ 2 ∧ |fd wingWeight s x k - d| ≤ c * s ^ 2 := by
  have a0 := hx 0; have a1 := hx 1; have a3 := hx 3; have a4 := hx 4; have a5 := hx 5; have a6 := hx 6; have a7 := hx 7; have a8 := hx 8
  simp [wingLo, wingHi] at a0 a1 a3 a4 a5 a6 a7 a8
  norm_num at a0 a1 a3 a4 a5 a6 a7 a8
  exact (C62_wing (by linarith) (by linarith) (abs_lt.2 ⟨by linarith, by linarith⟩) (by linarith) (by linarith) (by linarith) (by linarith) (by linarith) k).2

end wing

section torsion
variable {x : Fin 15 → ℝ}

/-- Stiffness of a shaft: `pi G d / (32 L)` (the code uses `d`, not `d⁴`). -/
noncomputable def stiff (G d L : ℝ) : ℝ := Real.pi * G * d / (32 * L)
/-- Moment of inertia of a disc of diameter `D`, thickness `t`, density `lam` (the code uses `D` once where the volume has `D²`). -/
noncomputable def inertia (lam t D : ℝ) : ℝ := 0.5 * (lam * Real.pi * t * D / (4 * 9.80665)) * (D / 2) ^ 2

/-- **C62** Torsion vibration: the value is the lower natural frequency: `(2 pi y)²` is the smaller root of the characteristic polynomial of the two-disc system, and both roots are positive. -/
theorem C62_torsion_value (hx : ∀ i, 0 < x i) :
    let K₁ := stiff (x 2) (x 0) (x 1); let K₂ := stiff (x 8) (x 6) (x 7); let K₃ := stiff (x 4) (x 9) (x 3)
    let J₁ := inertia (x 11) (x 10) (x 5); let J₂ := inertia (x 14) (x 13) (x 12)
    let b := -((K₁ + K₂) / J₁ + (K₂ + K₃) / J₂); let c := (K₁ * K₂ + K₂ * K₃ + K₃ * K₁) / (J₁ * J₂)
    let lam := (2 * Real.pi * value torsion x) ^ 2
    0 < value torsion x ∧ lam ^ 2 + b * lam + c = 0 ∧ ∀ μ, μ ^ 2 + b * μ + c = 0 → lam ≤ μ := by
  intro K₁ K₂ K₃ J₁ J₂ b c lam
  have hp := Real.pi_pos
  have k1 : 0 < K₁ := by have := hx 2; have := hx 0; have := hx 1; simp only [K₁, stiff]; positivity
  have k2 : 0 < K₂ := by have := hx 8; have := hx 6; have := hx 7; simp only [K₂, stiff]; positivity
  have k3 : 0 < K₃ := by have := hx 4; have := hx 9; have := hx 3; simp only [K₃, stiff]; positivity
  have j1 : 0 < J₁ := by have := hx 11; have := hx 10; have := hx 5; simp only [J₁, inertia]; positivity
  have j2 : 0 < J₂ := by have := hx 14; have := hx 13; have := hx 12; simp only [J₂, inertia]; positivity
  have hc : 0 < c := by simp only [c]; positivity
  have hb : b < 0 := by simp only [b]; rw [neg_lt_zero]; positivity
  have hdisc : 0 < b ^ 2 - 4 * c := by
    have e : b ^ 2 - 4 * c = ((K₁ + K₂) / J₁ - (K₂ + K₃) / J₂) ^ 2 + 4 * K₂ ^ 2 / (J₁ * J₂) := by simp only [b, c]; field_simp; ring
    rw [e]; positivity
  have hs : √(b ^ 2 - 4 * c) < -b := by
    rw [Real.sqrt_lt' (by linarith)]; nlinarith
  have hv : value torsion x = √((-b - √(b ^ 2 - 4 * c)) / 2) / (2 * Real.pi) := by
    have e : value torsion x = √(((0 - (0 - ((K₁ + K₂) / J₁ + (K₂ + K₃) / J₂))) - √((0 - ((K₁ + K₂) / J₁ + (K₂ + K₃) / J₂)) ^ 2 - 4 * 1 * c)) / (2 * 1)) / (2 * Real.pi) := rfl
    rw [e]
    simp only [zero_sub, mul_one]
    rfl
  have hroot : 0 < (-b - √(b ^ 2 - 4 * c)) / 2 := by linarith
  have hlam : lam = (-b - √(b ^ 2 - 4 * c)) / 2 := by
    simp only [lam, hv]
    rw [mul_div_cancel₀ _ (by positivity), Real.sq_sqrt hroot.le]
  have hsq := Real.sq_sqrt hdisc.le
  refine ⟨?_, ?_, fun μ hμ => ?_⟩
  · rw [hv]; exact div_pos (Real.sqrt_pos.2 hroot) (by positivity)
  · rw [hlam]; nlinarith
  · rw [hlam]
    have h1 : (2 * μ + b) ^ 2 = b ^ 2 - 4 * c := by nlinarith
    have h2 : √(b ^ 2 - 4 * c) = |2 * μ + b| := by rw [← h1, Real.sqrt_sq_eq_abs]
    have h3 := neg_abs_le (2 * μ + b)
    rw [h2]; linarith

lemma torsion_good (hx : ∀ i, 0 < x i) : Good x torsion := by
  have hp := Real.pi_pos
  obtain ⟨hpos, hroot, -⟩ := C62_torsion_value hx
  have p1 : Good x (const Real.pi * var 2 * var 0 / (const 32 * var 1) : Expr 15) := ⟨⟨⟨trivial, trivial⟩, trivial⟩, ⟨trivial, trivial⟩, by show 32 * x 1 ≠ 0; have := hx 1; positivity⟩
  have p2 : Good x (const Real.pi * var 8 * var 6 / (const 32 * var 7) : Expr 15) := ⟨⟨⟨trivial, trivial⟩, trivial⟩, ⟨trivial, trivial⟩, by show 32 * x 7 ≠ 0; have := hx 7; positivity⟩
  have p3 : Good x (const Real.pi * var 4 * var 9 / (const 32 * var 3) : Expr 15) := ⟨⟨⟨trivial, trivial⟩, trivial⟩, ⟨trivial, trivial⟩, by show 32 * x 3 ≠ 0; have := hx 3; positivity⟩
  have two : (2 : ℝ) ≠ 0 := two_ne_zero
  have nine : (4 * 9.80665 : ℝ) ≠ 0 := by norm_num
  have q1 : Good x (const 0.5 * (var 11 * const Real.pi * var 10 * var 5 / const (4 * 9.80665)) * (var 5 / const 2) ^ 2 : Expr 15) :=
    ⟨⟨trivial, ⟨⟨⟨trivial, trivial⟩, trivial⟩, trivial⟩, trivial, nine⟩, trivial, trivial, two⟩
  have q2 : Good x (const 0.5 * (var 14 * const Real.pi * var 13 * var 12 / const (4 * 9.80665)) * (var 12 / const 2) ^ 2 : Expr 15) :=
    ⟨⟨trivial, ⟨⟨⟨trivial, trivial⟩, trivial⟩, trivial⟩, trivial, nine⟩, trivial, trivial, two⟩
  set K₁ := stiff (x 2) (x 0) (x 1) with hK1
  set K₂ := stiff (x 8) (x 6) (x 7) with hK2
  set K₃ := stiff (x 4) (x 9) (x 3) with hK3
  set J₁ := inertia (x 11) (x 10) (x 5) with hJ1
  set J₂ := inertia (x 14) (x 13) (x 12) with hJ2
  have k1 : 0 < K₁ := by have := hx 2; have := hx 0; have := hx 1; simp only [hK1, stiff]; positivity
  have k2 : 0 < K₂ := by have := hx 8; have := hx 6; have := hx 7; simp only [hK2, stiff]; positivity
  have k3 : 0 < K₃ := by have := hx 4; have := hx 9; have := hx 3; simp only [hK3, stiff]; positivity
  have j1 : 0 < J₁ := by have := hx 11; have := hx 10; have := hx 5; simp only [hJ1, inertia]; positivity
  have j2 : 0 < J₂ := by have := hx 14; have := hx 13; have := hx 12; simp only [hJ2, inertia]; positivity
  have gb : Good x (-((const Real.pi * var 2 * var 0 / (const 32 * var 1) + const Real.pi * var 8 * var 6 / (const 32 * var 7)) /
      (const 0.5 * (var 11 * const Real.pi * var 10 * var 5 / const (4 * 9.80665)) * (var 5 / const 2) ^ 2) +
      (const Real.pi * var 8 * var 6 / (const 32 * var 7) + const Real.pi * var 4 * var 9 / (const 32 * var 3)) /
      (const 0.5 * (var 14 * const Real.pi * var 13 * var 12 / const (4 * 9.80665)) * (var 12 / const 2) ^ 2)) : Expr 15) :=
    ⟨trivial, ⟨⟨p1, p2⟩, q1, j1.ne'⟩, ⟨p2, p3⟩, q2, j2.ne'⟩
  have gc : Good x (const 4 * const 1 * ((const Real.pi * var 2 * var 0 / (const 32 * var 1) * (const Real.pi * var 8 * var 6 / (const 32 * var 7)) +
      const Real.pi * var 8 * var 6 / (const 32 * var 7) * (const Real.pi * var 4 * var 9 / (const 32 * var 3)) +
      const Real.pi * var 4 * var 9 / (const 32 * var 3) * (const Real.pi * var 2 * var 0 / (const 32 * var 1))) /
      ((const 0.5 * (var 11 * const Real.pi * var 10 * var 5 / const (4 * 9.80665)) * (var 5 / const 2) ^ 2) *
        (const 0.5 * (var 14 * const Real.pi * var 13 * var 12 / const (4 * 9.80665)) * (var 12 / const 2) ^ 2))) : Expr 15) :=
    ⟨⟨trivial, trivial⟩, ⟨⟨⟨p1, p2⟩, p2, p3⟩, p3, p1⟩, ⟨q1, q2⟩, (mul_pos j1 j2).ne'⟩
  set b := 0 - ((K₁ + K₂) / J₁ + (K₂ + K₃) / J₂) with hb
  set c := (K₁ * K₂ + K₂ * K₃ + K₃ * K₁) / (J₁ * J₂) with hc
  have hdisc : 0 < b ^ 2 - 4 * 1 * c := by
    have e : b ^ 2 - 4 * 1 * c = ((K₁ + K₂) / J₁ - (K₂ + K₃) / J₂) ^ 2 + 4 * K₂ ^ 2 / (J₁ * J₂) := by simp only [hb, hc]; field_simp; ring
    rw [e]; positivity
  have hv : value torsion x = √(((0 - b) - √(b ^ 2 - 4 * 1 * c)) / (2 * 1)) / (2 * Real.pi) := rfl
  have hrad : 0 < ((0 - b) - √(b ^ 2 - 4 * 1 * c)) / (2 * 1) := by
    by_contra h
    rw [hv, Real.sqrt_eq_zero_of_nonpos (not_lt.1 h), zero_div] at hpos
    exact lt_irrefl _ hpos
  refine ⟨⟨⟨⟨⟨trivial, gb⟩, ⟨gb, gc⟩, hdisc⟩, ⟨trivial, trivial⟩, ?_⟩, hrad⟩, trivial, ?_⟩
  · show (2 * 1 : ℝ) ≠ 0; norm_num
  · show 2 * Real.pi ≠ 0; positivity

/-- **C62** Torsion vibration: derivatives for positive parameters. -/
theorem C62_torsion (hx : ∀ i, 0 < x i) (k : Fin 15) : ∃ d, HasDerivAt (fun s => value torsion (Function.update x k s)) d (x k) ∧
      ∃ c, ∀ᶠ s in 𝓝[≠] (0 : ℝ), |cstep torsion s x k - d| ≤ c * s ^ 2 ∧ |fd torsion s x k - d| ≤ c * s ^ 2 :=
  C62_second_order _ (torsion_good hx) k

/-- **C62** In particular on the whole design box. -/
theorem C62_torsion_box (hx : InBox torsionLo torsionHi x) (k : Fin 15) : ∃ d, HasDerivAt (fun s => value torsion (Function.update x k s)) d (x k) ∧
      ∃ c, ∀ᶠ s in 𝓝[≠] (0 : ℝ), |cstep torsion s x k - d| ≤ c * s ^ 2 ∧ |fd torsion s x k - d| ≤ c * s ^ 2 := by
  refine C62_torsion (fun i => lt_of_lt_of_le ?_ (hx i).1) k
  fin_cases i <;> norm_num [torsionLo, Fin.forall_fin_succ]

end torsion

/-- **C62** Hence, on the domain of every formula, both derivative options of `_evaluate` tend to the partial derivative of the value as the step tends to 0. -/
theorem C62_limit {n : ℕ} {x : Fin n → ℝ} (e : Expr n) (h : Good x e) (k : Fin n) : ∃ d, HasDerivAt (fun s => evaluate e false 0 0 (Function.update x k s) none) d (x k) ∧
    Tendsto (fun ch => evaluate e false ch 0 x (some k)) (𝓝[≠] 0) (𝓝 d) ∧ Tendsto (fun dx => evaluate e true 0 dx x (some k)) (𝓝[≠] 0) (𝓝 d) := by
  obtain ⟨d, hd, c, hc⟩ := C62_second_order e h k
  have hz : Tendsto (fun s : ℝ => c * s ^ 2) (𝓝[≠] 0) (𝓝 0) := by
    have : Tendsto (fun s : ℝ => c * s ^ 2) (𝓝 0) (𝓝 (c * 0 ^ 2)) := (continuous_const.mul (continuous_pow 2)).tendsto 0
    simpa using this.mono_left nhdsWithin_le_nhds
  refine ⟨d, hd, ?_, ?_⟩
  · rw [tendsto_iff_norm_sub_tendsto_zero]
    exact squeeze_zero' (Eventually.of_forall fun _ => norm_nonneg _) (hc.mono fun s hs => hs.1) hz
  · rw [tendsto_iff_norm_sub_tendsto_zero]
    exact squeeze_zero' (Eventually.of_forall fun _ => norm_nonneg _) (hc.mono fun s hs => hs.2) hz

/-- The boxes are not empty: the lower corners lie in them. -/
example : InBox waterLo waterHi waterLo ∧ InBox weldedLo weldedHi weldedLo ∧ InBox wingLo wingHi wingLo ∧ InBox torsionLo torsionHi torsionLo := by
  refine ⟨?_, ?_, ?_, ?_⟩ <;> intro i <;> fin_cases i <;> norm_num [waterLo, waterHi, weldedLo, weldedHi, wingLo, wingHi, torsionLo, torsionHi]

/-- **C62** The design boxes, input by input: WaterFlow (`r_w, r, T_u, H_u, T_l, H_l, L, K_w`), WeldedBeam (`t, h, l`), WingWeight (`S_w, W_fw, A, Λ, q, λ, t_c, N_z, W_dg, W_p`) and TorsionVibration
(`d_1, L_1, G_1, L_3, G_3, D_1, d_2, L_2, G_2, d_3, t_1, ρ_1, D_2, t_2, ρ_2`). The intervals are those of the documentation pages except three: the documentation has `W_dg ≤ 25000`,
`G_1 ∈ [105300000, 128700000]` and `d_2 ∈ [1.638, 2.002]`. -/
theorem C62_domains :
    (∀ x, InBox waterLo waterHi x ↔ x 0 ∈ Set.Icc 0.05 0.15 ∧ x 1 ∈ Set.Icc 100 50000 ∧ x 2 ∈ Set.Icc 63070 115600 ∧ x 3 ∈ Set.Icc 990 1110 ∧ x 4 ∈ Set.Icc 63.1 116 ∧ x 5 ∈ Set.Icc 700 820 ∧
      x 6 ∈ Set.Icc 1120 1680 ∧ x 7 ∈ Set.Icc 9855 12045) ∧
    (∀ x, InBox weldedLo weldedHi x ↔ x 0 ∈ Set.Icc 5 10 ∧ x 1 ∈ Set.Icc 0.125 1 ∧ x 2 ∈ Set.Icc 5 10) ∧
    (∀ x, InBox wingLo wingHi x ↔ x 0 ∈ Set.Icc 150 200 ∧ x 1 ∈ Set.Icc 220 300 ∧ x 2 ∈ Set.Icc 6 10 ∧ x 3 ∈ Set.Icc (-10) 10 ∧ x 4 ∈ Set.Icc 16 45 ∧ x 5 ∈ Set.Icc 0.5 1 ∧ x 6 ∈ Set.Icc 0.08 0.18 ∧
      x 7 ∈ Set.Icc 2.5 6 ∧ x 8 ∈ Set.Icc 1700 2500 ∧ x 9 ∈ Set.Icc 0.025 0.08) ∧
    (∀ x, InBox torsionLo torsionHi x ↔ x 0 ∈ Set.Icc 1.8 2.2 ∧ x 1 ∈ Set.Icc 9 11 ∧ x 2 ∈ Set.Icc 10530000 12870000 ∧ x 3 ∈ Set.Icc 7.2 8.8 ∧ x 4 ∈ Set.Icc 3510000 4290000 ∧
      x 5 ∈ Set.Icc 10.8 13.2 ∧ x 6 ∈ Set.Icc 1.6425 2.0075 ∧ x 7 ∈ Set.Icc 10.8 13.2 ∧ x 8 ∈ Set.Icc 5580000 6820000 ∧ x 9 ∈ Set.Icc 2.025 2.475 ∧ x 10 ∈ Set.Icc 2.7 3.3 ∧ x 11 ∈ Set.Icc 0.252 0.308 ∧
      x 12 ∈ Set.Icc 12.6 15.4 ∧ x 13 ∈ Set.Icc 3.6 4.4 ∧ x 14 ∈ Set.Icc 0.09 0.11) := by
  refine ⟨fun x => ?_, fun x => ?_, fun x => ?_, fun x => ?_⟩ <;>
    simp only [InBox, waterLo, waterHi, weldedLo, weldedHi, wingLo, wingHi, torsionLo, torsionHi, Fin.forall_fin_succ, Fin.forall_fin_zero, Set.mem_Icc] <;> exact ⟨fun h => by simpa using h, fun h => by simpa using h⟩

end SMT.CStep
