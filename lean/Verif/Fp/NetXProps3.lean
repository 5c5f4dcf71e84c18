import Verif.Fp.NetXProps2

/-!
# C121: the neural network in floating-point arithmetic: instances in double precision
-/
set_option linter.unusedSectionVars false
set_option linter.unusedSimpArgs false
set_option linter.unusedVariables false
set_option exponentiation.threshold 3000

namespace SMT.Fp.NetX
open SMT.Fp.Corr SMT.Fp.Optim SMT.Nn

/-- The function that the crude exponential of the examples rounds. -/
def lin (x : ℚ) : ℚ := if x ≤ 0 then max 0 (1 + x / 746) else 1 + x * 1152921504606846976

theorem lin_nn (x : ℚ) : 0 ≤ lin x := by
  unfold lin
  split_ifs with h
  · exact le_max_left _ _
  · have := not_le.1 h
    linarith

theorem lin_mono {x y : ℚ} (h : x ≤ y) : lin x ≤ lin y := by
  unfold lin
  split_ifs with h1 h2 h2
  · exact max_le_max le_rfl (by linarith)
  · have := not_le.1 h2
    exact max_le (by linarith) (by linarith)
  · exact absurd (h.trans h2) h1
  · linarith

/-- A crude exponential for the examples: `1 + x / 746` on `[-746, 0]`, `1 + 2 ^ 60 x` on `[0, 709]`, then overflow. -/
def exq : X ℚ → X ℚ
  | .nan => .nan
  | .inf true => .fin 0
  | .inf false => .inf false
  | .fin x => if x ≤ 709 then binary64.of (lin x) else .inf false

theorem exq_nn (x : ℚ) : Nn binary64 (exq (.fin x)) := by
  show Nn binary64 (if x ≤ 709 then binary64.of (lin x) else X.inf false)
  split_ifs
  · exact of_nn binary64 (lin_nn x)
  · rfl

theorem exq_mono (x y : ℚ) (h : x ≤ y) : (exq (.fin x)).le (exq (.fin y)) = true := by
  have h1 := exq_nn x
  revert h1
  show Nn binary64 (if x ≤ 709 then binary64.of (lin x) else X.inf false) → (if x ≤ 709 then binary64.of (lin x) else X.inf false).le (if y ≤ 709 then binary64.of (lin y) else X.inf false) = true
  by_cases hy : y ≤ 709
  · rw [if_pos hy, if_pos (h.trans hy)]
    exact fun _ => of_mono binary64 (lin_nn x) (lin_mono h)
  · rw [if_neg hy]
    generalize (if x ≤ 709 then binary64.of (lin x) else X.inf false) = v
    intro hv
    cases v with
    | fin a => rfl
    | inf s => obtain rfl : s = false := hv; rfl
    | nan => exact hv.elim

theorem exq_ok : ExpX binary64 exq where
  nan := rfl
  pinf := rfl
  ninf := rfl
  zero := by decide +kernel
  nn := exq_nn
  mono := exq_mono

/-- Two inputs, two hidden units, one output. -/
def net0 : Net ℚ where
  layers := [⟨[[.fin 1, .fin (1 / 2)], [.fin (-1), .fin 2]], [.fin 0, .fin (1 / 4)], fun _ => Tree.left 1⟩, ⟨[[.fin 3, .fin (-2)]], [.fin (1 / 2)], fun _ => Tree.left 1⟩]
  muX := [.fin 1, .fin 2]
  sdX := [.fin 2, .fin 4]
  muY := [.fin 10]
  sdY := [.fin 8]

theorem net0_chained : Chained net0.layers 2 := by
  refine ⟨⟨by decide, by decide, ?_⟩, ⟨by decide, by decide, ?_⟩, trivial⟩
  · intro i hi
    have : i = 0 ∨ i = 1 := by have : i < 2 := hi; omega
    rcases this with rfl | rfl <;> exact ⟨by decide, List.Perm.refl _⟩
  · intro i hi
    have : i = 0 := by have : i < 1 := hi; omega
    subst this
    exact ⟨by decide, List.Perm.refl _⟩

-- the tangent overflows from 710 on, on both sides, and saturates before
example : tanh binary64 exq (.fin 710) = .nan ∧ tanh binary64 exq (.fin (-710)) = .nan ∧ tanh binary64 exq (.inf false) = .nan := by decide +kernel
example : tanh binary64 exq (.fin 710) = .nan := (C121_tanh_nan binary64 exq_ok _).2 (Or.inr (Or.inl (by decide +kernel)))
example : tanh binary64 exq (.fin 700) = .fin 1 :=
  C121_tanh_one binary64 700 (binary64.rnd (lin 700)) (binary64.rnd (lin (-700))) (by decide +kernel) (by decide +kernel) ⟨binary64.idem _, by decide +kernel⟩ ⟨binary64.idem _, by decide +kernel⟩
    (by decide +kernel) (by decide +kernel) (by decide +kernel) (by decide +kernel)
example : dTanh binary64 exq (.fin (-700)) = .fin 0 ∧ ddTanh binary64 exq (.fin (-700)) = .fin 0 :=
  C121_saturated binary64 (by decide +kernel) (v := -1) (by decide +kernel) (by norm_num)
example : sigmoid binary64 exq (.fin (-710)) = .fin 0 ∧ sigmoid binary64 exq (.inf false) = .fin 1 ∧ dSigmoid binary64 exq (.fin (-710)) = .fin 0 := by decide +kernel
example : ∃ v, sigmoid binary64 exq (.inf true) = .fin v ∧ binary64.Fin v ∧ 0 ≤ v ∧ v ≤ 1 := ((C121_sigmoid binary64 exq_ok _).2 (by simp)).1

example : ddSigmoid binary64 exq (.fin 0) = .fin 0 := (C121_sigmoid_second binary64 exq_ok ⟨by decide +kernel, by decide +kernel⟩ ⟨by decide +kernel, by decide +kernel⟩).2.2

-- a point at which the prediction is a number, and one, far out, at which it is NaN
example : ∃ v, net0.evaluate binary64 exq [.fin 2, .fin 1] = [.fin v] ∧ |v| ≤ 54 := by
  have hB : predBound binary64 ⟨[[.fin 3, .fin (-2)]], [.fin (1 / 2)], fun _ => Tree.left 1⟩ (.fin 8) (.fin 10) 0 = .fin 54 := by decide +kernel
  have hl : (net0.evaluate binary64 exq [.fin 2, .fin 1]).length = 1 := by decide +kernel
  rcases C121_bounded binary64 exq_ok (N := net0) (hs := [⟨[[.fin 1, .fin (1 / 2)], [.fin (-1), .fin 2]], [.fin 0, .fin (1 / 4)], fun _ => Tree.left 1⟩])
    (l := ⟨[[.fin 3, .fin (-2)]], [.fin (1 / 2)], fun _ => Tree.left 1⟩) rfl (by simp) (n := 2) net0_chained.2.1 (by
      intro i k
      match i, k with
      | 0, 0 => exact ⟨by decide +kernel, by decide +kernel⟩
      | 0, 1 => exact ⟨by decide +kernel, by decide +kernel⟩
      | 0, _ + 2 => trivial
      | _ + 1, _ => trivial) [.fin 2, .fin 1] with h | h
  · exact absurd (h 0 (by decide)) (by decide +kernel)
  · obtain ⟨v, hv, hb⟩ := h 0 (by decide) 54 hB
    refine ⟨v, ?_, hb⟩
    match hx : net0.evaluate binary64 exq [.fin 2, .fin 1], hl with
    | [w], _ => rw [hx] at hv; rw [show w = X.fin v from hv]
example : (∀ v ∈ net0.evaluate binary64 exq [.fin 5000, .fin 1], v = .nan) ∧ ∀ j, ∀ v ∈ net0.jacNorm binary64 exq [.fin 5000, .fin 1] j, v = .nan :=
  C121_overflow binary64 exq_ok net0_chained (z := binary64.addX (dot binary64 (Tree.left 1) [.fin 1, .fin (1 / 2)] (net0.norm binary64 [.fin 5000, .fin 1])) (.fin 0))
    (List.mem_append_left _ (List.mem_map.2 ⟨0, by decide, rfl⟩)) (Or.inr (Or.inl (by decide +kernel)))

-- derivatives: the bound, and the derivative itself
example : jacBound binary64 net0.layers [.fin 1, .fin 0] = [.fin 5] ∧ jacBound binary64 net0.layers [.fin 0, .fin 1] = [.fin (11 / 2)] := by decide +kernel
example : ∃ v, (net0.jacNorm binary64 exq [.fin 2, .fin 1] 0).getD 0 .nan = .fin v ∧ |v| ≤ 5 := by
  rcases C121_jacobian_bounded binary64 exq_ok (N := net0) (x := [.fin 2, .fin 1]) net0_chained 0 with h | h
  · exact absurd (getD_all h 0) (by decide +kernel)
  · exact h 0 5 (by decide +kernel)

-- the mean of the inputs
example : net0.evaluate binary64 exq [.fin 1, .fin 2] = ({ net0 with muX := [.fin 0, .fin 0], sdX := [.fin 1, .fin 1] } : Net ℚ).evaluate binary64 exq [.fin 0, .fin 0] := by
  refine (C121_at_mean binary64 exq (N := net0) (N' := { net0 with muX := [.fin 0, .fin 0], sdX := [.fin 1, .fin 1] }) (x := [.fin 1, .fin 2]) (x' := [.fin 0, .fin 0]) rfl rfl rfl (fun i hi => ?_) (fun i hi => ?_) rfl).1
  · have : i = 0 ∨ i = 1 := by have : i < 2 := hi; omega
    rcases this with rfl | rfl
    · exact ⟨1, rfl, rfl, by decide +kernel, by decide +kernel⟩
    · exact ⟨2, rfl, rfl, by decide +kernel, by decide +kernel⟩
  · have : i = 0 ∨ i = 1 := by have : i < 2 := hi; omega
    rcases this with rfl | rfl
    · exact ⟨0, rfl, rfl, by decide +kernel, by decide +kernel⟩
    · exact ⟨0, rfl, rfl, by decide +kernel, by decide +kernel⟩

-- a constant input column
example : (∀ v ∈ ({ net0 with sdX := [.fin 0, .fin 4] } : Net ℚ).evaluate binary64 exq [.fin 2, .fin 1], v = .nan) :=
  (C121_constant_input binary64 exq_ok (N := { net0 with sdX := [.fin 0, .fin 4] }) (x := [.fin 2, .fin 1]) net0_chained (by decide) (k := 0) (by decide) rfl).1

/-- A network whose only parameter that moves is the bias of its output, and whose output is constant over the training points. -/
def net1 (d : Fin 1 → X ℚ) : Net ℚ := { net0 with layers := net0.layers.take 1 ++ [⟨[[.fin 3, .fin (-2)]], [d 0], fun _ => Tree.left 1⟩], sdY := [.fin 0] }

def grad1 (d : Fin 1 → X ℚ) (_ : Fin 1) : X ℚ := lastBias binary64 (Tree.left 1) 2 [.fin 1, d 0] (normOut binary64 (.fin 10) (.fin 0) [.fin 10, .fin 10]) []

-- a run of two passes on it, and what its last design predicts
example : (optimizeX binary64 12 (fun d => d 0) grad1 (gdX binary64) (.fin (1 / 2)) 2 (fun _ => .fin 1)).isSome = true := C120_terminates _ _ _ _ _ _
example (o : Opt (X ℚ) (Fin 1)) (h : optimizeX binary64 12 (fun d => d 0) grad1 (gdX binary64) (.fin (1 / 2)) 2 (fun _ => .fin 1) = some o) (d : Fin 1 → X ℚ) (hd : o.designs[1]? = some d)
    (x : List (X ℚ)) : ((net1 d).evaluate binary64 exq x).getD 0 .nan = .nan :=
  C121_constant_output binary64 (Or.inl rfl) _ grad1 _ 12 2 _ o h net1 0 0
    (fun d => ⟨net0.layers.take 1, ⟨[[.fin 3, .fin (-2)]], [d 0], fun _ => Tree.left 1⟩, rfl, by simp, rfl, rfl⟩) (by norm_num) (t := Tree.left 1) (n := 2) (List.Perm.refl _) (.fin 10) [.fin 10, .fin 10]
    (fun d => [.fin 1, d 0]) (fun _ => []) (fun _ => rfl) (by norm_num) hd x
example : ∃ o, optimizeX binary64 12 (fun d => d 0) grad1 (gdX binary64) (.fin (1 / 2)) 2 (fun _ => .fin 1) = some o ∧ (o.designs.map fun d => d 0) = [.fin 1, .nan, .nan] := by
  have h : (optimizeX binary64 12 (fun d => d 0) grad1 (gdX binary64) (.fin (1 / 2)) 2 (fun _ => .fin 1)).map (fun o => o.designs.map fun d => d 0) = some [.fin 1, .nan, .nan] := by decide +kernel
  rw [Option.map_eq_some_iff] at h
  exact h

end SMT.Fp.NetX
