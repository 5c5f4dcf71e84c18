import Verif.Index.Model
import Mathlib.Algebra.Order.BigOperators.Group.List
import Mathlib.Algebra.BigOperators.Group.List.Basic
import Mathlib.Tactic.Ring
import Mathlib.Tactic.Linarith

/-!
# Property C22: expand/contract are inverse bijections in row-major order
-/
namespace SMT.Index

/-- A multi-index of the given shape: one digit below each size. -/
def InShape (ns is : List Nat) : Prop := List.Forall₂ (fun n i => i < n) ns is

/-- Row-major (lexicographic) value of a multi-index, written as the usual nested formula
`(((i₀ * n₁) + i₁) * n₂ + i₂) …`. -/
def rowMajor : Nat → List Nat → List Nat → Nat
  | acc, n :: ns, i :: is => rowMajor (acc * n + i) ns is
  | acc, _, _ => acc

theorem contractLoop_prod : ∀ ns is : List Nat, ns.length = is.length → (contractLoop ns is).2 = ns.prod := by
  intro ns
  induction ns with
  | nil => intro is _; cases is <;> simp [contractLoop]
  | cons n ns ih =>
    intro is h
    cases is with
    | nil => simp at h
    | cons i is => simp [contractLoop, ih is (by simpa using h), Nat.mul_comm]

theorem contract_cons (n : Nat) (ns : List Nat) (i : Nat) (is : List Nat) (h : ns.length = is.length) :
    contract (n :: ns) (i :: is) = i * ns.prod + contract ns is := by
  simp [contract, contractLoop, contractLoop_prod ns is h, Nat.add_comm]

theorem expand_length (ns : List Nat) (k : Nat) : (expand ns k).length = ns.length := by
  induction ns generalizing k with
  | nil => rfl
  | cons n ns ih => simp [expand, ih]

theorem InShape.length {ns is : List Nat} (h : InShape ns is) : ns.length = is.length :=
  List.Forall₂.length_eq h

theorem contract_lt {ns is : List Nat} (h : InShape ns is) : contract ns is < ns.prod := by
  induction h with
  | nil => simp [contract, contractLoop]
  | @cons n i ns is hlt hrest ih =>
    rw [contract_cons _ _ _ _ (InShape.length hrest), List.prod_cons]
    have : (i + 1) * ns.prod ≤ n * ns.prod := Nat.mul_le_mul_right _ hlt
    have h2 : (i + 1) * ns.prod = i * ns.prod + ns.prod := by ring
    omega

theorem prod_pos_of {ns : List Nat} (h : ∀ n ∈ ns, 0 < n) : 0 < ns.prod := by
  induction ns with
  | nil => simp
  | cons n ns ih =>
    rw [List.prod_cons]
    exact Nat.mul_pos (h n (by simp)) (ih (fun m hm => h m (by simp [hm])))

/-- **C22** Contracting an expanded index gives it back, for every shape with positive sizes and every
flat index. -/
theorem C22_contract_expand (ns : List Nat) (hpos : ∀ n ∈ ns, 0 < n) (k : Nat) (hk : k < ns.prod) :
    contract ns (expand ns k) = k := by
  induction ns generalizing k with
  | nil => simp at hk; subst hk; simp [expand, contract, contractLoop]
  | cons n ns ih =>
    have hp : 0 < ns.prod := prod_pos_of (fun m hm => hpos m (by simp [hm]))
    simp only [expand]
    rw [contract_cons _ _ _ _ (by simp [expand_length])]
    have h1 : k - k / ns.prod * ns.prod = k % ns.prod := by
      have := Nat.div_add_mod k ns.prod
      rw [Nat.mul_comm] at this; omega
    rw [h1, ih (fun m hm => hpos m (by simp [hm])) _ (Nat.mod_lt _ hp), Nat.mul_comm]
    exact Nat.div_add_mod k ns.prod

/-- **C22** Expanding gives a valid multi-index. -/
theorem C22_expand_in_shape (ns : List Nat) (hpos : ∀ n ∈ ns, 0 < n) (k : Nat) (hk : k < ns.prod) :
    InShape ns (expand ns k) := by
  induction ns generalizing k with
  | nil => exact List.Forall₂.nil
  | cons n ns ih =>
    have hp : 0 < ns.prod := prod_pos_of (fun m hm => hpos m (by simp [hm]))
    simp only [expand]
    have h1 : k - k / ns.prod * ns.prod = k % ns.prod := by
      have := Nat.div_add_mod k ns.prod
      rw [Nat.mul_comm] at this; omega
    refine List.Forall₂.cons ?_ ?_
    · rw [List.prod_cons] at hk
      exact (Nat.div_lt_iff_lt_mul hp).2 hk
    · rw [h1]; exact ih (fun m hm => hpos m (by simp [hm])) _ (Nat.mod_lt _ hp)

/-- **C22** Expanding a contracted multi-index gives it back, and the contracted index is in range. -/
theorem C22_expand_contract (ns is : List Nat) (h : InShape ns is) :
    contract ns is < ns.prod ∧ expand ns (contract ns is) = is := by
  refine ⟨contract_lt h, ?_⟩
  induction h with
  | nil => simp [expand]
  | @cons n i ns is hlt hrest ih =>
    have hl := contract_lt hrest
    have hp : 0 < ns.prod := by omega
    rw [contract_cons _ _ _ _ (InShape.length hrest)]
    simp only [expand]
    have h1 : (i * ns.prod + contract ns is) / ns.prod = i := by
      rw [Nat.add_comm, Nat.add_mul_div_right _ _ hp, Nat.div_eq_of_lt hl]; omega
    rw [h1, Nat.add_sub_cancel_left, ih]

/-- **C22** Contraction is the row-major formula. -/
theorem C22_row_major (ns is : List Nat) (hlen : ns.length = is.length) :
    contract ns is = rowMajor 0 ns is := by
  have : ∀ (ns is : List Nat) (acc : Nat), ns.length = is.length →
      rowMajor acc ns is = acc * ns.prod + contract ns is := by
    intro ns
    induction ns with
    | nil => intro is acc h; simp [rowMajor, contract, contractLoop]
    | cons n ns ih =>
      intro is acc h
      cases is with
      | nil => simp at h
      | cons i is =>
        have h' : ns.length = is.length := by simpa using h
        rw [rowMajor, ih is _ h', contract_cons _ _ _ _ h', List.prod_cons]; ring
  rw [this ns is 0 hlen]; simp

/-- **C22** Row-major order is lexicographic: the contracted order of two valid multi-indices is decided
by their first differing digit. -/
theorem C22_lex (ns is js : List Nat) (hi : InShape ns is) (hj : InShape ns js) :
    contract ns is < contract ns js ↔ List.Lex (· < ·) is js := by
  induction hi generalizing js with
  | nil =>
    cases hj
    simp [contract, contractLoop]
  | @cons n i ns is hlt hrest ih =>
    cases hj with
    | @cons _ j _ js hlt' hrest' =>
      rw [contract_cons _ _ _ _ (InShape.length hrest), contract_cons _ _ _ _ (InShape.length hrest')]
      have a := contract_lt hrest
      have b := contract_lt hrest'
      rcases lt_trichotomy i j with h | h | h
      · have h2 : (i + 1) * ns.prod ≤ j * ns.prod := Nat.mul_le_mul_right _ h
        have h3 : (i + 1) * ns.prod = i * ns.prod + ns.prod := by ring
        constructor
        · intro _; exact List.Lex.rel h
        · intro _; omega
      · subst h
        rw [Nat.add_lt_add_iff_left, ih js hrest']
        constructor
        · exact List.Lex.cons
        · intro hl
          cases hl with
          | rel hh => exact absurd hh (lt_irrefl _)
          | cons hh => exact hh
      · have h2 : (j + 1) * ns.prod ≤ i * ns.prod := Nat.mul_le_mul_right _ h
        have h3 : (j + 1) * ns.prod = j * ns.prod + ns.prod := by ring
        constructor
        · intro _; omega
        · intro hl
          cases hl with
          | rel hh => omega
          | cons hh => omega

/-- Non-vacuity: a 2×3×4 tensor. -/
example : (∀ n ∈ [2, 3, 4], 0 < n) ∧ 17 < [2, 3, 4].prod ∧ expand [2, 3, 4] 17 = [1, 1, 1] ∧
    InShape [2, 3, 4] [1, 1, 1] ∧ contract [2, 3, 4] [1, 1, 1] = 17 := by
  refine ⟨by decide, by decide, by decide, ?_, by decide⟩
  exact .cons (by decide) (.cons (by decide) (.cons (by decide) .nil))

end SMT.Index
