import Mathlib.Tactic
import Verif.Tables.Docs
import Verif.Tables.Props
/-!
# C86, continued: the documentation's option tables
-/
set_option linter.unusedSectionVars false
set_option linter.unusedSimpArgs false
set_option linter.unusedVariables false
namespace SMT.Tables

/-- The printed value stands for the value: equal, or floats that agree to 15 digits. -/
def prints (doc v : PyVal) : Bool :=
  match doc, v with
  | .float a, .float b => decide (|a - b| ≤ |a| / 10 ^ 15)
  | _, _ => decide (doc = v)

/-- The acceptable values of a declaration as a list. -/
def valuesList : Option Values → Option (List PyVal)
  | none => none
  | some (.seq l) => some l
  | some (.text _) => none

/-- Options whose default the source gives as an expression inside a container (not evaluated in the model). -/
def expressions : List (Cls × String) :=
  [(.KRG, "noise_bounds"), (.KPLS, "noise_bounds"), (.KPLSK, "noise_bounds"), (.GEKPLS, "noise_bounds"), (.MGP, "noise_bounds"),
   (.MFK, "noise_bounds"), (.MFKPLS, "noise_bounds"), (.MFKPLSK, "noise_bounds"), (.MGP, "prior")]

/-- Options whose documented default is not the value a new object has. -/
def wrongDefaults : List (Cls × String) :=
  [(.MGP, "corr"), (.MGP, "hyper_opt"), (.WeldedBeam, "ndim"), (.WaterFlow, "ndim"), (.WingWeight, "ndim"), (.TorsionVibration, "ndim")]

/-- Options documented with a list of values but declared with a string. -/
def stringValues : List (Cls × String) := [(.KPLSK, "corr"), (.MFKPLSK, "corr")]

/-- **C86** The documentation's 32 option tables name exactly the declared options of their classes. -/
theorem C86_documented_names : docTables.length = 32 ∧
    ∀ t ∈ docTables, ∀ n, (∃ r ∈ t.2, r.name = n) ↔ (declared t.1 n).isSome := by
  have h : ∀ t ∈ docTables, (∀ r ∈ t.2, r.name ∈ (declares t.1).map Decl.name) ∧
      (∀ n ∈ (declares t.1).map Decl.name, n ∈ t.2.map DocRow.name) := by decide +kernel
  refine ⟨by decide +kernel, fun t ht n => ?_⟩
  obtain ⟨h1, h2⟩ := h t ht
  have hd : (declared t.1 n).isSome ↔ n ∈ (declares t.1).map Decl.name := by
    unfold declared
    rw [List.find?_isSome]
    simp
  rw [hd]
  constructor
  · rintro ⟨r, hr, rfl⟩; exact h1 r hr
  · intro hn
    have := h2 n hn
    rw [List.mem_map] at this
    exact this

/-- **C86** Every documented option is declared with the documented types, with the documented values (except `corr` of `KPLSK` and
`MFKPLSK`, declared with a string), and, leaving out containers written as expressions, its default is the documented one; a new
object has it, except for the six options of `wrongDefaults`, where the constructor assigns another value and the documentation is
wrong. -/
theorem C86_documented_rows : ∀ t ∈ docTables, ∀ r ∈ t.2, ∃ d, declared t.1 r.name = some d ∧ d.types = r.types ∧
    ((t.1, r.name) ∉ stringValues → valuesList d.values = r.values) ∧
    ((t.1, r.name) ∉ expressions → prints r.default d.default = true ∧
      ((t.1, r.name) ∉ wrongDefaults ↔ (initial t.1 r.name).any (prints r.default) = true)) := by
  have h : ∀ t ∈ docTables, ∀ r ∈ t.2, (declared t.1 r.name).any (fun d => decide (d.types = r.types ∧
      ((t.1, r.name) ∉ stringValues → valuesList d.values = r.values) ∧
      ((t.1, r.name) ∉ expressions → prints r.default d.default = true ∧
        ((t.1, r.name) ∉ wrongDefaults ↔ (initial t.1 r.name).any (prints r.default) = true)))) = true := by decide +kernel
  intro t ht r hr
  have := h t ht r hr
  rw [Option.any_eq_true] at this
  obtain ⟨d, hd, hx⟩ := this
  exact ⟨d, hd, of_decide_eq_true hx⟩

/-- For instance the documented order of the inverse distance weights, and the default approximation order of the splines. -/
example : initial .IDW "p" = some (.float (5 / 2)) ∧ initial .RMTB "approx_order" = some (.int 4) ∧
    initial .MGP "corr" = some (.str "act_exp") := by decide +kernel

/-- Values a new object has for the options the documentation does not list: linear solvers, and the low-fidelity water flow problem (read off the source). -/
def undocumented : List (Cls × List (String × PyVal)) :=
  [(.NullSolver, [("print_init", .bool true), ("print_solve", .bool true)]),
   (.DenseLUSolver, [("print_init", .bool true), ("print_solve", .bool true)]),
   (.DenseCholeskySolver, [("print_init", .bool true), ("print_solve", .bool true)]),
   (.DirectSolver, [("print_init", .bool true), ("print_solve", .bool true), ("alg", .str "lu")]),
   (.KrylovSolver, [("print_init", .bool true), ("print_solve", .bool true), ("interval", .int 10), ("solver", .str "cg"), ("pc", .none), ("ilimit", .int 100),
     ("atol", .float (1 / 10 ^ 15)), ("rtol", .float (1 / 10 ^ 15))]),
   (.StationarySolver, [("print_init", .bool true), ("print_solve", .bool true), ("interval", .int 10), ("solver", .str "gs"), ("damping", .float 1), ("ilimit", .int 10)]),
   (.MultigridSolver, [("print_init", .bool true), ("print_solve", .bool true), ("interval", .int 1), ("mg_cycles", .int 0), ("solver", .str "null")]),
   (.WaterFlowLFidelity, [("return_complex", .bool false), ("name", .str "WaterFlowLFidelity"), ("use_FD", .bool false), ("ndim", .int 8)])]

/-- **C86** Options and initial values of the classes without a documentation table: exactly these names, with these values. -/
theorem C86_undocumented_values : ∀ t ∈ undocumented, (∀ r ∈ t.2, initial t.1 r.1 = some r.2) ∧ ∀ n, (∃ r ∈ t.2, r.1 = n) ↔ (declared t.1 n).isSome := by
  have h : ∀ t ∈ undocumented, (∀ r ∈ t.2, initial t.1 r.1 = some r.2) ∧ (∀ r ∈ t.2, r.1 ∈ (declares t.1).map Decl.name) ∧
      (∀ n ∈ (declares t.1).map Decl.name, n ∈ t.2.map Prod.fst) := by decide +kernel
  intro t ht
  obtain ⟨h0, h1, h2⟩ := h t ht
  refine ⟨h0, fun n => ?_⟩
  have hd : (declared t.1 n).isSome ↔ n ∈ (declares t.1).map Decl.name := by
    unfold declared
    rw [List.find?_isSome]
    simp
  rw [hd]
  constructor
  · rintro ⟨r, hr, rfl⟩; exact h1 r hr
  · intro hn
    have := h2 n hn
    rw [List.mem_map] at this
    exact this

end SMT.Tables
