/-!
# Model of `smt/src/rmts/utils.cpp`: tensor index expansion and contraction

C `int`s are natural numbers (all values are non-negative in every call; overflow is not modelled).
C arrays of length `nx` are lists.
-/
namespace SMT.Index

/-- `expand_index`, `utils.cpp` 3-14: for each axis divide the remainder by the product of the later
sizes, store the quotient, subtract. -/
def expand : List Nat → Nat → List Nat
  | [], _ => []
  | _ :: ns, rem =>
    let prod := ns.prod                      -- lines 7-10
    let q := rem / prod                      -- line 11
    q :: expand ns (rem - q * prod)          -- line 12

/-- `contract_index`, `utils.cpp` 16-26: the loop runs from the last axis to the first with the running
pair `(index, prod)`. -/
def contractLoop : List Nat → List Nat → Nat × Nat
  | n :: ns, i :: is =>
    let (index, prod) := contractLoop ns is
    (index + i * prod, prod * n)
  | _, _ => (0, 1)

def contract (nlist ilist : List Nat) : Nat := (contractLoop nlist ilist).1

end SMT.Index
