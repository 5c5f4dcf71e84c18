/-!
# Model of `smt/utils/options_dictionary.py`

Python values are an abstract type `V` with a distinguished `None`; `value in values` is list
membership for a decidable equality on `V` (simplification: Python's `==` may identify values of
different types, e.g. `1 == True`; that is a choice of the equality on `V`).
`isinstance(value, types)` is the parameter `inst`.
Python `dict`s are partial functions from names (insertion order is not observable through the
modelled API, except in `update`, which takes an ordered list of pairs).
-/
namespace SMT.Options

/-- The Python universe the dictionary ranges over: values, type descriptors, `None`, `isinstance`. -/
class PyUniverse (V : Type) (T : outParam Type) where
  pyNone : V
  inst : V → T → Bool

/-- A declared entry, `options_dictionary.py` 139-144 (`desc` dropped: never read).
`values`/`types` are `Option` because the code tests `is not None`. -/
structure Entry (V T : Type) where
  values : Option (List V)
  types : Option T
  default : V

/-- The two dictionaries of the object, `options_dictionary.py` 20-22. -/
structure OptDict (V T : Type) where
  dict : String → Option V
  declared : String → Option (Entry V T)

inductive Err where
  | assertion   -- AssertionError
  | key         -- KeyError
deriving DecidableEq, Repr

variable {V T : Type} [DecidableEq V] [PyUniverse V T]

/-- `__init__`, lines 20-22. -/
def init : OptDict V T := ⟨fun _ => none, fun _ => none⟩

/-- `_assert_valid`, lines 80-103, as a Boolean: `true` when no assertion fails. -/
def assertValid (e : Entry V T) (v : V) : Bool :=
  match e.values, e.types with
  | some vs, some ts => decide (v ∈ vs) || PyUniverse.inst v ts
  | some vs, none => decide (v ∈ vs)
  | none, some ts => PyUniverse.inst v ts
  | none, none => true

/-- Python `d[name] = v` on a dictionary. -/
def put {α : Type} (d : String → Option α) (n : String) (a : α) : String → Option α :=
  fun m => if m = n then some a else d m

/-- `__getitem__`, line 52. -/
def getItem (d : OptDict V T) (n : String) : Except Err V :=
  match d.dict n with
  | some v => .ok v
  | none => .error .key

/-- `__contains__`, lines 74-75. -/
def contains (d : OptDict V T) (n : String) : Bool := (d.dict n).isSome

/-- `is_declared`, lines 77-78. -/
def isDeclared (d : OptDict V T) (n : String) : Bool := (d.declared n).isSome

/-- `__setitem__`, lines 70-72.  Returns the dictionary left behind and whether it raised. -/
def setItem (d : OptDict V T) (n : String) (v : V) : OptDict V T × Except Err Unit :=
  match d.declared n with
  | none => (d, .error .assertion)
  | some e =>
    if assertValid e v then ({ d with dict := put d.dict n v }, .ok ())
    else (d, .error .assertion)

/-- `update`, lines 105-115: set the pairs one by one, stopping at the first that raises. -/
def update (d : OptDict V T) : List (String × V) → OptDict V T × Except Err Unit
  | [] => (d, .ok ())
  | (n, v) :: rest =>
    match setItem d n v with
    | (d', .ok ()) => update d' rest
    | (d', .error e) => (d', .error e)

/-- `declare`, lines 117-149: the entry is recorded first, then a default other than `None` is
validated (an assertion leaves the new entry in place), then the default is stored. -/
def declare (d : OptDict V T) (n : String) (default : V) (values : Option (List V))
    (types : Option T) : OptDict V T × Except Err Unit :=
  let e : Entry V T := ⟨values, types, default⟩
  let d1 : OptDict V T := { d with declared := put d.declared n e }
  if default ≠ PyUniverse.pyNone ∧ assertValid e default = false then
    (d1, .error .assertion)
  else
    ({ d1 with dict := put d1.dict n default }, .ok ())

/-- The calls a client can make on one options dictionary. -/
inductive Op (V T : Type) where
  | declare (n : String) (default : V) (values : Option (List V)) (types : Option T)
  | set (n : String) (v : V)
  | update (kvs : List (String × V))

/-- One call. -/
def step (d : OptDict V T) : Op V T → OptDict V T × Except Err Unit
  | .declare n df vs ts => declare d n df vs ts
  | .set n v => setItem d n v
  | .update kvs => update d kvs

/-- State after a history of calls (a client that catches every exception). -/
def run (d : OptDict V T) (h : List (Op V T)) : OptDict V T :=
  h.foldl (fun s o => (step s o).1) d

/-! ## Several objects on a heap (for `clone`)

Each `OptionsDictionary` object holds references to two Python `dict` objects; sharing of these
references is what `clone` must avoid, so they are modelled as heap addresses. -/

/-- Heap of Python dicts and the `OptionsDictionary` objects referring to them. -/
structure Heap (V T : Type) where
  dicts : Nat → String → Option V
  ents : Nat → String → Option (Entry V T)
  next : Nat
  objs : List (Nat × Nat)

/-- The dictionary object seen by a client holding object number `i`. -/
def Heap.view (h : Heap V T) (i : Nat) : Option (OptDict V T) :=
  (h.objs[i]?).map fun p => ⟨h.dicts p.1, h.ents p.2⟩

/-- Function update on addresses. -/
def setAddr {α : Type} (f : Nat → α) (a : Nat) (x : α) : Nat → α :=
  fun b => if b = a then x else f b

/-- `OptionsDictionary()`, lines 20-22: two fresh dicts. -/
def Heap.new (h : Heap V T) : Heap V T :=
  { dicts := setAddr h.dicts h.next (fun _ => none)
    ents := setAddr h.ents h.next (fun _ => none)
    next := h.next + 1
    objs := h.objs ++ [(h.next, h.next)] }

/-- `clone`, lines 24-36: a new object whose two dicts are fresh copies (`dict(self._dict)`,
`dict(self._declared_entries)`). -/
def Heap.clone (h : Heap V T) (i : Nat) : Heap V T :=
  match h.objs[i]? with
  | none => h
  | some (a, b) =>
    { dicts := setAddr h.dicts h.next (h.dicts a)
      ents := setAddr h.ents h.next (h.ents b)
      next := h.next + 1
      objs := h.objs ++ [(h.next, h.next)] }

/-- A call on object `i`, mutating its two dicts in place. -/
def Heap.call (h : Heap V T) (i : Nat) (o : Op V T) : Heap V T :=
  match h.objs[i]? with
  | none => h
  | some (a, b) =>
    let s := (step ⟨h.dicts a, h.ents b⟩ o).1
    { h with dicts := setAddr h.dicts a s.dict, ents := setAddr h.ents b s.declared }

/-- What a program with several options objects can do. -/
inductive HOp (V T : Type) where
  | new
  | clone (i : Nat)
  | call (i : Nat) (o : Op V T)

def Heap.hstep (h : Heap V T) : HOp V T → Heap V T
  | .new => h.new
  | .clone i => h.clone i
  | .call i o => h.call i o

def Heap.hrun (h : Heap V T) (ops : List (HOp V T)) : Heap V T := ops.foldl Heap.hstep h

/-- The empty heap. -/
def Heap.empty : Heap V T := ⟨fun _ _ => none, fun _ _ => none, 0, []⟩

end SMT.Options
