import Mathlib.Data.List.Basic

/-!
# Model of the checks of `theta0` and `noise0` before training, and of what training leaves in the options

`krg_based.py` `_check_param` (1130-1183), `mfk.py` `_check_param` (654-727) and the training loop over levels (`mfk.py` 174-189, 233-236). Training itself is a parameter: which level raises.
-/
namespace SMT.Params

variable {F : Type}

/-! ### `KrgBased` -/

/-- A value of the options `theta0`, `noise0`: a Python list or a one-dimensional array of numbers. -/
inductive Seq (F : Type)
  | list (l : List F)
  | arr (l : List F)
  deriving DecidableEq, Repr

/-- Its numbers. -/
def Seq.vals : Seq F → List F
  | .list l => l
  | .arr l => l

/-- Options of a Kriging model touched by training. -/
structure KOpts (F : Type) where
  theta0 : Seq F
  noise0 : Seq F
  nComp : ℕ
  deriving DecidableEq, Repr

/-- Size of a training: inputs, points; flags `use_het_noise`, `eval_noise`. -/
structure KCfg where
  nx : ℕ
  nt : ℕ
  het : Bool
  evalNoise : Bool
  deriving DecidableEq, Repr

/-- `len(theta0) != d` ... `theta0 *= np.ones(d)`, `krg_based.py` 1156-1163 (and 1165-1173 for the noise); `none`: `ValueError`.
A list times an array is a new array; an array of one number cannot be multiplied in place by `np.ones(d)` (the result does not fit), which raises too. -/
def stretch (d : ℕ) (s : Seq F) : Option (Seq F) :=
  if s.vals.length ≠ d then
    match s with
    | .list [x] => some (.arr (List.replicate d x))
    | _ => none
  else some s

/-- `_check_param`, `krg_based.py` 1130-1178, part on `theta0` and `noise0`: the options afterwards, and whether it passed (the assignment to `theta0` stays when the noise check raises).
`pls` is true for the names KPLS, KPLSK, GEKPLS. -/
def checkKrg (pls : Bool) (c : KCfg) (o : KOpts F) : KOpts F × Bool :=
  let d := if pls then o.nComp else c.nx
  match stretch d o.theta0 with
  | none => (o, false)
  | some t =>
    let o := { o with theta0 := t }
    let r := if c.het && !c.evalNoise then
        match stretch c.nt o.noise0 with
        | none => (o, false)
        | some n => ({ o with noise0 := n }, true)
      else (o, true)
    if r.2 && !c.het then (r.1, decide (r.1.noise0.vals.length = 1)) else r

/-- A training of a model that is not KPLSK: options afterwards and whether the checks passed. Optimisation does not touch the options. -/
def trainKrg (pls : Bool) (c : KCfg) (o : KOpts F) : KOpts F × Bool := checkKrg pls c o

/-- A training of KPLSK, `krg_based.py` 1105-1125: after the first pass `theta0` becomes the vector of the `nx` Kriging hyper-parameters (a parameter here) and `n_comp` becomes `nx`. -/
def trainKplsk (c : KCfg) (pass1 : List F) (o : KOpts F) : KOpts F × Bool :=
  match checkKrg true c o with
  | (o, false) => (o, false)
  | (o, true) => ({ o with theta0 := .arr pass1, nComp := c.nx }, true)

/-- A training of MGP: `_check_param`, `krg_mgp.py` 498-518, part on `theta0`; there are `n_comp * nx` hyper-parameters and `noise0` is not looked at. -/
def trainMgp (nx : ℕ) (o : KOpts F) : KOpts F × Bool :=
  match stretch (o.nComp * nx) o.theta0 with
  | none => (o, false)
  | some t => ({ o with theta0 := t }, true)

/-! ### `MFK` -/

/-- `theta0` of `MFK`: a list of numbers given by the user, or an array (1-D or 2-D). -/
inductive T0 (F : Type)
  | list (l : List F)
  | arr1 (l : List F)
  | arr2 (rows cols : ℕ) (a : ℕ → ℕ → F)

/-- An entry of `noise0`: a number, a list of numbers, an array of numbers, a list holding one list (or array). -/
inductive N0 (F : Type)
  | num (x : F)
  | vec (l : List F)
  | arr (l : List F)
  | nest (l : List F)
  deriving DecidableEq, Repr

/-- `len(noise0[i])`; `none`: `TypeError`. -/
def N0.len : N0 F → Option ℕ
  | .num _ => none
  | .vec l => some l.length
  | .arr l => some l.length
  | .nest _ => some 1

/-- `np.array([noise0[lvl]]).flatten()`, `mfk.py` 235. -/
def N0.flatten : N0 F → List F
  | .num x => [x]
  | .vec l => l
  | .arr l => l
  | .nest l => l

/-- Options of `MFK` touched by training. -/
structure MOpts (F : Type) where
  theta0 : T0 F
  noise0 : List (N0 F)
  evalNoise : Bool

/-- A training: `d` hyper-parameters per level (inputs, or `n_comp`), points per level (lowest first), for each level whether `len(X) == len(np.unique(X))`, flags. -/
structure MCfg where
  d : ℕ
  nt : List ℕ
  uniq : ℕ → Bool
  het : Bool
  optimVar : Bool

/-- `nlvl`. -/
def MCfg.nlvl (c : MCfg) : ℕ := c.nt.length

/-- Checks of `theta0`, `mfk.py` 679-700; `none`: `ValueError`. `default` fills positions outside the array. -/
def checkTheta (default : F) (nlvl d : ℕ) : T0 F → Option (T0 F)
  | .arr1 _ => none
  | .arr2 r c a => if (r, c) ≠ (nlvl, d) then none else some (.arr2 r c a)
  | .list l =>
    if l.length ≠ d then
      if l.length = 1 then some (.arr2 nlvl d fun _ _ => l.getD 0 default)
      else if l.length = nlvl then some (.arr2 nlvl d fun i _ => l.getD i default)
      else none
    else some (.arr2 nlvl d fun _ j => l.getD j default)

/-- Length of `noise0`, `mfk.py` 702-709: `nlvl * [noise0]` puts the whole list in every entry. -/
def checkNoiseLen (nlvl : ℕ) (n : List (N0 F)) : Option (List (N0 F)) :=
  if n.length ≠ nlvl then
    match n with
    | [.num x] => some (List.replicate nlvl (.vec [x]))
    | [.vec l] => some (List.replicate nlvl (.nest l))
    | [.arr l] => some (List.replicate nlvl (.nest l))
    | [.nest l] => some (List.replicate nlvl (.nest l))
    | _ => none
  else some n

/-- One pass of the loop `mfk.py` 711-727 for level `i`; the entry afterwards, `none`: an exception (an array of one number cannot be multiplied in place by `np.ones(nt)`). -/
def checkEntry (het uniq : Bool) (nt : ℕ) (e : N0 F) : Option (N0 F) :=
  if het then
    if uniq then
      match e.len with
      | none => none
      | some k =>
        if k ≠ nt then
          match e with
          | .vec [x] => some (.arr (List.replicate nt x))
          | .nest [x] => some (.nest (List.replicate nt x))
          | .nest l => if l.length = nt then some (.nest l) else none
          | _ => none
        else some e
    else some e
  else
    match e.len with
    | none => none
    | some k => if k ≠ 1 then none else some e

/-- The loop over levels, `mfk.py` 711-727: entries checked so far are replaced even if a later one raises. -/
def checkEntries (c : MCfg) : ℕ → List (N0 F) → List (N0 F) × Bool
  | _, [] => ([], true)
  | i, e :: rest =>
    match checkEntry c.het (c.uniq i) (c.nt.getD i 0) e with
    | none => (e :: rest, false)
    | some e' =>
      let r := checkEntries c (i + 1) rest
      (e' :: r.1, r.2)

/-- `_check_param`, `mfk.py` 654-727 (kernel names excepted). -/
def checkMfk (default : F) (c : MCfg) (o : MOpts F) : MOpts F × Bool :=
  match checkTheta default c.nlvl c.d o.theta0 with
  | none => (o, false)
  | some t =>
    let o := { o with theta0 := t }
    match checkNoiseLen c.nlvl o.noise0 with
    | none => (o, false)
    | some n =>
      let r := checkEntries c 0 n
      ({ o with noise0 := r.1 }, r.2)

/-- Row `lvl` of `theta0` (`mfk.py` 236). -/
def T0.row : T0 F → ℕ → Option (List F)
  | .arr2 r c a, lvl => if lvl < r then some ((List.range c).map (a lvl)) else none
  | _, _ => none

/-- Start values handed to the optimisation of one level. -/
structure Start (F : Type) where
  theta : List F
  noise : List F
  deriving DecidableEq, Repr

/-- The loop of `_new_train`, `mfk.py` 180-186 with 233-236: levels `lvl, lvl + 1, …` (`k` of them). `fails i`: the rest of `_new_train_iteration(i)` raises. Before a level the options hold the full
`theta0`, `noise0`; during the level its row; after success the full ones again. Returns the options, whether all went well, the start values of the levels begun. -/
def levels (fails : ℕ → Bool) (o : MOpts F) : ℕ → ℕ → MOpts F × Bool × List (Start F)
  | _, 0 => (o, true, [])
  | lvl, k + 1 =>
    match o.noise0[lvl]?, o.theta0.row lvl with
    | some e, some t =>
      let s : Start F := { theta := t, noise := e.flatten }
      if fails lvl then ({ o with theta0 := .arr1 t, noise0 := e.flatten.map .num }, false, [s])
      else
        let r := levels fails o (lvl + 1) k
        (r.1, r.2.1, s :: r.2.2)
    | _, _ => (o, false, [])

/-- Checks and loop over levels. -/
def trainOnce (default : F) (c : MCfg) (fails : ℕ → Bool) (o : MOpts F) : MOpts F × Bool × List (Start F) :=
  match checkMfk default c o with
  | (o, false) => (o, false, [])
  | (o, true) => levels fails o 0 c.nlvl

/-- `_new_train` with `_new_train_finalize`, `mfk.py` 174-189, 339-351: with `eval_noise` and `optim_var` the model is trained a second time on its own predictions, with `eval_noise`
switched off. -/
def trainMfk (default : F) (c : MCfg) (fails fails2 : ℕ → Bool) (o : MOpts F) : MOpts F × Bool × List (Start F) :=
  match trainOnce default c fails o with
  | (o, false, s) => (o, false, s)
  | (o, true, s) => if o.evalNoise && c.optimVar then trainOnce default c fails2 { o with evalNoise := false } else (o, true, s)

end SMT.Params
