import Verif.MixedInt.Model
import Verif.Surrogate.Model

/-!
# Model of the objects of `smt/applications/mixed_integer.py`: `MixedIntegerSurrogateModel` and the context

The wrapper is a surrogate model of its own (with its own training data) holding a reference to the wrapped
("inner") surrogate. Both are kept in a state; the inner object is a parameter: what its `_train`,
`_predict_values` and `_predict_variances` do with its training data, and what it supports.
Zero-row arrays: a zero-row matrix is converted without error (NumPy would raise for missing columns).
-/
namespace SMT.MixedInt.Wrap

open SMT.MixedInt SMT.Surrogate

/-- Exceptions. -/
inductive Exc where
  | value | notImplemented | key | attribute | zeroDivision | assertion | unbound | index
deriving DecidableEq, Repr

/-- Exceptions of the base class. -/
def ofS : Surrogate.Err → Exc
  | .value => .value
  | .notImplemented => .notImplemented
  | .key => .key
  | .attribute => .attribute
  | .zeroDivision => .zeroDivision
  | .assertion => .assertion
  | .unbound => .unbound

/-- Exceptions of the conversion functions. -/
def ofM : MixedInt.Err → Exc
  | .valueError => .value
  | .indexError => .index

variable {K M : Type} [Field K] [LinearOrder K] [IsStrictOrderedRing K] [FloorRing K]

/-- What the constructor stores, `mixed_integer.py` 255-281 (and `MixedIntegerContext`, 325-342). -/
structure Spec where
  xtypes : List XType
  folded : Bool

/-- Rows of a 2-D array. -/
def rowsOf (a : NdArray K) : List (List K) :=
  (List.range a.nrows).map fun i => (a.data.drop (i * a.ncols)).take a.ncols

/-- `unfold_with_enum_mask` of a 2-D array, `mixed_integer.py` 160-178. -/
def unfold2 (ts : List XType) (x : NdArray K) : Except Exc (NdArray K) :=
  match unfoldedDim ts with
  | .error e => .error (ofM e)
  | .ok d =>
    match (rowsOf x).mapM (unfold ts) with
    | .error e => .error (ofM e)
    | .ok rs => .ok ⟨[x.nrows, d], rs.flatten⟩

/-- `cast_to_discrete_values` of a 2-D array, `mixed_integer.py` 112-137: a modified copy. -/
def cast2 (ts : List XType) (x : NdArray K) : Except Exc (NdArray K) :=
  match (rowsOf x).mapM (cast ts) with
  | .error e => .error (ofM e)
  | .ok rs => .ok ⟨x.shape, rs.flatten⟩

/-- `xt2` of `set_training_values`, `mixed_integer.py` 285-289 (also 302-306 and 311-315). -/
def trainInput (c : Spec) (x : PyObj K) : Except Exc (NdArray K) :=
  match ensure2d x with
  | .error e => .error (ofS e)
  | .ok a => if c.folded then unfold2 c.xtypes a else .ok a

/-- `castx` of `predict_values`, `mixed_integer.py` 301-307 (310-318). -/
def predInput (c : Spec) (x : PyObj K) : Except Exc (NdArray K) :=
  match trainInput c x with
  | .error e => .error e
  | .ok a => cast2 c.xtypes a

/-- The inner surrogate's class: what it supports, `_train` (which may raise after having changed the object), the
two predictions. -/
structure Inner (K M : Type) where
  trainDerivs : Bool
  derivs : Bool
  outDerivs : Bool
  vars : Bool
  varDerivs : Bool
  learn : Store K → M → M × Except Exc Unit
  value : Store K → M → NdArray K → Except Surrogate.Err (List K)
  variance : Store K → M → NdArray K → Except Surrogate.Err (List K)

/-- A surrogate object: training data and what training left. -/
structure Obj (K M : Type) where
  data : Store K
  fit : M

/-- Method calls. -/
inductive Call (K : Type) where
  | setValues (xt yt : PyObj K) (name : Group)
  | updateValues (yt : PyObj K) (name : Group)
  | setDerivs (xt dyt : PyObj K) (kx : KxArg) (name : Group)
  | updateDerivs (dyt : PyObj K) (kx : Int) (name : Group)
  | train
  | values (x : PyObj K)
  | variances (x : PyObj K)

/-- What a call returns or raises (`none`: `None`). -/
abbrev Out (K : Type) := Except Exc (Option (NdArray K))

/-- A call that returns nothing. -/
def unitOut (r : Except Surrogate.Err Unit) : Out K :=
  match r with
  | .ok () => .ok none
  | .error e => .error (ofS e)

/-- A call that returns an array. -/
def arrOut (r : Except Surrogate.Err (NdArray K)) : Out K :=
  match r with
  | .ok a => .ok (some a)
  | .error e => .error (ofS e)

/-- `train` calls `_train`; what it raised. -/
def learnOut (r : Except Exc Unit) : Out K :=
  match r with
  | .ok () => .ok none
  | .error e => .error e

/-- The inner object called by itself, `surrogate_model.py` 102-310 and 377-397; `train`, 243-271, begins by
reading the unnamed training values (`KeyError` if there are none). -/
def objCall (I : Inner K M) (o : Obj K M) : Call K → Obj K M × Out K
  | .setValues x y g => ({ o with data := (setValues o.data x y g).1 }, unitOut (setValues o.data x y g).2)
  | .updateValues y g => ({ o with data := (updateValues o.data y g).1 }, unitOut (updateValues o.data y g).2)
  | .setDerivs x y k g =>
    ({ o with data := (setDerivs I.trainDerivs o.data x y k g).1 }, unitOut (setDerivs I.trainDerivs o.data x y k g).2)
  | .updateDerivs y k g =>
    ({ o with data := (updateDerivs I.trainDerivs o.data y k g).1 }, unitOut (updateDerivs I.trainDerivs o.data y k g).2)
  | .train =>
    match o.data.tp none 0 with
    | none => (o, .error .key)
    | some _ => ({ o with fit := (I.learn o.data o.fit).1 }, learnOut (I.learn o.data o.fit).2)
  | .values x => (o, arrOut (Surrogate.predictValues o.data (I.value o.data o.fit) x))
  | .variances x => (o, arrOut (predictVariances I.vars o.data (I.variance o.data o.fit) x))

/-- The wrapper: its own training data, and the inner object. -/
structure World (K M : Type) where
  own : Store K
  obj : Obj K M

/-- `set_training_values`, `mixed_integer.py` 285-292: the name is not passed to the base class. -/
def wSet (c : Spec) (w : World K M) (xt yt : PyObj K) (name : Group) : World K M × Out K :=
  match trainInput c xt with
  | .error e => (w, .error e)
  | .ok a =>
    match setValues w.own (.nd a) yt none with
    | (_, .error e) => (w, .error (ofS e))
    | (s, .ok ()) =>
      ({ own := s, obj := { w.obj with data := (setValues w.obj.data (.nd a) yt name).1 } },
       unitOut (setValues w.obj.data (.nd a) yt name).2)

/-- `update_training_values`, `mixed_integer.py` 294-296. -/
def wUpdate (w : World K M) (yt : PyObj K) (name : Group) : World K M × Out K :=
  match updateValues w.own yt name with
  | (_, .error e) => (w, .error (ofS e))
  | (s, .ok ()) =>
    ({ own := s, obj := { w.obj with data := (updateValues w.obj.data yt name).1 } }, unitOut (updateValues w.obj.data yt name).2)

/-- A call of a method of the wrapper. `set_training_derivatives` and `update_training_derivatives` are inherited and
work on the wrapper's own data; the dictionary `supports` is the inner object's (`mixed_integer.py` 280). `train`
is inherited (`surrogate_model.py` 243-271) with `_train` of `mixed_integer.py` 298-299, which calls the inner
`_train`. `predict_values`, `predict_variances`: `mixed_integer.py` 301-318. -/
def call (c : Spec) (I : Inner K M) (w : World K M) : Call K → World K M × Out K
  | .setValues x y g => wSet c w x y g
  | .updateValues y g => wUpdate w y g
  | .setDerivs x y k g =>
    ({ w with own := (setDerivs I.trainDerivs w.own x y k g).1 }, unitOut (setDerivs I.trainDerivs w.own x y k g).2)
  | .updateDerivs y k g =>
    ({ w with own := (updateDerivs I.trainDerivs w.own y k g).1 }, unitOut (updateDerivs I.trainDerivs w.own y k g).2)
  | .train =>
    match w.own.tp none 0 with
    | none => (w, .error .key)
    | some _ => ({ w with obj := { w.obj with fit := (I.learn w.obj.data w.obj.fit).1 } }, learnOut (I.learn w.obj.data w.obj.fit).2)
  | .values x =>
    match predInput c x with
    | .error e => (w, .error e)
    | .ok a => (w, arrOut (Surrogate.predictValues w.obj.data (I.value w.obj.data w.obj.fit) (.nd a)))
  | .variances x =>
    match predInput c x with
    | .error e => (w, .error e)
    | .ok a => (w, arrOut (predictVariances I.vars w.obj.data (I.variance w.obj.data w.obj.fit) (.nd a)))

/-- `MixedIntegerSurrogateModel(xtypes, xlimits, surrogate)`, `mixed_integer.py` 255-281: a new store; the inner object
is kept as it is, with the data and training it may already have. -/
def wrap (o : Obj K M) : World K M := { own := Store.init, obj := o }

/-- A history of calls on the wrapper. -/
def run (c : Spec) (I : Inner K M) (w : World K M) (h : List (Call K)) : World K M := h.foldl (fun w k => (call c I w k).1) w

/-- A history of calls on a surrogate itself. -/
def objRun (I : Inner K M) (o : Obj K M) (h : List (Call K)) : Obj K M := h.foldl (fun o k => (objCall I o k).1) o

/-- The inherited `predict_derivatives`, `surrogate_model.py` 312-353: the wrapper does not define
`_predict_derivatives`, and that of the base class (462-482) raises `NotImplementedError`. The number of inputs
checked is that of the wrapper's own data. -/
def wDerivatives (I : Inner K M) (w : World K M) (x : PyObj K) : Out K :=
  arrOut (predictDerivatives I.derivs w.own (fun _ => .error .notImplemented) x)

/-- The inherited `predict_output_derivatives`, `surrogate_model.py` 355-375, with `_predict_output_derivatives` of the
base class. -/
def wOutputDerivatives (I : Inner K M) (w : World K M) (x : PyObj K) : Out K :=
  match checkSupport I.outDerivs with
  | .error e => .error (ofS e)
  | .ok () =>
    match ensure2d x, w.own.dims with
    | .error e, _ => .error (ofS e)
    | .ok _, none => .error .attribute
    | .ok a, some d =>
      match checkNx d.2.1 a with
      | .error e => .error (ofS e)
      | .ok () => .error .notImplemented

/-- The inherited `predict_variance_derivatives`, `surrogate_model.py` 399-440 (the array is converted before the support
is checked), with `_predict_variance_derivatives` of the base class. -/
def wVarianceDerivatives (I : Inner K M) (w : World K M) (x : PyObj K) : Out K :=
  match ensure2d x with
  | .error e => .error (ofS e)
  | .ok a =>
    match checkSupport I.varDerivs, w.own.dims with
    | .error e, _ => .error (ofS e)
    | .ok (), none => .error .attribute
    | .ok (), some d =>
      match checkNx d.2.1 a with
      | .error e => .error (ofS e)
      | .ok () => .error .notImplemented

end SMT.MixedInt.Wrap
