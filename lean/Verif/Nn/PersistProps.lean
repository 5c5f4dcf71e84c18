import Verif.Nn.Persist
import Mathlib.Tactic.NormNum
import Mathlib.Tactic.Linarith
import Mathlib.Data.Rat.Init
import Mathlib.Algebra.Field.Rat
import Mathlib.Algebra.BigOperators.Group.Finset.Basic
import Mathlib.Tactic.Ring
import Mathlib.Data.List.GetD

/-!
# Property C105: loading parameters and training data of a neural network
-/
set_option linter.unusedSectionVars false
set_option linter.unusedSimpArgs false
set_option linter.unusedVariables false

namespace SMT.Nn.Persist

variable {K : Type} [Field K]

/-! ## Specification -/

/-- The dictionary has, from layer `l` on, weights and biases for layers of the given sizes (the first is that of the layer before). -/
def Fits (p : Params K) : ℕ → List ℕ → Prop
  | l, d :: e :: ds => (∃ W b, p.lookup (wKey l) = some W ∧ W.cols = d ∧ W.rows.length = e ∧ p.lookup (bKey l) = some b ∧
      b.rows.length = e ∧ b.cols = 1) ∧ Fits p (l + 1) (e :: ds)
  | _, _ => True

/-- Parameters of a network with layers of the sizes `ds` (inputs first, outputs last). -/
structure Network (p : Params K) (ds : List ℕ) : Prop where
  two : 2 ≤ ds.length
  size : p.length = 2 * (ds.length - 1)
  fits : Fits p 1 ds

theorem fits_get {p : Params K} : ∀ (ds : List ℕ) (l k : ℕ), Fits p l ds → k + 1 < ds.length →
    ∃ W b, p.lookup (wKey (l + k)) = some W ∧ W.cols = ds.getD k 0 ∧ W.rows.length = ds.getD (k + 1) 0 ∧ p.lookup (bKey (l + k)) = some b ∧
      b.rows.length = ds.getD (k + 1) 0 ∧ b.cols = 1
  | [], l, k, _, hk => by simp at hk
  | [d], l, k, _, hk => by simp at hk
  | d :: e :: ds, l, 0, h, hk => by simpa using h.1
  | d :: e :: ds, l, k + 1, h, hk => by
    have := fits_get (e :: ds) (l + 1) k h.2 (by simpa using hk)
    rw [show l + 1 + k = l + (k + 1) by omega] at this
    simpa using this

/-! ## Loading parameters -/

/-- **C105** Loading the parameters of a network succeeds whatever the object was before: the sizes of input and output are those of the network, its
activations are those of `Model.initialize` with as many layers, and the reported sizes of all hidden layers are that of the first. -/
theorem C105_load (m : Model K) {p : Params K} {ds : List ℕ} (h : Network p ds) :
    loadParameters m p = ({ m with
      nx := some (ds.getD 0 0), ny := some (ds.getD (ds.length - 1) 0),
      dims := layerDims (ds.getD 0 0) (ds.getD 1 0) (ds.length - 2) (ds.getD (ds.length - 1) 0),
      acts := activations (ds.length - 2), params := p }, none) := by
  obtain ⟨W1, b1, e1, c1, r1, -, -, -⟩ := fits_get ds 1 0 h.fits (by have := h.two; omega)
  obtain ⟨WL, bL, e2, c2, r2, -, -, -⟩ := fits_get ds 1 (ds.length - 2) h.fits (by have := h.two; omega)
  have hL : p.length / 2 = ds.length - 1 := by rw [h.size]; omega
  have k1 : p.lookup "W1" = some W1 := e1
  have k2 : p.lookup (wKey (ds.length - 1)) = some WL := by
    have := h.two
    rwa [show ds.length - 1 = 1 + (ds.length - 2) by omega]
  unfold loadParameters
  dsimp only
  rw [hL, get, k1]
  dsimp only
  rw [get, k2]
  dsimp only
  have := h.two
  rw [c1, r1, r2, show ds.length - 2 + 1 = ds.length - 1 by omega, show ds.length - 1 - 1 = ds.length - 2 by omega]

/-- **C105** The reported sizes of the layers are those of the network exactly if its hidden layers all have the size of the first. -/
theorem C105_dims (m : Model K) {p : Params K} {nx ny : ℕ} {hidden : List ℕ} (h : Network p (nx :: hidden ++ [ny])) :
    (loadParameters m p).1.dims = nx :: hidden ++ [ny] ↔ ∀ w ∈ hidden, some w = hidden.head? := by
  rw [C105_load m h]
  dsimp only
  have hlen : (nx :: hidden ++ [ny]).length - 2 = hidden.length := by simp
  have hlast : (nx :: hidden ++ [ny]).getD ((nx :: hidden ++ [ny]).length - 1) 0 = ny := by simp [List.getD_eq_getElem?_getD]
  rw [hlen, hlast]
  unfold layerDims
  cases hidden with
  | nil => simp
  | cons w hs =>
    have e : (nx :: (w :: hs) ++ [ny]).getD 1 0 = w := by simp
    rw [e]
    simp only [List.getD_cons_zero, List.cons_append, List.cons.injEq, true_and, List.append_cancel_right_eq, List.head?_cons, Option.some.injEq, List.length_cons]
    rw [show List.replicate (hs.length + 1) w ++ [ny] = w :: (hs ++ [ny]) ↔ List.replicate (hs.length + 1) w = w :: hs from by rw [← List.cons_append, List.append_left_inj]]
    rw [eq_comm, List.eq_replicate_iff]
    simp [eq_comm]

theorem mapIdx_const (x : List K) (f : K → K) : x.mapIdx (fun _ v => f v) = x.map f := by
  apply List.ext_getElem
  · simp
  · intro i h1 h2
    simp

theorem zip_length (th : K → K) {W b : Arr K} {act : Act} {a r : List K} (h : layer th W b act a = .ok r) : r.length = W.rows.length := by
  unfold layer at h
  split at h
  · cases h
  · rename_i hc
    push Not at hc
    cases h
    cases act <;> simp [hc.2.1]

/-- A network with fitting shapes can be evaluated, and the result has the size of its last layer. -/
theorem forward_ok (th : K → K) {p : Params K} : ∀ (ds : List ℕ) (l : ℕ) (acts : List Act) (a : List K), Fits p l (a.length :: ds) →
    acts.length = ds.length → ∃ y, forward th p l acts a = .ok y ∧ y.length = (a.length :: ds).getD ds.length 0
  | [], l, acts, a, _, hl => by
    have : acts = [] := List.length_eq_zero_iff.1 hl
    subst this
    exact ⟨a, rfl, rfl⟩
  | e :: ds, l, [], a, _, hl => by simp at hl
  | e :: ds, l, act :: acts, a, hf, hl => by
    obtain ⟨⟨W, b, e1, c1, r1, e2, c2, r2⟩, hf'⟩ := hf
    obtain ⟨z, hz⟩ : ∃ z, layer th W b act a = .ok z := by
      unfold layer
      rw [if_neg (by push Not; exact ⟨c1, by omega, r2⟩)]
      exact ⟨_, rfl⟩
    have hzl : z.length = e := by rw [zip_length th hz, r1]
    subst hzl
    obtain ⟨y, h1, h2⟩ := forward_ok th ds (l + 1) acts z hf' (by simpa using hl)
    refine ⟨y, ?_, by simpa using h2⟩
    rw [forward, get, e1]
    dsimp only
    rw [get, e2]
    dsimp only
    rw [hz]
    exact h1

/-- **C105** A model with loaded parameters predicts at every point with as many coordinates as the network has inputs, and with the scale factors that the
object had *before* loading: those of other training data, or `(1, 1)`. -/
theorem C105_evaluate (th : K → K) (m : Model K) {p : Params K} {ds : List ℕ} (h : Network p ds) {x : List K} (hx : x.length = ds.getD 0 0) :
    ∃ y, forward th p 1 (activations (ds.length - 2)) (normalise m.muX m.sigmaX x) = .ok y ∧ y.length = ds.getD (ds.length - 1) 0 ∧
      evaluate th (loadParameters m p).1 x = .ok (unnormalise m.muY m.sigmaY y) := by
  have h2 := h.two
  obtain ⟨d, ds, rfl⟩ : ∃ d ds', ds = d :: ds' := by
    cases ds with
    | nil => simp at h2
    | cons d ds => exact ⟨d, ds, rfl⟩
  have hx' : (normalise m.muX m.sigmaX x).length = d := by
    unfold normalise
    rw [List.length_mapIdx]
    exact hx
  have ha : (activations ((d :: ds).length - 2)).length = ds.length := by
    unfold activations
    simp only [List.length_append, List.length_replicate, List.length_cons, List.length_nil] at h2 ⊢
    omega
  obtain ⟨y, h3, h4⟩ := forward_ok th ds 1 (activations ((d :: ds).length - 2)) (normalise m.muX m.sigmaX x) (by rw [hx']; exact h.fits) ha
  rw [hx'] at h4
  refine ⟨y, h3, h4, ?_⟩
  rw [C105_load m h]
  unfold evaluate
  dsimp only
  rw [if_neg (by rw [hx]; simp), h3]
  dsimp only
  rw [if_neg (by rw [h4]; simp)]

/-- **C105** In a new object: the network is evaluated at `x - 1`, and `1` is added to its outputs. -/
theorem C105_fresh (th : K → K) {p : Params K} {ds : List ℕ} (h : Network p ds) {x : List K} (hx : x.length = ds.getD 0 0) :
    ∃ y, forward th p 1 (activations (ds.length - 2)) (x.map (· - 1)) = .ok y ∧ evaluate th (loadParameters fresh p).1 x = .ok (y.map (· + 1)) := by
  obtain ⟨y, h1, -, h2⟩ := C105_evaluate th (fresh : Model K) h hx
  refine ⟨y, ?_, ?_⟩
  · have e : normalise (fresh : Model K).muX (fresh : Model K).sigmaX x = x.map (· - 1) := by
      unfold normalise fresh
      dsimp only
      simp only [div_one]
      exact mapIdx_const x _
    rwa [e] at h1
  · rw [h2]
    congr 1
    unfold unnormalise fresh
    dsimp only
    simp only [mul_one]
    exact mapIdx_const y _

/-- **C105** The loaded model agrees with the one that the parameters come from if the two have the same scale factors. -/
theorem C105_same (th : K → K) (m s : Model K) {ds : List ℕ} (h : Network s.params ds) (ha : s.acts = activations (ds.length - 2))
    (hn : s.nx = some (ds.getD 0 0)) (hy : s.ny = some (ds.getD (ds.length - 1) 0))
    (hs : m.muX = s.muX ∧ m.sigmaX = s.sigmaX ∧ m.muY = s.muY ∧ m.sigmaY = s.sigmaY) (x : List K) :
    evaluate th (loadParameters m s.params).1 x = evaluate th s x := by
  rw [C105_load m h]
  unfold evaluate
  dsimp only
  rw [hn, hy, ha, hs.1, hs.2.1, hs.2.2.1, hs.2.2.2]

/-! ## The function of a network -/

/-- Specification: the affine map of layer `l` of the dictionary at `a`: `z_j = sum_k W_jk a_k + b_j`. -/
def Affine (p : Params K) (l : ℕ) (a z : List K) : Prop :=
  ∃ W b, p.lookup (wKey l) = some W ∧ p.lookup (bKey l) = some b ∧ z.length = W.rows.length ∧
    ∀ j < z.length, z.getD j 0 = ∑ k ∈ Finset.range a.length, (W.rows.getD j []).getD k 0 * a.getD k 0 + (b.rows.getD j []).getD 0 0

/-- Specification: the output `y` of a network with `hidden` hidden layers, from layer `l` on: `tanh` of the affine maps of the hidden layers, then the affine map of the last. -/
def NetOut (th : K → K) (p : Params K) : ℕ → ℕ → List K → List K → Prop
  | l, 0, a, y => Affine p l a y
  | l, hidden + 1, a, y => ∃ z, Affine p l a z ∧ NetOut th p (l + 1) hidden (z.map th) y

theorem zip_sum : ∀ (w a : List K), (List.zipWith (· * ·) w a).sum = ∑ k ∈ Finset.range a.length, w.getD k 0 * a.getD k 0
  | [], a => by simp
  | _ :: _, [] => by simp
  | v :: w, c :: a => by
    rw [List.zipWith_cons_cons, List.sum_cons, zip_sum w a, List.length_cons, Finset.sum_range_succ']
    simp only [List.getD_cons_succ, List.getD_cons_zero]
    ring

theorem layer_affine (th : K → K) {p : Params K} {l : ℕ} {W b : Arr K} (hW : p.lookup (wKey l) = some W) (hb : p.lookup (bKey l) = some b) {act : Act} {a y : List K}
    (h : layer th W b act a = .ok y) : ∃ z, Affine p l a z ∧ (act = .tanh → y = z.map th) ∧ (act = .linear → y = z) := by
  unfold layer at h
  split at h
  · cases h
  · rename_i hc
    push Not at hc
    refine ⟨_, ⟨W, b, hW, hb, ?_, ?_⟩, fun e => by subst e; exact (Except.ok.inj h).symm, fun e => by subst e; exact (Except.ok.inj h).symm⟩
    · simp [hc.2.1]
    · intro j hj
      have hj1 : j < W.rows.length := by simp [hc.2.1] at hj; exact hj
      have hj2 : j < b.rows.length := by rw [hc.2.1]; exact hj1
      rw [List.getD_eq_getElem _ _ hj, List.getElem_zipWith, zip_sum, List.getD_eq_getElem _ _ hj1, List.getD_eq_getElem _ _ hj2]
      congr 1
      cases b.rows[j] <;> rfl

theorem forward_spec (th : K → K) {p : Params K} : ∀ (hidden l : ℕ) (a y : List K), forward th p l (activations hidden) a = .ok y → NetOut th p l hidden a y
  | 0, l, a, y, h => by
    simp only [activations, List.replicate_zero, List.nil_append, forward] at h
    unfold get at h
    split at h
    · cases h
    · rename_i W hW
      split at h
      · cases h
      · rename_i b hb
        split at h
        · cases h
        · rename_i z hz
          cases h
          split at hW <;> cases hW
          split at hb <;> cases hb
          rename_i hW' _ hb'
          obtain ⟨z', hz', -, e⟩ := layer_affine th hW' hb' hz
          rw [e rfl]
          exact hz'
  | hidden + 1, l, a, y, h => by
    rw [activations, List.replicate_succ, List.cons_append, forward] at h
    unfold get at h
    split at h
    · cases h
    · rename_i W hW
      split at h
      · cases h
      · rename_i b hb
        split at h
        · cases h
        · rename_i z hz
          split at hW <;> cases hW
          split at hb <;> cases hb
          rename_i hW' _ hb'
          obtain ⟨z', hz', e, -⟩ := layer_affine th hW' hb' hz
          rw [e rfl] at h
          exact ⟨z', hz', forward_spec th hidden (l + 1) _ y h⟩

/-- **C105** The prediction of a model with loaded parameters, spelled out: the function of the network at the scaled inputs, scaled back, with the scale factors of the object. -/
theorem C105_value (th : K → K) (m : Model K) {p : Params K} {ds : List ℕ} (h : Network p ds) {x : List K} (hx : x.length = ds.getD 0 0) :
    ∃ a y r, evaluate th (loadParameters m p).1 x = .ok r ∧ a.length = x.length ∧ (∀ i < x.length, a.getD i 0 = (x.getD i 0 - m.muX i) / m.sigmaX i) ∧
      NetOut th p 1 (ds.length - 2) a y ∧ r.length = y.length ∧ ∀ i < y.length, r.getD i 0 = y.getD i 0 * m.sigmaY i + m.muY i := by
  obtain ⟨y, h1, h2, h3⟩ := C105_evaluate th m h hx
  refine ⟨_, y, _, h3, by simp [normalise], fun i hi => ?_, forward_spec th _ _ _ _ h1, by simp [unnormalise], fun i hi => ?_⟩
  · have : i < (normalise m.muX m.sigmaX x).length := by simpa [normalise] using hi
    rw [List.getD_eq_getElem _ _ this, List.getD_eq_getElem _ _ hi]
    simp [normalise]
  · have : i < (unnormalise m.muY m.sigmaY y).length := by simpa [unnormalise] using hi
    rw [List.getD_eq_getElem _ _ this, List.getD_eq_getElem _ _ hi]
    simp [unnormalise]

/-- **C105** A model built by `initialize` and given scale factors by training: loading its parameters into a model with the same scale factors gives the same predictions; into any
other object, the same predictions once these factors are copied. -/
theorem C105_copy (th : K → K) (m : Model K) {nx ny deep wide : ℕ} {drawn : Params K} (h : Network drawn (layerDims nx wide deep ny)) (muX sX muY sY : ℕ → K) (x : List K) :
    let trained : Model K := { init nx ny deep wide drawn with muX := muX, sigmaX := sX, muY := muY, sigmaY := sY }
    let copy : Model K := { (loadParameters m drawn).1 with muX := muX, sigmaX := sX, muY := muY, sigmaY := sY }
    evaluate th copy x = evaluate th trained x := by
  intro trained copy
  have hl : (layerDims nx wide deep ny).length - 2 = deep := by simp [layerDims]
  have hlast : (layerDims nx wide deep ny).getD ((layerDims nx wide deep ny).length - 1) 0 = ny := by simp [layerDims, List.getD_eq_getElem?_getD]
  have hc : copy = { (loadParameters m drawn).1 with muX := muX, sigmaX := sX, muY := muY, sigmaY := sY } := rfl
  rw [C105_load m h, hl, hlast] at hc
  rw [hc]
  rfl

/-- **C105** A dictionary without the weights of its last layer (the one numbered half the number of entries): `KeyError`, and the object keeps its network but
has the number of inputs of the other one, so that it can no longer be evaluated. -/
theorem C105_failed (th : K → K) (m : Model K) {p : Params K} {W : Arr K} (h1 : p.lookup "W1" = some W) (hL : p.lookup (wKey (p.length / 2)) = none) :
    loadParameters m p = ({ m with nx := some W.cols }, some (.key (wKey (p.length / 2)))) ∧
      ∀ x, m.nx = some x.length → x.length ≠ W.cols → evaluate th (loadParameters m p).1 x = .error .assertion := by
  have e : loadParameters m p = ({ m with nx := some W.cols }, some (.key (wKey (p.length / 2)))) := by
    unfold loadParameters
    dsimp only
    rw [get, h1]
    dsimp only
    rw [get, hL]
  refine ⟨e, fun x hx hne => ?_⟩
  rw [e]
  unfold evaluate
  dsimp only
  rw [if_pos]
  intro hc
  exact hne (Option.some.inj hc).symm

/-- **C105** No weights of the first layer: `KeyError`, nothing changes. -/
theorem C105_no_first (m : Model K) {p : Params K} (h : p.lookup "W1" = none) : loadParameters m p = (m, some (.key "W1")) := by
  unfold loadParameters
  dsimp only
  rw [get, h]

/-! ## Example: a network that fits `y = 2 x` exactly, trained on `x = 0, 2` -/

/-- The parameters of a network without hidden layers. -/
def exampleParams : Params ℚ := [("W1", ⟨[[1]], 1⟩), ("b1", ⟨[[0]], 1⟩)]

/-- The trained object: scale factors of `x = 0, 2` and `y = 0, 4`. -/
def trained : Model ℚ := { init 1 1 0 12 exampleParams with muX := fun _ => 1, sigmaX := fun _ => 1, muY := fun _ => 2, sigmaY := fun _ => 2 }

theorem example_network : Network exampleParams [1, 1] := ⟨by simp, rfl, ⟨⟨_, _, rfl, rfl, rfl, rfl, rfl, rfl⟩, trivial⟩⟩

/-- **C105** Loading the parameters of that object into a new one gives a different function: `x` instead of `2 x`. -/
theorem C105_transfer (th : ℚ → ℚ) (x : ℚ) :
    evaluate th trained [x] = .ok [2 * x] ∧ evaluate th (loadParameters fresh exampleParams).1 [x] = .ok [x] := by
  constructor
  · show Except.ok (ε := Err) [(1 * ((x - 1) / 1) + 0 + 0) * 2 + 2] = _
    congr 2
    ring
  · show Except.ok (ε := Err) [(1 * ((x - 1) / 1) + 0 + 0) * 1 + 1] = _
    congr 2
    ring

/-- A network with hidden layers of sizes 2 and 3: the reported sizes are `1, 2, 2, 1`. -/
def unequal : Params ℚ :=
  [("W1", ⟨[[1], [2]], 1⟩), ("b1", ⟨[[0], [0]], 1⟩), ("W2", ⟨[[1, 1], [1, 2], [2, 1]], 2⟩), ("b2", ⟨[[0], [0], [0]], 1⟩),
   ("W3", ⟨[[1, 1, 1]], 3⟩), ("b3", ⟨[[0]], 1⟩)]

theorem unequal_network : Network unequal [1, 2, 3, 1] :=
  ⟨by simp, rfl, ⟨⟨_, _, rfl, rfl, rfl, rfl, rfl, rfl⟩, ⟨_, _, rfl, rfl, rfl, rfl, rfl, rfl⟩, ⟨_, _, rfl, rfl, rfl, rfl, rfl, rfl⟩, trivial⟩⟩

example : (loadParameters fresh unequal).1.dims = [1, 2, 2, 1] := by decide
/-- A saved dictionary from which `W3` is missing. -/
example : (loadParameters trained (unequal.eraseIdx 4 ++ [("c", ⟨[], 0⟩)])).2 = some (.key "W3") := by decide

end SMT.Nn.Persist
