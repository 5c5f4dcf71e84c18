import Verif.Nn.LifeProps

set_option linter.unusedSectionVars false
set_option linter.unusedSimpArgs false
set_option linter.unusedVariables false

/-!
# C90: the life of a GENN surrogate — training
-/
namespace SMT.Nn.Life
open SMT.Nn SMT.Surrogate Matrix

variable {G E : Type}

/-- Architecture of a network: per layer number of inputs, number of nodes, activation. -/
def arch : {n p : ℕ} → Net n p → List (ℕ × ℕ × Act)
  | _, _, .done _ => []
  | n, _, .layer (k := k) L rest => (n, k, L.act) :: arch rest

theorem arch_setVec : ∀ {n p : ℕ} (net : Net n p) (v : Key → ℝ), arch (setVec net v) = arch net
  | _, _, .done _, _ => rfl
  | _, _, .layer L rest, v => by rw [setVec, arch, arch, arch_setVec rest]

theorem setVec_toVec : ∀ {n p : ℕ} (net : Net n p), setVec net (toVec net) = net
  | _, _, .done _ => rfl
  | _, _, .layer (n := n) (k := k) L rest => by
    rw [setVec]
    congr 1
    · obtain ⟨W, b, a⟩ := L
      congr 1
      · ext i j; simp [toVec, readMat]
      · funext i; simp [toVec]
    · exact setVec_toVec rest

/-- The documented architecture: `deep` hidden layers of `wide` nodes with `tanh`, a linear output layer. -/
def archOf : ℕ → List ℕ → ℕ → List (ℕ × ℕ × Act)
  | n, [], p => [(n, p, .linear)]
  | n, k :: hidden, p => (n, k, .tanh) :: archOf k hidden p

theorem arch_initNet (R : Rng G E) : ∀ (hidden : List ℕ) (n p : ℕ) (g : G), arch (initNet R n hidden p g).1 = archOf n hidden p
  | [], _, _, _ => rfl
  | k :: hidden, n, p, g => by
    show (n, k, Act.tanh) :: arch (initNet R k hidden p (R.randn g k n).2).1 = _
    rw [arch_initNet R hidden]; rfl

/-- The line search of the optimiser finishes within the rounds of the model. -/
def Enough (env : Env G E) (alpha : ℝ) : Prop :=
  ∀ (f : (Key → ℝ) → ℝ) (upd : ℝ → Opt ℝ Key → Opt ℝ Key) (o : Opt ℝ Key), (lineSearch env.fuel f upd alpha o).isSome

/-- **C90** Training always terminates: for every learning rate there is a number of rounds that suffices for every line search; for rates up to 4000 six rounds do. -/
theorem C90_terminates (R : Rng G E) (eps alpha : ℝ) : (∃ fuel, Enough ⟨R, eps, fuel⟩ alpha) ∧ (alpha ≤ 4000 → Enough ⟨R, eps, 6⟩ alpha) := by
  refine ⟨?_, fun h f upd o => C68_six_trials f upd alpha h o⟩
  obtain ⟨n, hn⟩ := pow_unbounded_of_one_lt (alpha * 1000000) (one_lt_two : (1 : ℝ) < 2)
  refine ⟨n + 1, fun f upd o => ?_⟩
  unfold lineSearch
  rw [half_clip]
  apply lsLoop_terminates
  have h2 : (2 : ℝ) ^ n ≤ 2 ^ 2 ^ n := pow_le_pow_right₀ (by norm_num) (Nat.lt_two_pow_self).le
  have hp : (0 : ℝ) < 2 ^ 2 ^ n := by positivity
  rw [one_div, inv_pow, ← div_eq_mul_inv, div_lt_iff₀ hp]
  linarith

section batch
variable {nx ny : ℕ}

/-- One mini-batch: inputs, outputs, partials. -/
abbrev Batch (nx ny : ℕ) := List (Fin nx → ℝ) × List (Fin ny → ℝ) × Option (List (Fin nx → Fin ny → ℝ))

/-- Cost of a network on a mini-batch (`Model.cost`). -/
noncomputable def batchCost (o : Opts) (net : Net nx ny) (b : Batch nx ny) : ℝ :=
  (cost net (batchX b.1) (batchY b.1.length b.2.1) (b.2.2.map (batchJ b.1.length)) o.lambd o.gamma).toOption.getD 0

/-- **C90** Training on one mini-batch: with one example (and partials) it raises `ValueError`; otherwise it succeeds, keeps the architecture, and the recorded costs start with the cost of the
network before and end with the cost of the network after the optimisation; there are at most `num_iterations + 1` of them, and exactly that many for `num_iterations ≤ 103`. -/
theorem C90_batch (env : Env G E) (o : Opts) (he : Enough env o.alpha) (net : Net nx ny) (b : Batch nx ny) (hb : b.2.2.isSome) :
    (b.1.length = 1 → trainBatch env o net b = .error (.py .value)) ∧
    (b.1.length ≠ 1 → ∃ net' costs, trainBatch env o net b = .ok (net', costs) ∧ arch net' = arch net ∧
      costs.head? = some (batchCost o net b) ∧ costs.getLast? = some (batchCost o net' b) ∧
      costs.length ≤ o.iters.toNat + 1 ∧ (o.iters ≤ 103 → costs.length = o.iters.toNat + 1)) := by
  obtain ⟨J, hJ⟩ := Option.isSome_iff_exists.1 hb
  refine ⟨fun h1 => ?_, fun h1 => ?_⟩
  · unfold trainBatch
    rw [hJ]
    simp [cost, h1]
  · set f : (Key → ℝ) → ℝ := costFun o net (batchX b.1) (batchY b.1.length b.2.1) (b.2.2.map (batchJ b.1.length)) with hfdef
    set gr : (Key → ℝ) → Key → ℝ := gradFun o net (batchX b.1) (batchY b.1.length b.2.1) (b.2.2.map (batchJ b.1.length)) with hgdef
    have hs : (optimize env.fuel f gr (adamUpdate Real.sqrt env.eps) o.alpha o.beta1 o.beta2 o.iters.toNat (toVec net)).isSome :=
      optLoop_isSome _ f gr o.alpha env.fuel (fun p => he f _ p) _ _ _ _
    obtain ⟨r, hr⟩ := Option.isSome_iff_exists.1 hs
    obtain ⟨c1, c2, c3, c4, -, -⟩ := C68_history _ (Or.inr ⟨Real.sqrt, env.eps, rfl⟩) _ _ _ _ _ _ _ _ _ hr
    refine ⟨setVec net r.cur, r.costs, ?_, arch_setVec _ _, ?_, ?_, c4, fun hi => ?_⟩
    · unfold trainBatch
      have hc : ∃ c, cost net (batchX b.1) (batchY b.1.length b.2.1) (b.2.2.map (batchJ b.1.length)) o.lambd o.gamma = .ok c := by
        rw [hJ]; unfold cost; simp only [Option.map_some]; rw [if_neg h1]; exact ⟨_, rfl⟩
      obtain ⟨c, hc⟩ := hc
      simp only [hc]
      rw [hr]
    · rw [c3, List.head?_map, c1, Option.map_some]
      show some (f (toVec net)) = _
      rw [hfdef, costFun, setVec_toVec]; rfl
    · rw [c3, List.getLast?_map, c2, Option.map_some]; rfl
    · exact C68_no_early_stop _ (Or.inr ⟨Real.sqrt, env.eps, rfl⟩) _ _ _ _ _ _ _ (by omega) _ _ hr

theorem trainBatches_spec (env : Env G E) (o : Opts) (he : Enough env o.alpha) : ∀ (bs : List (Batch nx ny)) (net : Net nx ny) (h : List (List ℝ)), (∀ b ∈ bs, b.2.2.isSome) →
    ((∃ b ∈ bs, b.1.length = 1) → (trainBatches env o bs net h).2 = .error (.py .value)) ∧
    ((∀ b ∈ bs, b.1.length ≠ 1) → (trainBatches env o bs net h).2 = .ok () ∧ ∃ h', (trainBatches env o bs net h).1.2 = h ++ h' ∧ h'.length = bs.length ∧
      ∀ c ∈ h', 0 < c.length ∧ c.length ≤ o.iters.toNat + 1 ∧ (o.iters ≤ 103 → c.length = o.iters.toNat + 1)) ∧
    arch (trainBatches env o bs net h).1.1 = arch net := by
  intro bs
  induction bs with
  | nil => intro net h _; exact ⟨by simp, fun _ => ⟨rfl, [], by simp [trainBatches], rfl, by simp⟩, rfl⟩
  | cons b bs ih =>
    intro net h hb
    obtain ⟨hb1, hb2⟩ := C90_batch env o he net b (hb b (by simp))
    by_cases h1 : b.1.length = 1
    · have e := hb1 h1
      rw [trainBatches, e]
      refine ⟨fun _ => rfl, fun hn => absurd h1 (hn b (by simp)), rfl⟩
    · obtain ⟨net', costs, e, ea, e1, e2, e3, e4⟩ := hb2 h1
      rw [trainBatches, e]
      obtain ⟨i1, i2, i3⟩ := ih net' (h ++ [costs]) fun c hc => hb c (by simp [hc])
      refine ⟨fun ⟨c, hc, hl⟩ => i1 ⟨c, ?_, hl⟩, fun hn => ?_, i3.trans ea⟩
      · rcases List.mem_cons.1 hc with rfl | h'
        · exact absurd hl h1
        · exact h'
      · obtain ⟨j1, h', j2, j3, j4⟩ := i2 fun c hc => hn c (by simp [hc])
        refine ⟨j1, costs :: h', by rw [j2]; simp, by simp [j3], fun c hc => ?_⟩
        rcases List.mem_cons.1 hc with rfl | h''
        · refine ⟨?_, e3, e4⟩
          cases c with
          | nil => simp at e1
          | cons => simp
        · exact j4 c h''

end batch

/-! ### Sizes of the mini-batches -/

/-- Whether the mini-batches of `m` examples avoid batches of one example; `batch` is the option `mini_batch_size`. -/
def BatchOk (m : ℕ) (batch : ℤ) : Prop :=
  if batch < 0 then batch ∣ m else m ≠ 1 ∧ batch ≠ 1 ∧ (0 < batch → batch < m → (m : ℤ) % batch ≠ 1)

theorem single_part (parts : List (List ℕ)) (m size : ℕ) (hs : 0 < size) (hm : 0 < m) (h1 : parts.flatten.length = m) (h2 : ∀ I ∈ parts, 0 < I.length ∧ I.length ≤ size)
    (h3 : ∀ I ∈ parts.dropLast, I.length = size) : (∃ I ∈ parts, I.length = 1) ↔ m = 1 ∨ size = 1 ∨ (size < m ∧ m % size = 1) := by
  rcases List.eq_nil_or_concat parts with rfl | ⟨D, L, rfl⟩
  · simp at h1; omega
  rw [List.concat_eq_append] at *
  rw [List.dropLast_concat] at h3
  have hsum : ∀ (D : List (List ℕ)), (∀ I ∈ D, I.length = size) → D.flatten.length = D.length * size := by
    intro D
    induction D with
    | nil => simp
    | cons I D ih =>
      intro h
      rw [List.flatten_cons, List.length_append, ih fun J hJ => h J (by simp [hJ]), h I (by simp), List.length_cons]
      ring
  have hL := h2 L (by simp)
  have hmE : D.length * size + L.length = m := by
    rw [← h1, List.flatten_append, List.length_append, hsum D h3]; simp
  constructor
  · rintro ⟨I, hI, hI1⟩
    rcases List.mem_append.1 hI with h | h
    · exact Or.inr (Or.inl ((h3 I h).symm.trans hI1))
    · have : I = L := by simpa using h
      subst this
      rw [hI1] at hmE
      by_cases hD : D.length = 0
      · left; rw [hD] at hmE; omega
      · by_cases h1s : size = 1
        · exact Or.inr (Or.inl h1s)
        · refine Or.inr (Or.inr ⟨?_, ?_⟩)
          · have : 1 * size ≤ D.length * size := Nat.mul_le_mul_right _ (by omega)
            omega
          · rw [← hmE, Nat.add_mod, Nat.mul_mod_left, Nat.zero_add, Nat.mod_mod, Nat.mod_eq_of_lt (by omega)]
  · intro h
    refine ⟨L, by simp, ?_⟩
    rcases h with h | h | ⟨h, h'⟩
    · have : D.length * size ≤ 0 := by omega
      omega
    · omega
    · rw [← hmE, Nat.add_mod, Nat.mul_mod_left, Nat.zero_add, Nat.mod_mod] at h'
      by_cases hl : L.length = size
      · rw [hl, Nat.mod_self] at h'; omega
      · rwa [Nat.mod_eq_of_lt (by omega)] at h'

/-- Number of batches of one epoch. -/
def nBatches (m : ℕ) (batch : ℤ) : ℕ := if batch < 0 then 0 else if batch = 0 then 1 else (m + batch.toNat - 1) / batch.toNat

theorem batchesOf_spec {nx ny : ℕ} (perm : List ℕ) (ex : List (Ex nx ny)) (batch : ℤ) (hp : perm.Perm (List.range ex.length)) (hm : 0 < ex.length) :
    (batch < 0 ∧ ¬ batch ∣ ex.length ∧ batchesOf perm ex batch = .error .unbound) ∨
    ∃ bs, batchesOf perm ex batch = .ok bs ∧ bs.length = nBatches ex.length batch ∧ (∀ b ∈ bs, b.2.2.isSome) ∧ ((∃ b ∈ bs, b.1.length = 1) ↔ ¬ BatchOk ex.length batch) ∧
      (batch < 0 → batch ∣ ex.length) := by
  unfold batchesOf
  by_cases hneg : batch < 0
  · have h0 : batch ≠ 0 := by omega
    simp only [h0, if_false, hneg, if_true]
    by_cases hd : (ex.length : ℤ) % batch = 0
    · right
      refine ⟨[], by simp [hd], by simp [nBatches, hneg], by simp, ?_, fun _ => Int.dvd_of_emod_eq_zero hd⟩
      simp [BatchOk, hneg, Int.dvd_of_emod_eq_zero hd]
    · left
      exact ⟨trivial, fun h => hd (Int.emod_eq_zero_of_dvd h), by simp [hd]⟩
  · right
    set size : ℤ := if batch = 0 then (ex.length : ℤ) else batch with hsz
    have hpos : 0 < size := by rw [hsz]; split_ifs <;> omega
    have hsn : ¬ size < 0 := by omega
    simp only [hsn, if_false]
    have hp' : perm.Perm (List.range (ex.map (·.1)).length) := by simpa using hp
    obtain ⟨parts, e1, e2, e3, e4, e5⟩ := C67_batches perm (ex.map (·.1)) (ex.map (·.2.1)) (some (ex.map (·.2.2))) size.toNat hp' (by simp) (by simp)
      (by intro h; rw [List.map_eq_nil_iff] at h; rw [h] at hm; simp at hm) (by omega)
    rw [e1]
    simp only
    refine ⟨_, rfl, ?_, ?_, ?_, fun h => absurd h hneg⟩
    · rw [List.length_map, e5, List.length_map]
      unfold nBatches
      rw [if_neg hneg]
      by_cases h0 : batch = 0
      · rw [if_pos h0]
        have : size.toNat = ex.length := by rw [hsz, if_pos h0]; simp
        rw [this]
        have : ex.length + ex.length - 1 = (ex.length - 1) + ex.length * 1 := by omega
        rw [this, Nat.add_mul_div_left _ _ hm, Nat.div_eq_of_lt (by omega)]
      · rw [if_neg h0, hsz, if_neg h0]
    · intro b hb
      obtain ⟨I, hI, rfl⟩ := List.mem_map.1 hb
      rfl
    · have hlen : parts.flatten.length = ex.length := by have := e2.length_eq; simpa using this
      have := single_part parts ex.length size.toNat (by omega) hm hlen (fun I hI => ⟨(e3 I hI).1, (e3 I hI).2.1⟩) e4
      have hex : (∃ b ∈ (parts.map fun I => (I.filterMap (fun i => (ex.map (·.1))[i]?), I.filterMap (fun i => (ex.map (·.2.1))[i]?),
          (some (ex.map (·.2.2))).map fun J => I.filterMap (fun i => J[i]?))), b.1.length = 1) ↔ ∃ I ∈ parts, I.length = 1 := by
        constructor
        · rintro ⟨b, hb, hl⟩
          obtain ⟨I, hI, rfl⟩ := List.mem_map.1 hb
          exact ⟨I, hI, (e3 I hI).2.2.1.symm.trans hl⟩
        · rintro ⟨I, hI, hl⟩
          exact ⟨_, List.mem_map.2 ⟨I, hI, rfl⟩, (e3 I hI).2.2.1.trans hl⟩
      rw [hex, this]
      unfold BatchOk
      rw [if_neg hneg]
      by_cases h0 : batch = 0
      · have : size = ex.length := by rw [hsz, if_pos h0]
        rw [this, h0]
        simp
      · have hse : size = batch := by rw [hsz, if_neg h0]
        rw [hse]
        have hbp : 0 < batch := by omega
        obtain ⟨n, rfl⟩ := Int.eq_ofNat_of_zero_le hbp.le
        have hmod : ((ex.length : ℤ) % (n : ℤ) = 1) ↔ ex.length % n = 1 := by norm_cast
        simp only [Int.toNat_natCast]
        simp only [ne_eq, hmod]
        constructor
        · rintro (h | h | h)
          · tauto
          · rintro ⟨-, h', -⟩; exact h' (by omega)
          · rintro ⟨-, -, h'⟩; exact h' hbp (by omega) h.2
        · intro h
          by_contra hc
          push Not at hc
          exact h ⟨hc.1, fun h' => hc.2.1 (by omega), fun _ h' => hc.2.2 (by omega)⟩

/-! ### Epochs -/

/-- The generator draws permutations. -/
def Draws (R : Rng G E) : Prop := ∀ g n, (R.perm g n).1.Perm (List.range n)

/-- The seed is accepted by NumPy. -/
def SeedOk (R : Rng G E) (seed : Option ℤ) : Prop := ∀ s, seed = some s → (R.ofSeed s).isSome

theorem reseed_some (R : Rng G E) (seed : Option ℤ) (h : SeedOk R seed) (w : G × E) : ∃ w1, reseed R seed w = some w1 := by
  cases seed with
  | none => exact ⟨_, rfl⟩
  | some s =>
    obtain ⟨g, hg⟩ := Option.isSome_iff_exists.1 (h s rfl)
    exact ⟨(g, w.2), by simp [reseed, hg]⟩

theorem trainEpochs_arch (env : Env G E) (o : Opts) (he : Enough env o.alpha) {nx ny : ℕ} (ex : List (Ex nx ny)) (hd : Draws env.rng) (hm : 0 < ex.length) :
    ∀ (n : ℕ) (net : Net nx ny) (h : List (List (List ℝ))) (w : G × E), arch (trainEpochs env o ex n net h w).1.1 = arch net := by
  intro n
  induction n with
  | zero => intro net h w; rfl
  | succ n ih =>
    intro net h w
    rw [trainEpochs]
    cases hr : reseed env.rng o.seed w with
    | none => rfl
    | some w1 =>
      simp only
      rcases batchesOf_spec (env.rng.perm w1.1 ex.length).1 ex o.batch (hd _ _) hm with ⟨-, -, hb⟩ | ⟨bs, hb, -, hbs, -⟩
      · rw [hb]
      · rw [hb]
        simp only
        have := (trainBatches_spec env o he bs net [] hbs).2.2
        rcases ht : trainBatches env o bs net [] with ⟨⟨net', hb'⟩, e | u⟩
        · rw [ht] at this; exact this
        · rw [ht] at this; exact (ih _ _ _).trans this

theorem trainEpochs_spec (env : Env G E) (o : Opts) (he : Enough env o.alpha) {nx ny : ℕ} (ex : List (Ex nx ny)) (hd : Draws env.rng) (hs : SeedOk env.rng o.seed)
    (hm : 0 < ex.length) : ∀ (n : ℕ) (net : Net nx ny) (h : List (List (List ℝ))) (w : G × E),
    (BatchOk ex.length o.batch → (trainEpochs env o ex n net h w).2 = .ok () ∧ ∃ h', (trainEpochs env o ex n net h w).1.2.1 = h ++ h' ∧ h'.length = n ∧
      ∀ ep ∈ h', ep.length = nBatches ex.length o.batch ∧ ∀ c ∈ ep, 0 < c.length ∧ c.length ≤ o.iters.toNat + 1 ∧ (o.iters ≤ 103 → c.length = o.iters.toNat + 1)) ∧
    (¬ BatchOk ex.length o.batch → 0 < n → (trainEpochs env o ex n net h w).2 = .error (.py (if o.batch < 0 then .unbound else .value))) := by
  intro n
  induction n with
  | zero => intro net h w; exact ⟨fun _ => ⟨rfl, [], by simp [trainEpochs], rfl, by simp⟩, fun _ h => by omega⟩
  | succ n ih =>
    intro net h w
    rw [trainEpochs]
    obtain ⟨w1, hw1⟩ := reseed_some env.rng o.seed hs w
    rw [hw1]
    simp only
    rcases batchesOf_spec (env.rng.perm w1.1 ex.length).1 ex o.batch (hd _ _) hm with ⟨hneg, hnd, hb⟩ | ⟨bs, hb, hlen, hbs, hsing, hdv⟩
    · rw [hb]
      refine ⟨fun hok => ?_, fun _ _ => by simp [hneg]⟩
      rw [BatchOk, if_pos hneg] at hok
      exact absurd hok hnd
    · rw [hb]
      simp only
      obtain ⟨t1, t2, -⟩ := trainBatches_spec env o he bs net [] hbs
      refine ⟨fun hok => ?_, fun hok _ => ?_⟩
      · have hno : ∀ b ∈ bs, b.1.length ≠ 1 := fun b hb' hl => (hsing.1 ⟨b, hb', hl⟩) hok
        obtain ⟨u1, h', u2, u3, u4⟩ := t2 hno
        rcases ht : trainBatches env o bs net [] with ⟨⟨net', hb'⟩, e | u⟩
        · rw [ht] at u1; cases u1
        · rw [ht] at u2
          simp only [List.nil_append] at u2
          subst u2
          obtain ⟨v1, h'', v2, v3, v4⟩ := (ih net' (h ++ [hb']) (((env.rng.perm w1.1 ex.length).2, w1.2))).1 hok
          refine ⟨v1, hb' :: h'', by rw [v2]; simp, by simp [v3], fun ep hep => ?_⟩
          rcases List.mem_cons.1 hep with rfl | hep
          · exact ⟨u3.trans hlen, u4⟩
          · exact v4 ep hep
      · have hneg : ¬ o.batch < 0 := fun h => hok (by rw [BatchOk, if_pos h]; exact hdv h)
        have u1 := t1 (hsing.2 hok)
        rw [if_neg hneg]
        rcases ht : trainBatches env o bs net [] with ⟨⟨net', hb'⟩, e | u⟩
        · rw [ht] at u1; simpa using u1
        · rw [ht] at u1; cases u1

/-! ### `train` -/

/-- Options after the call: `gamma` is 0 if there is no partial at all. -/
noncomputable def optsFor (o : Opts) (P : Data) : Opts := if P.nx * P.ny * P.m = 0 then { o with gamma := 0 } else o

theorem optsFor_eq (o : Opts) (P : Data) : (optsFor o P).batch = o.batch ∧ (optsFor o P).iters = o.iters ∧ (optsFor o P).epochs = o.epochs ∧ (optsFor o P).seed = o.seed ∧
    (optsFor o P).alpha = o.alpha ∧ (optsFor o P).deep = o.deep ∧ (optsFor o P).wide = o.wide := by
  unfold optsFor
  split_ifs <;> exact ⟨rfl, rfl, rfl, rfl, rfl, rfl, rfl⟩

/-- The preconditions of training: complete data with at least one input and one point, a positive width for hidden layers. -/
def Ready (g : Genn) (P : Data) : Prop := smtToGenn g.store = .ok P ∧ 0 < P.nx ∧ 0 < P.m ∧ (0 < g.opts.deep → 0 < g.opts.wide)

open Classical in
theorem train_eq (env : Env G E) (g : Genn) (w : G × E) (P : Data) (h : Ready g P) :
    let o := optsFor g.opts P
    let i := initNet env.rng P.nx (hiddenDims o) P.ny w.1
    let r := trainEpochs env o (normExamples P) o.epochs.toNat i.1 [] (i.2, w.2)
    train env g w = ((⟨g.store, o, some ⟨P.nx, P.ny, r.1.1, some (normData P, scaleOf P), decide (degenerate P), r.1.2.1⟩,
      match r.2 with | .ok _ => true | .error _ => g.isTrained⟩, r.1.2.2), r.2) := by
  intro o i r
  obtain ⟨h1, h2, h3, h4⟩ := h
  have ho := optsFor_eq g.opts P
  have e1 : ¬(0 < o.deep ∧ o.wide < 0) := by
    rintro ⟨ha, hb⟩
    have ha' : 0 < g.opts.deep := ho.2.2.2.2.2.1 ▸ ha
    have hb' : g.opts.wide < 0 := ho.2.2.2.2.2.2 ▸ hb
    have := h4 ha'; omega
  have e2 : ¬(0 < o.deep ∧ o.wide = 0) := by
    rintro ⟨ha, hb⟩
    have ha' : 0 < g.opts.deep := ho.2.2.2.2.2.1 ▸ ha
    have hb' : g.opts.wide = 0 := ho.2.2.2.2.2.2 ▸ hb
    have := h4 ha'; omega
  have hf : fit env o P w = ((some ⟨P.nx, P.ny, r.1.1, some (normData P, scaleOf P), decide (degenerate P), r.1.2.1⟩, r.1.2.2), r.2) := by
    unfold fit
    rw [if_neg e1, if_neg h2.ne', if_neg e2]
  unfold train
  rw [h1]
  simp only
  rw [show (if P.nx * P.ny * P.m = 0 then { g.opts with gamma := 0 } else g.opts) = o from rfl, hf]
  simp only
  rcases r.2 with e | u <;> rfl

/-- **C90** When training succeeds: exactly if no epoch is asked for, or no mini-batch of one example arises (`BatchOk`). Otherwise it raises `ValueError` (or, for a negative batch size not
dividing the number of points, `UnboundLocalError`). -/
theorem C90_succeeds_iff (env : Env G E) (g : Genn) (w : G × E) (P : Data) (h : Ready g P) (he : Enough env g.opts.alpha) (hd : Draws env.rng) (hs : SeedOk env.rng g.opts.seed) :
    ((g.opts.epochs ≤ 0 ∨ BatchOk P.m g.opts.batch) → (train env g w).2 = .ok ()) ∧
    (¬(g.opts.epochs ≤ 0 ∨ BatchOk P.m g.opts.batch) → (train env g w).2 = .error (.py (if g.opts.batch < 0 then .unbound else .value))) := by
  obtain ⟨o1, o2, o3, o4, o5, o6, o7⟩ := optsFor_eq g.opts P
  have hx : (normExamples P).length = P.m := by simp [normExamples]
  have := trainEpochs_spec env (optsFor g.opts P) (by rw [o5]; exact he) (normExamples P) hd (by rw [o4]; exact hs) (by rw [hx]; exact h.2.2.1)
    (optsFor g.opts P).epochs.toNat (initNet env.rng P.nx (hiddenDims (optsFor g.opts P)) P.ny w.1).1 []
    ((initNet env.rng P.nx (hiddenDims (optsFor g.opts P)) P.ny w.1).2, w.2)
  rw [train_eq env g w P h]
  rw [hx, o1, o3] at this
  simp only
  rw [o3]
  refine ⟨fun hok => ?_, fun hno => ?_⟩
  · rcases hok with h0 | hok
    · have : g.opts.epochs.toNat = 0 := by omega
      rw [this]; rfl
    · exact (this.1 hok).1
  · push Not at hno
    exact this.2 hno.2 (by omega)

/-- **C90** State after `train()`, whether it succeeded or raised during the epochs: the object carries a *new* network of the documented architecture with the scale factors of the data it was
called with; the training data are untouched; `_is_trained` is set only on success. So after a failed training, predictions come from a partly trained network. -/
theorem C90_state_after_training (env : Env G E) (g : Genn) (w : G × E) (P : Data) (h : Ready g P) (he : Enough env g.opts.alpha) (hd : Draws env.rng) :
    ∃ (net : Net P.nx P.ny) (nan : Bool) (hist : List (List (List ℝ))),
      (train env g w).1.1.model = some ⟨P.nx, P.ny, net, some (normData P, scaleOf P), nan, hist⟩ ∧
      arch net = archOf P.nx (List.replicate g.opts.deep.toNat g.opts.wide.toNat) P.ny ∧
      (nan = true ↔ (∃ i, rowStd P.X i = 0) ∨ ∃ i, rowStd P.Y i = 0) ∧
      (train env g w).1.1.store = g.store ∧ ((train env g w).1.1.isTrained = true ↔ (train env g w).2 = .ok () ∨ g.isTrained = true) := by
  classical
  obtain ⟨o1, o2, o3, o4, o5, o6, o7⟩ := optsFor_eq g.opts P
  have hx : (normExamples P).length = P.m := by simp [normExamples]
  have := trainEpochs_arch env (optsFor g.opts P) (by rw [o5]; exact he) (normExamples P) hd (by rw [hx]; exact h.2.2.1)
    (optsFor g.opts P).epochs.toNat (initNet env.rng P.nx (hiddenDims (optsFor g.opts P)) P.ny w.1).1 []
    ((initNet env.rng P.nx (hiddenDims (optsFor g.opts P)) P.ny w.1).2, w.2)
  rw [train_eq env g w P h]
  refine ⟨_, _, _, rfl, ?_, ?_, rfl, ?_⟩
  · refine this.trans ?_
    rw [arch_initNet, hiddenDims, o6, o7]
  · rw [decide_eq_true_iff]; rfl
  · simp only
    generalize (trainEpochs env (optsFor g.opts P) (normExamples P) (optsFor g.opts P).epochs.toNat
      (initNet env.rng P.nx (hiddenDims (optsFor g.opts P)) P.ny w.1).1 [] ((initNet env.rng P.nx (hiddenDims (optsFor g.opts P)) P.ny w.1).2, w.2)).2 = q
    rcases q with e | u
    · simp
    · simp

/-- **C90** Training history of a successful training: one entry per epoch; in each one cost history per mini-batch, `⌈m / batch⌉` of them (one for `mini_batch_size = 0`, none for a negative
size); each has between 1 and `num_iterations + 1` costs, exactly `num_iterations + 1` for `num_iterations ≤ 103`. -/
theorem C90_history (env : Env G E) (g : Genn) (w : G × E) (P : Data) (h : Ready g P) (he : Enough env g.opts.alpha) (hd : Draws env.rng) (hs : SeedOk env.rng g.opts.seed)
    (hok : BatchOk P.m g.opts.batch) : ∃ t, (train env g w).1.1.model = some t ∧ t.history.length = g.opts.epochs.toNat ∧ ∀ ep ∈ t.history,
      ep.length = nBatches P.m g.opts.batch ∧ ∀ c ∈ ep, 0 < c.length ∧ c.length ≤ g.opts.iters.toNat + 1 ∧ (g.opts.iters ≤ 103 → c.length = g.opts.iters.toNat + 1) := by
  obtain ⟨o1, o2, o3, o4, o5, o6, o7⟩ := optsFor_eq g.opts P
  have hx : (normExamples P).length = P.m := by simp [normExamples]
  obtain ⟨-, h', e1, e2, e3⟩ := (trainEpochs_spec env (optsFor g.opts P) (by rw [o5]; exact he) (normExamples P) hd (by rw [o4]; exact hs) (by rw [hx]; exact h.2.2.1)
    (optsFor g.opts P).epochs.toNat (initNet env.rng P.nx (hiddenDims (optsFor g.opts P)) P.ny w.1).1 []
    ((initNet env.rng P.nx (hiddenDims (optsFor g.opts P)) P.ny w.1).2, w.2)).1 (by rw [hx, o1]; exact hok)
  rw [train_eq env g w P h]
  refine ⟨_, rfl, ?_⟩
  simp only
  rw [e1, List.nil_append, ← o3]
  refine ⟨e2, fun ep hep => ?_⟩
  have := e3 ep hep
  rwa [hx, o1, o2] at this

/-- **C90** With a negative batch size dividing the number of points (e.g. `-1`), zero epochs or zero iterations, `train()` succeeds without training: the network is the random initial one. -/
theorem C90_untrained_success (env : Env G E) (g : Genn) (w : G × E) (P : Data) (h : Ready g P) (hd : Draws env.rng) (hs : SeedOk env.rng g.opts.seed)
    (hb : g.opts.batch < 0) (hdvd : g.opts.batch ∣ P.m) : (train env g w).2 = .ok () ∧ ∃ t, (train env g w).1.1.model = some ⟨P.nx, P.ny,
      (initNet env.rng P.nx (List.replicate g.opts.deep.toNat g.opts.wide.toNat) P.ny w.1).1, some (normData P, scaleOf P), t, List.replicate g.opts.epochs.toNat []⟩ := by
  classical
  obtain ⟨o1, o2, o3, o4, o5, o6, o7⟩ := optsFor_eq g.opts P
  have hx : (normExamples P).length = P.m := by simp [normExamples]
  have key : ∀ (n : ℕ) (net : Net P.nx P.ny) (hh : List (List (List ℝ))) (w : G × E),
      (trainEpochs env (optsFor g.opts P) (normExamples P) n net hh w).2 = .ok () ∧
      (trainEpochs env (optsFor g.opts P) (normExamples P) n net hh w).1.1 = net ∧
      (trainEpochs env (optsFor g.opts P) (normExamples P) n net hh w).1.2.1 = hh ++ List.replicate n [] := by
    intro n
    induction n with
    | zero => intro net hh w; exact ⟨rfl, rfl, by simp [trainEpochs]⟩
    | succ n ih =>
      intro net hh w
      rw [trainEpochs]
      obtain ⟨w1, hw1⟩ := reseed_some env.rng (optsFor g.opts P).seed (by rw [o4]; exact hs) w
      rw [hw1]
      simp only
      have hbt : batchesOf (env.rng.perm w1.1 (normExamples P).length).1 (normExamples P) (optsFor g.opts P).batch = .ok [] := by
        unfold batchesOf
        have h0 : g.opts.batch ≠ 0 := by omega
        simp [o1, h0, hb, hx, Int.emod_eq_zero_of_dvd hdvd]
      rw [hbt]
      simp only [trainBatches]
      obtain ⟨i1, i2, i3⟩ := ih net (hh ++ [[]]) ((env.rng.perm w1.1 (normExamples P).length).2, w1.2)
      exact ⟨i1, i2, by rw [i3, List.replicate_succ, List.append_assoc, List.singleton_append]⟩
  obtain ⟨k1, k2, k3⟩ := key (optsFor g.opts P).epochs.toNat (initNet env.rng P.nx (hiddenDims (optsFor g.opts P)) P.ny w.1).1 []
    ((initNet env.rng P.nx (hiddenDims (optsFor g.opts P)) P.ny w.1).2, w.2)
  rw [train_eq env g w P h]
  refine ⟨k1, decide (degenerate P), ?_⟩
  simp only
  rw [k2, k3, List.nil_append, hiddenDims, o6, o7, o3]

end SMT.Nn.Life
