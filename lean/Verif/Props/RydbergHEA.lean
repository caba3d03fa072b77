import Verif.Model.RydbergHEA
import Verif.Props.Hamiltonian
import Verif.Proofs.GateSem
import Verif.Proofs.Names
import Verif.Proofs.Ansatz
import Verif.Spec.Circuit
import Mathlib.Analysis.Normed.Algebra.MatrixExponential
import Mathlib.Tactic

/-!
# C82: The Rydberg hardware efficient ansatz
-/

namespace Qadence.RydbergHEA

open Spec Block

variable {n : ℕ} {ord : List ℕ → List ℕ}

/-! ## The blocks -/

/-- The terms of the interaction. -/
def nnTerm (e : ℕ × ℕ) : Block Gate :=
  .scale (.comp .kron [ofFixed (.N true) e.1, ofFixed (.N true) e.2] none) (.num 1 0) none

/-- The interaction is the sum of N N over the edges. -/
theorem interaction_eq (ho : SetOrder ord) (r : Register) (hl : ∀ e ∈ r.edges, e.1 ≠ e.2) :
    hamiltonianFactory ord r { interaction := some .NN } = .ok (addOf (r.edges.map nnTerm)) := by
  have h2 : interactionTerms ord (some .NN) (List.replicate (r.edges.map edgeName).length (.num 1 0)) r.edges =
      .ok (r.edges.map nnTerm) := by
    rw [List.length_map]
    unfold interactionTerms
    dsimp only
    generalize r.edges = es at hl
    induction es with
    | nil => rfl
    | cons e es ih =>
      rw [List.length_cons, List.replicate_succ, List.zip_cons_cons, List.mapM_cons,
        ih fun e he => hl e (by simp [he])]
      simp only [Interact.block]
      rw [fixed_matmul_ok ho _ _ (hl e (by simp))]
      rfl
  unfold hamiltonianFactory HamArgs.pairs
  simp only [Strength.preprocess, Bool.false_eq_true, if_false, detuningTerms]
  show ((do
    let two ← interactionTerms ord (some .NN) (List.replicate (r.edges.map edgeName).length (.num 1 0)) r.edges
    return addOf ([] ++ two)) : Except PyErr (Block Gate)) = _
  rw [h2]
  rfl

/-- The terms of a pattern. -/
def patternTerms (n : ℕ) (g : FixedGate) : Option (List Expr) → List (Block Gate)
  | none => (List.range n).map (ofFixed g)
  | some ws => ws.zipIdx.map fun p => .scale (ofFixed g p.2) p.1 none

theorem scaledTerm_fixed (g : FixedGate) (hg : g ≠ .Zero) (s : Expr) (q : ℕ) :
    scaledTerm s (ofFixed g q) = .ok (.scale (ofFixed g q) s none) := by
  have : isZeroBlock Gate.arith (ofFixed g q) = false := by
    cases g <;> first | rfl | exact absurd rfl hg
  simp only [scaledTerm, rmul, mul, this, Bool.false_eq_true, if_false]
  rfl

theorem amplitudeMap_ok (m : ℕ) (g : FixedGate) (hg : g ≠ .Zero) (ws : Option (List Expr))
    (h : ∀ l, ws = some l → l.length ≤ m) : amplitudeMap m g ws = .ok (addOf (patternTerms m g ws)) := by
  cases ws with
  | none => rfl
  | some l =>
    unfold amplitudeMap
    dsimp only
    rw [if_pos (h l rfl), mapM_ok_map (g := fun p => .scale (ofFixed g p.2) p.1 none)
      (fun p _ => scaledTerm_fixed g hg p.1 p.2)]
    rfl

/-- The generator of the drive as a block. -/
def driveBlock (a : LayerArgs) (m : ℕ) (es : List (ℕ × ℕ)) : Block Gate :=
  match a.phase with
  | some φ => addOf [addOf [.scale (addOf (patternTerms m .X a.drives)) (.mul (.num a.scaling 0) (.fn "cos" φ)) none,
      .scale (addOf (patternTerms m .Y a.drives)) (.neg (.mul (.num a.scaling 0) (.fn "sin" φ))) none],
      addOf (es.map nnTerm)]
  | none => addOf [.scale (addOf (patternTerms m .X a.drives)) (.num a.scaling 0) none, addOf (es.map nnTerm)]

/-- At most one weight per qubit. -/
def WeightsFit (m : ℕ) (a : LayerArgs) : Prop :=
  (∀ l, a.drives = some l → l.length ≤ m) ∧ ∀ l, a.detunings = some l → l.length ≤ m

/-- **C82.** A layer can be built for every register without loops and with at most one weight per qubit: an evolution
under drive and interaction, one under the interaction, one under the detuning. -/
theorem C82_layer_block (ho : SetOrder ord) (r : Register) (hl : ∀ e ∈ r.edges, e.1 ≠ e.2) (a : LayerArgs)
    (hw : WeightsFit r.nQubits a) :
    layer ord r a = .ok (chainOf [evo (driveBlock a r.nQubits r.edges) a.tevoDrive,
      evo (addOf (r.edges.map nnTerm)) a.tevoWait,
      evo (addOf (patternTerms r.nQubits (.N true) a.detunings)) a.tevoDet]) := by
  have hg : driveGenerator a.scaling a.phase (addOf (patternTerms r.nQubits .X a.drives))
      (addOf (patternTerms r.nQubits .Y a.drives)) (addOf (r.edges.map nnTerm)) =
      .ok (driveBlock a r.nQubits r.edges) := by
    unfold driveGenerator driveBlock
    cases a.phase <;> rfl
  unfold layer
  rw [amplitudeMap_ok _ _ (by simp) _ hw.1, amplitudeMap_ok _ _ (by simp) _ hw.1, amplitudeMap_ok _ _ (by simp) _ hw.2,
    interaction_eq ho r hl]
  simp only [ok_bind]
  rw [hg]
  rfl

/-- **C82.** Too many weights are refused. -/
theorem C82_refused (r : Register) (a : LayerArgs) (l : List Expr) (h : a.drives = some l)
    (hl : r.nQubits < l.length) : layer ord r a = .error .assertionError := by
  unfold layer amplitudeMap
  rw [h]
  simp only [if_neg (not_le.2 hl)]
  rfl

/-! ## Operators -/

/-- The weight of qubit `j`: 1 without a pattern, the j-th weight, or 0 if there is none. -/
noncomputable def weight (ρ : Env) (ws : Option (List Expr)) (j : ℕ) : ℂ :=
  match ws with
  | none => 1
  | some l => (l[j]?.map (eval ρ)).getD 0

/-- A sum over the qubits with weights. -/
noncomputable def patternSum (ρ : Env) (m : ℕ) (g : FixedGate) (ws : Option (List Expr)) : Oper n :=
  ∑ j ∈ Finset.range m, weight ρ ws j • embed1 j (mat1 g)

/-- The interaction: N N for every edge, all of the same strength. -/
noncomputable def nnSum (es : List (ℕ × ℕ)) : Oper n :=
  (es.map fun e => embed1 e.1 (mat1 (.N true)) * embed1 e.2 (mat1 (.N true))).sum

theorem sem_zipIdx (ρ : Env) (g : FixedGate) (l : List Expr) (c m : ℕ) (h : l.length ≤ m) :
    ((l.zipIdx c).map fun p => sem (gateSem n ρ) ρ (.scale (ofFixed g p.2) p.1 none)).sum =
      ∑ j ∈ Finset.range m, ((l[j]?.map (eval ρ)).getD 0) • (embed1 (c + j) (mat1 g) : Oper n) := by
  induction l generalizing c m with
  | nil => simp
  | cons s l ih =>
    obtain ⟨m, rfl⟩ : ∃ k, m = k + 1 := ⟨m - 1, by simp at h; omega⟩
    rw [List.zipIdx_cons, List.map_cons, List.sum_cons, ih (c + 1) m (by simpa using h), Finset.sum_range_succ',
      sem_scale, sem_ofFixed, add_comm]
    simp [add_assoc, add_comm 1]

theorem sem_pattern (ρ : Env) (m : ℕ) (g : FixedGate) (ws : Option (List Expr))
    (h : ∀ l, ws = some l → l.length ≤ m) :
    sem (gateSem n ρ) ρ (addOf (patternTerms m g ws)) = patternSum ρ m g ws := by
  rw [addOf, sem_add, patternSum]
  cases ws with
  | none =>
    simp only [patternTerms, List.map_map, Function.comp_def, sem_ofFixed, weight, one_smul]
    clear h
    induction m with
    | zero => rfl
    | succ m ih => rw [List.range_succ, List.map_append, List.sum_append, Finset.sum_range_succ, ih]; simp
  | some l =>
    simp only [patternTerms, List.map_map, Function.comp_def, weight]
    rw [sem_zipIdx ρ g l 0 m (h l rfl)]
    simp

theorem sem_nn (ρ : Env) (es : List (ℕ × ℕ)) (hl : ∀ e ∈ es, e.1 ≠ e.2) :
    sem (gateSem n ρ) ρ (addOf (es.map nnTerm)) = nnSum es := by
  rw [addOf, sem_add, nnSum, List.map_map]
  congr 1
  refine List.map_congr_left fun e he => ?_
  simp only [Function.comp_def, nnTerm, sem_scale, eval_one', one_smul, sem_kron, List.map_cons, List.map_nil, opProd,
    one_mul, sem_ofFixed]
  exact (embed1_commute_of_ne (hl e he) _ _).symm

/-- The Hamiltonian of the drive. -/
noncomputable def driveHam (ρ : Env) (m : ℕ) (a : LayerArgs) : Oper n :=
  match a.phase with
  | none => (a.scaling : ℂ) • patternSum ρ m .X a.drives
  | some φ => ((a.scaling : ℂ) * Complex.cos (eval ρ φ)) • patternSum ρ m .X a.drives -
      ((a.scaling : ℂ) * Complex.sin (eval ρ φ)) • patternSum ρ m .Y a.drives

/-- The functions have their usual meaning. -/
def TrigEnv (ρ : Env) : Prop := ρ.fn "cos" = Complex.cos ∧ ρ.fn "sin" = Complex.sin

theorem eval_num (ρ : Env) (q : ℚ) : eval ρ (.num q 0) = (q : ℂ) := by
  apply Complex.ext <;> simp [eval]

theorem sem_drive (ρ : Env) (hρ : TrigEnv ρ) (m : ℕ) (a : LayerArgs) (hw : WeightsFit m a) (es : List (ℕ × ℕ))
    (hl : ∀ e ∈ es, e.1 ≠ e.2) :
    sem (gateSem n ρ) ρ (driveBlock a m es) = driveHam ρ m a + nnSum es := by
  unfold driveBlock driveHam
  cases a.phase with
  | none =>
    simp only
    rw [addOf, sem_add]
    simp only [List.map_cons, List.map_nil, List.sum_cons, List.sum_nil, add_zero, sem_scale, sem_pattern ρ m _ _ hw.1,
      sem_nn ρ es hl, eval_num]
  | some φ =>
    have hneg : ∀ e : Expr, eval ρ (.neg e) = -eval ρ e := fun e => by
      simp [Expr.neg, eval, Complex.ext_iff]
    have hc : eval ρ (.fn "cos" φ) = Complex.cos (eval ρ φ) := by rw [eval, hρ.1]
    have hs : eval ρ (.fn "sin" φ) = Complex.sin (eval ρ φ) := by rw [eval, hρ.2]
    have hm : ∀ x y : Expr, eval ρ (.mul x y) = eval ρ x * eval ρ y := fun _ _ => rfl
    simp only
    rw [addOf, sem_add]
    simp only [List.map_cons, List.map_nil, List.sum_cons, List.sum_nil, add_zero, sem_nn ρ es hl]
    rw [addOf, sem_add]
    simp only [List.map_cons, List.map_nil, List.sum_cons, List.sum_nil, add_zero, sem_scale,
      sem_pattern ρ m _ _ hw.1, hneg, hm, hc, hs, eval_num, neg_smul, sub_eq_add_neg]

/-- **C82.** The operator of a layer: drive and interaction together, then the interaction, then the detuning. -/
theorem C82_layer (ho : SetOrder ord) (r : Register) (hl : ∀ e ∈ r.edges, e.1 ≠ e.2) (a : LayerArgs)
    (hw : WeightsFit r.nQubits a) (ρ : Env) (hρ : TrigEnv ρ) (b : Block Prim) (h : layer ord r a = .ok b) :
    sem (primSem n ρ ord ho) ρ b =
      evolution (eval ρ a.tevoDet) (patternSum ρ r.nQubits (.N true) a.detunings) *
      evolution (eval ρ a.tevoWait) (nnSum r.edges) *
      evolution (eval ρ a.tevoDrive) (driveHam ρ r.nQubits a + nnSum r.edges) := by
  rw [C82_layer_block ho r hl a hw] at h
  obtain rfl := Except.ok.inj h
  rw [chainOf, sem_chain]
  simp only [List.map_cons, List.map_nil, opProd, one_mul, evo, sem_leaf]
  show evolution (eval ρ a.tevoDet) (sem (gateSem n ρ) ρ _) * evolution (eval ρ a.tevoWait) (sem (gateSem n ρ) ρ _) *
    evolution (eval ρ a.tevoDrive) (sem (gateSem n ρ) ρ _) = _
  rw [sem_pattern ρ _ _ _ hw.2, sem_nn ρ _ hl, sem_drive ρ hρ _ a hw _ hl]

theorem N_commute (i j : ℕ) : Commute (embed1 i (mat1 (.N true)) : Oper n) (embed1 j (mat1 (.N true))) := by
  by_cases h : i = j
  · subst h; exact Commute.refl _
  · exact embed1_commute_of_ne h _ _

theorem nn_commute (ρ : Env) (m : ℕ) (ws : Option (List Expr)) (es : List (ℕ × ℕ)) :
    Commute (patternSum ρ m (.N true) ws : Oper n) (nnSum es) := by
  refine Commute.sum_left _ _ _ fun j _ => Commute.smul_left ?_ _
  refine Commute.list_sum_right _ _ fun M hM => ?_
  obtain ⟨e, _, rfl⟩ := List.mem_map.1 hM
  exact (N_commute j e.1).mul_right (N_commute j e.2)

/-- **C82.** As the comment in the code says, detuning and interaction commute: the last two evolutions may be exchanged
and are one evolution under the weighted sum. -/
theorem C82_commuting (ρ : Env) (m : ℕ) (ws : Option (List Expr)) (es : List (ℕ × ℕ)) (s t : ℂ) :
    evolution s (patternSum ρ m (.N true) ws : Oper n) * evolution t (nnSum es) =
        evolution t (nnSum es) * evolution s (patternSum ρ m (.N true) ws) ∧
      evolution s (patternSum ρ m (.N true) ws : Oper n) * evolution t (nnSum es) =
        evolution 1 (s • patternSum ρ m (.N true) ws + t • nnSum es) := by
  have h : Commute ((-Complex.I * s) • patternSum ρ m (.N true) ws : Oper n) ((-Complex.I * t) • nnSum es) :=
    ((nn_commute ρ m ws es).smul_left _).smul_right _
  unfold evolution
  constructor
  · rw [← Matrix.exp_add_of_commute _ _ h, ← Matrix.exp_add_of_commute _ _ h.symm, add_comm]
  · rw [← Matrix.exp_add_of_commute _ _ h, mul_one, smul_add, smul_smul, smul_smul]

/-! ## All layers -/

theorem args_fit (a : Args) (m l : ℕ) : WeightsFit m (a.layer m l) := by
  refine ⟨fun ws h => ?_, fun ws h => ?_⟩
  · simp only [Args.layer, Args.drives] at h
    split_ifs at h
    obtain rfl := Option.some.inj h
    simp
  · simp only [Args.layer, Args.detunings] at h
    split_ifs at h
    obtain rfl := Option.some.inj h
    simp

/-- The block of one layer. -/
def layerBlock (r : Register) (a : LayerArgs) : Block Prim :=
  chainOf [evo (driveBlock a r.nQubits r.edges) a.tevoDrive, evo (addOf (r.edges.map nnTerm)) a.tevoWait,
    evo (addOf (patternTerms r.nQubits (.N true) a.detunings)) a.tevoDet]

theorem hea_block (ho : SetOrder ord) (r : Register) (hl : ∀ e ∈ r.edges, e.1 ≠ e.2) (a : Args) :
    rydbergHea ord r a = .ok (chainOf ((List.range a.layers).map fun l => layerBlock r (a.layer r.nQubits l))) := by
  unfold rydbergHea
  rw [mapM_ok_map (g := fun l => layerBlock r (a.layer r.nQubits l))
    (fun l _ => C82_layer_block ho r hl _ (args_fit a _ l))]
  rfl

/-- **C82.** The ansatz exists for every register without loops; its operator is the product of the layers, the first one
first. -/
theorem C82_hea (ho : SetOrder ord) (r : Register) (hl : ∀ e ∈ r.edges, e.1 ≠ e.2) (a : Args) (ρ : Env)
    (hρ : TrigEnv ρ) : ∃ b, rydbergHea ord r a = .ok b ∧
      sem (primSem n ρ ord ho) ρ b = opProd ((List.range a.layers).map fun l =>
        evolution (ρ.var ("Omega" ++ a.pre ++ "_" ++ toString l)) (patternSum ρ r.nQubits (.N true) (a.detunings r.nQubits)) *
        evolution (ρ.var ("wait" ++ a.pre ++ "_" ++ toString l)) (nnSum r.edges) *
        evolution (ρ.var ("At" ++ a.pre ++ "_" ++ toString l)) (driveHam ρ r.nQubits (a.layer r.nQubits 0) + nnSum r.edges)) := by
  refine ⟨_, hea_block ho r hl a, ?_⟩
  rw [chainOf, sem_chain, List.map_map]
  congr 1
  refine List.map_congr_left fun l _ => ?_
  have := C82_layer (n := n) ho r hl (a.layer r.nQubits l) (args_fit a _ l) ρ hρ _ (C82_layer_block ho r hl _ (args_fit a _ l))
  exact this

/-- **C82, defect.** The interaction does not depend on the positions of the atoms: registers with the same number of
qubits and the same edges have the same ansatz, whatever their coordinates (documented: C₆/rᵢⱼ⁶ for the positions in the
register). -/
theorem C82_counterexample_positions (r r' : Register) (h1 : r.nodes.map Prod.fst = r'.nodes.map Prod.fst)
    (h2 : r.edges = r'.edges) (a : Args) : rydbergHea ord r a = rydbergHea ord r' a := by
  have hn : r.nQubits = r'.nQubits := by
    simpa [Register.nQubits] using congrArg List.length h1
  have hf : hamiltonianFactory ord r { interaction := some .NN } =
      hamiltonianFactory ord r' { interaction := some .NN } := by
    unfold hamiltonianFactory HamArgs.pairs
    simp only [Bool.false_eq_true, if_false, Register.labels, h1, h2]
  unfold rydbergHea layer
  rw [hn, hf]

/-! ## Names of the parameters -/

theorem mem_gatherList {L : Type} (f : L → List String) (g : Expr → List String) (bs : List (Block L)) (u : String) :
    u ∈ gatherList f g bs ↔ ∃ b ∈ bs, u ∈ gather f g b := by
  induction bs with
  | nil => simp [gatherList]
  | cons b bs ih => simp [gatherList, ih]

/-- The names in the patterns. -/
theorem mem_pattern (m : ℕ) (g : FixedGate) (ws : Option (List Expr)) (u : String) :
    u ∈ gather gateVars Expr.freeSymbols (addOf (patternTerms m g ws)) ↔ ∃ l, ws = some l ∧ ∃ e ∈ l, u ∈ e.freeSymbols := by
  rw [addOf, gather, mem_gatherList]
  cases ws with
  | none => simp [patternTerms, ofFixed, gather, gateVars]
  | some l =>
    simp only [patternTerms, List.mem_map, Option.some.injEq, exists_eq_left']
    constructor
    · rintro ⟨b, ⟨p, hp, rfl⟩, hu⟩
      refine ⟨p.1, ?_, by simpa [gather, ofFixed, gateVars] using hu⟩
      have := List.mem_zipIdx hp
      rw [this.2.2]
      exact List.getElem_mem _
    · rintro ⟨e, he, hu⟩
      obtain ⟨k, hk, rfl⟩ := List.mem_iff_getElem.1 he
      exact ⟨_, ⟨(l[k], k), List.mem_zipIdx_iff_getElem?.2 (by simp [hk]), rfl⟩, by simp [gather, hu]⟩

theorem mem_nn (es : List (ℕ × ℕ)) (u : String) : u ∉ gather gateVars Expr.freeSymbols (addOf (es.map nnTerm)) := by
  rw [addOf, gather, mem_gatherList]
  rintro ⟨b, hb, hu⟩
  obtain ⟨e, _, rfl⟩ := List.mem_map.1 hb
  simp [nnTerm, gather, gatherList, ofFixed, gateVars, Expr.freeSymbols] at hu

/-- **C82.** The parameters of the ansatz: three durations per layer, whose names contain the prefix and the number of the
layer, and the weights of the patterns and the phase, whose names contain neither. -/
theorem C82_names (ho : SetOrder ord) (r : Register) (hl : ∀ e ∈ r.edges, e.1 ≠ e.2) (a : Args) (b : Block Prim)
    (h : rydbergHea ord r a = .ok b) (u : String) :
    u ∈ vars b ↔ ∃ l < a.layers, u = "At" ++ a.pre ++ "_" ++ toString l ∨ u = "Omega" ++ a.pre ++ "_" ++ toString l ∨
      u = "wait" ++ a.pre ++ "_" ++ toString l ∨
      (a.addressableDetuning = true ∧ ∃ j < r.nQubits, u = "detmap_" ++ toString j) ∨
      (a.addressableDrive = true ∧ ∃ j < r.nQubits, u = "drivemap_" ++ toString j) ∨
      (a.tunablePhase = true ∧ u = "phase") := by
  rw [hea_block ho r hl] at h
  obtain rfl := Except.ok.inj h
  have hdet : (∃ l, a.detunings r.nQubits = some l ∧ ∃ e ∈ l, u ∈ e.freeSymbols) ↔
      a.addressableDetuning = true ∧ ∃ j < r.nQubits, u = "detmap_" ++ toString j := by
    unfold Args.detunings
    cases a.addressableDetuning <;> simp [Expr.freeSymbols]
  have hdrv : (∃ l, a.drives r.nQubits = some l ∧ ∃ e ∈ l, u ∈ e.freeSymbols) ↔
      a.addressableDrive = true ∧ ∃ j < r.nQubits, u = "drivemap_" ++ toString j := by
    unfold Args.drives
    cases a.addressableDrive <;> simp [Expr.freeSymbols]
  have hdrive : ∀ l, u ∈ gather gateVars Expr.freeSymbols (driveBlock (a.layer r.nQubits l) r.nQubits r.edges) ↔
      (a.addressableDrive = true ∧ ∃ j < r.nQubits, u = "drivemap_" ++ toString j) ∨
      (a.tunablePhase = true ∧ u = "phase") := by
    intro l
    unfold driveBlock
    cases hp : a.tunablePhase
    · have hph : (a.layer r.nQubits l).phase = none := by simp [Args.layer, Args.phase, hp]
      rw [hph]
      simp only
      rw [addOf, gather, mem_gatherList]
      simp only [List.mem_cons, List.not_mem_nil, or_false, exists_eq_or_imp, exists_eq_left, gather, List.mem_append]
      have h1 := mem_pattern r.nQubits .X (a.layer r.nQubits l).drives u
      have h2 := mem_nn r.edges u
      simp only [addOf, gather] at h1 h2
      simp only [addOf, gather, h1, h2]
      simp [Expr.freeSymbols, Args.layer, hdrv]
    · have hph : (a.layer r.nQubits l).phase = some (.var "phase") := by simp [Args.layer, Args.phase, hp]
      rw [hph]
      simp only
      have h1 := mem_pattern r.nQubits .X (a.layer r.nQubits l).drives u
      have h1' := mem_pattern r.nQubits .Y (a.layer r.nQubits l).drives u
      have h2 := mem_nn r.edges u
      simp only [addOf, gather] at h1 h1' h2
      simp only [addOf, gather, gatherList, List.mem_append, h1, h1', h2]
      have h3 : (∃ l', (a.layer r.nQubits l).drives = some l' ∧ ∃ e ∈ l', u ∈ e.freeSymbols) ↔
          a.addressableDrive = true ∧ ∃ j < r.nQubits, u = "drivemap_" ++ toString j := hdrv
      rw [h3]
      generalize (a.addressableDrive = true ∧ ∃ j < r.nQubits, u = "drivemap_" ++ toString j) = P
      have h4 : u ∈ (Expr.mul (.num (a.layer r.nQubits l).scaling 0) (.fn "cos" (.var "phase"))).freeSymbols ↔
          u = "phase" := by simp [Expr.freeSymbols]
      have h5 : u ∈ (Expr.neg (.mul (.num (a.layer r.nQubits l).scaling 0) (.fn "sin" (.var "phase")))).freeSymbols ↔
          u = "phase" := by simp [Expr.neg, Expr.freeSymbols]
      rw [h4, h5]
      simp only [List.not_mem_nil, or_false, true_and]
      generalize (u = "phase") = Q
      clear h1 h1' h2 h3 h4 h5 hdet hdrv hph hp hl
      constructor
      · rintro ((h | h) | h | h) <;> simp [h]
      · rintro (h | h) <;> simp [h]
  unfold vars
  rw [chainOf, gather, mem_gatherList]
  constructor
  · rintro ⟨c, hc, hu⟩
    obtain ⟨l, hlr, rfl⟩ := List.mem_map.1 hc
    refine ⟨l, List.mem_range.1 hlr, ?_⟩
    simp only [layerBlock, chainOf, gather, gatherList, evo, primVars, List.mem_append, List.not_mem_nil, or_false] at hu
    rw [hdrive, mem_pattern] at hu
    have h2 := mem_nn r.edges u
    have h3 := hdet
    simp only [Args.layer, Expr.freeSymbols, List.mem_singleton] at hu
    rw [h3] at hu
    rcases hu with (h | h) | (h | h) | h | h
    · exact .inr (.inr (.inr (.inr h)))
    · exact .inl h
    · exact absurd h h2
    · exact .inr (.inr (.inl h))
    · exact .inr (.inr (.inr (.inl h)))
    · exact .inr (.inl h)
  · rintro ⟨l, hlt, hu⟩
    refine ⟨_, List.mem_map.2 ⟨l, List.mem_range.2 hlt, rfl⟩, ?_⟩
    simp only [layerBlock, chainOf, gather, gatherList, evo, primVars, List.mem_append, List.not_mem_nil, or_false]
    rw [hdrive, mem_pattern]
    simp only [Args.layer, Expr.freeSymbols, List.mem_singleton]
    rw [hdet]
    rcases hu with h | h | h | h | h
    · exact .inl (.inr h)
    · exact .inr (.inr (.inr h))
    · exact .inr (.inl (.inr h))
    · exact .inr (.inr (.inl h))
    · exact .inl (.inl h)

/-- **C82, defect.** `additional_prefix` is not attached to the weights of the patterns (nor to the phase): two ansätze
with different prefixes share them, so that in one circuit they cannot be trained independently. -/
theorem C82_counterexample_prefix (ho : SetOrder ord) (r : Register) (hl : ∀ e ∈ r.edges, e.1 ≠ e.2)
    (hr : 0 < r.nQubits) (p q : String) (b c : Block Prim)
    (hb : rydbergHea ord r { additionalPrefix := some p } = .ok b)
    (hc : rydbergHea ord r { additionalPrefix := some q } = .ok c) : "detmap_0" ∈ vars b ∧ "detmap_0" ∈ vars c := by
  rw [C82_names ho r hl _ b hb, C82_names ho r hl _ c hc]
  exact ⟨⟨0, by simp, .inr (.inr (.inr (.inl ⟨rfl, 0, hr, rfl⟩)))⟩, ⟨0, by simp, .inr (.inr (.inr (.inl ⟨rfl, 0, hr, rfl⟩)))⟩⟩

/-- **C82, defect.** The weights and the phase are the same in all layers. -/
theorem C82_counterexample_layers (a : Args) (m l l' : ℕ) :
    (a.layer m l).detunings = (a.layer m l').detunings ∧ (a.layer m l).drives = (a.layer m l').drives ∧
      (a.layer m l).phase = (a.layer m l').phase := ⟨rfl, rfl, rfl⟩

/-- **C82.** The durations of different layers, and those of ansätze with different prefixes, are different parameters. -/
theorem C82_durations_distinct (a a' : Args) (m l l' : ℕ) (h : (a.layer m l).tevoDrive = (a'.layer m l').tevoDrive ∨
    (a.layer m l).tevoDet = (a'.layer m l').tevoDet ∨ (a.layer m l).tevoWait = (a'.layer m l').tevoWait) :
    a.additionalPrefix = a'.additionalPrefix ∧ l = l' := by
  have hpre : a.pre = a'.pre → a.additionalPrefix = a'.additionalPrefix := by
    intro h
    unfold Args.pre at h
    have h := congrArg String.toList h
    cases h1 : a.additionalPrefix <;> cases h2 : a'.additionalPrefix <;> rw [h1, h2] at h <;> simp at h ⊢
    exact String.toList_injective h
  simp only [Args.layer, Expr.var.injEq] at h
  rcases h with h | h | h <;>
    (obtain ⟨h1, h2⟩ := Names.numbered_inj h
     refine ⟨hpre ?_, h2⟩
     have := congrArg String.toList h1
     simp at this
     exact String.toList_injective this)

/-- **C82, defect.** The driven qubits are 0, ..., n-1, the interacting ones are the nodes of the register: for a register
with other labels the drive acts on qubits which are not in the register. -/
theorem C82_counterexample_labels (ho : SetOrder ord) :
    ∃ r : Register, r.labels = [3, 5] ∧ ∃ b, layer ord r ⟨.var "a", .var "b", .var "c", none, none, none, 1⟩ = .ok b ∧
      0 ∈ qubits (Prim.supp ord) b := by
  refine ⟨⟨[(3, none), (5, none)], [(3, 5)]⟩, rfl, _, C82_layer_block ho _ (by simp) _ ⟨by simp, by simp⟩, ?_⟩
  rw [chainOf, mem_qubits_comp]
  refine ⟨evo (addOf (patternTerms 2 (.N true) none)) (.var "b"), by simp [Register.nQubits], ?_⟩
  rw [evo, qubits_leaf]
  show 0 ∈ Block.support Gate.supp ord (addOf (patternTerms 2 (.N true) none))
  rw [mem_support _ _ ho, addOf, mem_qubits_comp]
  exact ⟨ofFixed (.N true) 0, by simp [patternTerms, List.range_succ], by simp [ofFixed, qubits, Gate.supp]⟩

/-! ## Instances -/

/-- A register of two atoms with an edge satisfies the hypotheses. -/
example : ∀ e ∈ (Register.mk [(0, none), (1, none)] [(0, 1)]).edges, e.1 ≠ e.2 := by simp

/-- An environment with the usual functions. -/
example : TrigEnv ⟨fun _ => 0, fun f => if f = "cos" then Complex.cos else Complex.sin⟩ := by
  constructor <;> simp

/-- Without a tunable phase the drive is the sum of X. -/
example (ρ : Env) : (driveHam ρ 2 (Args.layer {} 2 0) : Oper 2) =
    embed1 0 (mat1 .X) + embed1 1 (mat1 .X) := by
  simp [driveHam, Args.layer, Args.phase, Args.drives, patternSum, weight, Finset.sum_range_succ]

end Qadence.RydbergHEA
