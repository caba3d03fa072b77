import Mathlib.Tactic
import Verif.Spec.AnalogHam
import Verif.Props.Hamiltonian
import Verif.Props.DAQC
import Verif.Props.AnalogBlocks
import Verif.Proofs.ExpInvol

/-!
# Property C56: Rydberg Hamiltonians and the conversion of analog blocks
-/

namespace Qadence

open Spec Block

variable {n : ℕ} {ord : List ℕ → List ℕ}

/-- A sum over positions whose terms depend on the element only. -/
theorem zipIdx_sum {α M : Type} [AddCommMonoid M] (l : List α) (f : α → ℕ → M) (g : α → M)
    (h : ∀ k (hk : k < l.length), f l[k] k = g l[k]) :
    (l.zipIdx.map fun p => f p.1 p.2).sum = (l.map g).sum := by
  congr 1
  refine List.ext_getElem (by simp) fun k h1 h2 => ?_
  have hk : k < l.length := by simpa using h2
  simp only [List.getElem_map, List.getElem_zipIdx, Nat.zero_add]
  exact h k hk

theorem pairs_toFinset (ho : SetOrder ord) (r : Register) : (r.allNodePairs ord).toFinset = nodePairs r := by
  ext ⟨i, j⟩
  rw [List.mem_toFinset, Register.mem_allNodePairs ho, nodePairs, Finset.mem_filter, Finset.mem_product,
    List.mem_toFinset, List.mem_toFinset, and_assoc]

theorem strengthList_ok (c6 : ℕ → Option ℝ) (dev : Device) (c : ℝ) (hc : dev.interaction = .NN → c6 dev.level = some c)
    (ds : List ℝ) : strengthList c6 dev ds = .ok (ds.map fun d =>
      match dev.interaction with
      | .NN => c / d ^ 6
      | .XY => dev.coeffXY / d ^ 3) := by
  unfold strengthList
  cases h : dev.interaction with
  | NN =>
    simp only [lookupC6, hc h, ok_bind]
    rfl
  | XY => rfl

/-- The strength of the interaction at a distance. -/
noncomputable def strengthOf (dev : Device) (c d : ℝ) : ℝ :=
  match dev.interaction with
  | .NN => c / d ^ 6
  | .XY => dev.coeffXY / d ^ 3

theorem interaction_built (ho : SetOrder ord) {r : Register} {P : ℕ → ℝ × ℝ} (hP : Planar r P)
    (hl : ∀ e ∈ r.edges, e.1 ≠ e.2) (num : ℝ → Expr) (c6 : ℕ → Option ℝ) (dev : Device) (c : ℝ)
    (hc : dev.interaction = .NN → c6 dev.level = some c) (ρ : Env)
    (hnum : ∀ e ∈ nodePairs r, eval ρ (num (strengthOf dev c (euclid (P e.1) (P e.2)))) =
      (strengthOf dev c (euclid (P e.1) (P e.2)) : ℝ)) :
    ∃ b, rydbergInteraction ord num c6 r dev = .ok b ∧ sem (gateSem n ρ) ρ b =
      ∑ e ∈ nodePairs r, ((strengthOf dev c (euclid (P e.1) (P e.2)) : ℝ) : ℂ) •
        interactionOp ρ dev.interaction.interact e.1 e.2 := by
  have h1 : rydbergInteraction ord num c6 r dev = hamiltonianFactory ord r
      { interaction := some dev.interaction.interact
        interactionStrength := .array ((r.allNodePairs ord).map fun e => num (strengthOf dev c (euclid (P e.1) (P e.2))))
        useAllNodePairs := true } := by
    unfold rydbergInteraction
    rw [Register.distances_ok ho hP, ok_bind, strengthList_ok c6 dev c hc, ok_bind, List.map_map, List.map_map, List.map_map]
    rfl
  obtain ⟨b, hb⟩ := C40_total ho r { interaction := some dev.interaction.interact
                                     interactionStrength := .array ((r.allNodePairs ord).map fun e =>
                                       num (strengthOf dev c (euclid (P e.1) (P e.2))))
                                     useAllNodePairs := true } (Or.inl rfl)
    (by
      intro t ht
      simp only [Option.some.injEq] at ht
      subst ht
      cases dev.interaction <;> simp [RydInt.interact]) (by simp) ⟨by simp, by simp⟩
    ⟨by simp, by
      intro l hl
      simp only [Strength.array.injEq] at hl
      subst hl
      simp⟩ hl
  refine ⟨b, h1.trans hb, ?_⟩
  rw [C40_operator ho r _ b ρ hb]
  simp only [zero_add, if_true]
  rw [← pairs_toFinset ho, List.sum_toFinset _ (Register.allNodePairs_nodup ho), interactionSum]
  refine zipIdx_sum (r.allNodePairs ord) (fun (e : ℕ × ℕ) k => strengthAt ρ none (toString e.1 ++ toString e.2) k
      (.array ((r.allNodePairs ord).map fun e => num (strengthOf dev c (euclid (P e.1) (P e.2))))) •
    (interactionOp ρ dev.interaction.interact e.1 e.2 : Oper n)) _ ?_
  intro k hk
  have hm : (r.allNodePairs ord)[k] ∈ nodePairs r := by
    rw [← pairs_toFinset ho, List.mem_toFinset]
    exact List.getElem_mem hk
  rw [strengthAt, List.getD_eq_getElem?_getD, List.getElem?_map, List.getElem?_eq_getElem hk, Option.map_some,
    Option.getD_some, hnum _ hm]

/-- The interaction Hamiltonian of a device with van-der-Waals interaction is the sum over all unordered pairs of nodes,
each counted once, of `C6 / R^6 N N`, for every register with pairwise different positions in the plane. The constants
of the expression have the values of the strengths. -/
theorem C56_van_der_waals (ho : SetOrder ord) {r : Register} {P : ℕ → ℝ × ℝ} (hP : Planar r P)
    (_hd : ∀ i ∈ r.labels, ∀ j ∈ r.labels, i ≠ j → P i ≠ P j) (hl : ∀ e ∈ r.edges, e.1 ≠ e.2) (num : ℝ → Expr)
    (c6 : ℕ → Option ℝ) (dev : Device) (hdev : dev.interaction = .NN) (c : ℝ) (hc : c6 dev.level = some c) (ρ : Env)
    (hnum : ∀ e ∈ nodePairs r, eval ρ (num (c / euclid (P e.1) (P e.2) ^ 6)) = (c / euclid (P e.1) (P e.2) ^ 6 : ℝ)) :
    ∃ b, rydbergInteraction ord num c6 r dev = .ok b ∧ sem (gateSem n ρ) ρ b = vanDerWaals c P r := by
  obtain ⟨b, h1, h2⟩ := interaction_built (n := n) ho hP hl num c6 dev c (fun _ => hc) ρ (by
    simp only [strengthOf, hdev]
    exact hnum)
  refine ⟨b, h1, h2.trans ?_⟩
  simp only [vanDerWaals, strengthOf, hdev, RydInt.interact, interactionOp]

/-- The interaction Hamiltonian of a device with dipolar interaction. -/
theorem C56_dipolar (ho : SetOrder ord) {r : Register} {P : ℕ → ℝ × ℝ} (hP : Planar r P)
    (_hd : ∀ i ∈ r.labels, ∀ j ∈ r.labels, i ≠ j → P i ≠ P j) (hl : ∀ e ∈ r.edges, e.1 ≠ e.2) (num : ℝ → Expr)
    (c6 : ℕ → Option ℝ) (dev : Device) (hdev : dev.interaction = .XY) (ρ : Env)
    (hnum : ∀ e ∈ nodePairs r, eval ρ (num (dev.coeffXY / euclid (P e.1) (P e.2) ^ 3)) =
      (dev.coeffXY / euclid (P e.1) (P e.2) ^ 3 : ℝ)) :
    ∃ b, rydbergInteraction ord num c6 r dev = .ok b ∧ sem (gateSem n ρ) ρ b = dipolar dev.coeffXY P r := by
  obtain ⟨b, h1, h2⟩ := interaction_built (n := n) ho hP hl num c6 dev 0 (by simp [hdev]) ρ (by
    simp only [strengthOf, hdev]
    exact hnum)
  refine ⟨b, h1, h2.trans ?_⟩
  simp only [dipolar, strengthOf, hdev, RydInt.interact, interactionOp]

/-- A level without coefficient is a KeyError. -/
theorem C56_unknown_level (ho : SetOrder ord) {r : Register} {P : ℕ → ℝ × ℝ} (hP : Planar r P) (num : ℝ → Expr)
    (c6 : ℕ → Option ℝ) (dev : Device) (hdev : dev.interaction = .NN) (hc : c6 dev.level = none) :
    rydbergInteraction ord num c6 r dev = .error .keyError := by
  unfold rydbergInteraction
  rw [Register.distances_ok ho hP, ok_bind]
  simp only [strengthList, hdev, lookupC6, hc, error_bind]

theorem nodePairs_congr {r r' : Register} (h : r'.labels = r.labels) : nodePairs r' = nodePairs r := by
  unfold nodePairs
  rw [h]

/-- Stretching the register by a factor `f` divides the van-der-Waals interaction by the sixth power and the dipolar
interaction by the third power of `|f|`. -/
theorem C56_scaling (c : ℝ) (P : ℕ → ℝ × ℝ) (r : Register) (f : ℝ) :
    (vanDerWaals c (fun i => f • P i) r : Oper n) = (((|f| ^ 6)⁻¹ : ℝ) : ℂ) • vanDerWaals c P r ∧
    (dipolar c (fun i => f • P i) r : Oper n) = (((|f| ^ 3)⁻¹ : ℝ) : ℂ) • dipolar c P r := by
  unfold vanDerWaals dipolar
  rw [Finset.smul_sum, Finset.smul_sum]
  constructor
  · refine Finset.sum_congr rfl fun e _ => ?_
    rw [smul_smul, ← Complex.ofReal_mul, euclid_smul]
    congr 2
    rw [mul_pow, div_eq_mul_inv, mul_inv, div_eq_mul_inv]
    ring
  · refine Finset.sum_congr rfl fun e _ => ?_
    rw [smul_smul, ← Complex.ofReal_mul, euclid_smul]
    congr 2
    rw [mul_pow, div_eq_mul_inv, mul_inv, div_eq_mul_inv]
    ring

/-- The Hamiltonian of a register whose coordinates are rescaled by the code is the original one divided by the sixth
power of the factor. -/
theorem C56_rescaled_register (ho : SetOrder ord) {r : Register} {P : ℕ → ℝ × ℝ} (hP : Planar r P)
    (hd : ∀ i ∈ r.labels, ∀ j ∈ r.labels, i ≠ j → P i ≠ P j) (hl : ∀ e ∈ r.edges, e.1 ≠ e.2) (num : ℝ → Expr)
    (c6 : ℕ → Option ℝ) (dev : Device) (hdev : dev.interaction = .NN) (c : ℝ) (hc : c6 dev.level = some c) (ρ : Env)
    (f : ℝ) (hf : f ≠ 0)
    (hnum : ∀ e ∈ nodePairs r, ∀ g ∈ [1, f], eval ρ (num (c / euclid (g • P e.1) (g • P e.2) ^ 6)) =
      (c / euclid (g • P e.1) (g • P e.2) ^ 6 : ℝ)) :
    ∃ r' b b', Register.rescaleCoords ord r f = .ok r' ∧ rydbergInteraction ord num c6 r dev = .ok b ∧
      rydbergInteraction ord num c6 r' dev = .ok b' ∧
      sem (gateSem n ρ) ρ b' = (((|f| ^ 6)⁻¹ : ℝ) : ℂ) • sem (gateSem n ρ) ρ b := by
  obtain ⟨r', h1, h2, h3, h4⟩ := Register.scale_ok hP 1 f
  simp only [div_one] at h4
  obtain ⟨b, hb1, hb2⟩ := C56_van_der_waals (n := n) ho hP hd hl num c6 dev hdev c hc ρ (by
    intro e he
    simpa using hnum e he 1 (by simp))
  obtain ⟨b', hb1', hb2'⟩ := C56_van_der_waals (n := n) ho h4 (by
      intro i hi j hj hij e
      rw [h2] at hi hj
      exact hd i hi j hj hij (smul_right_injective _ hf e)) (by rw [h3]; exact hl) num c6 dev hdev c hc ρ (by
    rw [nodePairs_congr h2]
    intro e he
    exact hnum e he f (by simp))
  refine ⟨r', b, b', ?_, hb1, hb1', ?_⟩
  · rw [Register.rescaleCoords, h1, ok_bind]
    rfl
  · rw [hb2, hb2', ← (C56_scaling c P r f).1]
    unfold vanDerWaals
    rw [nodePairs_congr h2]

/-! ### The drive -/

/-- Terms which are built one by one. -/
theorem terms_ok (ρ : Env) (f : ℕ → Except PyErr (Block Gate)) (op : ℕ → Oper n) (qs : List ℕ)
    (h : ∀ i ∈ qs, ∃ b, f i = .ok b ∧ sem (gateSem n ρ) ρ b = op i) :
    ∃ bs, qs.mapM f = .ok bs ∧ (bs.map (sem (gateSem n ρ) ρ)).sum = (qs.map op).sum := by
  induction qs with
  | nil => exact ⟨[], rfl, rfl⟩
  | cons q qs ih =>
    obtain ⟨b, h1, h2⟩ := h q (by simp)
    obtain ⟨bs, h3, h4⟩ := ih fun i hi => h i (by simp [hi])
    refine ⟨b :: bs, ?_, ?_⟩
    · rw [List.mapM_cons, h1, ok_bind, h3, ok_bind]
      rfl
    · rw [List.map_cons, List.sum_cons, List.map_cons, List.sum_cons, h2, h4]

theorem scaled_ok (ρ : Env) (s : Expr) (b : Block Gate) :
    ∃ c, scaledTerm s b = .ok c ∧ sem (gateSem n ρ) ρ c = eval ρ s • sem (gateSem n ρ) ρ b := by
  obtain ⟨c, hc⟩ := scaledTerm_ok s b
  exact ⟨c, hc, sem_scaledTerm ρ s b c hc⟩

theorem driveTerms_ok (ρ : Env) (c : Expr) (g : FixedGate) (qs : List ℕ) :
    ∃ b, driveTerms c g qs = .ok b ∧
      sem (gateSem n ρ) ρ b = eval ρ c • (qs.map fun i => (embed1 i (mat1 g) : Oper n)).sum := by
  obtain ⟨bs, h1, h2⟩ := terms_ok (n := n) ρ (fun i => scaledTerm c (Block.ofFixed g i))
    (fun i => eval ρ c • embed1 i (mat1 g)) qs (fun i _ => by
      obtain ⟨b, hb1, hb2⟩ := scaled_ok (n := n) ρ c (Block.ofFixed g i)
      exact ⟨b, hb1, by rw [hb2, sem_ofFixed]⟩)
  refine ⟨Block.addOf bs, ?_, ?_⟩
  · rw [driveTerms, h1, ok_bind]
    rfl
  · rw [addOf, sem_add, h2, List.smul_sum, List.map_map]
    rfl

theorem sum_map_sub {M : Type} [AddCommGroup M] (l : List ℕ) (f g : ℕ → M) :
    (l.map fun i => f i - g i).sum = (l.map f).sum - (l.map g).sum := by
  induction l with
  | nil => simp
  | cons a l ih => simp only [List.map_cons, List.sum_cons, ih]; abel

theorem sum_map_smul (c : ℂ) (l : List ℕ) (f : ℕ → Oper n) : (l.map fun i => c • f i).sum = c • (l.map f).sum := by
  rw [List.smul_sum, List.map_map]
  rfl

/-- The drive Hamiltonian is the sum over the driven qubits of `Ω/2 (cos φ X - sin φ Y) - δ N`. -/
theorem C56_drive (ρ : Env) (hρ : StandardFns ρ) (o d φ : Expr) (qs : List ℕ) :
    ∃ b, rydbergDrive o d φ qs = .ok b ∧
      sem (gateSem n ρ) ρ b = driveOp (eval ρ o) (eval ρ d) (eval ρ φ) qs := by
  obtain ⟨xs, h1, h1'⟩ := driveTerms_ok (n := n) ρ (.fn "cos" φ) .X qs
  obtain ⟨x, h2, h2'⟩ := scaled_ok (n := n) ρ (.mul o (.num (1/2) 0)) xs
  obtain ⟨ys, h3, h3'⟩ := driveTerms_ok (n := n) ρ (.fn "sin" φ) .Y qs
  obtain ⟨y, h4, h4'⟩ := scaled_ok (n := n) ρ (.mul o (.num (1/2) 0)) ys
  obtain ⟨m, h5, h5'⟩ := scaled_ok (n := n) ρ d (Block.addOf (qs.map fun i => Block.ofFixed (.N true) i))
  obtain ⟨u, h6, h6'⟩ := C07_sub (gate_arithOk n ρ) ρ x y
  obtain ⟨v, h7, h7'⟩ := C07_sub (gate_arithOk n ρ) ρ u m
  refine ⟨v, ?_, ?_⟩
  · rw [rydbergDrive, h1, ok_bind, h2, ok_bind, h3, ok_bind, h4, ok_bind, h5, ok_bind, h6, ok_bind, h7]
  · have hhalf : eval ρ (.num (1/2) 0) = 1 / 2 := by apply Complex.ext <;> simp [eval]
    rw [h7', h6', h2', h4', h5', h1', h3', addOf, sem_add, List.map_map]
    simp only [eval, hρ.cos, hρ.sin] at hhalf ⊢
    rw [hhalf]
    have hN : (List.map (sem (gateSem n ρ) ρ ∘ fun i => Block.ofFixed (.N true) i) qs) =
        qs.map fun i => (embed1 i (mat1 (.N true)) : Oper n) := by
      refine List.map_congr_left fun i _ => ?_
      rw [Function.comp_apply, sem_ofFixed]
    rw [hN, driveOp]
    have : (driveOne (eval ρ o) (eval ρ d) (eval ρ φ) : ℕ → Oper n) = fun i =>
        ((eval ρ o / 2) • (Complex.cos (eval ρ φ) • embed1 i (mat1 .X) - Complex.sin (eval ρ φ) • embed1 i (mat1 .Y))) -
          eval ρ d • embed1 i (mat1 (.N true)) := rfl
    rw [this, sum_map_sub, sum_map_smul, sum_map_smul, sum_map_sub, sum_map_smul, sum_map_smul, smul_sub,
      smul_smul, smul_smul, smul_smul, smul_smul]
    simp only [div_eq_mul_inv, one_mul]

end Qadence
