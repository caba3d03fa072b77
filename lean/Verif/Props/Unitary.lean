import Verif.Props.Dagger
import Verif.Props.QFT
import Verif.Props.Padding
import Verif.Proofs.Embed1
import Verif.Proofs.TensorSem
import Verif.Proofs.States

/-!
# C67: circuits of gates are unitary
-/

namespace Qadence

open Spec Matrix Block QFT

variable {n : ℕ}

namespace Spec

/-- The primitive block is a gate in the sense of the circuit model: no projector, no `Zero`, no number operator, real
angles, unitary matrix, controls different from the targets. -/
def IsGate (n : ℕ) (ρ : Env) : Gate → Prop
  | .fixed g _ => g ≠ .Zero ∧ ∀ s, g ≠ .N s
  | .rot _ _ θ => (eval ρ θ).im = 0
  | .u _ φ θ ω => (eval ρ φ).im = 0 ∧ (eval ρ θ).im = 0 ∧ (eval ρ ω).im = 0
  | .swap _ _ => True
  | .proj _ _ _ => False
  | .matrix rows qs => (gateDen ρ (.matrix rows qs) : Oper n)ᴴ * gateDen ρ (.matrix rows qs) = 1
  | .control _ cs g => IsGate n ρ g ∧ ∀ c ∈ cs, c ∉ g.supp

/-- The same for primitive blocks with Hamiltonian evolutions: the time is real and the generator is Hermitian. -/
def IsGatePrim (n : ℕ) (ρ : Env) : Prim → Prop
  | .gate g _ => IsGate n ρ g
  | .hamEvo gen t => (eval ρ t).im = 0 ∧ (sem (gateSem n ρ) ρ gen)ᴴ = sem (gateSem n ρ) ρ gen

mutual
/-- A circuit: made of gates by `chain` and `kron` and factors of modulus one, without sums. -/
def IsCircuit {L : Type} (ρ : Env) (P : L → Prop) : Block L → Prop
  | .leaf l _ => P l
  | .scale b s _ => IsCircuit ρ P b ∧ ‖eval ρ s‖ = 1
  | .comp k bs _ => k ≠ .add ∧ IsCircuitList ρ P bs
/-- The same for lists. -/
def IsCircuitList {L : Type} (ρ : Env) (P : L → Prop) : List (Block L) → Prop
  | [] => True
  | b :: bs => IsCircuit ρ P b ∧ IsCircuitList ρ P bs
end

end Spec

theorem isCircuitList_iff {L : Type} {ρ : Env} {P : L → Prop} {bs : List (Block L)} :
    IsCircuitList ρ P bs ↔ ∀ b ∈ bs, IsCircuit ρ P b := by
  induction bs with
  | nil => simp [IsCircuitList]
  | cons b bs ih => simp [IsCircuitList, ih]

theorem mat1_unitary {g : FixedGate} (h0 : g ≠ .Zero) (h1 : ∀ s, g ≠ .N s) : (mat1 g)ᴴ * mat1 g = 1 := by
  rw [← mat1_dagger]
  have h2 : (Real.sqrt 2 : ℂ) * Real.sqrt 2 = 2 := by
    rw [← Complex.ofReal_mul, Real.mul_self_sqrt (by norm_num)]
    simp
  have h3 : (Real.sqrt 2 : ℂ) ≠ 0 := by intro h; rw [h] at h2; norm_num at h2
  cases g <;> simp only [FixedGate.dagger]
  case Zero => exact absurd rfl h0
  case N s => exact absurd rfl (h1 s)
  case H =>
    ext a b
    rw [mul_apply, Fintype.sum_bool]
    cases a <;> cases b <;> simp [mat1] <;> field_simp <;> first | ring1 | linear_combination h2 | linear_combination -h2 | linear_combination 2 * h2 | linear_combination -2 * h2
  case T =>
    ext a b
    rw [mul_apply, Fintype.sum_bool]
    cases a <;> cases b <;> simp [mat1, ← Complex.exp_add]
  case TDagger =>
    ext a b
    rw [mul_apply, Fintype.sum_bool]
    cases a <;> cases b <;> simp [mat1, ← Complex.exp_add]
  all_goals
    ext a b
    rw [mul_apply, Fintype.sum_bool]
    cases a <;> cases b <;> simp [mat1, ind]

theorem matRot_unitary (g : RotGate) {θ : ℂ} (h : θ.im = 0) : (matRot θ g)ᴴ * matRot θ g = 1 := by
  rw [← matRot_dagger g h]
  have hcs := Complex.sin_sq_add_cos_sq (θ / 2)
  cases g <;> ext a b <;> rw [mul_apply, Fintype.sum_bool]
  case RX =>
    cases a <;> cases b <;> simp [matRot, neg_div] <;>
      first | ring1 | linear_combination hcs - Complex.sin (θ / 2) ^ 2 * (Complex.I_sq + 1)
  case RY =>
    cases a <;> cases b <;> simp [matRot, neg_div] <;> first | ring1 | linear_combination hcs
  case RZ =>
    cases a <;> cases b <;> simp [matRot, ← Complex.exp_add]
    all_goals rw [Complex.exp_eq_one_iff]; exact ⟨0, by push_cast; ring⟩
  case PHASE =>
    cases a <;> cases b <;> simp [matRot, ← Complex.exp_add]

theorem mem_unitary_of {A : Oper n} (h : Aᴴ * A = 1) : A ∈ unitary (Oper n) := by
  rw [Unitary.mem_iff, star_eq_conjTranspose]
  exact ⟨h, mul_eq_one_comm.1 h⟩

theorem embed1_unitary {q : ℕ} (hq : q < n) {U : Matrix Bool Bool ℂ} (h : Uᴴ * U = 1) :
    (embed1 q U : Oper n)ᴴ * embed1 q U = 1 := by
  rw [embed1_conjTranspose, embed1_mul hq, h, embed1_one]

theorem onesProj_sq (cs : List ℕ) : (onesProj cs * onesProj cs : Oper n) = onesProj cs := by
  rw [onesProj, diagonal_mul_diagonal]
  congr 1
  funext x
  split <;> simp

theorem onesProj_herm (cs : List ℕ) : (onesProj cs : Oper n)ᴴ = onesProj cs := by
  rw [onesProj, diagonal_conjTranspose]
  congr 1
  funext x
  simp only [Pi.star_apply]
  split <;> simp

theorem onesProj_actsOn (cs : List ℕ) : ActsOn {q | q ∈ cs} (onesProj cs : Oper n) := by
  intro j hj
  refine ⟨fun x y hxy => ?_, fun x y => ?_⟩
  · rw [onesProj, diagonal_apply, if_neg]
    rintro rfl
    exact hxy rfl
  · rw [onesProj, diagonal_apply, diagonal_apply]
    have hinj : flipBit j x = flipBit j y ↔ x = y := by
      constructor
      · intro h
        funext k
        have := congrFun h k
        unfold flipBit at this
        by_cases hk : k = j
        · subst hk; simpa using this
        · rwa [Function.update_of_ne hk, Function.update_of_ne hk] at this
      · rintro rfl; rfl
    have hb : ∀ c ∈ cs, bit (flipBit j x) c = bit x c := by
      intro c hc
      unfold bit flipBit
      split
      · next h =>
        rw [Function.update_of_ne]
        rintro rfl
        exact hj hc
      · rfl
    simp only [hinj]
    have : (∀ c ∈ cs, bit (flipBit j x) c = true) ↔ ∀ c ∈ cs, bit x c = true :=
      forall_congr' fun c => forall_congr' fun hc => by rw [hb c hc]
    simp only [this]

theorem controlled_unitary {cs : List ℕ} {S : Set ℕ} {M : Oper n} (hM : ActsOn S M) (hd : ∀ c ∈ cs, c ∉ S) (h : Mᴴ * M = 1) :
    (controlled cs M)ᴴ * controlled cs M = 1 := by
  have hM' : ActsOn S Mᴴ := by
    intro j hj
    obtain ⟨h1, h2⟩ := hM j hj
    refine ⟨fun x y hxy => ?_, fun x y => ?_⟩
    · rw [conjTranspose_apply, h1 y x (Ne.symm hxy), star_zero]
    · rw [conjTranspose_apply, conjTranspose_apply, h2]
  have hc : Commute M (onesProj cs : Oper n) := hM.commute_of_disjoint (onesProj_actsOn cs) (by
    rw [Set.disjoint_left]
    exact fun q hq hq' => hd q hq' hq)
  rw [controlled_conjTranspose hM hd, controlled_eq cs M S hM hd, controlled_eq cs Mᴴ S hM' hd]
  have hP := onesProj_sq (n := n) cs
  generalize (onesProj cs : Oper n) = P at hP hc ⊢
  have e1 : M * P = P * M := hc
  have hc' : Mᴴ * P * P = Mᴴ * P := by rw [mul_assoc, hP]
  have e2 : Mᴴ * P * (M * P) = P := by
    rw [mul_assoc, e1, ← mul_assoc P, hP, ← e1, ← mul_assoc, h, one_mul]
  have e3 : P * (M * P) = M * P := by rw [e1, ← mul_assoc, hP]
  simp only [neg_smul, one_smul, add_mul, mul_add, one_mul, mul_one, neg_mul, mul_neg, neg_neg, hP, hc', e2, e3]
  abel

theorem swapOp_unitary {a b : ℕ} (ha : a < n) (hb : b < n) : (swapOp a b : Oper n)ᴴ * swapOp a b = 1 := by
  rw [swapOp_conjTranspose ha hb, swapOp_eq, mapOp_mul]
  have : (swapSt a b ∘ swapSt a b : St n → St n) = id := by
    funext y
    apply st_ext
    intro q hq
    simp only [Function.comp_apply, id]
    rw [bit_swapSt a b _ ha hb, bit_swapSt a b _ ha hb, bit_swapSt a b _ ha hb, bit_swapSt a b _ ha hb]
    by_cases h1 : q = a
    · subst h1
      by_cases h2 : b = q
      · subst h2; simp
      · simp [h2]
    · by_cases h2 : q = b
      · subst h2; simp [h1]
      · simp [h1, h2]
  rw [this]
  ext x y
  simp [mapOp, Matrix.one_apply]

theorem gate_unitary (ρ : Env) (g : Gate) (hg : IsGate n ρ g) (hn : ∀ q ∈ g.supp, q < n) :
    (gateDen ρ g : Oper n)ᴴ * gateDen ρ g = 1 := by
  induction g with
  | fixed g q => exact embed1_unitary (hn q (by simp [Gate.supp])) (mat1_unitary hg.1 hg.2)
  | rot g q θ => exact embed1_unitary (hn q (by simp [Gate.supp])) (matRot_unitary g hg)
  | u q φ θ ω =>
    refine embed1_unitary (hn q (by simp [Gate.supp])) ?_
    have h1 := matRot_unitary .RZ hg.1
    have h2 := matRot_unitary .RY hg.2.1
    have h3 := matRot_unitary .RZ hg.2.2
    rw [conjTranspose_mul, conjTranspose_mul]
    calc _ = (matRot (eval ρ φ) .RZ)ᴴ * ((matRot (eval ρ θ) .RY)ᴴ * ((matRot (eval ρ ω) .RZ)ᴴ * matRot (eval ρ ω) .RZ) *
          matRot (eval ρ θ) .RY) * matRot (eval ρ φ) .RZ := by simp only [mul_assoc]
      _ = 1 := by rw [h3, mul_one, h2, mul_one, h1]
  | swap a b => exact swapOp_unitary (hn a (by simp [Gate.supp])) (hn b (by simp [Gate.supp]))
  | proj k b qs => exact hg.elim
  | matrix rows qs => exact hg
  | control c cs g ih =>
    exact controlled_unitary (gateDen_actsOn ρ g) hg.2 (ih hg.1 fun q hq => hn q (by simp [Gate.supp, hq]))

theorem prim_unitary (ρ : Env) (ord : List ℕ → List ℕ) (p : Prim) (hp : IsGatePrim n ρ p) (hn : ∀ q ∈ p.supp ord, q < n) :
    (primDen ρ p : Oper n)ᴴ * primDen ρ p = 1 := by
  cases p with
  | gate g noise => exact gate_unitary ρ g hp hn
  | hamEvo gen t =>
    obtain ⟨h1, h2⟩ := hp
    simp only [primDen, evolution]
    rw [← Matrix.exp_conjTranspose, conjTranspose_smul, h2]
    have : star (-Complex.I * eval ρ t) = -(-Complex.I * eval ρ t) := by
      simp [conj_eq_self_of_im h1]
    rw [this, neg_smul, ← Matrix.exp_add_of_commute _ _ (Commute.neg_left (Commute.refl
      ((-Complex.I * eval ρ t) • sem (gateSem n ρ) ρ gen))), neg_add_cancel, NormedSpace.exp_zero]

/-- A circuit of unitary leaves is unitary. -/
theorem circuit_unitary {L : Type} (S : LeafSem L n) (ρ : Env) {P : L → Prop} (b : Block L) (hb : IsCircuit ρ P b)
    (hP : ∀ l, P l → (∀ q ∈ S.supp l, q ∈ qubits S.supp b) → (S.den l)ᴴ * S.den l = 1) :
    sem S ρ b ∈ unitary (Oper n) := by
  induction b using Block.induction with
  | leaf l t =>
    rw [sem_leaf]
    exact mem_unitary_of (hP l hb fun q hq => by simpa [qubits_leaf] using hq)
  | scale b s t ih =>
    have := ih hb.1 (by simpa only [qubits_scale] using hP)
    rw [sem_scale]
    rw [Unitary.mem_iff, star_eq_conjTranspose] at this ⊢
    have hs : star (eval ρ s) * eval ρ s = 1 := by
      rw [Complex.star_def, mul_comm, Complex.mul_conj, Complex.normSq_eq_norm_sq, hb.2]
      simp
    rw [conjTranspose_smul, smul_mul_smul_comm, smul_mul_smul_comm, this.1, this.2, hs, mul_comm, hs, one_smul]
    exact ⟨rfl, rfl⟩
  | comp k bs t ih =>
    obtain ⟨hk, hl⟩ := hb
    rw [isCircuitList_iff] at hl
    have hm : ∀ M ∈ bs.map (sem S ρ), M ∈ unitary (Oper n) := by
      intro M hM
      obtain ⟨b, hb, rfl⟩ := List.mem_map.1 hM
      exact ih b hb (hl b hb) fun l h1 h2 => hP l h1 fun q hq => mem_qubits_comp.2 ⟨b, hb, h2 q hq⟩
    cases k with
    | chain => rw [sem_chain]; exact opProd_mem _ hm
    | kron => rw [sem_kron]; exact opProd_mem _ hm
    | add => exact absurd rfl hk

/-- **C67**: the operator of every circuit built from gates by `chain` and `kron` is unitary, for all real values of the
parameters. -/
theorem C67_circuit_unitary (ρ : Env) {ord : List ℕ → List ℕ} (ho : SetOrder ord) (b : Block Prim)
    (hb : IsCircuit ρ (IsGatePrim n ρ) b) (hn : ∀ q ∈ qubits (Prim.supp ord) b, q < n) :
    sem (primSem n ρ ord ho) ρ b ∈ unitary (Oper n) :=
  circuit_unitary _ ρ b hb fun l hl hq => prim_unitary ρ ord l hl fun q hq' => hn q (hq q hq')

/-- **C67**: the same for blocks of gates. -/
theorem C67_gates_unitary (ρ : Env) (b : Block Gate) (hb : IsCircuit ρ (IsGate n ρ) b) (hn : ∀ q ∈ qubits Gate.supp b, q < n) :
    sem (gateSem n ρ) ρ b ∈ unitary (Oper n) :=
  circuit_unitary (gateSem n ρ) ρ b hb fun l hl hq => gate_unitary ρ l hl fun q hq' => hn q (hq q hq')

theorem unitary_norm {U : Oper n} (hU : U ∈ unitary (Oper n)) (φ : St n → ℂ) :
    ∑ x, ‖(U *ᵥ φ) x‖ ^ 2 = ∑ x, ‖φ x‖ ^ 2 := by
  have h : ∀ ψ : St n → ℂ, ((∑ x, ‖ψ x‖ ^ 2 : ℝ) : ℂ) = star ψ ⬝ᵥ ψ := by
    intro ψ
    rw [Complex.ofReal_sum, dotProduct]
    refine Finset.sum_congr rfl fun x _ => ?_
    rw [Pi.star_apply, Complex.star_def, mul_comm, Complex.mul_conj, Complex.normSq_eq_norm_sq]
  apply Complex.ofReal_injective
  rw [h, h, star_mulVec, dotProduct_mulVec, vecMul_vecMul, ← star_eq_conjTranspose, (Unitary.mem_iff.1 hU).1, vecMul_one]

/-- **C67**: running a circuit preserves the norm of the state, hence the sum of the outcome probabilities. -/
theorem C67_norm_preserved (ρ : Env) {ord : List ℕ → List ℕ} (ho : SetOrder ord) (b : Block Prim)
    (hb : IsCircuit ρ (IsGatePrim n ρ) b) (hn : ∀ q ∈ qubits (Prim.supp ord) b, q < n) {φ : St n → ℂ} (hφ : UnitVector φ) :
    UnitVector (sem (primSem n ρ ord ho) ρ b *ᵥ φ) := by
  unfold UnitVector
  rw [unitary_norm (C67_circuit_unitary ρ ho b hb hn), hφ]

/-- **C67**: a projector, `Zero`, a number operator and a sum of gates are not unitary, so these cases are excluded for a
reason: the hypothesis fails for `N(0)` and for `X(0) + I(0)`. -/
theorem C67_not_unitary (ρ : Env) : (gateDen ρ (.fixed (.N true) 0) : Oper 1) ∉ unitary (Oper 1) ∧
    sem (gateSem 1 ρ) ρ (addOf [.leaf (.fixed .X 0) none, .leaf (.fixed .I 0) none]) ∉ unitary (Oper 1) := by
  constructor
  · intro h
    have h1 := (Unitary.mem_iff.1 h).1
    rw [star_eq_conjTranspose, gateDen, embed1_conjTranspose, embed1_mul (by norm_num)] at h1
    have := congrFun (congrFun h1 fun _ => false) fun _ => false
    simp only [embed1, mul_apply, conjTranspose_apply, Fintype.sum_bool] at this
    simp [mat1, ind, bit] at this
  · intro h
    have h1 := (Unitary.mem_iff.1 h).1
    have e : sem (gateSem 1 ρ) ρ (addOf [.leaf (.fixed .X 0) none, .leaf (.fixed .I 0) none]) =
        embed1 0 (mat1 .X + mat1 .I) := by
      rw [addOf, sem_add, embed1_add]
      simp only [List.map_cons, List.map_nil, List.sum_cons, List.sum_nil, add_zero]
      rfl
    rw [e, star_eq_conjTranspose, embed1_conjTranspose, embed1_mul (by norm_num)] at h1
    have := congrFun (congrFun h1 fun _ => false) fun _ => true
    rw [Matrix.one_apply, if_neg (by intro h; have := congrFun h 0; simp at this)] at this
    simp only [embed1, mul_apply, conjTranspose_apply, Fintype.sum_bool, Matrix.add_apply] at this
    simp [mat1, ind, bit, Matrix.one_apply] at this

/-- A circuit with a rotation, a controlled gate, a swap and a Hamiltonian evolution. -/
example (ρ : Env) (h : (ρ.var "x").im = 0) : IsCircuit ρ (IsGatePrim 3 ρ)
    (.comp .chain [.leaf (.gate (.rot .RX 0 (.var "x")) none) none,
      .comp .kron [.leaf (.gate (Gate.cnot 0 1) none) none, .leaf (.gate (.fixed .T 2) none) none] none,
      .leaf (.gate (.swap 0 2) none) none,
      .leaf (.hamEvo (.leaf (.fixed .Z 1) none) (.var "x")) none] none) := by
  refine ⟨by simp, h, ⟨by simp, ⟨⟨by simp, by simp⟩, by simp [Gate.supp]⟩, ⟨by simp, by simp⟩, trivial⟩, trivial, ⟨h, ?_⟩, trivial⟩
  rw [sem_leaf, gateSem_den, gateDen, embed1_conjTranspose, ← mat1_dagger]
  rfl

end Qadence
