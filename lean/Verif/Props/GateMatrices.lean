import Verif.Props.Tensor
import Verif.Proofs.ExpInvol

/-!
# C57: identities of the gate matrices

`TMat.bits` is the two by two tensor as a matrix indexed by bits.
-/

namespace Qadence

open Spec Matrix

/-- The matrices which generate rotations. -/
def IsPauli (G : TMat) : Prop := G = XMAT ∨ G = YMAT ∨ G = ZMAT

theorem pauli_square {G : TMat} (h : IsPauli G) : G.bits * G.bits = 1 := by
  rcases h with rfl | rfl | rfl <;> ext a b <;> rw [Matrix.mul_apply] <;> cases a <;> cases b <;>
    simp [TMat.bits, XMAT, YMAT, ZMAT, TMat.ofRows]

theorem pauli_hermitian {G : TMat} (h : IsPauli G) : G.bitsᴴ = G.bits := by
  rcases h with rfl | rfl | rfl <;> ext a b <;> rw [conjTranspose_apply] <;> cases a <;> cases b <;>
    simp [TMat.bits, XMAT, YMAT, ZMAT, TMat.ofRows]

theorem rot_bits (θ : ℂ) (G : TMat) : (rotMatrices θ G).bits =
    Complex.cos (θ / 2) • (1 : Matrix Bool Bool ℂ) + (-Complex.I * Complex.sin (θ / 2)) • G.bits := by
  ext a b
  have hI : IMAT.e a.toNat b.toNat = if a = b then 1 else 0 := by
    cases a <;> cases b <;> simp [IMAT, TMat.ofRows]
  simp only [TMat.bits, rotMatrices, Matrix.of_apply, Matrix.add_apply, Matrix.smul_apply, smul_eq_mul,
    Matrix.one_apply, hI]
  ring

/-- **C57** rotations are the exponentials exp(-i θ/2 G) they are documented to be, for all complex angles. -/
theorem C57_rotation_is_exponential (θ : ℂ) {G : TMat} (h : IsPauli G) :
    (rotMatrices θ G).bits = NormedSpace.exp ((-Complex.I * (θ / 2)) • G.bits) := by
  rw [rot_bits, exp_invol_I _ (pauli_square h)]

/-- **C57** rotations about the same axis compose additively. -/
theorem C57_rotation_additive (θ φ : ℂ) {G : TMat} (h : IsPauli G) :
    (rotMatrices θ G).bits * (rotMatrices φ G).bits = (rotMatrices (θ + φ) G).bits := by
  have hG := pauli_square h
  rw [rot_bits, rot_bits, rot_bits, add_div, Complex.cos_add, Complex.sin_add]
  simp only [add_mul, mul_add, smul_mul_assoc, mul_smul_comm, one_mul, mul_one, hG]
  have hI : Complex.I * Complex.I = -1 := Complex.I_mul_I
  ext a b
  simp only [Matrix.add_apply, Matrix.smul_apply, smul_eq_mul, Matrix.mul_apply]
  linear_combination (Complex.sin (θ / 2) * Complex.sin (φ / 2) * (1 : Matrix Bool Bool ℂ) a b) * hI

theorem rot_conjTranspose (θ : ℝ) {G : TMat} (h : IsPauli G) :
    ((rotMatrices θ G).bits)ᴴ = (rotMatrices (-θ : ℂ) G).bits := by
  rw [rot_bits, rot_bits, conjTranspose_add, conjTranspose_smul, conjTranspose_smul, conjTranspose_one,
    pauli_hermitian h, neg_div, Complex.cos_neg, Complex.sin_neg]
  have hc : star (Complex.cos (θ / 2)) = Complex.cos (θ / 2) := by
    rw [Complex.star_def, ← Complex.cos_conj]
    congr 1
    rw [map_div₀, Complex.conj_ofReal, Complex.conj_ofNat]
  have hs : star (-Complex.I * Complex.sin (θ / 2)) = Complex.I * Complex.sin (θ / 2) := by
    rw [star_mul', star_neg, Complex.star_def, Complex.conj_I, ← Complex.sin_conj]
    rw [map_div₀, Complex.conj_ofReal, Complex.conj_ofNat]
    ring
  rw [hc, hs]
  congr 2
  ring

/-- **C57** the rotation by the opposite angle is the adjoint. -/
theorem C57_rotation_adjoint (θ : ℝ) {G : TMat} (h : IsPauli G) :
    ((rotMatrices θ G).bits)ᴴ = (rotMatrices ((-θ : ℝ) : ℂ) G).bits := by
  rw [rot_conjTranspose θ h, Complex.ofReal_neg]

/-- **C57** rotations by real angles are unitary. -/
theorem C57_rotation_unitary (θ : ℝ) {G : TMat} (h : IsPauli G) :
    (rotMatrices θ G).bits ∈ unitaryGroup Bool ℂ := by
  rw [mem_unitaryGroup_iff, star_eq_conjTranspose, rot_conjTranspose θ h, C57_rotation_additive _ _ h, add_neg_cancel,
    rot_bits]
  simp

/-- **C57** `U(φ, θ, ω) = RZ(ω) RY(θ) RZ(φ)`
(generator in qadence/operations/parametric.py:174). -/
theorem C57_u_euler (φ θ ω : ℂ) : (uMatrix φ θ ω).bits =
    (rotMatrices ω ZMAT).bits * (rotMatrices θ YMAT).bits * (rotMatrices φ ZMAT).bits := by
  rw [uMatrix, bits_mul _ _ rfl, bits_mul _ _ rfl, mul_assoc]

/-- **C57** the entries of `U`. -/
theorem C57_u_entries (φ θ ω : ℂ) :
    (uMatrix φ θ ω).bits false false = Complex.exp (-(Complex.I * (φ + ω) / 2)) * Complex.cos (θ / 2) ∧
    (uMatrix φ θ ω).bits false true = -(Complex.exp (Complex.I * (φ - ω) / 2) * Complex.sin (θ / 2)) ∧
    (uMatrix φ θ ω).bits true false = Complex.exp (-(Complex.I * (φ - ω) / 2)) * Complex.sin (θ / 2) ∧
    (uMatrix φ θ ω).bits true true = Complex.exp (Complex.I * (φ + ω) / 2) * Complex.cos (θ / 2) := by
  rw [← (u_matrix φ θ ω).2]
  refine ⟨?_, ?_, ?_, ?_⟩ <;> simp only [Matrix.mul_apply, Fintype.univ_bool, Finset.sum_insert, Finset.mem_singleton,
    Finset.sum_singleton, Bool.true_eq_false, not_false_eq_true] <;>
    simp [matRot]
  · rw [show -(Complex.I * (φ + ω) / 2) = -(Complex.I * ω / 2) + -(Complex.I * φ / 2) by ring, Complex.exp_add]; ring
  · rw [show Complex.I * (φ - ω) / 2 = -(Complex.I * ω / 2) + Complex.I * φ / 2 by ring, Complex.exp_add]; ring
  · rw [show -(Complex.I * (φ - ω) / 2) = Complex.I * ω / 2 + -(Complex.I * φ / 2) by ring, Complex.exp_add]; ring
  · rw [show Complex.I * (φ + ω) / 2 = Complex.I * ω / 2 + Complex.I * φ / 2 by ring, Complex.exp_add]; ring

/-- **C57** `U` is unitary for real angles. -/
theorem C57_u_unitary (φ θ ω : ℝ) : (uMatrix φ θ ω).bits ∈ unitaryGroup Bool ℂ := by
  rw [C57_u_euler]
  exact mul_mem (mul_mem (C57_rotation_unitary ω (Or.inr (Or.inr rfl))) (C57_rotation_unitary θ (Or.inr (Or.inl rfl))))
    (C57_rotation_unitary φ (Or.inr (Or.inr rfl)))

theorem phase_bits (θ : ℂ) : (phaseMatrix θ).bits = Matrix.diagonal fun a => if a then Complex.exp (Complex.I * θ) else 1 := by
  have := (rot_matrix θ .PHASE).2
  rw [parametricMatrix] at this
  rw [← this]
  ext a b
  rw [Matrix.diagonal_apply, matRot]

/-- **C57** phases compose additively. -/
theorem C57_phase_additive (θ φ : ℂ) : (phaseMatrix θ).bits * (phaseMatrix φ).bits = (phaseMatrix (θ + φ)).bits := by
  rw [phase_bits, phase_bits, phase_bits, Matrix.diagonal_mul_diagonal]
  congr 1
  funext a
  cases a
  · simp
  · simp [mul_add, Complex.exp_add]

/-- **C57** phases by real angles are unitary. -/
theorem C57_phase_unitary (θ : ℝ) : (phaseMatrix θ).bits ∈ unitaryGroup Bool ℂ := by
  rw [mem_unitaryGroup_iff, star_eq_conjTranspose, phase_bits, Matrix.diagonal_conjTranspose,
    Matrix.diagonal_mul_diagonal, ← Matrix.diagonal_one]
  congr 1
  funext a
  cases a
  · simp
  · simp only [if_true, Pi.star_apply, Complex.star_def, ← Complex.exp_conj, map_mul, Complex.conj_I,
      Complex.conj_ofReal, ← Complex.exp_add]
    simp

/-- **C57** a phase is a Z rotation up to a global phase. -/
theorem C57_phase_rz (θ : ℂ) : (phaseMatrix θ).bits = Complex.exp (Complex.I * θ / 2) • (rotMatrices θ ZMAT).bits := by
  rw [show rotMatrices θ ZMAT = parametricMatrix θ .RZ from rfl, ← (rot_matrix θ .RZ).2, phase_bits]
  ext a b
  rw [Matrix.diagonal_apply, Matrix.smul_apply, smul_eq_mul, matRot]
  cases a <;> cases b <;> simp [← Complex.exp_add]

/-- The constant gates of the table other than `Zero`, `N` and `T_dagger`. -/
noncomputable def constantGates : List TMat := [IMAT, XMAT, YMAT, ZMAT, HMAT, SMAT, SDAGMAT, TMAT]

theorem sqrt_two_sq : ((Real.sqrt 2 : ℝ) : ℂ)⁻¹ * ((Real.sqrt 2 : ℝ) : ℂ)⁻¹ = 1 / 2 := by
  rw [← mul_inv, ← Complex.ofReal_mul, Real.mul_self_sqrt (by norm_num)]
  norm_num

theorem exp_conj_pi4 : Complex.exp (Complex.I * Real.pi / 4) * star (Complex.exp (Complex.I * Real.pi / 4)) = 1 := by
  rw [Complex.star_def, ← Complex.exp_conj, map_div₀, map_mul, Complex.conj_I, Complex.conj_ofReal,
    Complex.conj_ofNat, ← Complex.exp_add]
  rw [show Complex.I * Real.pi / 4 + -Complex.I * Real.pi / 4 = 0 by ring, Complex.exp_zero]

/-- **C57** the constant gates are unitary. -/
theorem C57_constants_unitary : ∀ M ∈ constantGates, M.bits ∈ unitaryGroup Bool ℂ := by
  intro M hM
  rw [mem_unitaryGroup_iff, star_eq_conjTranspose]
  simp only [constantGates, List.mem_cons, List.not_mem_nil, or_false] at hM
  have hT := exp_conj_pi4
  rw [Complex.star_def] at hT
  have h2 := sqrt_two_sq
  rcases hM with rfl | rfl | rfl | rfl | rfl | rfl | rfl | rfl
  case inr.inr.inr.inr.inl =>
    ext a b
    rw [Matrix.mul_apply]
    simp only [conjTranspose_apply, Fintype.univ_bool, Finset.sum_insert, Finset.mem_singleton,
      Finset.sum_singleton, Bool.true_eq_false, not_false_eq_true]
    cases a <;> cases b <;> simp [TMat.bits, HMAT, TMat.ofRows, TMat.smul, h2] <;> norm_num
  all_goals
    ext a b
    rw [Matrix.mul_apply]
    simp only [conjTranspose_apply, Fintype.univ_bool, Finset.sum_insert, Finset.mem_singleton,
      Finset.sum_singleton, Bool.true_eq_false, not_false_eq_true]
    cases a <;> cases b <;>
      simp [TMat.bits, IMAT, XMAT, YMAT, ZMAT, SMAT, SDAGMAT, TMAT, TMat.ofRows, hT]

/-- **C57** Pauli matrices, the identity, the Hadamard gate and the number operator are Hermitian. -/
theorem C57_constants_hermitian : ∀ M ∈ [IMAT, XMAT, YMAT, ZMAT, HMAT, NMAT], M.bitsᴴ = M.bits := by
  intro M hM
  simp only [List.mem_cons, List.not_mem_nil, or_false] at hM
  rcases hM with rfl | rfl | rfl | rfl | rfl | rfl <;> ext a b <;> rw [conjTranspose_apply] <;>
    cases a <;> cases b <;> simp [TMat.bits, IMAT, XMAT, YMAT, ZMAT, HMAT, NMAT, TMat.ofRows, TMat.smul]

/-- **C57** S and T are square roots: S² = Z, T² = S; and X = H Z H, N = (1 - Z) / 2. -/
theorem C57_constants_relations :
    SMAT.bits * SMAT.bits = ZMAT.bits ∧ TMAT.bits * TMAT.bits = SMAT.bits ∧
    HMAT.bits * ZMAT.bits * HMAT.bits = XMAT.bits ∧ NMAT.bits = (1 / 2 : ℂ) • (1 - ZMAT.bits) := by
  have h2 := sqrt_two_sq
  have hT : Complex.exp (Complex.I * Real.pi / 4) * Complex.exp (Complex.I * Real.pi / 4) = Complex.I := by
    rw [← Complex.exp_add, show Complex.I * Real.pi / 4 + Complex.I * Real.pi / 4 = Real.pi / 2 * Complex.I by ring,
      Complex.exp_pi_div_two_mul_I]
  refine ⟨?_, ?_, ?_, ?_⟩
  · ext a b; rw [Matrix.mul_apply]; cases a <;> cases b <;> simp [TMat.bits, SMAT, ZMAT, TMat.ofRows]
  · ext a b; rw [Matrix.mul_apply]; cases a <;> cases b <;> simp [TMat.bits, SMAT, TMAT, TMat.ofRows, hT]
  · ext a b
    simp only [Matrix.mul_apply]
    cases a <;> cases b <;> simp [TMat.bits, HMAT, ZMAT, XMAT, TMat.ofRows, TMat.smul, h2] <;> norm_num
  · ext a b
    rw [Matrix.smul_apply, Matrix.sub_apply, Matrix.one_apply]
    cases a <;> cases b <;> simp [TMat.bits, NMAT, ZMAT, TMat.ofRows] <;> norm_num

/-- **C57** `SDagger` is the adjoint of `S`. -/
theorem C57_sdagger_adjoint : SDAGMAT.bits = SMAT.bitsᴴ := by
  ext a b
  rw [conjTranspose_apply]
  cases a <;> cases b <;> simp [TMat.bits, SMAT, SDAGMAT, TMat.ofRows]

/-- The matrix in the table for `TDagger` is not the adjoint of the one for `T`; it is the same matrix. -/
theorem C57_counterexample_tdagger : TDAGMAT.bits ≠ TMAT.bitsᴴ ∧ TDAGMAT = TMAT := by
  refine ⟨fun h => ?_, rfl⟩
  have h1 := congrFun (congrFun h true) true
  rw [conjTranspose_apply] at h1
  simp only [TMat.bits, TDAGMAT, TMAT, TMat.ofRows, Matrix.of_apply, Bool.toNat_true] at h1
  simp only [List.getD_cons_succ, List.getD_cons_zero] at h1
  have h2 := exp_conj_pi4
  rw [← h1, ← Complex.exp_add,
    show Complex.I * Real.pi / 4 + Complex.I * Real.pi / 4 = Real.pi / 2 * Complex.I by ring,
    Complex.exp_pi_div_two_mul_I] at h2
  exact absurd h2 (by simp [Complex.ext_iff])

variable {n : ℕ}

/-- **C57** SWAP is the product of three CNOTs, on any register. -/
theorem C57_swap_three_cnots (ρ : Env) (a b : ℕ) (ha : a < n) (hb : b < n) (hab : a ≠ b) :
    gateDen ρ (Gate.cnot a b) * gateDen ρ (Gate.cnot b a) * gateDen ρ (Gate.cnot a b) = (swapOp a b : Oper n) := by
  have := sem_swapBlock ρ a b ha hb hab
  simp only [swapBlock, Block.chainOf, sem_chain, List.map_cons, List.map_nil, sem_leaf, gateSem_den, opProd,
    one_mul] at this
  exact this

/-- **C57** CSWAP is the product of three Toffoli gates, on any register. -/
theorem C57_cswap_three_toffolis (ρ : Env) (c a b : ℕ) (ha : a < n) (hb : b < n) (hab : a ≠ b) (hca : c ≠ a)
    (hcb : c ≠ b) : gateDen ρ (Gate.toffoli [c, b] a) * gateDen ρ (Gate.toffoli [c, a] b) *
      gateDen ρ (Gate.toffoli [c, b] a) = (controlled [c] (swapOp a b) : Oper n) := by
  have := sem_cswapBlock ρ c a b ha hb hab hca hcb
  simp only [cswapBlock, Block.chainOf, sem_chain, List.map_cons, List.map_nil, sem_leaf, gateSem_den, opProd,
    one_mul] at this
  exact this

example : IsPauli YMAT ∧ (rotMatrices (Real.pi : ℝ) YMAT).bits true false = 1 := by
  refine ⟨Or.inr (Or.inl rfl), ?_⟩
  rw [rot_bits]
  simp [TMat.bits, YMAT, TMat.ofRows]

example (ρ : Env) : gateDen ρ (Gate.cnot 2 0) * gateDen ρ (Gate.cnot 0 2) * gateDen ρ (Gate.cnot 2 0) =
    (swapOp 2 0 : Oper 4) := C57_swap_three_cnots ρ 2 0 (by decide) (by decide) (by decide)

end Qadence
