import Mathlib.Tactic.IntervalCases
import Verif.Proofs.TensorSem
import Verif.Props.Padding

/-!
# C08: `block_to_tensor` computes the matrix of the operator of a block
-/

namespace Qadence

open Spec

variable {n : ℕ}

/-! ## Matrices of one-qubit gates -/

/-- A two by two tensor as a matrix indexed by bits. -/
noncomputable def TMat.bits (B : TMat) : Matrix Bool Bool ℂ := Matrix.of fun a b => B.e a.toNat b.toNat

theorem fixed_matrix (g : FixedGate) (h1 : g ≠ .TDagger) (h2 : g ≠ .N false) :
    ∃ B, operationsDict g.pyName = some B ∧ B.dim = 2 ∧ mat1 g = B.bits := by
  cases g with
  | I =>
    refine ⟨IMAT, rfl, rfl, ?_⟩
    ext a b; cases a <;> cases b <;> simp [mat1, TMat.bits, IMAT, TMat.ofRows]
  | X =>
    refine ⟨XMAT, rfl, rfl, ?_⟩
    ext a b; cases a <;> cases b <;> simp [mat1, ind, TMat.bits, XMAT, TMat.ofRows]
  | Y =>
    refine ⟨YMAT, rfl, rfl, ?_⟩
    ext a b; cases a <;> cases b <;> simp [mat1, TMat.bits, YMAT, TMat.ofRows]
  | Z =>
    refine ⟨ZMAT, rfl, rfl, ?_⟩
    ext a b; cases a <;> cases b <;> simp [mat1, TMat.bits, ZMAT, TMat.ofRows]
  | H =>
    refine ⟨HMAT, rfl, rfl, ?_⟩
    ext a b; cases a <;> cases b <;> simp [mat1, TMat.bits, HMAT, TMat.ofRows, TMat.smul, div_eq_mul_inv]
  | S =>
    refine ⟨SMAT, rfl, rfl, ?_⟩
    ext a b; cases a <;> cases b <;> simp [mat1, TMat.bits, SMAT, TMat.ofRows]
  | SDagger =>
    refine ⟨SDAGMAT, rfl, rfl, ?_⟩
    ext a b; cases a <;> cases b <;> simp [mat1, TMat.bits, SDAGMAT, TMat.ofRows]
  | T =>
    refine ⟨TMAT, rfl, rfl, ?_⟩
    ext a b; cases a <;> cases b <;> simp [mat1, TMat.bits, TMAT, TMat.ofRows]
  | TDagger => exact absurd rfl h1
  | Zero =>
    refine ⟨ZEROMAT, rfl, rfl, ?_⟩
    ext a b; cases a <;> cases b <;> simp [mat1, TMat.bits, ZEROMAT, TMat.ofRows]
  | N s =>
    cases s with
    | false => exact absurd rfl h2
    | true =>
      refine ⟨NMAT, rfl, rfl, ?_⟩
      ext a b; cases a <;> cases b <;> simp [mat1, ind, TMat.bits, NMAT, TMat.ofRows]

theorem rot_matrix (θ : ℂ) (g : RotGate) : (parametricMatrix θ g).dim = 2 ∧ matRot θ g = (parametricMatrix θ g).bits := by
  have hexp : Complex.exp (Complex.I * θ / 2) = Complex.cos (θ / 2) + Complex.I * Complex.sin (θ / 2) := by
    rw [mul_div_assoc, mul_comm, Complex.exp_mul_I, mul_comm Complex.I]
  have hexp' : Complex.exp (-(Complex.I * θ / 2)) = Complex.cos (θ / 2) - Complex.I * Complex.sin (θ / 2) := by
    rw [mul_div_assoc, mul_comm, ← neg_mul, Complex.exp_mul_I, Complex.cos_neg, Complex.sin_neg]
    ring
  refine ⟨by cases g <;> rfl, ?_⟩
  ext a b
  cases g with
  | RX => cases a <;> cases b <;> simp [matRot, TMat.bits, parametricMatrix, rotMatrices, XMAT, IMAT, TMat.ofRows]
  | RY =>
    cases a <;> cases b <;> simp [matRot, TMat.bits, parametricMatrix, rotMatrices, YMAT, IMAT, TMat.ofRows]
    · linear_combination (-Complex.sin (θ / 2)) * Complex.I_mul_I
    · linear_combination (Complex.sin (θ / 2)) * Complex.I_mul_I
  | RZ =>
    cases a <;> cases b <;>
      simp [matRot, TMat.bits, parametricMatrix, rotMatrices, ZMAT, IMAT, TMat.ofRows, hexp, hexp']
  | PHASE =>
    cases a <;> cases b <;>
      simp [matRot, TMat.bits, parametricMatrix, phaseMatrix, ZMAT, IMAT, TMat.ofRows]
    · norm_num
    · ring

theorem bits_mul (A B : TMat) (hA : A.dim = 2) : (A.mul B).bits = A.bits * B.bits := by
  ext a b
  rw [Matrix.mul_apply]
  simp only [TMat.bits, TMat.mul, hA, Matrix.of_apply, Finset.sum_range_succ, Finset.sum_range_zero, zero_add,
    Fintype.univ_bool, Finset.sum_insert, Finset.mem_singleton, Finset.sum_singleton, Bool.toNat_true, Bool.toNat_false,
    Bool.true_eq_false, not_false_eq_true]
  ring

theorem u_matrix (φ θ ω : ℂ) : (uMatrix φ θ ω).dim = 2 ∧
    matRot ω .RZ * matRot θ .RY * matRot φ .RZ = (uMatrix φ θ ω).bits := by
  refine ⟨rfl, ?_⟩
  rw [(rot_matrix ω .RZ).2, (rot_matrix θ .RY).2, (rot_matrix φ .RZ).2, mul_assoc, uMatrix,
    bits_mul _ _ rfl, bits_mul _ _ rfl]
  rfl

/-! ## Matrices on several qubits -/

/-- The qubits are in ascending order and consecutive within the register; for little endian there is only one. -/
def Consecutive (en : Endian) (fs qs : List ℕ) : Prop :=
  qs ≠ [] ∧ qs.Pairwise (· < ·) ∧ qs <:+: fs.insertionSort (· ≤ ·) ∧ (en = .big ∨ qs.length = 1)

theorem hasMatrix_fill (en : Endian) (B : TMat) (qs fs : List ℕ) (hn : fs.Nodup) (hc : Consecutive en fs qs)
    (hd : B.dim = 2 ^ qs.length) (U : Matrix (Fin qs.length → Bool) (Fin qs.length → Bool) ℂ)
    (hU : ∀ u v, B.e (index qs u) (index qs v) = U (fun i => u qs[i]) (fun i => v qs[i])) :
    HasMatrix (qubitOrder en fs) (fillIdentities en B qs fs) (embed (fun i : Fin qs.length => qs[i]) U : Oper n) := by
  obtain ⟨hne, hs, ⟨pre, post, hpp⟩, hen⟩ := hc
  have hqs : qs.insertionSort (· ≤ ·) = qs := List.Pairwise.insertionSort_eq (hs.imp Nat.le_of_lt)
  have hnd : (pre ++ qs ++ post).Nodup := hpp ▸ (List.perm_insertionSort _ fs).nodup_iff.2 hn
  obtain ⟨T, hT, hr⟩ := fill_rep en B qs fs pre qs post hne hqs hpp.symm hnd _ ⟨hd, hU⟩
  have ho : fillOrder en pre qs post = qubitOrder en fs := by
    rcases hen with rfl | hl
    · exact hpp
    · obtain ⟨q, rfl⟩ := List.length_eq_one_iff.1 hl
      cases en
      · exact hpp
      · simp [fillOrder, qubitOrder, ← hpp]
  refine ⟨T, hT, by rw [hr.1, ho], ?_⟩
  rw [← ho, lift_fill en pre qs post hnd T U hr]

theorem hasMatrix_single (en : Endian) (B : TMat) (hB : B.dim = 2) (q : ℕ) (fs : List ℕ) (hn : fs.Nodup) (hq : q ∈ fs) :
    HasMatrix (qubitOrder en fs) (fillIdentities en B [q] fs) (embed1 q B.bits : Oper n) := by
  obtain ⟨T, h1, h2, h3⟩ := fill_single (n := n) en B hB q fs hn hq
  exact ⟨T, h1, h2, h3⟩

theorem index_eq_bitsIndex (qs : List ℕ) (u : ℕ → Bool) : index qs u = bitsIndex (qs.map u) := rfl

theorem bitsIndex_inj {l m : List Bool} (hl : l.length = m.length) (h : bitsIndex l = bitsIndex m) : l = m := by
  have key : ∀ l : List Bool, bitsIndex l = index (List.range l.length) fun i => l.getD i false := by
    intro l
    rw [index_eq_bitsIndex]
    congr 1
    apply List.ext_getElem
    · simp
    · intro i h1 h2
      simp [h1]
  rw [key l, key m, ← hl] at h
  apply List.ext_getElem hl
  intro i h1 h2
  have := index_inj h i (by simpa using h1)
  simpa [h1, h2] using this

theorem index_eq_iff (qs : List ℕ) (ket : List Bool) (hl : ket.length = qs.length) (u : ℕ → Bool) :
    index qs u = bitsIndex ket ↔ ∀ i : Fin qs.length, u qs[i] = ket.getD i false := by
  rw [index_eq_bitsIndex]
  constructor
  · intro h i
    have := bitsIndex_inj (by simpa using hl.symm) h
    rw [← this]
    simp
  · intro h
    congr 1
    apply List.ext_getElem (by simpa using hl.symm)
    intro i h1 h2
    have hi : i < qs.length := by simpa using h1
    have := h ⟨i, hi⟩
    simpa [h2] using this

theorem bitsValue_eq (qs : List ℕ) (u : ℕ → Bool) : bitsValue (fun i : Fin qs.length => u qs[i]) = index qs u := by
  rw [bitsValue, index]
  congr 1
  apply List.ext_getElem
  · simp
  · intro i h1 h2; simp

/-! ## Gates -/

/-- Primitive blocks which are not control blocks whose matrix is computed correctly. -/
def BaseOk (en : Endian) (fs : List ℕ) : Gate → Prop
  | .fixed g q => q ∈ fs ∧ g ≠ .TDagger ∧ g ≠ .N false
  | .rot _ q _ => q ∈ fs
  | .u q _ _ _ => q ∈ fs
  | .proj ket bra qs => ket = bra ∧ ket.length = qs.length ∧ Consecutive en fs qs
  | .matrix rows qs => rows.length = 2 ^ qs.length ∧ Consecutive en fs qs
  | _ => False

/-- Gates whose matrix is computed correctly. -/
def TensorOk (en : Endian) (fs : List ℕ) : Gate → Prop
  | .swap a b => a ∈ fs ∧ b ∈ fs ∧ a ≠ b
  | .control cls cs inner =>
    if cls = .CSWAP then ∃ c a b, cs = [c] ∧ inner = .swap a b ∧ c ∈ fs ∧ a ∈ fs ∧ b ∈ fs ∧ a ≠ b ∧ c ≠ a ∧ c ≠ b
    else cs ≠ [] ∧ cs.Nodup ∧ (∀ c ∈ cs, c ∈ fs) ∧ (∃ t ∈ fs, inner.supp = [t] ∧ t ∉ cs) ∧ BaseOk en fs inner
  | g => BaseOk en fs g

theorem baseTensor_hasMatrix (ρ : Env) (en : Endian) (fs : List ℕ) (hn : fs.Nodup) (g : Gate) (h : BaseOk en fs g) :
    HasMatrix (qubitOrder en fs) (baseTensor ρ en fs g) (gateDen ρ g : Oper n) := by
  cases g with
  | fixed g q =>
    obtain ⟨B, h1, h2, h3⟩ := fixed_matrix g h.2.1 h.2.2
    rw [baseTensor, gateDen, h3, h1]
    exact hasMatrix_single en B h2 q fs hn h.1
  | rot g q θ =>
    obtain ⟨h2, h3⟩ := rot_matrix (eval ρ θ) g
    rw [baseTensor, gateDen, h3]
    exact hasMatrix_single en _ h2 q fs hn h
  | u q φ θ ω =>
    obtain ⟨h2, h3⟩ := u_matrix (eval ρ φ) (eval ρ θ) (eval ρ ω)
    rw [baseTensor, gateDen, h3]
    exact hasMatrix_single en _ h2 q fs hn h
  | swap a b => exact absurd h (by simp [BaseOk])
  | control cls cs g => exact absurd h (by simp [BaseOk])
  | proj ket bra qs =>
    obtain ⟨rfl, hl, hc⟩ := h
    rw [baseTensor, gateDen]
    apply hasMatrix_fill en _ qs fs hn hc (by rw [projMatrix, hl])
    intro u v
    simp only [projMatrix, index_eq_iff qs ket hl, Matrix.of_apply, ind]
    rw [ite_zero_mul_ite_zero, mul_one]
    congr 1
    rw [and_comm]
  | matrix rows qs =>
    obtain ⟨hl, hc⟩ := h
    rw [baseTensor, gateDen]
    apply hasMatrix_fill en _ qs fs hn hc (by simp [TMat.ofRows, hl])
    intro u v
    simp only [TMat.ofRows, Matrix.of_apply, bitsValue_eq]
    have hg : ∀ {α β : Type} (f : α → β) (l : List α) (i : ℕ) (d : α), (l.map f).getD i (f d) = f (l.getD i d) := by
      intro α β f l i d
      simp only [List.getD_eq_getElem?_getD, List.getElem?_map]
      cases l[i]? <;> rfl
    rw [show ([] : List ℂ) = List.map (eval ρ) [] from rfl, hg, ← eval_zero ρ, hg]

theorem controlTensor_hasMatrix (ρ : Env) (en : Endian) (ord : List ℕ → List ℕ) (ho : Block.SetOrder ord)
    (fs : List ℕ) (hn : fs.Nodup) (hne : fs ≠ []) (hfs : ∀ q ∈ fs, q < n) (cls : CtrlClass) (cs : List ℕ) (inner : Gate)
    (hcs : cs ≠ []) (hnd : cs.Nodup) (hsub : ∀ c ∈ cs, c ∈ fs) (t : ℕ) (ht : t ∈ fs) (hs : inner.supp = [t])
    (htc : t ∉ cs) (hi : BaseOk en fs inner) :
    HasMatrix (qubitOrder en fs) (controlTensor ρ en ord fs (.control cls cs inner))
      (gateDen ρ (.control cls cs inner) : Oper n) := by
  obtain ⟨b, hb, hsem, hall⟩ := sem_controlledBlock (n := n) ρ ord ho cs t inner hcs hnd hs htc
  have hcon : ∀ q ∈ fs, Consecutive en fs [q] := by
    intro q hq
    refine ⟨by simp, by simp, ?_, Or.inr rfl⟩
    rw [List.singleton_infix_iff]
    simpa using hq
  have hS : (Gate.control cls cs inner).supp = cs ++ [t] := by rw [Gate.supp, hs]
  have := hasMatrix_tensor (qubitOrder en fs) (nodup_qubitOrder en fs hn)
    (fun q hq => hfs q ((mem_qubitOrder en fs q).1 hq)) ρ (baseTensor ρ en fs) fs (length_qubitOrder en fs) hne
    (gateSem n ρ) b (hall _ (fun c hc => baseTensor_hasMatrix ρ en fs hn _ ⟨rfl, rfl, hcon c (hsub c hc)⟩)
      (fun c hc => baseTensor_hasMatrix ρ en fs hn _ ⟨hsub c hc, by simp, by simp⟩)
      (baseTensor_hasMatrix ρ en fs hn _ ⟨ht, by simp, by simp⟩) (baseTensor_hasMatrix ρ en fs hn _ hi))
  rw [controlTensor, hS, List.dropLast_concat, List.getLastD_concat, hb, ok_bind]
  rw [hsem] at this
  exact this

theorem gateTensor_hasMatrix (ρ : Env) (en : Endian) (ord : List ℕ → List ℕ) (ho : Block.SetOrder ord)
    (fs : List ℕ) (hn : fs.Nodup) (hne : fs ≠ []) (hfs : ∀ q ∈ fs, q < n) (g : Gate) (h : TensorOk en fs g) :
    HasMatrix (qubitOrder en fs) (g.tensor ρ en ord fs) (gateDen ρ g : Oper n) := by
  have hblk : ∀ b : Block Gate,
      AllLeaves (fun g => HasMatrix (qubitOrder en fs) (controlTensor ρ en ord fs g) (gateDen ρ g : Oper n)) b →
      HasMatrix (qubitOrder en fs) (b.tensor ρ (controlTensor ρ en ord fs) fs) (sem (gateSem n ρ) ρ b) := fun b hb =>
    hasMatrix_tensor (qubitOrder en fs) (nodup_qubitOrder en fs hn)
      (fun q hq => hfs q ((mem_qubitOrder en fs q).1 hq)) ρ _ fs (length_qubitOrder en fs) hne (gateSem n ρ) b hb
  cases g with
  | fixed g q =>
    rw [Gate.tensor, controlTensor]
    · exact baseTensor_hasMatrix ρ en fs hn _ h
    all_goals simp
  | rot g q θ =>
    rw [Gate.tensor, controlTensor]
    · exact baseTensor_hasMatrix ρ en fs hn _ h
    all_goals simp
  | u q φ θ ω =>
    rw [Gate.tensor, controlTensor]
    · exact baseTensor_hasMatrix ρ en fs hn _ h
    all_goals simp
  | proj ket bra qs =>
    rw [Gate.tensor, controlTensor]
    · exact baseTensor_hasMatrix ρ en fs hn _ h
    all_goals simp
  | matrix rows qs =>
    rw [Gate.tensor, controlTensor]
    · exact baseTensor_hasMatrix ρ en fs hn _ h
    all_goals simp
  | swap a b =>
    obtain ⟨ha, hb, hab⟩ := h
    rw [Gate.tensor, ← sem_swapBlock ρ a b (hfs a ha) (hfs b hb) hab]
    apply hblk
    have h1 := controlTensor_hasMatrix (n := n) ρ en ord ho fs hn hne hfs .CNOT [a] (.fixed .X b) (by simp) (by simp)
      (by simpa using ha) b hb rfl (by simpa using hab.symm) ⟨hb, by simp, by simp⟩
    have h2 := controlTensor_hasMatrix (n := n) ρ en ord ho fs hn hne hfs .CNOT [b] (.fixed .X a) (by simp) (by simp)
      (by simpa using hb) a ha rfl (by simpa using hab) ⟨ha, by simp, by simp⟩
    simp only [swapBlock, Block.chainOf, AllLeaves, AllLeavesList]
    exact ⟨h1, h2, h1, trivial⟩
  | control cls cs inner =>
    by_cases hcls : cls = .CSWAP
    · subst hcls
      simp only [TensorOk, if_true] at h
      obtain ⟨c, a, b, rfl, rfl, hc, ha, hb, hab, hca, hcb⟩ := h
      have := sem_cswapBlock (n := n) ρ c a b (hfs a ha) (hfs b hb) hab hca hcb
      rw [Gate.cswap] at this
      simp only [Gate.tensor, Gate.supp, List.singleton_append]
      rw [← this]
      apply hblk
      have h1 := controlTensor_hasMatrix (n := n) ρ en ord ho fs hn hne hfs .Toffoli [c, b] (.fixed .X a) (by simp)
        (by simpa using hcb) (by simpa using ⟨hc, hb⟩) a ha rfl (by simpa using ⟨hca.symm, hab⟩) ⟨ha, by simp, by simp⟩
      have h2 := controlTensor_hasMatrix (n := n) ρ en ord ho fs hn hne hfs .Toffoli [c, a] (.fixed .X b) (by simp)
        (by simpa using hca) (by simpa using ⟨hc, ha⟩) b hb rfl (by simpa using ⟨hcb.symm, hab.symm⟩)
        ⟨hb, by simp, by simp⟩
      simp only [cswapBlock, Block.chainOf, AllLeaves, AllLeavesList]
      exact ⟨h1, h2, h1, trivial⟩
    · simp only [TensorOk, if_neg hcls] at h
      obtain ⟨hcs, hnd, hsub, ⟨t, ht, hs, htc⟩, hi⟩ := h
      rw [Gate.tensor]
      · exact controlTensor_hasMatrix ρ en ord ho fs hn hne hfs cls cs inner hcs hnd hsub t ht hs htc hi
      · rintro _ _ h
        exact hcls (by injection h)
      · simp

/-! ## The theorems -/

/-- The order of the qubits in the basis of the matrix: ascending for big endian, descending for little endian. -/
def BasisOrder (en : Endian) (fs os : List ℕ) : Prop :=
  (∀ q, q ∈ os ↔ q ∈ fs) ∧ (match en with | .big => os.Pairwise (· < ·) | .little => os.Pairwise (· > ·))

theorem basisOrder_eq (en : Endian) (fs os : List ℕ) (hn : fs.Nodup) (h : BasisOrder en fs os) :
    os = qubitOrder en fs := by
  have hs : (fs.insertionSort (· ≤ ·)).Pairwise (· < ·) := by
    have h1 := List.pairwise_insertionSort (· ≤ ·) fs
    have h2 : (fs.insertionSort (· ≤ ·)).Nodup := (List.perm_insertionSort _ fs).nodup_iff.2 hn
    exact (h1.and h2).imp fun ⟨a, b⟩ => lt_of_le_of_ne a b
  have uniq : ∀ l m : List ℕ, l.Pairwise (· < ·) → m.Pairwise (· < ·) → (∀ q, q ∈ l ↔ q ∈ m) → l = m := by
    intro l m hl hm hlm
    apply List.Perm.eq_of_pairwise _ hl hm
    · rw [List.perm_ext_iff_of_nodup]
      · exact hlm
      · exact hl.imp fun h => ne_of_lt h
      · exact hm.imp fun h => ne_of_lt h
    · intro a b _ _ h1 h2
      exact absurd h1 (lt_asymm h2)
  obtain ⟨hm, ho⟩ := h
  cases en with
  | big => exact uniq _ _ ho hs fun q => by rw [hm]; exact (List.mem_insertionSort _).symm
  | little =>
    have : os.reverse = fs.insertionSort (· ≤ ·) := uniq _ _ (List.pairwise_reverse.2 ho) hs fun q => by
      rw [List.mem_reverse, hm]; exact (List.mem_insertionSort _).symm
    rw [qubitOrder, ← this, List.reverse_reverse]

/-- **C08** (partial: gates for which the statement is false are excluded, see `TensorOk` and the counterexamples below;
tensors with a batch dimension and `block_to_diagonal` are not part of the statement): `block_to_tensor` succeeds, the
matrix has size 2^(number of qubits) and is the matrix of the operator of the block in the basis ordered as required by
the endianness. -/
theorem C08_block_to_tensor_partial (ρ : Env) (en : Endian) {ord : List ℕ → List ℕ} (ho : Block.SetOrder ord)
    (fs os : List ℕ) (hn : fs.Nodup) (hne : fs ≠ []) (hfs : ∀ q ∈ fs, q < n) (hos : BasisOrder en fs os)
    (b : Block Gate) (hb : AllLeaves (TensorOk en fs) b) :
    ∃ T, blockToTensor ρ en ord fs b = .ok T ∧ T.dim = 2 ^ fs.length ∧
      IsMatrixOf os T.e (sem (gateSem n ρ) ρ b) := by
  have hl : AllLeaves (fun g => HasMatrix (qubitOrder en fs) (g.tensor ρ en ord fs) ((gateSem n ρ).den g)) b :=
    allLeaves_mono b Gate.supp (fun g hg _ => gateTensor_hasMatrix ρ en ord ho fs hn hne hfs g hg) hb
  obtain ⟨T, h1, h2, h3⟩ := hasMatrix_tensor (qubitOrder en fs) (nodup_qubitOrder en fs hn)
    (fun q hq => hfs q ((mem_qubitOrder en fs q).1 hq)) ρ (Gate.tensor ρ en ord fs) fs (length_qubitOrder en fs) hne
    (gateSem n ρ) b hl
  refine ⟨T, h1, by rw [h2, length_qubitOrder], ?_⟩
  rw [isMatrixOf_iff, basisOrder_eq en fs os hn hos]
  exact h3

/-- Primitive blocks, including Hamiltonian evolutions, whose matrix is computed correctly. -/
def PrimTensorOk (ord : List ℕ → List ℕ) (en : Endian) (fs : List ℕ) : Prim → Prop
  | .gate g _ => TensorOk en fs g
  | .hamEvo gen _ => AllLeaves (TensorOk en fs) gen ∧ gen.support Gate.supp ord ≠ []

/-- **C08** for blocks with Hamiltonian evolutions: their matrix is the one of exp(-i t H). -/
theorem C08_evolution_to_tensor_partial (ρ : Env) (en : Endian) {ord : List ℕ → List ℕ} (ho : Block.SetOrder ord)
    (fs os : List ℕ) (hn : fs.Nodup) (hne : fs ≠ []) (hfs : ∀ q ∈ fs, q < n) (hos : BasisOrder en fs os)
    (b : Block Prim) (hb : AllLeaves (PrimTensorOk ord en fs) b) :
    ∃ T, b.tensor ρ (Prim.tensor ρ en ord fs) fs = .ok T ∧ T.dim = 2 ^ fs.length ∧
      IsMatrixOf os T.e (sem (primSem n ρ ord ho) ρ b) := by
  have hnd := nodup_qubitOrder en fs hn
  have hlt : ∀ q ∈ qubitOrder en fs, q < n := fun q hq => hfs q ((mem_qubitOrder en fs q).1 hq)
  have hl : AllLeaves (fun p => HasMatrix (qubitOrder en fs) (p.tensor ρ en ord fs) ((primSem n ρ ord ho).den p)) b := by
    apply allLeaves_mono b (Prim.supp ord) _ hb
    rintro p hp -
    cases p with
    | gate g _ => exact gateTensor_hasMatrix ρ en ord ho fs hn hne hfs g hp
    | hamEvo gen t =>
      obtain ⟨T, h1, h2, h3⟩ := C08_block_to_tensor_partial ρ en ho fs os hn hne hfs hos gen hp.1
      rw [isMatrixOf_iff, basisOrder_eq en fs os hn hos] at h3
      refine ⟨(T.smul (-Complex.I * eval ρ t)).exp, ?_, by rw [length_qubitOrder]; exact h2, ?_⟩
      · rw [Prim.tensor, if_neg hp.2, h1, ok_bind]; rfl
      · rw [lift_exp _ hnd hlt _ (by rw [length_qubitOrder]; exact h2)]
        have : (lift (qubitOrder en fs) (T.smul (-Complex.I * eval ρ t)).e : Oper n) =
            (-Complex.I * eval ρ t) • sem (gateSem n ρ) ρ gen := by
          rw [h3, ← lift_smul]; rfl
        rw [this]
        rfl
  obtain ⟨T, h1, h2, h3⟩ := hasMatrix_tensor (qubitOrder en fs) hnd hlt ρ (Prim.tensor ρ en ord fs) fs
    (length_qubitOrder en fs) hne (primSem n ρ ord ho) b hl
  refine ⟨T, h1, by rw [h2, length_qubitOrder], ?_⟩
  rw [isMatrixOf_iff, basisOrder_eq en fs os hn hos]
  exact h3

/-! ## Counterexamples -/

/-- `TDagger` has no matrix: its name is not in the table. -/
theorem C08_counterexample_tdagger (ρ : Env) (en : Endian) (ord : List ℕ → List ℕ) :
    blockToTensor ρ en ord [0] (.leaf (.fixed .TDagger 0) none) = .error .typeError := rfl

/-- `N(0, state="0")` is the projector on 0, but the matrix is the projector on 1. -/
theorem C08_counterexample_n_state (ρ : Env) (ord : List ℕ → List ℕ) :
    ∃ T, blockToTensor ρ .big ord [0] (.leaf (.fixed (.N false) 0) none) = .ok T ∧
      ¬ IsMatrixOf [0] T.e (sem (gateSem 1 ρ) ρ (.leaf (.fixed (.N false) 0) none)) := by
  refine ⟨NMAT, rfl, fun h => ?_⟩
  have := h (fun _ => false) (fun _ => false)
  simp [sem_leaf, gateDen, embed1, mat1, ind, index, NMAT, TMat.ofRows, bit] at this

/-- The matrix of `Projector(ket="0", bra="1")` is the one of |1><0|. -/
theorem C08_counterexample_projector (ρ : Env) (ord : List ℕ → List ℕ) :
    ∃ T, blockToTensor ρ .big ord [0] (.leaf (.proj [false] [true] [0]) none) = .ok T ∧
      ¬ IsMatrixOf [0] T.e (sem (gateSem 1 ρ) ρ (.leaf (.proj [false] [true] [0]) none)) := by
  refine ⟨projMatrix [false] [true], rfl, fun h => ?_⟩
  have := h (fun _ => true) (fun _ => false)
  simp [sem_leaf, gateDen, embed, ind, index, projMatrix, bitsIndex, bit] at this

/-- The order of the qubits of a `Projector` is ignored: |10><10| on the qubits (1, 0) becomes |10><10| on (0, 1). -/
theorem C08_counterexample_unsorted (ρ : Env) (ord : List ℕ → List ℕ) :
    ∃ T, blockToTensor ρ .big ord [0, 1] (.leaf (.proj [true, false] [true, false] [1, 0]) none) = .ok T ∧
      ¬ IsMatrixOf [0, 1] T.e (sem (gateSem 2 ρ) ρ (.leaf (.proj [true, false] [true, false] [1, 0]) none)) := by
  refine ⟨projMatrix [true, false] [true, false], ?_, fun h => ?_⟩
  · simp [blockToTensor, Block.tensor, Gate.tensor, controlTensor, baseTensor, fillIdentities]
  · have := h (fun j => j = 1) (fun j => j = 1)
    simp [sem_leaf, gateDen, embed, ind, index, projMatrix, bitsIndex, bit, Fin.forall_fin_two] at this

/-- For little endian the order of the qubits within a `Projector` is not reversed. -/
theorem C08_counterexample_little_endian (ρ : Env) (ord : List ℕ → List ℕ) :
    ∃ T, blockToTensor ρ .little ord [0, 1] (.leaf (.proj [true, false] [true, false] [0, 1]) none) = .ok T ∧
      ¬ IsMatrixOf [1, 0] T.e (sem (gateSem 2 ρ) ρ (.leaf (.proj [true, false] [true, false] [0, 1]) none)) := by
  refine ⟨projMatrix [true, false] [true, false], ?_, fun h => ?_⟩
  · simp [blockToTensor, Block.tensor, Gate.tensor, controlTensor, baseTensor, fillIdentities]
  · have := h (fun j => j = 0) (fun j => j = 0)
    simp [sem_leaf, gateDen, embed, ind, index, projMatrix, bitsIndex, bit, Fin.forall_fin_two] at this

/-- A `Projector` on the qubits (0, 2) of a register of three qubits becomes one on the qubits (0, 1). -/
theorem C08_counterexample_gap (ρ : Env) (ord : List ℕ → List ℕ) :
    ∃ T, blockToTensor ρ .big ord [0, 1, 2] (.leaf (.proj [true, true] [true, true] [0, 2]) none) = .ok T ∧
      ¬ IsMatrixOf [0, 1, 2] T.e (sem (gateSem 3 ρ) ρ (.leaf (.proj [true, true] [true, true] [0, 2]) none)) := by
  refine ⟨(projMatrix [true, true] [true, true]).kron IMAT, ?_, fun h => ?_⟩
  · simp [blockToTensor, Block.tensor, Gate.tensor, controlTensor, baseTensor, fillIdentities]
  · have := h (fun j => j ≠ 1) (fun j => j ≠ 1)
    simp [sem_leaf, gateDen, embed, ind, index, projMatrix, bitsIndex, bit, Fin.forall_fin_two, TMat.kron, IMAT,
      TMat.ofRows] at this

/-- A block outside of the given support is silently replaced by the identity. -/
theorem C08_counterexample_outside (ρ : Env) (ord : List ℕ → List ℕ) :
    ∃ T, blockToTensor ρ .big ord [0] (.leaf (.fixed .X 1) none) = .ok T ∧ T = IMAT := ⟨_, rfl, rfl⟩

/-! ## Examples for the hypotheses -/

example : AllLeaves (TensorOk .big [2, 0, 1])
    (.comp .chain [.leaf (Gate.toffoli [2, 0] 1) none, .comp .kron [.leaf (Gate.crx 0 2 (.var "x")) none,
      .leaf (.u 1 (.var "a") .pi (.num 1 0)) none] none,
      .scale (.comp .add [.leaf (.swap 0 2) none, .leaf (Gate.cswap 1 0 2) none,
        .leaf (.proj [true, false] [true, false] [1, 2]) none] none) (.var "y") (some "obs")] none) := by
  simp only [AllLeaves, AllLeavesList, TensorOk, Gate.toffoli, Gate.crx, Gate.cswap, BaseOk, Consecutive]
  refine ⟨?_, ⟨?_, ?_, trivial⟩, ⟨?_, ?_, ?_, trivial⟩, trivial⟩
  · rw [if_neg (by decide)]
    exact ⟨by decide, by decide, by decide, ⟨1, by decide, rfl, by decide⟩, by decide, by decide, by decide⟩
  · rw [if_neg (by decide)]
    exact ⟨by decide, by decide, by decide, ⟨2, by decide, rfl, by decide⟩, by decide⟩
  · decide
  · decide
  · rw [if_pos trivial]
    exact ⟨1, 0, 2, rfl, rfl, by decide, by decide, by decide, by decide, by decide, by decide⟩
  · exact ⟨trivial, rfl, by decide, by decide, ⟨[0], [], by decide⟩, Or.inl trivial⟩

example : BasisOrder .big [2, 0, 1] [0, 1, 2] ∧ BasisOrder .little [2, 0, 1] [2, 1, 0] := by
  refine ⟨⟨fun q => ?_, by decide⟩, ⟨fun q => ?_, by decide⟩⟩ <;> simp <;> omega

example : AllLeaves (PrimTensorOk demoOrd .little [0, 1])
    (.comp .chain [.leaf (.gate (Gate.cnot 0 1) none) none,
      .leaf (.hamEvo (.comp .add [.leaf (.fixed .Z 0) none, .leaf (.fixed .X 1) none] none) (.var "t")) none] none) := by
  simp only [AllLeaves, AllLeavesList, PrimTensorOk, TensorOk, Gate.cnot, BaseOk]
  refine ⟨?_, ⟨⟨⟨by decide, by decide, by decide⟩, ⟨by decide, by decide, by decide⟩, trivial⟩, by decide⟩, trivial⟩
  rw [if_neg (by decide)]
  exact ⟨by decide, by decide, by decide, ⟨1, by decide, rfl, by decide⟩, by decide, by decide, by decide⟩

end Qadence
