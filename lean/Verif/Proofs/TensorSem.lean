import Verif.Proofs.Fill
import Verif.Proofs.GateSem
import Verif.Proofs.Except

/-! # The matrices of blocks are those of their operators -/

namespace Qadence

open Spec

variable {n : ℕ}

/-- The result is a matrix for the qubits `os` of the operator `M`. -/
def HasMatrix (os : List ℕ) (r : Except PyErr TMat) (M : Oper n) : Prop :=
  ∃ T, r = .ok T ∧ T.dim = 2 ^ os.length ∧ M = lift os T.e

theorem power_rep (os : List ℕ) (k : ℕ) (hk : os.length = k + 1) : Rep os (IMAT.power k) (agree os) := by
  induction k generalizing os with
  | zero =>
    obtain ⟨q, rfl⟩ := List.length_eq_one_iff.1 hk
    exact rep_imat q
  | succ k ih =>
    have hne : os ≠ [] := by rintro rfl; simp at hk
    rw [← List.dropLast_append_getLast hne]
    have := (ih os.dropLast (by simp [hk])).kron (rep_imat (os.getLast hne))
    have e : agree (os.dropLast ++ [os.getLast hne]) =
        fun u v => agree os.dropLast u v * agree [os.getLast hne] u v := by
      funext u v; exact agree_append _ _ u v
    rw [e]
    exact this

theorem hasMatrix_one (os fs : List ℕ) (hl : os.length = fs.length) (hne : fs ≠ []) :
    HasMatrix os (.ok (IMAT.power (fs.length - 1))) (1 : Oper n) := by
  have hp : 0 < fs.length := List.length_pos_of_ne_nil hne
  have hr := power_rep os (fs.length - 1) (by omega)
  refine ⟨_, rfl, hr.1, ?_⟩
  funext x y
  rw [lift_apply, hr.2, agree, Matrix.one_apply]
  by_cases h : x = y
  · subst h; simp
  · rw [if_neg h]
    split
    · next ho =>
      rw [if_neg]
      intro ha
      apply h
      funext j
      by_cases hj : (j : ℕ) ∈ os
      · have := ha _ hj
        rwa [bit_val, bit_val] at this
      · exact ho j hj
    · rfl

theorem zeroMat_e (i j : ℕ) : ZEROMAT.e i j = 0 := by
  rcases i with _ | _ | i <;> rcases j with _ | _ | j <;> simp [ZEROMAT, TMat.ofRows]

theorem zeroPower (k : ℕ) : (ZEROMAT.power k).dim = 2 ^ (k + 1) ∧ ∀ i j, (ZEROMAT.power k).e i j = 0 := by
  induction k with
  | zero => exact ⟨rfl, zeroMat_e⟩
  | succ k ih =>
    refine ⟨?_, fun i j => ?_⟩
    · simp only [TMat.power, TMat.kron, ih.1]
      rw [show ZEROMAT.dim = 2 from rfl, ← pow_succ]
    · simp [TMat.power, TMat.kron, ih.2]

theorem hasMatrix_zero (os fs : List ℕ) (hl : os.length = fs.length) (hne : fs ≠ []) :
    HasMatrix os (.ok (ZEROMAT.power (fs.length - 1))) (0 : Oper n) := by
  have hp : 0 < fs.length := List.length_pos_of_ne_nil hne
  have := zeroPower (fs.length - 1)
  refine ⟨_, rfl, ?_, ?_⟩
  · rw [this.1]; congr 1; omega
  · rw [← lift_zero os]
    exact lift_congr fun i j _ _ => (this.2 i j).symm

section
variable {L : Type}

theorem hasMatrix_tensorProd (os : List ℕ) (hn : os.Nodup) (hos : ∀ q ∈ os, q < n) (ρ : Env)
    (lt : L → Except PyErr TMat) (fs : List ℕ) (S : LeafSem L n) (bs : List (Block L))
    (ih : ∀ b ∈ bs, HasMatrix os (b.tensor ρ lt fs) (sem S ρ b)) (mat : TMat) (M : Oper n)
    (hM : HasMatrix os (.ok mat) M) :
    HasMatrix os (Block.tensorProd ρ lt fs mat bs) (opProd (bs.map (sem S ρ)) * M) := by
  induction bs generalizing mat M with
  | nil => simpa [Block.tensorProd, opProd] using hM
  | cons b bs ihb =>
    obtain ⟨mat', e, hd, hl⟩ := hM
    cases e
    obtain ⟨T, hT, hTd, hTl⟩ := ih b List.mem_cons_self
    have hmm : T.matmul mat = .ok (T.mul mat) := by rw [TMat.matmul, if_pos (by rw [hd, hTd])]
    have h2 : HasMatrix os (.ok (T.mul mat)) (sem S ρ b * M) := by
      refine ⟨_, rfl, hTd, ?_⟩
      rw [hTl, hl, ← lift_mul os hn hos]
      apply lift_congr
      intro i j _ _
      rw [TMat.mul, hTd]
    have := ihb (fun b hb => ih b (List.mem_cons_of_mem _ hb)) _ _ h2
    rw [Block.tensorProd, hT, ok_bind, hmm, ok_bind, List.map_cons, opProd, mul_assoc]
    exact this

theorem hasMatrix_tensorSum (os : List ℕ) (ρ : Env)
    (lt : L → Except PyErr TMat) (fs : List ℕ) (S : LeafSem L n) (bs : List (Block L))
    (ih : ∀ b ∈ bs, HasMatrix os (b.tensor ρ lt fs) (sem S ρ b)) (mat : TMat) (M : Oper n)
    (hM : HasMatrix os (.ok mat) M) :
    HasMatrix os (Block.tensorSum ρ lt fs mat bs) (M + (bs.map (sem S ρ)).sum) := by
  induction bs generalizing mat M with
  | nil => simpa [Block.tensorSum] using hM
  | cons b bs ihb =>
    obtain ⟨mat', e, hd, hl⟩ := hM
    cases e
    obtain ⟨T, hT, hTd, hTl⟩ := ih b List.mem_cons_self
    have hmm : mat.add T = .ok ⟨mat.dim, fun i j => mat.e i j + T.e i j⟩ := by rw [TMat.add, if_pos (by rw [hd, hTd])]
    have h2 : HasMatrix os (.ok ⟨mat.dim, fun i j => mat.e i j + T.e i j⟩) (M + sem S ρ b) := by
      refine ⟨_, rfl, hd, ?_⟩
      rw [hTl, hl, ← lift_add os]
    have := ihb (fun b hb => ih b (List.mem_cons_of_mem _ hb)) _ _ h2
    rw [Block.tensorSum, hT, ok_bind, hmm, ok_bind, List.map_cons, List.sum_cons, ← add_assoc]
    exact this

/-- Scale and composite blocks: if the matrices of the leaves are right, so is the one of the block. -/
theorem hasMatrix_tensor (os : List ℕ) (hn : os.Nodup) (hos : ∀ q ∈ os, q < n) (ρ : Env)
    (lt : L → Except PyErr TMat) (fs : List ℕ) (hl : os.length = fs.length) (hne : fs ≠ []) (S : LeafSem L n)
    (b : Block L) (hb : AllLeaves (fun l => HasMatrix os (lt l) (S.den l)) b) :
    HasMatrix os (b.tensor ρ lt fs) (sem S ρ b) := by
  induction b using Block.induction with
  | leaf l t => rw [sem_leaf, Block.tensor]; simpa only [AllLeaves] using hb
  | scale b s t ih =>
    simp only [AllLeaves] at hb
    obtain ⟨T, hT, hTd, hTl⟩ := ih hb
    refine ⟨T.smul (eval ρ s), ?_, hTd, ?_⟩
    · rw [Block.tensor, hT, ok_bind]; rfl
    · rw [sem_scale, hTl, ← lift_smul]; rfl
  | comp k bs t ih =>
    simp only [AllLeaves, allLeavesList_iff] at hb
    have ih' : ∀ b ∈ bs, HasMatrix os (b.tensor ρ lt fs) (sem S ρ b) := fun b hbm => ih b hbm (hb b hbm)
    cases k with
    | chain =>
      have := hasMatrix_tensorProd os hn hos ρ lt fs S bs ih' _ _ (hasMatrix_one os fs hl hne)
      rw [sem_chain, Block.tensor]
      · rwa [mul_one] at this
      · simp
    | kron =>
      have := hasMatrix_tensorProd os hn hos ρ lt fs S bs ih' _ _ (hasMatrix_one os fs hl hne)
      rw [sem_kron, Block.tensor]
      · rwa [mul_one] at this
      · simp
    | add =>
      have := hasMatrix_tensorSum os ρ lt fs S bs ih' _ _ (hasMatrix_zero os fs hl hne)
      rw [sem_add, Block.tensor]
      rwa [zero_add] at this

end

/-! ## Controlled operations -/

/-- The projector on all control qubits being 1. -/
noncomputable def onesProj (cs : List ℕ) : Oper n :=
  Matrix.diagonal fun x => if ∀ c ∈ cs, bit x c = true then 1 else 0

theorem gateDen_p1 (ρ : Env) (c : ℕ) : (gateDen ρ (.proj [true] [true] [c]) : Oper n) = onesProj [c] := by
  funext x y
  simp only [gateDen, embed, onesProj, Matrix.diagonal_apply, Matrix.of_apply, ind, List.mem_singleton, forall_eq]
  by_cases h : x = y
  · subst h
    simp
  · rw [if_neg h]
    split
    · next ho =>
      rw [if_neg]
      rintro ⟨h1, h2⟩
      apply h
      funext j
      by_cases hj : c = j
      · have a := h1 ⟨0, by simp⟩
        have b := h2 ⟨0, by simp⟩
        simp only [Fin.getElem_fin, List.getElem_cons_zero, hj, bit_val, List.getD_cons_zero] at a b
        rw [a, b]
      · exact ho j fun i => by
          have : (i : ℕ) = 0 := Nat.lt_one_iff.1 i.2
          simp only [Fin.getElem_fin, this, List.getElem_cons_zero]
          exact hj
    · rfl

theorem onesProj_mul (cs ds : List ℕ) : (onesProj cs * onesProj ds : Oper n) = onesProj (cs ++ ds) := by
  rw [onesProj, onesProj, Matrix.diagonal_mul_diagonal, onesProj]
  refine congrArg Matrix.diagonal (funext fun x => ?_)
  rw [ite_zero_mul_ite_zero, mul_one]
  congr 1
  simp only [List.mem_append, or_imp, forall_and]

theorem opProd_p1 (ρ : Env) (cs : List ℕ) :
    opProd (cs.map fun c => (gateDen ρ (.proj [true] [true] [c]) : Oper n)) = onesProj cs := by
  induction cs with
  | nil =>
    simp only [List.map_nil, opProd, onesProj, List.not_mem_nil, false_implies, implies_true, if_true,
      Matrix.diagonal_one]
  | cons c cs ih =>
    rw [List.map_cons, opProd, ih, gateDen_p1, onesProj_mul]
    refine congrArg Matrix.diagonal (funext fun x => ?_)
    congr 1
    apply propext
    exact forall_congr' fun _ => by simp [or_comm]

/-- A controlled operation as a sum. -/
theorem controlled_eq (cs : List ℕ) (M : Oper n) (S : Set ℕ) (hM : ActsOn S M) (hd : ∀ c ∈ cs, c ∉ S) :
    controlled cs M = (1 + (-1 : ℂ) • onesProj cs) + M * onesProj cs := by
  funext x y
  rw [Matrix.add_apply, Matrix.add_apply, Matrix.smul_apply, onesProj, Matrix.mul_diagonal, Matrix.one_apply,
    Matrix.diagonal_apply, controlled]
  have hz : ∀ c ∈ cs, bit x c ≠ bit y c → M x y = 0 := by
    intro c hc hne
    by_cases h : c < n
    · apply (hM ⟨c, h⟩ (hd c hc)).1
      simpa [bit, h] using hne
    · simp [bit, h] at hne
  by_cases hx : ∀ c ∈ cs, bit x c = true
  · rw [if_pos hx]
    by_cases hy : ∀ c ∈ cs, bit y c = true
    · rw [if_pos hy, if_pos hx]
      by_cases e : x = y <;> simp [e]
    · have e : x ≠ y := fun e => hy (e ▸ hx)
      rw [if_neg hy, if_neg e, if_neg e]
      push Not at hy
      obtain ⟨c, hc, hne⟩ := hy
      rw [hz c hc (by rw [hx c hc]; exact fun h => hne h.symm)]
      simp
  · rw [if_neg hx]
    by_cases hy : ∀ c ∈ cs, bit y c = true
    · have e : x ≠ y := fun e => hx (e ▸ hy)
      rw [if_pos hy, if_neg e, if_neg e]
      push Not at hx
      obtain ⟨c, hc, hne⟩ := hx
      rw [hz c hc (by rw [hy c hc]; exact hne)]
      simp
    · rw [if_neg hy, if_neg hx]
      by_cases e : x = y <;> simp [e]

theorem mat1_I : (embed1 q (mat1 .I) : Oper n) = 1 := by
  funext x y
  simp only [embed1, mat1, Matrix.one_apply]
  by_cases h : x = y
  · subst h; simp
  · rw [if_neg h]
    split
    · next ho =>
      rw [if_neg]
      intro hb
      apply h
      funext j
      by_cases hj : q = j
      · rw [hj, bit_val, bit_val] at hb; exact hb
      · exact ho j hj
    · rfl

theorem sem_controlledBlock (ρ : Env) (ord : List ℕ → List ℕ) (ho : Block.SetOrder ord) (cs : List ℕ) (t : ℕ)
    (inner : Gate) (hcs : cs ≠ []) (hnd : cs.Nodup) (hs : inner.supp = [t]) (ht : t ∉ cs) :
    ∃ b, controlledBlock ord cs t inner = .ok b ∧
      sem (gateSem n ρ) ρ b = controlled cs (gateDen ρ inner) ∧
      ∀ P : Gate → Prop, (∀ c ∈ cs, P (.proj [true] [true] [c])) → (∀ c ∈ cs, P (.fixed .I c)) → P (.fixed .I t) →
        P inner → AllLeaves P b := by
  have hq1 : ∀ c, qubits Gate.supp (p1Block c) = {c} := by
    intro c
    rw [p1Block, qubits_leaf]
    simp [Gate.supp]
  have hk1 : Block.kronOf Gate.supp ord (cs.map p1Block) = .ok (.comp .kron (cs.map p1Block) none) := by
    rw [Block.kronOf_ok_iff _ _ ho]
    refine ⟨rfl, by simpa using hcs, ?_⟩
    rw [List.pairwise_map]
    refine hnd.imp ?_
    intro a b hab
    rw [hq1, hq1]
    simpa using hab
  have hqP : ∀ q, q ∈ qubits Gate.supp (.comp .kron (cs.map p1Block) none) ↔ q ∈ cs := by
    intro q
    rw [mem_qubits_comp]
    simp [hq1]
  obtain ⟨c0, ct, rfl⟩ := List.exists_cons_of_ne_nil hcs
  have hmin : Block.minus (.comp .kron ((c0 :: ct).map p1Block) none) =
      .scale (.comp .kron ((c0 :: ct).map p1Block) none) (.num (-1) 0) none := rfl
  have hk2 : Block.kronOf Gate.supp ord [Block.addOf [.leaf (.fixed .I c0) none,
      Block.minus (.comp .kron ((c0 :: ct).map p1Block) none)], .leaf (.fixed .I t) none] = .ok (.comp .kron
      [Block.addOf [.leaf (.fixed .I c0) none,
      Block.minus (.comp .kron ((c0 :: ct).map p1Block) none)], .leaf (.fixed .I t) none] none) := by
    rw [Block.kronOf_ok_iff _ _ ho]
    refine ⟨rfl, by simp, ?_⟩
    rw [List.pairwise_pair, Set.disjoint_left]
    intro q hq hq'
    rw [qubits_leaf] at hq'
    simp only [Gate.supp, List.mem_singleton, Set.mem_setOf_eq] at hq'
    subst hq'
    apply ht
    rw [Block.addOf, mem_qubits_comp] at hq
    simp only [List.mem_cons, List.not_mem_nil, or_false, exists_eq_or_imp, exists_eq_left] at hq
    rcases hq with hq | hq
    · rw [qubits_leaf] at hq
      simp only [Gate.supp, List.mem_singleton, Set.mem_setOf_eq] at hq
      rw [hq]; simp
    · rw [hmin, qubits_scale] at hq
      exact (hqP q).1 hq
  have hk3 : Block.kronOf Gate.supp ord [.comp .kron ((c0 :: ct).map p1Block) none, .leaf inner none] = .ok (.comp .kron
      [.comp .kron ((c0 :: ct).map p1Block) none, .leaf inner none] none) := by
    rw [Block.kronOf_ok_iff _ _ ho]
    refine ⟨rfl, by simp, ?_⟩
    rw [List.pairwise_pair, Set.disjoint_left]
    intro q hq hq'
    rw [qubits_leaf, hs] at hq'
    simp only [List.mem_singleton, Set.mem_setOf_eq] at hq'
    subst hq'
    exact ht ((hqP q).1 hq)
  refine ⟨_, by simp only [controlledBlock, hk1, hk2, hk3, ok_bind]; rfl, ?_, ?_⟩
  · have hP : sem (gateSem n ρ) ρ (.comp .kron ((c0 :: ct).map p1Block) none) = onesProj (c0 :: ct) := by
      rw [sem_kron, ← opProd_p1 ρ, List.map_map]
      congr 1
    rw [hmin]
    generalize Block.comp CKind.kron ((c0 :: ct).map p1Block) none = PB at hP ⊢
    simp only [Block.addOf, sem_add, sem_kron, sem_leaf, List.map_cons, List.map_nil, List.sum_cons,
      List.sum_nil, add_zero, sem_scale, eval_negOne, opProd, one_mul, gateSem_den, hP]
    rw [show gateDen ρ (.fixed .I c0) = (1 : Oper n) from mat1_I,
      show gateDen ρ (.fixed .I t) = (1 : Oper n) from mat1_I, one_mul,
      controlled_eq _ _ _ (gateDen_actsOn ρ inner)]
    intro c hc h
    rw [hs] at h
    simp only [List.mem_singleton, Set.mem_setOf_eq] at h
    exact ht (h ▸ hc)
  · intro P h1 h2 h3 h4
    have hp : AllLeaves P (.comp .kron ((c0 :: ct).map p1Block) none) := by
      simp only [AllLeaves, allLeavesList_iff]
      intro b hb
      obtain ⟨c, hc, rfl⟩ := List.mem_map.1 hb
      exact h1 c hc
    rw [hmin]
    simp only [Block.addOf, AllLeaves, AllLeavesList] at hp ⊢
    exact ⟨⟨⟨h2 c0 List.mem_cons_self, hp, trivial⟩, h3, trivial⟩, ⟨hp, h4, trivial⟩, trivial⟩

/-! ## Permutations of basis states -/

/-- The operator which maps basis states by `f`. -/
noncomputable def mapOp (f : St n → St n) : Oper n := Matrix.of fun x y => if x = f y then 1 else 0

theorem mapOp_mul (f g : St n → St n) : mapOp f * mapOp g = mapOp (f ∘ g) := by
  ext x y
  rw [Matrix.mul_apply, Finset.sum_eq_single (g y)]
  · simp [mapOp]
  · intro z _ hz; simp [mapOp, hz]
  · simp

/-- Flip the target if all controls are 1. -/
def ctrlFlip (cs : List ℕ) (t : ℕ) (y : St n) : St n :=
  fun j => if (j : ℕ) = t ∧ ∀ c ∈ cs, bit y c = true then !(y j) else y j

theorem controlled_X (ρ : Env) (cs : List ℕ) (t : ℕ) (htn : t < n) (ht : t ∉ cs) :
    controlled cs (gateDen ρ (.fixed .X t)) = (mapOp (ctrlFlip cs t) : Oper n) := by
  funext x y
  simp only [controlled, gateDen, embed1, mat1, ind, mapOp, Matrix.of_apply]
  have key : ∀ z w : St n, (∀ j : Fin n, t ≠ j → z j = w j) → ((∀ c ∈ cs, bit z c = true) ↔ ∀ c ∈ cs, bit w c = true) := by
    intro z w h
    refine forall_congr' fun c => imp_congr_right fun hc => ?_
    have : bit z c = bit w c := by
      unfold bit
      split
      · next hcn => exact h ⟨c, hcn⟩ fun e => ht (by simp only at e; exact e ▸ hc)
      · rfl
    rw [this]
  have hf : ∀ j : Fin n, t ≠ j → ctrlFlip cs t y j = y j := by
    intro j hj
    rw [ctrlFlip, if_neg]
    exact fun h => hj h.1.symm
  by_cases hx : ∀ c ∈ cs, bit x c = true
  · rw [if_pos hx]
    by_cases ho : ∀ j : Fin n, t ≠ j → x j = y j
    · rw [if_pos ho]
      have hy := (key x y ho).1 hx
      congr 1
      apply propext
      have hft : ctrlFlip cs t y ⟨t, htn⟩ = !(y ⟨t, htn⟩) := by rw [ctrlFlip, if_pos ⟨rfl, hy⟩]
      have hbx : bit x t = x ⟨t, htn⟩ := by simp [bit, htn]
      have hby : bit y t = y ⟨t, htn⟩ := by simp [bit, htn]
      rw [hbx, hby]
      constructor
      · intro hne
        funext j
        by_cases hj : t = j
        · have : j = ⟨t, htn⟩ := Fin.ext hj.symm
          rw [this, hft]
          revert hne
          cases x ⟨t, htn⟩ <;> cases y ⟨t, htn⟩ <;> simp
        · rw [ho j hj, hf j hj]
      · rintro e
        rw [e, hft]
        cases y ⟨t, htn⟩ <;> simp
    · rw [if_neg ho, if_neg]
      intro e
      exact ho fun j hj => by rw [e, hf j hj]
  · rw [if_neg hx]
    congr 1
    apply propext
    constructor
    · rintro rfl
      funext j
      rw [ctrlFlip, if_neg]
      exact fun h => hx h.2
    · intro e
      have ho : ∀ j : Fin n, t ≠ j → x j = y j := fun j hj => by rw [e, hf j hj]
      have hy : ¬ ∀ c ∈ cs, bit y c = true := fun h => hx ((key x y ho).2 h)
      rw [e]
      funext j
      rw [ctrlFlip, if_neg]
      exact fun h => hy h.2

/-- Exchange two bits. -/
def swapSt (a b : ℕ) (y : St n) : St n :=
  fun j => if (j : ℕ) = a then bit y b else if (j : ℕ) = b then bit y a else y j

theorem swapOp_eq (a b : ℕ) : (swapOp a b : Oper n) = mapOp (swapSt a b) := by
  funext x y
  simp only [swapOp, mapOp, Matrix.of_apply, swapSt, funext_iff]

theorem bit_ctrlFlip (cs : List ℕ) (t : ℕ) (y : St n) (htn : t < n) (q : ℕ) :
    bit (ctrlFlip cs t y) q = if q = t ∧ ∀ c ∈ cs, bit y c = true then !(bit y q) else bit y q := by
  unfold bit ctrlFlip
  by_cases hq : q < n
  · simp only [hq, dite_true]
    rfl
  · have : q ≠ t := by omega
    simp [hq, this]

theorem st_ext {x y : St n} (h : ∀ q, q < n → bit x q = bit y q) : x = y := by
  funext j
  have := h j j.2
  rwa [bit_val, bit_val] at this

theorem bit_swapSt (a b : ℕ) (y : St n) (ha : a < n) (hb : b < n) (q : ℕ) :
    bit (swapSt a b y) q = if q = a then bit y b else if q = b then bit y a else bit y q := by
  unfold bit swapSt
  by_cases hq : q < n
  · simp only [hq, dite_true]
    rfl
  · have h1 : q ≠ a := by omega
    have h2 : q ≠ b := by omega
    simp [hq, h1, h2]

theorem swap_flips (a b : ℕ) (ha : a < n) (hb : b < n) (hab : a ≠ b) :
    (ctrlFlip [a] b ∘ ctrlFlip [b] a ∘ ctrlFlip [a] b : St n → St n) = swapSt a b := by
  funext y
  apply st_ext
  intro q _
  have hba : b ≠ a := hab.symm
  simp only [Function.comp, bit_ctrlFlip _ _ _ ha, bit_ctrlFlip _ _ _ hb, bit_swapSt _ _ _ ha hb, List.mem_singleton,
    forall_eq, hab, hba, true_and, false_and, if_false]
  by_cases hqa : q = a
  · subst hqa
    simp only [hab, if_false, false_and, if_true, true_and]
    cases bit y q <;> cases bit y b <;> simp
  · by_cases hqb : q = b
    · subst hqb
      simp only [hba, if_false, false_and, if_true, true_and]
      cases bit y q <;> cases bit y a <;> simp
    · simp [hqa, hqb]

theorem cswap_flips (c a b : ℕ) (ha : a < n) (hb : b < n) (hab : a ≠ b) (hca : c ≠ a) (hcb : c ≠ b) :
    (ctrlFlip [c, b] a ∘ ctrlFlip [c, a] b ∘ ctrlFlip [c, b] a : St n → St n) =
      fun y => if bit y c = true then swapSt a b y else y := by
  funext y
  apply st_ext
  intro q _
  have hba : b ≠ a := hab.symm
  by_cases hc : bit y c = true
  · rw [if_pos hc]
    simp only [Function.comp, bit_ctrlFlip _ _ _ ha, bit_ctrlFlip _ _ _ hb, bit_swapSt _ _ _ ha hb, List.mem_cons,
      List.not_mem_nil, or_false, forall_eq_or_imp, forall_eq, hab, hba, hca, hcb, hc, true_and, false_and, if_false]
    by_cases hqa : q = a
    · subst hqa
      simp only [hab, if_false, false_and, if_true, true_and]
      cases bit y q <;> cases bit y b <;> simp
    · by_cases hqb : q = b
      · subst hqb
        simp only [hba, if_false, false_and, if_true, true_and]
        cases bit y q <;> cases bit y a <;> simp
      · simp [hqa, hqb]
  · rw [if_neg hc]
    simp only [Function.comp, bit_ctrlFlip _ _ _ ha, bit_ctrlFlip _ _ _ hb, List.mem_cons,
      List.not_mem_nil, or_false, forall_eq_or_imp, forall_eq, hab, hba, hca, hcb, hc, true_and, false_and, if_false,
      and_false, Bool.false_eq_true]

theorem controlled_swap (c a b : ℕ) (ha : a < n) (hb : b < n) (hca : c ≠ a) (hcb : c ≠ b) :
    (controlled [c] (swapOp a b) : Oper n) = mapOp fun y => if bit y c = true then swapSt a b y else y := by
  funext x y
  rw [swapOp_eq]
  simp only [controlled, mapOp, Matrix.of_apply, List.mem_singleton, forall_eq]
  have hsw : ∀ y : St n, bit (swapSt a b y) c = bit y c := fun y => by
    rw [bit_swapSt _ _ _ ha hb, if_neg hca, if_neg hcb]
  by_cases hx : bit x c = true <;> by_cases hy : bit y c = true
  · simp only [hx, hy, if_true]
  · simp only [hx, hy, if_true, if_false, Bool.false_eq_true]
    rw [if_neg, if_neg]
    · rintro rfl; exact hy hx
    · rintro rfl
      exact hy (hsw y ▸ hx)
  · simp only [hx, hy, if_true, if_false, Bool.false_eq_true]
    rw [if_neg, if_neg]
    · rintro rfl
      exact hx ((hsw y).symm ▸ hy)
    · rintro rfl; exact hx hy
  · simp only [hx, hy, if_false, Bool.false_eq_true]

theorem sem_swapBlock (ρ : Env) (a b : ℕ) (ha : a < n) (hb : b < n) (hab : a ≠ b) :
    sem (gateSem n ρ) ρ (swapBlock a b) = gateDen ρ (.swap a b) := by
  simp only [swapBlock, Block.chainOf, sem_chain, List.map_cons, List.map_nil, sem_leaf, gateSem_den, opProd, one_mul,
    Gate.cnot]
  have h1 : (gateDen ρ (.control .CNOT [a] (.fixed .X b)) : Oper n) = mapOp (ctrlFlip [a] b) :=
    controlled_X ρ [a] b hb (by simpa using hab.symm)
  have h2 : (gateDen ρ (.control .CNOT [b] (.fixed .X a)) : Oper n) = mapOp (ctrlFlip [b] a) :=
    controlled_X ρ [b] a ha (by simpa using hab)
  rw [h1, h2, mapOp_mul, mapOp_mul, gateDen, swapOp_eq, ← swap_flips a b ha hb hab]
  rfl

theorem sem_cswapBlock (ρ : Env) (c a b : ℕ) (ha : a < n) (hb : b < n) (hab : a ≠ b) (hca : c ≠ a) (hcb : c ≠ b) :
    sem (gateSem n ρ) ρ (cswapBlock c a b) = gateDen ρ (Gate.cswap c a b) := by
  simp only [cswapBlock, Block.chainOf, sem_chain, List.map_cons, List.map_nil, sem_leaf, gateSem_den, opProd, one_mul,
    Gate.toffoli, Gate.cswap]
  have h1 : (gateDen ρ (.control .Toffoli [c, b] (.fixed .X a)) : Oper n) = mapOp (ctrlFlip [c, b] a) :=
    controlled_X ρ [c, b] a ha (by simp [hca.symm, hab])
  have h2 : (gateDen ρ (.control .Toffoli [c, a] (.fixed .X b)) : Oper n) = mapOp (ctrlFlip [c, a] b) :=
    controlled_X ρ [c, a] b hb (by simp [hcb.symm, hab.symm])
  have h3 : (gateDen ρ (.control .CSWAP [c] (.swap a b)) : Oper n) = controlled [c] (swapOp a b) := rfl
  rw [h1, h2, mapOp_mul, mapOp_mul, h3, controlled_swap c a b ha hb hca hcb, ← cswap_flips c a b ha hb hab hca hcb]
  rfl

end Qadence
