import Mathlib.Tactic.LinearCombination
import Verif.Spec.GateSem
import Verif.Proofs.BlockSem

/-!
# Locality of the primitive operators; their semantics as `LeafSem`
-/

namespace Qadence

open Matrix Spec

variable {n : ℕ}

namespace Spec

theorem eval_zero (ρ : Env) : eval ρ (.num 0 0) = 0 := by apply Complex.ext <;> simp [eval]

theorem eval_negOne (ρ : Env) : eval ρ (.num (-1) 0) = -1 := by apply Complex.ext <;> simp [eval]

theorem eval_neg (ρ : Env) (e : Expr) : eval ρ e.neg = -eval ρ e := by
  rw [Expr.neg]
  have : eval ρ (.mul (.num (-1) 0) e) = eval ρ (.num (-1) 0) * eval ρ e := rfl
  rw [this, eval_negOne, neg_one_mul]

theorem gateDen_actsOn (ρ : Env) (g : Gate) : ActsOn {q | q ∈ g.supp} (gateDen ρ g : Oper n) := by
  induction g with
  | fixed g q => simpa [gateDen, Gate.supp] using embed1_actsOn q _
  | rot g q θ => simpa [gateDen, Gate.supp] using embed1_actsOn q _
  | u q φ θ ω => simpa [gateDen, Gate.supp] using embed1_actsOn q _
  | swap a b =>
    have := swapOp_actsOn (n := n) a b
    simp only [gateDen, Gate.supp]
    apply this.mono
    intro q hq
    simpa using hq
  | proj ket bra qs =>
    simp only [gateDen, Gate.supp]
    apply (embed_actsOn _ _).mono
    rintro _ ⟨i, rfl⟩
    exact List.getElem_mem _
  | matrix rows qs =>
    simp only [gateDen, Gate.supp]
    apply (embed_actsOn _ _).mono
    rintro _ ⟨i, rfl⟩
    exact List.getElem_mem _
  | control cls cs g ih =>
    simp only [gateDen, Gate.supp]
    apply (controlled_actsOn cs ih).mono
    intro q hq
    simpa using hq

/-- Gates as leaves. -/
noncomputable def gateSem (n : ℕ) (ρ : Env) : LeafSem Gate n where
  supp := Gate.supp
  den := gateDen ρ
  acts := gateDen_actsOn ρ

@[simp] theorem gateSem_supp (ρ : Env) : (gateSem n ρ).supp = Gate.supp := rfl
@[simp] theorem gateSem_den (ρ : Env) (g : Gate) : (gateSem n ρ).den g = gateDen ρ g := rfl

/-- The one-qubit Pauli matrices at qubit `j`, used to express triviality by commutation. -/
def pauliZ (j : Fin n) : Oper n := Matrix.diagonal fun x => if x j then -1 else 1
def pauliX (j : Fin n) : Oper n := fun x y => if x = flipBit j y then 1 else 0

theorem trivialOn_iff_commute (j : Fin n) (M : Oper n) :
    TrivialOn j M ↔ Commute M (pauliZ j) ∧ Commute M (pauliX j) := by
  have hX : ∀ x y, (M * pauliX j) x y = M x (flipBit j y) := by
    intro x y
    rw [Matrix.mul_apply, Finset.sum_eq_single (flipBit j y)]
    · simp [pauliX]
    · intro z _ hz; simp [pauliX, hz]
    · simp
  have hX' : ∀ x y, (pauliX j * M) x y = M (flipBit j x) y := by
    intro x y
    rw [Matrix.mul_apply, Finset.sum_eq_single (flipBit j x)]
    · simp [pauliX]
    · intro z _ hz
      have : x ≠ flipBit j z := by rintro rfl; simp at hz
      simp [pauliX, this]
    · simp
  constructor
  · intro h
    constructor
    · ext x y
      simp only [pauliZ, Matrix.mul_diagonal, Matrix.diagonal_mul]
      by_cases hxy : x j = y j
      · rw [hxy, mul_comm]
      · rw [h.1 x y hxy]; simp
    · ext x y
      rw [hX, hX']
      have := h.2 x (flipBit j y)
      rw [flipBit_flipBit] at this
      exact this.symm
  · rintro ⟨hz, hx⟩
    constructor
    · intro x y hxy
      have := congrFun (congrFun hz x) y
      simp only [pauliZ, Matrix.mul_diagonal, Matrix.diagonal_mul] at this
      cases h1 : x j <;> cases h2 : y j
      · rw [h1, h2] at hxy; exact absurd rfl hxy
      · simp only [h1, h2, if_true, Bool.false_eq_true, if_false] at this
        linear_combination (-1 / 2) * this
      · simp only [h1, h2, if_true, Bool.false_eq_true, if_false] at this
        linear_combination (1 / 2) * this
      · rw [h1, h2] at hxy; exact absurd rfl hxy
    · intro x y
      have := congrFun (congrFun hx x) (flipBit j y)
      rw [hX, hX', flipBit_flipBit] at this
      exact this.symm

theorem TrivialOn.exp {j : Fin n} {M : Oper n} (h : TrivialOn j M) :
    TrivialOn j (NormedSpace.exp M) := by
  rw [trivialOn_iff_commute] at h ⊢
  exact ⟨h.1.exp_left, h.2.exp_left⟩

theorem evolution_actsOn {S : Set ℕ} {G : Oper n} (t : ℂ) (h : ActsOn S G) :
    ActsOn S (evolution t G) := fun j hj => ((h j hj).smul _).exp

/-- The operator of a primitive block. -/
noncomputable def primDen (ρ : Env) : Prim → Oper n
  | .gate g _ => gateDen ρ g
  | .hamEvo gen t => evolution (eval ρ t) (sem (gateSem n ρ) ρ gen)

/-- Primitive blocks as leaves. -/
noncomputable def primSem (n : ℕ) (ρ : Env) (ord : List ℕ → List ℕ) (h : Block.SetOrder ord) :
    LeafSem Prim n where
  supp := Prim.supp ord
  den := primDen ρ
  acts := by
    intro l
    cases l with
    | gate g _ => exact gateDen_actsOn ρ g
    | hamEvo gen t =>
      apply evolution_actsOn
      apply (sem_actsOn (gateSem n ρ) ρ gen).mono
      intro q hq
      exact (Block.mem_support _ ord h gen q).2 hq

end Spec

end Qadence
