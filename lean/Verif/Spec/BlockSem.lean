import Verif.Spec.Operator
import Verif.Model.Block

/-!
# The operator denoted by a block (specification)
-/

namespace Qadence.Spec

open Matrix

variable {L : Type} {n : ℕ}

/-- Meaning of primitive blocks: the qubits they act on and their operators. -/
structure LeafSem (L : Type) (n : ℕ) where
  supp : L → List ℕ
  den : L → Oper n
  acts : ∀ l, ActsOn {q | q ∈ supp l} (den l)

/-- Apply the operators one after the other, the first one first. -/
def opProd : List (Oper n) → Oper n
  | [] => 1
  | M :: Ms => opProd Ms * M

mutual
/-- The operator of a block: scale blocks multiply by a number, chains apply their parts one after the other,
krons apply all their parts (which act on different qubits, so that the order is irrelevant), adds sum up. -/
noncomputable def sem (S : LeafSem L n) (ρ : Env) : Block L → Oper n
  | .leaf l _ => S.den l
  | .scale b s _ => eval ρ s • sem S ρ b
  | .comp .chain bs _ => opProd (semList S ρ bs)
  | .comp .kron bs _ => opProd (semList S ρ bs)
  | .comp .add bs _ => (semList S ρ bs).sum
/-- The operators of a list of blocks. -/
noncomputable def semList (S : LeafSem L n) (ρ : Env) : List (Block L) → List (Oper n)
  | [] => []
  | b :: bs => sem S ρ b :: semList S ρ bs
end

mutual
/-- Qubits occurring in a block. -/
def qubits (supp : L → List ℕ) : Block L → Set ℕ
  | .leaf l _ => {q | q ∈ supp l}
  | .scale b _ _ => qubits supp b
  | .comp _ bs _ => qubitsList supp bs
/-- Qubits occurring in a list of blocks. -/
def qubitsList (supp : L → List ℕ) : List (Block L) → Set ℕ
  | [] => ∅
  | b :: bs => qubits supp b ∪ qubitsList supp bs
end

mutual
/-- The parts of every kron inside the block act on pairwise different qubits (as `KronBlock.__init__`
enforces). -/
def WellFormed (supp : L → List ℕ) : Block L → Prop
  | .leaf _ _ => True
  | .scale b _ _ => WellFormed supp b
  | .comp .kron bs _ => bs ≠ [] ∧ bs.Pairwise (fun a b => Disjoint (qubits supp a) (qubits supp b)) ∧
      WellFormedList supp bs
  | .comp _ bs _ => WellFormedList supp bs
/-- `WellFormed` for all elements. -/
def WellFormedList (supp : L → List ℕ) : List (Block L) → Prop
  | [] => True
  | b :: bs => WellFormed supp b ∧ WellFormedList supp bs
end

end Qadence.Spec
