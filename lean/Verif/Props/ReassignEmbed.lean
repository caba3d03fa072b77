import Verif.Proofs.Place
import Verif.Props.Padding

/-!
# C15: relabelling into a larger register
-/

namespace Qadence

open Spec Matrix Block

variable {n m : ℕ}

/-- **C15**: `reassign` along an injective map of the qubits of a register into a larger register succeeds; the new block
acts on the new qubits of the larger register as the block did, and as the identity on the others. -/
theorem C15_reassign_embeds_partial (ρ : Env) {ord : List ℕ → List ℕ} (ho : Block.SetOrder ord) (M : QMap) (f : Fin n ↪ Fin m)
    (b : Block Gate) (hw : WellFormed Gate.supp b) (hn : ∀ q ∈ qubits Gate.supp b, q < n)
    (hM : ∀ i : Fin n, (i : ℕ) ∈ qubits Gate.supp b → M.get i = .ok (f i)) :
    ∃ b', b.reassignGates ord M = .ok b' ∧ WellFormed Gate.supp b' ∧
      (∀ q, q ∈ qubits Gate.supp b' ↔ ∃ i : Fin n, (i : ℕ) ∈ qubits Gate.supp b ∧ (f i : ℕ) = q) ∧
      sem (gateSem m ρ) ρ b' = place f (sem (gateSem n ρ) ρ b) :=
  reassign_place ρ ho M f b hw hn hM

/-- A controlled gate and a rotation of two qubits moved to qubits 3 and 1 of a register of five qubits. -/
example (ρ : Env) : ∃ b',
    (Block.comp .chain [.leaf (Gate.cnot 0 1) none, .leaf (.rot .RX 1 (.var "x")) none] none).reassignGates demoOrd
      [(0, 3), (1, 1)] = .ok b' ∧
    sem (gateSem 5 ρ) ρ b' = place (n := 2) ⟨fun i => if i = 0 then 3 else 1, by decide⟩
      (sem (gateSem 2 ρ) ρ (.comp .chain [.leaf (Gate.cnot 0 1) none, .leaf (.rot .RX 1 (.var "x")) none] none)) := by
  obtain ⟨b', h1, -, -, h2⟩ := C15_reassign_embeds_partial (n := 2) (m := 5) ρ demoOrd_setOrder [(0, 3), (1, 1)]
    ⟨fun i => if i = 0 then 3 else 1, by decide⟩
    (.comp .chain [.leaf (Gate.cnot 0 1) none, .leaf (.rot .RX 1 (.var "x")) none] none)
    (wellFormed_chain.2 fun b hb => by
      simp only [List.mem_cons, List.not_mem_nil, or_false] at hb
      rcases hb with rfl | rfl <;> trivial)
    (by simp [mem_qubits_comp, qubits_leaf, Gate.cnot, Gate.supp])
    (by intro i _; fin_cases i <;> rfl)
  exact ⟨b', h1, h2⟩

end Qadence
