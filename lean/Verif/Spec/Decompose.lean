import Verif.Spec.Measure

/-!
# Digital decompositions (specification)
-/

namespace Qadence.Spec

open Matrix

variable {n : ℕ}

/-- The block is a product of Pauli letters (also I and N) on different qubits below `n`: a single letter, or a chain
or kron whose parts are at least two letters. -/
structure Letters (n : ℕ) (term : Block Gate) (ps : List (FixedGate × ℕ)) : Prop where
  parts : (∃ g q t, term = .leaf (.fixed g q) t ∧ ps = [(g, q)]) ∨
    ∃ k bs t, term = .comp k bs t ∧ k ≠ .add ∧ 2 ≤ ps.length ∧ List.Forall₂ (fun b p => ∃ t, b = .leaf (.fixed p.1 p.2) t) bs ps
  pauli : ∀ p ∈ ps, p.1 = .X ∨ p.1 = .Y ∨ p.1 = .Z ∨ p.1 = .I ∨ ∃ d, p.1 = .N d
  inside : ∀ p ∈ ps, p.2 < n
  once : (ps.map Prod.snd).Nodup

/-- The qubits are a whole interval. -/
def Interval (qs : List ℕ) : Prop := ∃ a k, ∀ q, q ∈ qs ↔ a ≤ q ∧ q ≤ a + k

/-- A term whose exponential the decomposition gets right: letters X, Y, Z on different qubits without gap, and no composite
of a single part. -/
structure Plain (n : ℕ) (term : Block Gate) (ps : List (FixedGate × ℕ)) : Prop where
  string : PauliString n term ps
  once : (ps.map Prod.snd).Nodup
  interval : Interval (ps.map Prod.snd)
  many : ∀ k b t, term ≠ .comp k [b] t

/-- X or Y if the qubit carries this letter, otherwise Z. -/
noncomputable def filledLetter (ps : List (FixedGate × ℕ)) (q : ℕ) : Matrix Bool Bool ℂ :=
  if (.X, q) ∈ ps then mat1 .X else if (.Y, q) ∈ ps then mat1 .Y else mat1 .Z

/-- The product of X, Y and Z on all qubits from `a` to `a + k`, with Z on the qubits without X and Y. -/
noncomputable def filled (ps : List (FixedGate × ℕ)) (a k : ℕ) : Oper n :=
  opProd ((List.range' a (k + 1)).map fun q => embed1 q (filledLetter ps q))

/-- The number of letters Y. -/
def countY (ps : List (FixedGate × ℕ)) : ℕ := ps.countP fun p => p.1 = .Y

mutual
/-- No chain block inside. -/
def noChain {L : Type} : Block L → Prop
  | .leaf _ _ => True
  | .scale b _ _ => noChain b
  | .comp k bs _ => k ≠ .chain ∧ noChainAll bs
/-- No chain block inside the parts. -/
def noChainAll {L : Type} : List (Block L) → Prop
  | [] => True
  | b :: bs => noChain b ∧ noChainAll bs
end

/-- The product of evolutions under single terms, first pair first: the pair `(i, f)` stands for the evolution under
term `i` for the fraction `f` of the time. -/
noncomputable def productFormula (t : ℂ) (H : ℕ → Oper n) (sched : List (ℕ × ℚ)) : Oper n :=
  opProd (sched.map fun e => evolution (e.2 * t) (H e.1))

/-- The fraction of the time spent on a term. -/
def share (sched : List (ℕ × ℚ)) (i : ℕ) : ℚ := ((sched.filter fun e => e.1 = i).map Prod.snd).sum

end Qadence.Spec
