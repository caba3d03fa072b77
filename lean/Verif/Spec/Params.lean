import Mathlib.Data.Nat.Notation
import Verif.Model.Gate

/-!
# Parameter names and linked pairs of a block (specification)
-/

namespace Qadence.Spec

/-- Names of the parameters of a gate. -/
def gateNames : Gate → List String
  | .rot _ _ θ => θ.freeSymbols
  | .u _ φ θ ω => φ.freeSymbols ++ θ.freeSymbols ++ ω.freeSymbols
  | .control _ _ g => gateNames g
  | _ => []

/-- Names of the parameters of a primitive block; for an evolution those of its time. -/
def primNames : Prim → List String
  | .gate g _ => gateNames g
  | .hamEvo _ t => t.freeSymbols

/-- The pair (control, target) of a gate with one control and one target. -/
def primPair : Prim → List (ℕ × ℕ)
  | .gate (.control _ [c] g) _ => g.supp.map fun t => (c, t)
  | _ => []

mutual
/-- All values of `f` on the leaves and of `g` on the scale factors of a block, from left to right, one entry per
occurrence. -/
def gather {L α : Type} (f : L → List α) (g : Expr → List α) : Block L → List α
  | .leaf l _ => f l
  | .scale b s _ => g s ++ gather f g b
  | .comp _ bs _ => gatherList f g bs
/-- The same for lists of blocks. -/
def gatherList {L α : Type} (f : L → List α) (g : Expr → List α) : List (Block L) → List α
  | [] => []
  | b :: bs => gather f g b ++ gatherList f g bs
end

/-- The parameter names of all gates and scale factors of a block; a name occurring twice is listed twice. -/
def names (b : Block Prim) : List String := gather primNames Expr.freeSymbols b

/-- The same for the blocks without evolutions, e.g. Hamiltonians. -/
def gateBlockNames (b : Block Gate) : List String := gather gateNames Expr.freeSymbols b

/-- The pairs of qubits linked by the two-qubit gates of a block. -/
def links (b : Block Prim) : List (ℕ × ℕ) := gather primPair (fun _ => []) b

/-- Names of the parameters of the rotations only. -/
def rotNames : Prim → List String
  | .gate (.rot _ _ θ) _ => θ.freeSymbols
  | _ => []

/-- All primitive blocks of a block. -/
def leaves (b : Block Prim) : List Prim := gather (fun l => [l]) (fun _ => []) b

theorem gatherList_eq {L α : Type} (f : L → List α) (g : Expr → List α) (bs : List (Block L)) :
    gatherList f g bs = bs.flatMap (gather f g) := by
  induction bs with
  | nil => simp [gatherList]
  | cons b bs ih => simp [gatherList, ih]

theorem gather_comp {L α : Type} (f : L → List α) (g : Expr → List α) (k : CKind) (bs : List (Block L)) (t) :
    gather f g (.comp k bs t) = bs.flatMap (gather f g) := by
  rw [gather, gatherList_eq]

end Qadence.Spec
