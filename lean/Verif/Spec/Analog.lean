import Mathlib.Data.Finset.Basic
import Mathlib.Data.Real.Basic
import Verif.Model.Analog

/-!
# Analog blocks (specification): qubits, time
-/

namespace Qadence.Spec

/-- Union, where `none` stands for all qubits of the register. -/
def joinRegion : Option (Finset ℕ) → Option (Finset ℕ) → Option (Finset ℕ)
  | some s, some t => some (s ∪ t)
  | _, _ => none

/-- The qubits of a support; `none` for all qubits of the register. -/
def suppRegion : QSupport → Option (Finset ℕ)
  | .global => none
  | .loc qs => some qs.toFinset

mutual
/-- The qubits addressed by some primitive block within a block; `none` if one of these is global. -/
def region : ABlock → Option (Finset ℕ)
  | .interaction _ s _ => suppRegion s
  | .rotation _ _ _ _ s _ => suppRegion s
  | .chain bs => regions bs
  | .kron b bs => joinRegion (region b) (regions bs)
/-- The qubits addressed by some part. -/
def regions : List ABlock → Option (Finset ℕ)
  | [] => some ∅
  | b :: bs => joinRegion (region b) (regions bs)
end

/-- The block takes the time `t`: the parts of a chain follow each other, the parts of a kron run at the same time and
for the same time. -/
inductive Takes (ev : Expr → ℝ) : ABlock → ℝ → Prop
  | interaction (t : Expr) (s : QSupport) (p : Bool) : Takes ev (.interaction t s p) (ev t)
  | rotation (t o d φ : Expr) (s : QSupport) (p : Bool) : Takes ev (.rotation t o d φ s p) (ev t)
  | nil : Takes ev (.chain []) 0
  | cons {b : ABlock} {bs : List ABlock} {t u : ℝ} : Takes ev b t → Takes ev (.chain bs) u →
      Takes ev (.chain (b :: bs)) (t + u)
  | kron {b : ABlock} {bs : List ABlock} {t : ℝ} : (∀ c ∈ b :: bs, Takes ev c t) → Takes ev (.kron b bs) t

/-- `c` occurs within `b`. -/
inductive Within : ABlock → ABlock → Prop
  | refl (b : ABlock) : Within b b
  | chain {c b : ABlock} {bs : List ABlock} : b ∈ bs → Within c b → Within c (.chain bs)
  | kron {c d b : ABlock} {bs : List ABlock} : d ∈ b :: bs → Within c d → Within c (.kron b bs)

/-- Blocks which the constructors return. -/
inductive Built (ord : List ℕ → List ℕ) (ev : Expr → ℝ) : ABlock → Prop
  | interaction (t : Expr) (s : QSupport) (p : Bool) : Built ord ev (.interaction t s p)
  | rotation (t o d φ : Expr) (s : QSupport) (p : Bool) : Built ord ev (.rotation t o d φ s p)
  | chain {bs : List ABlock} {b : ABlock} : (∀ c ∈ bs, Built ord ev c) → ABlock.chainNew ord bs = .ok b → Built ord ev b
  | kron {bs : List ABlock} {b : ABlock} : (∀ c ∈ bs, Built ord ev c) → ABlock.kronNew ord ev bs = .ok b → Built ord ev b

end Qadence.Spec
