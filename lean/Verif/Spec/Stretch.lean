import Verif.Spec.AnalogHam

/-!
# Stretching of pulses (specification)
-/

namespace Qadence.Spec

/-- Blocks made of rotations: amplitude and detuning are not both zero, and what is chained is global. -/
inductive Pulses (ord : List ℕ → List ℕ) : ABlock → Prop
  | rotation {t o d φ : Expr} {q : QSupport} {p : Bool} : o ≠ .num 0 0 ∨ d ≠ .num 0 0 → Pulses ord (.rotation t o d φ q p)
  | chain {bs : List ABlock} : (∀ b ∈ bs, Pulses ord b) → (∀ b ∈ bs, b.support ord = .global) → Pulses ord (.chain bs)

end Qadence.Spec
