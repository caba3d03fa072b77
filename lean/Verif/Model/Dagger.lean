import Verif.Model.Gate
import Verif.Model.Passes

/-!
# `dagger` of primitive blocks
-/

namespace Qadence

namespace FixedGate

/-- `dagger` of the classes without parameters: `PrimitiveBlock.dagger` returns the block itself
(qadence/blocks/primitive.py:116-117), `S`, `SDagger`, `T`, `TDagger` override it
(qadence/operations/primitive.py:201-202, 226-227, 317-318, 347-348). -/
def dagger : FixedGate → FixedGate
  | .S => .SDagger
  | .SDagger => .S
  | .T => .TDagger
  | .TDagger => .T
  | g => g

/-- The method returns the block itself. -/
def daggerIsSelf : FixedGate → Bool
  | .S | .SDagger | .T | .TDagger => false
  | _ => true

end FixedGate

namespace Gate

/-- `block.dagger()` for primitive blocks: `PrimitiveBlock` qadence/blocks/primitive.py:116-117 (also used by
`SWAP`, `Projector`, `MatrixBlock`), `ParametricBlock` 218-221 (all parameters are negated, keeping their order),
`ControlBlock` 424-427, `ParametricControlBlock` 506-511. -/
def dagger : Gate → Gate
  | fixed g q => fixed g.dagger q
  | rot g q θ => rot g q (.neg θ)
  | u q φ θ ω => u q (.neg φ) (.neg θ) (.neg ω)
  | swap a b => swap a b
  | proj k b qs => proj k b qs
  | matrix m qs => matrix m qs
  | control c cs g => control c cs (dagger g)

/-- The result of `dagger` has the tag of the block: it is the block itself or a deep copy. -/
def daggerKeepsTag : Gate → Bool
  | fixed g _ => g.daggerIsSelf
  | rot .. => false
  | u .. => false
  | _ => true

end Gate

namespace Prim

/-- `block.dagger()` for primitive blocks with noise; the `S` and `T` gates drop the noise. `HamEvo`:
qadence/operations/ham_evo.py:203-205. -/
def dagger : Prim → Prim
  | .gate (.fixed g q) noise => .gate (.fixed g.dagger q) (if g.daggerIsSelf then noise else none)
  | .gate g noise => .gate g.dagger noise
  | .hamEvo gen t => .hamEvo gen (.neg t)

/-- The tag survives. -/
def daggerKeepsTag : Prim → Bool
  | .gate g _ => g.daggerKeepsTag
  | .hamEvo _ _ => false

end Prim

/-- `block.dagger()`. -/
def Block.daggerPrim (b : Block Prim) : Block Prim := b.dagger Prim.dagger Prim.daggerKeepsTag

end Qadence
