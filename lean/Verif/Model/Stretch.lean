import Verif.Model.Analog

/-!
# Stretching of pulses (`qadence/mitigations/analog_zne.py:42-82`)
-/

namespace Qadence.ABlock

/-- `e / stretch`; zero stays zero in sympy. -/
def overStretch (s : Rat) (e : Expr) : Expr := if e = .num 0 0 then .num 0 0 else .mul e (.inv (.num s 0))

/-- `mutate_params(block, stretch)` (qadence/mitigations/analog_zne.py:52-71). The parameters of an `InteractionBlock` have no
attribute `omega`. `AnalogRot` is called without `add_pattern`. -/
def mutateParams (s : Rat) : ABlock → Except PyErr ABlock
  | .interaction _ _ _ => .error .attributeError
  | .rotation t o d φ q _ => analogRot (.mul t (.num s 0)) (overStretch s o) (overStretch s d) φ q true
  | b => .ok b

mutual
/-- `apply_fn_to_blocks(circuit.block, mutate_params, stre)` (qadence/mitigations/analog_zne.py:79,
qadence/transpile/apply_fn.py:30-40) for analog blocks; `AnalogKron` is no `CompositeBlock` and counts as a leaf. An
empty `AnalogChain` would become an empty `ChainBlock`. -/
def stretch (ord : List Nat → List Nat) (s : Rat) : ABlock → Except PyErr ABlock
  | .chain bs => do
    let cs ← stretchList ord s bs
    chainNew ord cs
  | .interaction t q p => mutateParams s (.interaction t q p)
  | .rotation t o d φ q p => mutateParams s (.rotation t o d φ q p)
  | .kron b bs => mutateParams s (.kron b bs)
/-- The parts of a chain. -/
def stretchList (ord : List Nat → List Nat) (s : Rat) : List ABlock → Except PyErr (List ABlock)
  | [] => .ok []
  | b :: bs => do
    let c ← stretch ord s b
    let cs ← stretchList ord s bs
    return c :: cs
end

end Qadence.ABlock

namespace Qadence

/-- The circuit of one experiment: stretched register and stretched block (qadence/mitigations/analog_zne.py:79-81), as the
emulation sees it after the conversion. -/
noncomputable def stretchedRun (ord : List Nat → List Nat) (num : ℝ → Expr) (c6 : Nat → Option ℝ) (r : Register)
    (dev : Device) (b : ABlock) (s : Rat) : Except PyErr (Block Prim) := do
  let c ← b.stretch ord s
  let r' ← r.rescaleCoords ord s
  addBackground ord num c6 r' dev c

end Qadence
