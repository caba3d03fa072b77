import Verif.Model.Hamiltonian

/-!
# The Rydberg hardware efficient ansatz (`qadence/constructors/rydberg_hea.py`)

Parameters are expressions, variational parameters are names. `drive_scaling` is a rational number.
-/

namespace Qadence.RydbergHEA

open Block

/-- `_amplitude_map` (qadence/constructors/rydberg_hea.py:16-42). -/
def amplitudeMap (n : Nat) (g : FixedGate) : Option (List Expr) → Except PyErr (Block Gate)
  | none => .ok (addOf ((List.range n).map (ofFixed g)))
  | some ws =>
    if ws.length ≤ n then do
      let bs ← ws.zipIdx.mapM (fun p => scaledTerm p.1 (ofFixed g p.2))
      return addOf bs
    else .error .assertionError

/-- The generator of the drive (qadence/constructors/rydberg_hea.py:84-93). -/
def driveGenerator (scaling : Rat) (phase : Option Expr) (driveX driveY interaction : Block Gate) :
    Except PyErr (Block Gate) :=
  match phase with
  | some φ => do
    let a ← driveX.rmul Gate.arith (.scalar (.mul (.num scaling 0) (.fn "cos" φ)))
    let b ← driveY.rmul Gate.arith (.scalar (.mul (.num scaling 0) (.fn "sin" φ)))
    let c ← a.sub Gate.arith (.block b)
    c.add' Gate.arith (.block interaction)
  | none => do
    let a ← driveX.rmul Gate.arith (.scalar (.num scaling 0))
    a.add' Gate.arith (.block interaction)

/-- Arguments of a layer besides the register (qadence/constructors/rydberg_hea.py:45-54). -/
structure LayerArgs where
  tevoDrive : Expr
  tevoDet : Expr
  tevoWait : Expr
  phase : Option Expr := none
  detunings : Option (List Expr) := none
  drives : Option (List Expr) := none
  scaling : Rat := 1

/-- `HamEvo(generator, t)`. -/
def evo (gen : Block Gate) (t : Expr) : Block Prim := .leaf (.hamEvo gen t) none

/-- `rydberg_hea_layer` (qadence/constructors/rydberg_hea.py:77-101). -/
def layer (ord : List Nat → List Nat) (r : Register) (a : LayerArgs) : Except PyErr (Block Prim) := do
  let driveX ← amplitudeMap r.nQubits .X a.drives
  let driveY ← amplitudeMap r.nQubits .Y a.drives
  let detuning ← amplitudeMap r.nQubits (.N true) a.detunings
  let interaction ← hamiltonianFactory ord r { interaction := some .NN }
  let generator ← driveGenerator a.scaling a.phase driveX driveY interaction
  return chainOf [evo generator a.tevoDrive, evo interaction a.tevoWait, evo detuning a.tevoDet]

/-- Arguments of `rydberg_hea` besides the register (qadence/constructors/rydberg_hea.py:104-111). -/
structure Args where
  layers : Nat := 1
  addressableDetuning : Bool := true
  addressableDrive : Bool := false
  tunablePhase : Bool := false
  additionalPrefix : Option String := none

/-- The prefix (qadence/constructors/rydberg_hea.py:164). -/
def Args.pre (a : Args) : String :=
  match a.additionalPrefix with
  | none => ""
  | some p => "_" ++ p

/-- The parameters of the patterns and the phase (qadence/constructors/rydberg_hea.py:166-178). -/
def Args.detunings (a : Args) (n : Nat) : Option (List Expr) :=
  if a.addressableDetuning then some ((List.range n).map (fun j => .var ("detmap_" ++ toString j))) else none
def Args.drives (a : Args) (n : Nat) : Option (List Expr) :=
  if a.addressableDrive then some ((List.range n).map (fun j => .var ("drivemap_" ++ toString j))) else none
def Args.phase (a : Args) : Option Expr := if a.tunablePhase then some (.var "phase") else none

/-- The arguments of one layer (qadence/constructors/rydberg_hea.py:181-189). -/
def Args.layer (a : Args) (n l : Nat) : LayerArgs where
  tevoDrive := .var ("At" ++ a.pre ++ "_" ++ toString l)
  tevoDet := .var ("Omega" ++ a.pre ++ "_" ++ toString l)
  tevoWait := .var ("wait" ++ a.pre ++ "_" ++ toString l)
  phase := a.phase
  detunings := a.detunings n
  drives := a.drives n

/-- `rydberg_hea` (qadence/constructors/rydberg_hea.py:163-191). -/
def rydbergHea (ord : List Nat → List Nat) (r : Register) (a : Args) : Except PyErr (Block Prim) := do
  let ls ← (List.range a.layers).mapM (fun l => layer ord r (a.layer r.nQubits l))
  return chainOf ls

end Qadence.RydbergHEA
