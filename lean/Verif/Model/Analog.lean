import Verif.Model.QubitSupport
import Verif.Model.Hamiltonian

/-!
# Analog blocks and their Hamiltonians

`qadence/blocks/analog.py`, `qadence/operations/analog.py`, `qadence/analog/hamiltonian_terms.py`,
`qadence/analog/parse_analog.py` and `qadence/analog/addressing.py`. Tags and the block `AnalogEntanglement` (which is
left unchanged by the conversion) are not modelled; numbers are real instead of floats.
-/

namespace Qadence

/-- Analog blocks (qadence/blocks/analog.py:102-322). Of the parameters of a rotation those are kept which enter the
Hamiltonian; `pattern` is the field `add_pattern`. An `AnalogKron` has at least one part
(qadence/blocks/analog.py:295-296). -/
inductive ABlock
  | interaction (duration : Expr) (supp : QSupport) (pattern : Bool)
  | rotation (duration omega delta phase : Expr) (supp : QSupport) (pattern : Bool)
  | chain (bs : List ABlock)
  | kron (b : ABlock) (bs : List ABlock)

namespace ABlock

mutual
/-- `block.qubit_support` (qadence/blocks/analog.py:124, 169, 220-222). `ord` is the iteration order of sets. -/
def support (ord : List Nat → List Nat) : ABlock → QSupport
  | .interaction _ s _ => s
  | .rotation _ _ _ _ s _ => s
  | .chain bs => supportSum ord (.loc []) bs
  | .kron b bs => supportSum ord (QSupport.add ord (.loc []) (b.support ord)) bs
/-- `sum(supports, start=acc)` (qadence/blocks/analog.py:222). -/
def supportSum (ord : List Nat → List Nat) (acc : QSupport) : List ABlock → QSupport
  | [] => acc
  | b :: bs => supportSum ord (QSupport.add ord acc (b.support ord)) bs
end

mutual
/-- `evaluate(block.duration)` (qadence/blocks/analog.py:138-140, 201-203, 279-281, 320-322). `ev` is `evaluate`, the
value of an expression for the current values of its parameters. -/
noncomputable def duration (ev : Expr → ℝ) : ABlock → ℝ
  | .interaction t _ _ => ev t
  | .rotation t _ _ _ _ _ => ev t
  | .chain bs => durationSum ev bs
  | .kron b _ => b.duration ev
/-- The sum over the parts (qadence/blocks/analog.py:281). -/
noncomputable def durationSum (ev : Expr → ℝ) : List ABlock → ℝ
  | [] => 0
  | b :: bs => b.duration ev + durationSum ev bs
end

/-- `isinstance(b, AnalogKron)`. -/
def isKron : ABlock → Bool
  | .kron _ _ => true
  | _ => false

/-- The loop of `AnalogChain.__init__` (qadence/blocks/analog.py:274-276). -/
def chainCheck (ord : List Nat → List Nat) : List ABlock → Except PyErr Unit
  | [] => .ok ()
  | b :: bs =>
    if !(b.isKron || b.support ord = .global) then .error .valueError else chainCheck ord bs

/-- `AnalogChain(blocks)` (qadence/blocks/analog.py:248-277), reached through `chain` when all parts are analog blocks
(qadence/blocks/utils.py:76-80). -/
def chainNew (ord : List Nat → List Nat) (bs : List ABlock) : Except PyErr ABlock := do
  chainCheck ord bs
  return .chain bs

/-- `np.isclose(a, b)`: absolute tolerance 1e-8, relative tolerance 1e-5. -/
def isClose (a b : ℝ) : Prop := |a - b| ≤ 1 / 10 ^ 8 + 1 / 10 ^ 5 * |b|

open Classical in
/-- The loop of `AnalogKron.__init__` (qadence/blocks/analog.py:303-316); `acc` is the support so far, `d` the duration
of the first part. -/
noncomputable def kronCheck (ord : List Nat → List Nat) (ev : Expr → ℝ) (d : ℝ) :
    QSupport → List ABlock → Except PyErr Unit
  | _, [] => .ok ()
  | acc, b :: bs =>
    if b.support ord = .global then .error .valueError
    else if !(acc.isDisjoint (b.support ord)) then .error .valueError
    else if ¬ isClose d (b.duration ev) then .error .valueError
    else kronCheck ord ev d (QSupport.add ord acc (b.support ord)) bs

/-- `AnalogKron(blocks)` (qadence/blocks/analog.py:284-318). -/
noncomputable def kronNew (ord : List Nat → List Nat) (ev : Expr → ℝ) : List ABlock → Except PyErr ABlock
  | [] => .error .notImplementedError
  | b :: bs => do
    kronCheck ord ev (b.duration ev) (.loc []) (b :: bs)
    return .kron b bs

end ABlock

/-! ## Constructors (`qadence/operations/analog.py`) -/

/-- `AnalogRot` (qadence/operations/analog.py:111-172). `omega == 0` is a comparison of syntax. -/
def analogRot (duration omega delta phase : Expr) (supp : QSupport) (pattern : Bool) : Except PyErr ABlock :=
  if omega = .num 0 0 ∧ delta = .num 0 0 then .error .valueError
  else .ok (.rotation duration omega delta phase supp pattern)

/-- `a / b * 1000`. -/
def nanoseconds (a b : Expr) : Expr := .mul (.mul a (.inv b)) (.num 1000 0)

/-- `AnalogRX` (qadence/operations/analog.py:175-196). -/
def analogRX (angle : Expr) (supp : QSupport) (pattern : Bool) : ABlock :=
  .rotation (nanoseconds angle .pi) .pi (.num 0 0) (.num 0 0) supp pattern

/-- `AnalogRY` (qadence/operations/analog.py:199-219). -/
def analogRY (angle : Expr) (supp : QSupport) (pattern : Bool) : ABlock :=
  .rotation (nanoseconds angle .pi) .pi (.num 0 0) (.mul (.num (-1/2) 0) .pi) supp pattern

/-- `AnalogRZ` (qadence/operations/analog.py:222-250). -/
def analogRZ (angle : Expr) (supp : QSupport) (pattern : Bool) : ABlock :=
  .rotation (nanoseconds angle .pi) (.num 0 0) .pi (.num 0 0) supp pattern

/-! ## Addressing patterns (`qadence/analog/addressing.py`) -/

/-- A weight: a number or a parameter (qadence/analog/addressing.py:21). -/
inductive PWeight
  | num (q : Rat)
  | param (name : String)
  deriving DecidableEq, Repr

/-- `Parameter(w)`. -/
def PWeight.expr : PWeight → Expr
  | .num q => .num q 0
  | .param x => .var x

/-- The fields of an `AddressingPattern` after its construction. The dictionaries have the keys 0, 1, ... in this order
and are kept as lists. -/
structure Pattern where
  amp : Expr
  det : Expr
  weightsAmp : List Expr
  weightsDet : List Expr
  localAmp : List Expr
  localDet : List Expr
  globalAmp : Expr
  globalDet : Expr

namespace Pattern

/-- `a - b`. -/
def minus (a b : Expr) : Expr := .add a (.neg b)
/-- `Heaviside(e)`. -/
def heaviside (e : Expr) : Expr := .fn "Heaviside" e
/-- `abs(e)`. -/
def abs (e : Expr) : Expr := .fn "Abs" e

/-- The limits (qadence/analog/addressing.py:16-19). -/
def globalMaxAmp : Expr := .num 300 0
def globalMaxDet : Expr := .mul (.num 4000 0) .pi
def localMaxAmp : Expr := .num 3 0
def localMaxDet : Expr := .mul (.num 40 0) .pi

/-- `sigmoid` (qadence/analog/addressing.py:24-25). -/
def sigmoid (x : Expr) (a b : Rat) : Expr :=
  .inv (.add (.num 1 0) (.fn "exp" (.mul (.num (-a) 0) (.add x (.num b 0)))))

/-- `_validate_weights` (qadence/analog/addressing.py:47-54). -/
def validate : List (Nat × PWeight) → Except PyErr Unit
  | [] => .ok ()
  | (_, .num q) :: ws => if !(decide (0 ≤ q) && decide (q ≤ 1)) then .error .valueError else validate ws
  | (_, .param _) :: ws => validate ws

/-- The weight of a qubit before it is restricted (qadence/analog/addressing.py:61-70). -/
def weightOf (ws : List (Nat × PWeight)) (i : Nat) : Expr :=
  match ws.lookup i with
  | none => .num 0 0
  | some w => w.expr

/-- The restriction of a weight (qadence/analog/addressing.py:73-76). -/
def constrain (v : Expr) : Expr :=
  if v.isNumber then v else abs (.mul v (minus (sigmoid v 20 1) (sigmoid v 20 (-1))))

/-- `_constrain_weights` (qadence/analog/addressing.py:56-78). -/
def constrainWeights (n : Nat) (ws : List (Nat × PWeight)) : List Expr :=
  (List.range n).map (fun i => constrain (weightOf ws i))

/-- The new values of `amp` and, up to the sign, `det` (qadence/analog/addressing.py:84-97). -/
def constrainMax (v max : Expr) : Expr :=
  abs (.mul v (minus (heaviside (.add v max)) (heaviside (minus v max))))

/-- `_create_local_constraint` (qadence/analog/addressing.py:99-106). -/
def localConstraint (val : Expr) (ws : List Expr) (max : Expr) : List Expr :=
  ws.map (fun w => minus (heaviside (.mul val w)) (heaviside (minus (.mul val w) max)))

/-- `sum(weights)`. -/
def sumExpr (ws : List Expr) : Expr := ws.foldl .add (.num 0 0)

/-- `_create_global_constraint` (qadence/analog/addressing.py:108-117). -/
def globalConstraint (val : Expr) (ws : List Expr) (max : Expr) : Expr :=
  minus (heaviside (.mul val (sumExpr ws))) (heaviside (minus (.mul val (sumExpr ws)) max))

/-- `AddressingPattern(n_qubits, weights_amp, weights_det, amp, det)` (qadence/analog/addressing.py:28-45, 119-161).
Warnings are not modelled. The last checks (157-161) look at the keys of the augmented weights, which are
0, ..., n_qubits - 1; `max` of an empty list is a ValueError. -/
def new (n : Nat) (wAmp wDet : List (Nat × PWeight)) (amp det : PWeight) : Except PyErr Pattern := do
  validate wAmp
  validate wDet
  let wa := constrainWeights n wAmp
  let wd := constrainWeights n wDet
  let a := constrainMax amp.expr globalMaxAmp
  let d := Expr.neg (constrainMax det.expr globalMaxDet)
  if n = 0 then .error .valueError
  return { amp := a, det := d, weightsAmp := wa, weightsDet := wd
           localAmp := localConstraint a wa localMaxAmp
           localDet := localConstraint (.neg d) wd localMaxDet
           globalAmp := globalConstraint a wa globalMaxAmp
           globalDet := globalConstraint (.neg d) wd globalMaxDet }

end Pattern

/-! ## Hamiltonian terms (`qadence/analog/hamiltonian_terms.py`) -/

/-- The interactions of a device (qadence/analog/device.py:51-56). -/
inductive RydInt | NN | XY
  deriving DecidableEq, Repr

/-- `RydbergDevice` (qadence/analog/device.py:11-41), the fields which enter the Hamiltonian. -/
structure Device where
  interaction : RydInt
  level : Nat
  coeffXY : ℝ
  pattern : Option Pattern

/-- `C6_DICT[level]`. -/
def lookupC6 (c6 : Nat → Option ℝ) (level : Nat) : Except PyErr ℝ :=
  match c6 level with
  | some c => .ok c
  | none => .error .keyError

/-- The interaction as argument of `hamiltonian_factory`. -/
def RydInt.interact : RydInt → Interact
  | .NN => .NN
  | .XY => .XY

/-- `strength_list` (qadence/analog/hamiltonian_terms.py:30-38). Division by a distance zero yields infinity in the
code and 0 here. -/
noncomputable def strengthList (c6 : Nat → Option ℝ) (dev : Device) (ds : List ℝ) : Except PyErr (List ℝ) :=
  match dev.interaction with
  | .NN => do
    let c ← lookupC6 c6 dev.level
    return ds.map (fun d => c / d ^ 6)
  | .XY => .ok (ds.map (fun d => dev.coeffXY / d ^ 3))

/-- `rydberg_interaction_hamiltonian` (qadence/analog/hamiltonian_terms.py:16-45). `num` turns the entries of the tensor
into constants (they are real numbers here, while constants of expressions are rational). -/
noncomputable def rydbergInteraction (ord : List Nat → List Nat) (num : ℝ → Expr) (c6 : Nat → Option ℝ) (r : Register)
    (dev : Device) : Except PyErr (Block Gate) := do
  let ds ← r.distances ord
  let ss ← strengthList c6 dev (ds.map Prod.snd)
  hamiltonianFactory ord r
    { interaction := some dev.interaction.interact, interactionStrength := .array (ss.map num), useAllNodePairs := true }

/-- `c * X(i)` for all qubits of the support, added (qadence/analog/hamiltonian_terms.py:68-70). -/
def driveTerms (c : Expr) (g : FixedGate) (qs : List Nat) : Except PyErr (Block Gate) := do
  let ts ← qs.mapM (fun i => scaledTerm c (Block.ofFixed g i))
  return Block.addOf ts

/-- The qubits which a rotation drives (qadence/analog/hamiltonian_terms.py:59-62). -/
def driveQubits (r : Register) : QSupport → List Nat
  | .global => r.labels
  | .loc qs => qs

/-- `rydberg_drive_hamiltonian` (qadence/analog/hamiltonian_terms.py:48-72). -/
def rydbergDrive (omega delta phase : Expr) (qs : List Nat) : Except PyErr (Block Gate) := do
  let xs ← driveTerms (.fn "cos" phase) .X qs
  let x ← scaledTerm (.mul omega (.num (1/2) 0)) xs
  let ys ← driveTerms (.fn "sin" phase) .Y qs
  let y ← scaledTerm (.mul omega (.num (1/2) 0)) ys
  let n ← scaledTerm delta (Block.addOf (qs.map (fun i => Block.ofFixed (.N true) i)))
  let d ← x.sub Gate.arith (.block y)
  d.sub Gate.arith (.block n)

/-- `weights[i]`. -/
def lookupWeight (ws : List Expr) (i : Nat) : Except PyErr Expr :=
  match ws[i]? with
  | some w => .ok w
  | none => .error .keyError

/-- `X(i) * weights_amp[i] * local_constr_amp[i]` (qadence/analog/hamiltonian_terms.py:92). -/
def ampTerm (p : Pattern) (i : Nat) : Except PyErr (Block Gate) := do
  let w ← lookupWeight p.weightsAmp i
  let b ← (Block.ofFixed .X i).mul Gate.arith (.scalar w)
  let c ← lookupWeight p.localAmp i
  b.mul Gate.arith (.scalar c)

/-- `0.5 * (I(i) - Z(i)) * weights_det[i] * local_constr_det[i]` (qadence/analog/hamiltonian_terms.py:97). -/
def detTerm (p : Pattern) (i : Nat) : Except PyErr (Block Gate) := do
  let d ← (Block.ofFixed .I i).sub Gate.arith (.block (Block.ofFixed .Z i))
  let h ← d.rmul Gate.arith (.scalar (.num (1/2) 0))
  let w ← lookupWeight p.weightsDet i
  let b ← h.mul Gate.arith (.scalar w)
  let c ← lookupWeight p.localDet i
  b.mul Gate.arith (.scalar c)

/-- `rydberg_pattern_hamiltonian` for a device with pattern (qadence/analog/hamiltonian_terms.py:75-99). The qubits are
`range(n_qubits)`, whatever the names of the nodes. -/
def rydbergPattern (p : Pattern) (r : Register) : Except PyErr (Block Gate) := do
  let xs ← (List.range r.nQubits).mapM (ampTerm p)
  let a ← scaledTerm (.mul (.mul (.num (1/2) 0) p.amp) p.globalAmp) (Block.addOf xs)
  let ns ← (List.range r.nQubits).mapM (detTerm p)
  let d ← scaledTerm (.mul (.neg p.det) p.globalDet) (Block.addOf ns)
  a.add' Gate.arith (.block d)

/-- `rydberg_pattern_hamiltonian` (qadence/analog/hamiltonian_terms.py:75-101). -/
def patternHamiltonian (dev : Device) (r : Register) : Except PyErr (Option (Block Gate)) :=
  match dev.pattern with
  | none => .ok none
  | some p => do
    let b ← rydbergPattern p r
    return some b

/-! ## Conversion (`qadence/analog/parse_analog.py`) -/

/-- `h_block += h_addr` if the pattern is wanted and present (qadence/analog/parse_analog.py:77-79, 95-97). -/
def background (hInt : Block Gate) (hAddr : Option (Block Gate)) (pattern : Bool) : Except PyErr (Block Gate) :=
  match hAddr with
  | none => .ok hInt
  | some a => if pattern then hInt.iadd Gate.arith (.block a) else .ok hInt

/-- `HamEvo(h, duration / 1000)`. -/
def hamEvoFor (h : Block Gate) (duration : Expr) : Block Prim :=
  .leaf (.hamEvo h (.mul duration (.num (1/1000) 0))) none

/-- `rydberg_drive_hamiltonian` and `_build_rot_ham_evo` (qadence/analog/parse_analog.py:71-82, 101-103). -/
def rotationEvo (r : Register) (hInt : Block Gate) (hAddr : Option (Block Gate))
    (duration omega delta phase : Expr) (supp : QSupport) (pattern : Bool) : Except PyErr (Block Prim) := do
  let hDrive ← rydbergDrive omega delta phase (driveQubits r supp)
  let h ← background hInt hAddr pattern
  let h ← h.iadd Gate.arith (.block hDrive)
  return hamEvoFor h duration

/-- The rotations among the parts of an `AnalogKron` (qadence/analog/parse_analog.py:111-115). -/
def kronOps (r : Register) (hInt : Block Gate) (hAddr : Option (Block Gate)) :
    List ABlock → Except PyErr (List (Block Prim))
  | [] => .ok []
  | .rotation t o d p s pat :: bs => do
    let b ← rotationEvo r hInt hAddr t o d p s pat
    let cs ← kronOps r hInt hAddr bs
    return b :: cs
  | _ :: bs => kronOps r hInt hAddr bs

mutual
/-- `apply_fn_to_blocks(block, _analog_to_hevo, ...)` (qadence/transpile/apply_fn.py:17-40,
qadence/analog/parse_analog.py:85-120). Without rotations among the parts of a kron the names `h_background` and
`duration` are unbound (116-117). -/
def convert (r : Register) (hInt : Block Gate) (hAddr : Option (Block Gate)) : ABlock → Except PyErr (Block Prim)
  | .interaction t _ pat => do
    let h ← background hInt hAddr pat
    return hamEvoFor h t
  | .rotation t o d p s pat => rotationEvo r hInt hAddr t o d p s pat
  | .kron b bs => do
    let ops ← kronOps r hInt hAddr (b :: bs)
    if ops.isEmpty then .error .unboundLocalError else return Block.chainOf ops
  | .chain bs => do
    let cs ← convertList r hInt hAddr bs
    return Block.chainOf cs
/-- The parts of an `AnalogChain`. -/
def convertList (r : Register) (hInt : Block Gate) (hAddr : Option (Block Gate)) :
    List ABlock → Except PyErr (List (Block Prim))
  | [] => .ok []
  | b :: bs => do
    let c ← convert r hInt hAddr b
    let cs ← convertList r hInt hAddr bs
    return c :: cs
end

/-- `add_background_hamiltonian(block, register)` (qadence/analog/parse_analog.py:20-68). -/
noncomputable def addBackground (ord : List Nat → List Nat) (num : ℝ → Expr) (c6 : Nat → Option ℝ) (r : Register)
    (dev : Device) (b : ABlock) : Except PyErr (Block Prim) := do
  let hInt ← rydbergInteraction ord num c6 r dev
  let hAddr ← patternHamiltonian dev r
  convert r hInt hAddr b

end Qadence
