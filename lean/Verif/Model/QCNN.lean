import Verif.Model.Ansatz
import Verif.Model.FeatureMap

/-!
# Quantum convolutional neural networks (`qadence/ml_tools/qcnn_model.py`, `qadence/ml_tools/constructors.py:820-1076`)

The entangler is one of the classes of two-qubit gates of `Ansatz.Entangler`; the operations are rotations. The dictionary
`params` holds the counters of the repetitions and the parameters by name: a counter starts at zero with the first cell of a
repetition and is used in this repetition only, so it is passed from cell to cell here, and a parameter is its name.
-/

namespace Qadence.QCNN

open Block Ansatz

/-- The name of the parameter returned by `_get_block_params` (qadence/ml_tools/constructors.py:867-895). -/
def paramName (corr : Bool) (layer rep pos : Nat) : String :=
  if corr then "θ" ++ "_" ++ toString layer ++ "_" ++ toString (pos % 9)
  else "θ" ++ "_" ++ toString layer ++ "_" ++ toString rep ++ "_" ++ toString pos

/-- The qubits of `pad` (qadence/ml_tools/constructors.py:912-916). -/
def padQubits (control target spacing n : Nat) : List Nat :=
  ((List.range (2 * spacing + 1)).map (fun (i : Nat) => (control : Int) - spacing + i)).filterMap (fun (q : Int) =>
    if q ≠ (control : Int) ∧ q ≠ (target : Int) ∧ 0 ≤ q ∧ q < (n : Int) then some q.toNat else none)

/-- `kron(*pad, a, b)` (qadence/ml_tools/constructors.py:933-939). -/
def padKron (ord : List Nat → List Nat) (pads : List Nat) (a b : Gate) : Except PyErr (Block Prim) :=
  kronOf (Prim.supp ord) ord (pads.map (fun q => gateBlock (.fixed .I q)) ++ [gateBlock a, gateBlock b])

/-- `entangler(a, b)`: the classes with a parameter need a third argument. -/
def entangle (e : Entangler) (a b : Nat) : Except PyErr (Block Prim) :=
  match e with
  | .CNOT => .ok (gateBlock (.cnot a b))
  | .CZ => .ok (gateBlock (.cz a b))
  | _ => .error .typeError

/-- The loops over the operations (qadence/ml_tools/constructors.py:928-939, 971-982); every operation takes two parameters,
`c` is the value of `param_index` before. -/
def opKrons (ord : List Nat → List Nat) (pads : List Nat) (name : Nat → String) (control target : Nat) :
    List RotGate → Nat → Except PyErr (List (Block Prim))
  | [], _ => .ok []
  | g :: gs, c => do
    let k ← padKron ord pads (.rot g control (.var (name c))) (.rot g target (.var (name (c + 1))))
    let ks ← opKrons ord pads name control target gs (c + 2)
    return k :: ks

/-- The number of parameters of a cell. -/
def cellParams (ops : List RotGate) : Nat := 4 * ops.length + 3

/-- The gates of `_create_single_W` (qadence/ml_tools/constructors.py:898-990); `name` gives the parameters of the layer and
repetition, `last` is `rep == max_reps - 1`, `c` the value of `param_index` before. -/
def cellGates (ord : List Nat → List Nat) (pads : List Nat) (ops : List RotGate) (e : Entangler) (name : Nat → String)
    (last : Bool) (control target c : Nat) : Except PyErr (List (Block Prim)) := do
  let k₁ ← opKrons ord pads name control target ops c
  let e₁ ← entangle e target control
  let c := c + 2 * ops.length
  let m₁ ← padKron ord pads (.rot .RZ control (.var (name c))) (.rot .RY target (.var (name (c + 1))))
  let e₂ ← entangle e control target
  let m₂ ← padKron ord pads (.fixed .I control) (.rot .RY target (.var (name (c + 2))))
  let e₃ ← entangle e target control
  let k₂ ← opKrons ord pads name control target ops (c + 3)
  if last then do
    let e₄ ← entangle e control target
    return k₁ ++ [e₁, m₁, e₂, m₂, e₃] ++ k₂ ++ [e₄]
  else return k₁ ++ [e₁, m₁, e₂, m₂, e₃] ++ k₂

/-- Arguments which are the same for all layers. -/
structure Args where
  n : Nat
  ops : List RotGate
  ent : Entangler
  corr : Bool

/-- The cells of one repetition (qadence/ml_tools/constructors.py:1033-1049, 1057-1072); `tagged` for the first two layers. -/
def cells (ord : List Nat → List Nat) (a : Args) (layer rep : Nat) (last tagged : Bool) :
    List (Nat × Nat) → Nat → Except PyErr (List (Block Prim))
  | [], _ => .ok []
  | p :: ps, c => do
    let gs ← cellGates ord (padQubits p.1 p.2 layer a.n) a.ops a.ent (paramName a.corr layer rep) last p.1 p.2 c
    let rest ← cells ord a layer rep last tagged ps (c + cellParams a.ops)
    return .comp .chain gs (if tagged then some ("W(" ++ toString p.1 ++ ", " ++ toString p.2 ++ ")") else none) :: rest

/-- `l[::2]`. -/
def everyOther {α : Type} : List α → List α
  | [] => []
  | [a] => [a]
  | a :: _ :: l => a :: everyOther l

/-- `zip(l[::2], l[1::2])` (qadence/ml_tools/constructors.py:1029). -/
def evenPairs (l : List Nat) : List (Nat × Nat) := (everyOther l).zip (everyOther (l.drop 1))

/-- `zip(l[1:-1:2], l[2:-1:2])` (qadence/ml_tools/constructors.py:1031). -/
def oddPairs (l : List Nat) : List (Nat × Nat) := (everyOther (l.dropLast.drop 1)).zip (everyOther (l.dropLast.drop 2))

/-- One repetition of the first two layers (qadence/ml_tools/constructors.py:1025-1051). -/
def repKron (ord : List Nat → List Nat) (a : Args) (layer : Nat) (reps : Int) (cur : List Nat) (rep : Nat) :
    Except PyErr (Block Prim) := do
  let pairs := if rep % 2 = 0 then evenPairs cur else oddPairs cur
  let ws ← cells ord a layer rep (decide ((rep : Int) = reps - 1)) true pairs 0
  kronOf (Prim.supp ord) ord ws

/-- `_create_conv_layer` (qadence/ml_tools/constructors.py:993-1076) with the tag given by `qcnn_circuit`. -/
def convLayer (ord : List Nat → List Nat) (a : Args) (layer : Nat) (reps : Int) (cur : List Nat) :
    Except PyErr (Block Prim × List Nat) := do
  let t := some ("C+P layer " ++ toString layer)
  if layer = 0 ∨ layer = 1 then do
    let ks ← (List.range reps.toNat).mapM (repKron ord a layer reps cur)
    return (.comp .chain [chainOf ks] t, everyOther (cur.drop 1))
  else do
    let ws ← (List.range reps.toNat).mapM (fun rep =>
      cells ord a layer rep (decide ((rep : Int) = reps - 1)) false (evenPairs cur) 0)
    return (.comp .chain ws.flatten t, everyOther (cur.drop 1))

/-- The loop over the layers of `qcnn_circuit` (qadence/ml_tools/qcnn_model.py:120-136). -/
def convLayers (ord : List Nat → List Nat) (a : Args) : Nat → List Int → List Nat → Except PyErr (List (Block Prim))
  | _, [], _ => .ok []
  | layer, reps :: ds, cur =>
    if reps = 0 then .error .valueError
    else if cur.length < 2 then .error .runtimeError
    else do
    let l ← convLayer ord a layer reps cur
    let rest ← convLayers ord a (layer + 1) ds l.2
    return l.1 :: rest

/-- `_create_feature_map_qcnn` (qadence/ml_tools/constructors.py:820-864): the maps of the inputs `i, i + 1, …` from the qubit
`start` on. -/
def inputMaps (pi : ℚ) (ord : List Nat → List Nat) (t : FeatureMap.FmType) (op : Option RotGate) (n k : Nat) :
    (remaining i start : Nat) → Except PyErr (List (Block Prim))
  | 0, _, _ => .ok []
  | r + 1, i, start => do
    let num := if i < n % k then n / k + 1 else n / k
    let b ← FeatureMap.featureMap pi ord num
      { support := some (List.range' start num), param := "φ" ++ "_" ++ toString i, op := op, fmType := t }
    let rest ← inputMaps pi ord t op n k r (i + 1) (start + num)
    return b :: rest

/-- `_create_feature_map_qcnn` with the tag given by `qcnn_circuit` (qadence/ml_tools/constructors.py:820-864). -/
def featureMaps (pi : ℚ) (ord : List Nat → List Nat) (t : FeatureMap.FmType) (op : Option RotGate) (n k : Nat) :
    Except PyErr (Block Prim) :=
  if k = 0 then .error .zeroDivisionError
  else do
  let bs ← inputMaps pi ord t op n k k 0 0
  let b ← kronOf (Prim.supp ord) ord bs
  return FeatureMap.setTag (some "FM") b

/-- The blocks of `qcnn_circuit` (qadence/ml_tools/qcnn_model.py:77-142): the feature map and the ansatz. -/
def circuit (pi : ℚ) (ord : List Nat → List Nat) (t : FeatureMap.FmType) (fmOp : Option RotGate) (inputs : Nat) (a : Args)
    (depth : List Int) : Except PyErr (Block Prim × Block Prim) :=
  if a.n < 4 then .error .valueError
  else if a.n % 2 ≠ 0 then .error .valueError
  else if depth.any (fun d => d % 2 == 0) then .error .valueError
  else do
  let fm ← featureMaps pi ord t fmOp a.n inputs
  let ls ← convLayers ord a 0 depth (List.range a.n)
  return (fm, chainOf ls)

/-- `qcnn_deferred_obs` (qadence/ml_tools/qcnn_model.py:144-158). -/
def deferredObs (n : Nat) (randomMeas : Bool) : Block Gate :=
  if randomMeas then
    addOf ((List.range n).map (fun i => .scale (.leaf (.fixed .Z i) none) (.var ("w" ++ toString i)) none))
  else addOf ((List.range n).map (fun i => .leaf (.fixed .Z i) none))

end Qadence.QCNN
