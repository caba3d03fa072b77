import Verif.Model.Ansatz
import Verif.Model.Circuit
import Verif.Model.DAQC
import Verif.Model.Arith

/-!
# The quantum Fourier transform (`qadence/constructors/qft.py`)

`pi` is the constant `PI` of the digital layers (the symbol for exact statements, or the rational number which the float
is), `p` is `PI` in the digital-analog layers, which only have rational couplings (`Model/DAQC.lean`).
-/

namespace Qadence.QFT

open Block Ansatz

/-- The argument `strategy`; anything else is not in the dictionary. -/
inductive Strategy
  | digital | sdaqc | bdaqc | analog | other
  deriving DecidableEq, Repr

/-- The angle of a controlled phase (qadence/constructors/qft.py:107-109). -/
def angle (pi : Expr) (inverse : Bool) (layer j : ℕ) : Expr :=
  .mul (.num ((if inverse then -1 else 1) * 2 / 2 ^ (j - layer + 1)) 0) pi

/-- `qubit_range_layer` (qadence/constructors/qft.py:103-105). -/
def layerRange (n layer : ℕ) (inverse : Bool) : List ℕ :=
  let r := List.range' (layer + 1) (n - (layer + 1))
  if inverse then r.reverse else r

/-- One controlled phase (qadence/constructors/qft.py:107-110); `support[j]` is looked up before `support[layer]`. -/
def layerRot (pi : Expr) (support : List ℕ) (layer : ℕ) (inverse : Bool) (j : ℕ) : Except PyErr (Block Prim) := do
  let c ← item support j
  let t ← item support layer
  return gateBlock (.cphase c t (angle pi inverse layer j))

/-- `_qft_layer_digital` (qadence/constructors/qft.py:92-113). -/
def layerDigital (pi : Expr) (n : ℕ) (support : List ℕ) (inverse : Bool) (layer : ℕ) : Except PyErr (Block Prim) := do
  let rots ← (layerRange n layer inverse).mapM (layerRot pi support layer inverse)
  let t ← item support layer
  return chainOf (if inverse then rots ++ [gateBlock (.fixed .H t)] else gateBlock (.fixed .H t) :: rots)

/-- `_theta` (qadence/constructors/qft.py:122-124). -/
def theta (p : ℚ) (k : ℕ) : ℚ := p / 2 ^ (k + 1)

/-- `_alpha` (qadence/constructors/qft.py:127-132). -/
def alpha (p : ℚ) (c m k : ℕ) : ℚ := if c = m then p / 2 ^ (k - m + 2) else 0

/-- `k_sqg_list` (qadence/constructors/qft.py:143). -/
def sqgRange (n m : ℕ) (inverse : Bool) : List ℕ :=
  if inverse then (List.range' 2 (n - m)).reverse else List.range' 2 (n - m)

/-- One term of `_sqg_gen` (qadence/constructors/qft.py:147-150); `a - b` of blocks is
`add(a, ScaleBlock(b, -1))` (qadence/blocks/abstract.py:156-169, `Model/Arith.lean`). -/
def sqgTerm (ord : List ℕ → List ℕ) (p : ℚ) (n : ℕ) (support : List ℕ) (m k : ℕ) : Except PyErr (Block Gate) := do
  let qs ← (List.range n).mapM (item support)
  let ids ← kronOf Gate.supp ord (qs.map fun q => ofFixed .I q)
  let a ← item support (k + m - 2)
  let b ← item support (m - 1)
  return scaleOf (addOf [addOf [ids, scaleOf (ofFixed .Z a) (.num (-1) 0)], scaleOf (ofFixed .Z b) (.num (-1) 0)])
    (.num (theta p k) 0)

/-- `_sqg_gen` (qadence/constructors/qft.py:135-152). -/
def sqgGen (ord : List ℕ → List ℕ) (p : ℚ) (n : ℕ) (support : List ℕ) (m : ℕ) (inverse : Bool) :
    Except PyErr (List (Block Gate)) := (sqgRange n m inverse).mapM (sqgTerm ord p n support m)

/-- The pairs `(c, k)` of the loops of `_tqg_gen` (qadence/constructors/qft.py:161-165). -/
def tqgRange (n : ℕ) (inverse : Bool) : List (ℕ × ℕ) :=
  (if inverse then (List.range' 2 (n - 1)).reverse else List.range' 2 (n - 1)).flatMap fun k =>
    (List.range' 1 (k - 1)).map fun c => (c, k)

/-- One term of `_tqg_gen` (qadence/constructors/qft.py:166-167). -/
def tqgTerm (ord : List ℕ → List ℕ) (p : ℚ) (support : List ℕ) (m : ℕ) (ck : ℕ × ℕ) : Except PyErr (Block Gate) := do
  let a ← item support (ck.1 - 1)
  let b ← item support (ck.2 - 1)
  let zz ← kronOf Gate.supp ord [ofFixed .Z a, ofFixed .Z b]
  return scaleOf zz (.num (alpha p ck.1 m ck.2) 0)

/-- `_tqg_gen` (qadence/constructors/qft.py:155-169). -/
def tqgGen (ord : List ℕ → List ℕ) (p : ℚ) (n : ℕ) (support : List ℕ) (m : ℕ) (inverse : Bool) :
    Except PyErr (List (Block Gate)) := (tqgRange n inverse).mapM (tqgTerm ord p support m)

/-- `chain(sq_gate, daqc_transform(...))` (qadence/constructors/qft.py:210-227). `zero_tol` is the default of
`daqc_transform`. -/
noncomputable def layerCirc (ord : List ℕ → List ℕ) (value : Expr → ℚ) (build : Block Gate) (t : ℕ)
    (sqg tqg : List (Block Gate)) : Except PyErr (Block Prim) := do
  let nb ← build.nQubits Gate.supp Gate.nQubits ord
  let daqc ← DAQC.transform ord value nb (addOf tqg) (-1) (some build) (1 / 10 ^ 8) true false
  return chainOf [chainOf [gateBlock (.fixed .H t), .leaf (.hamEvo (addOf sqg) (.num (-1) 0)) none], daqc]

/-- `_qft_layer_sDAQC` (qadence/constructors/qft.py:172-232). -/
noncomputable def layerSDAQC (ord : List ℕ → List ℕ) (value : Expr → ℚ) (p : ℚ) (n : ℕ) (support : List ℕ)
    (inverse : Bool) (genBuild : Option (Block Gate)) (layer : ℕ) : Except PyErr (Block Prim) := do
  if support ≠ List.range n ∧ support ≠ (List.range n).reverse then .error .notImplementedError
  let build ← match genBuild with
    | some b => .ok b
    | none => DAQC.defaultBuild ord n
  let sqg ← sqgGen ord p n support (layer + 1) inverse
  let tqg ← tqgGen ord p n support (layer + 1) inverse
  let t ← item support layer
  if sqg.length > 0 then do
    let c ← layerCirc ord value build t sqg tqg
    return if inverse then c.daggerPrim else c
  else return chainOf [gateBlock (.fixed .H t)]

/-- `layer_func` (qadence/constructors/qft.py:57-72, 240-251). -/
noncomputable def layerFunc (ord : List ℕ → List ℕ) (value : Expr → ℚ) (pi : Expr) (p : ℚ) (n : ℕ) (support : List ℕ)
    (inverse : Bool) (genBuild : Option (Block Gate)) : Strategy → ℕ → Except PyErr (Block Prim)
  | .digital => layerDigital pi n support inverse
  | .sdaqc => layerSDAQC ord value p n support inverse genBuild
  | _ => fun _ => .error .notImplementedError

/-- `qft_layers` (qadence/constructors/qft.py:69). -/
def layers (n : ℕ) (inverse : Bool) : List ℕ := if inverse then (List.range n).reverse else List.range n

/-- One of `swap_ops` (qadence/constructors/qft.py:79). -/
def swapAt (n : ℕ) (support : List ℕ) (i : ℕ) : Except PyErr (Block Prim) := do
  let a ← item support i
  let b ← item support (n - i - 1)
  return gateBlock (.swap a b)

/-- The end of `qft` (qadence/constructors/qft.py:78-82). -/
def addSwaps (n : ℕ) (support : List ℕ) (inverse swapsOut : Bool) (circ : Block Prim) : Except PyErr (Block Prim) :=
  if swapsOut then do
    let swaps ← (List.range (n / 2)).mapM (swapAt n support)
    return chainOf (if inverse then swaps ++ [circ] else circ :: swaps)
  else .ok circ

/-- `tag(block, name)` on a chain. -/
def setTag (t : String) : Block Prim → Block Prim
  | .comp k bs _ => .comp k bs (some t)
  | b => b

/-- `support` with its default, reversed if asked for (qadence/constructors/qft.py:49-55). -/
def resolveSupport (n : ℕ) (support : Option (List ℕ)) (reverseIn : Bool) : Except PyErr (List ℕ) :=
  let s := support.getD (List.range n)
  if s.length ≤ n then .ok (if reverseIn then s.reverse else s) else .error .assertionError

/-- `qft` (qadence/constructors/qft.py:15-84). -/
noncomputable def qft (ord : List ℕ → List ℕ) (value : Expr → ℚ) (pi : Expr) (p : ℚ) (n : ℕ) (support : Option (List ℕ))
    (inverse reverseIn swapsOut : Bool) (strategy : Strategy) (genBuild : Option (Block Gate)) :
    Except PyErr (Block Prim) := do
  let s ← resolveSupport n support reverseIn
  if strategy = .other then .error .keyError
  let ls ← (layers n inverse).mapM (layerFunc ord value pi p n s inverse genBuild strategy)
  let c ← addSwaps n s inverse swapsOut (chainOf ls)
  return setTag (if inverse then "iQFT" else "QFT") c

end Qadence.QFT
