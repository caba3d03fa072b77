import Verif.Model.Analog
import Verif.Model.FeatureMap

/-!
# Feature maps for neutral atoms (`qadence/constructors/rydberg_feature_maps.py`)

Floats are rational numbers and arithmetic is exact; the default `2 * PI * 10` of the detuning is an argument. Of the
automatic simplification by sympy only products of numbers and products with zero are modelled, because `AnalogRot`
compares its arguments with 0.
-/

namespace Qadence.RydbergFM

open FeatureMap

/-- The weight if it is a number. -/
def number? : PWeight → Option ℚ
  | .num q => some q
  | .param _ => none

/-- `VariationalParameter(f"w_{param}_{i}")` (qadence/constructors/rydberg_feature_maps.py:43). -/
def weightName (param : String) (i : ℕ) : String := "w_" ++ param ++ "_" ++ toString i

/-- `tower_coeffs` (qadence/constructors/rydberg_feature_maps.py:41-46). -/
def coeffs (n : ℕ) (param : String) : Option (List PWeight) → List PWeight
  | none => (List.range n).map fun i => .param (weightName param i)
  | some ws => ws

/-- `[tower_coeffs[i] for i in range(n_qubits)]` (qadence/constructors/rydberg_feature_maps.py:47). -/
def firstN (n : ℕ) (ws : List PWeight) : Except PyErr (List PWeight) :=
  if ws.length < n then .error .indexError else .ok (ws.take n)

/-- `tower_detuning` (qadence/constructors/rydberg_feature_maps.py:47). A division of numbers by zero is refused; if a
weight is a parameter the quotient is an expression. Zero divided by an expression is zero. -/
def detuning (maxDet : ℚ) (ws : List PWeight) : Except PyErr Expr :=
  match ws.mapM number? with
  | some qs => if qs.sum = 0 then .error .zeroDivisionError else .ok (.num (maxDet / qs.sum) 0)
  | none =>
    if maxDet = 0 then .ok (.num 0 0)
    else .ok (.mul (.num maxDet 0) (.inv (Pattern.sumExpr (ws.map PWeight.expr))))

/-- `-tower_detuning * w` (qadence/constructors/rydberg_feature_maps.py:54), with products of numbers and products with
zero evaluated. -/
def delta (d : Expr) (w : PWeight) : Expr :=
  match d, w with
  | .num x _, .num q => .num (-x * q) 0
  | .num x _, .param p => if x = 0 then .num 0 0 else .mul (.num (-x) 0) (.var p)
  | e, .num q => if q = 0 then .num 0 0 else .mul (.neg e) (.num q 0)
  | e, .param p => .mul (.neg e) (.var p)

/-- `duration` (qadence/constructors/rydberg_feature_maps.py:49-50). -/
def duration (param : String) (d : Expr) : Expr := .mul (.mul (.num 1000 0) (.var param)) (.inv d)

/-- The rotation of one qubit (qadence/constructors/rydberg_feature_maps.py:52-57). -/
def rotation (param : String) (d : Expr) (w : PWeight) (i : ℕ) : Except PyErr ABlock :=
  analogRot (duration param d) (.num 0 0) (delta d w) (.num 0 0) (.loc [i]) true

/-- The rotations of the qubits from `i` on (qadence/constructors/rydberg_feature_maps.py:51-59). -/
def rotations (param : String) (d : Expr) : ℕ → List PWeight → Except PyErr (List ABlock)
  | _, [] => .ok []
  | i, w :: ws => do
    let b ← rotation param d w i
    let bs ← rotations param d (i + 1) ws
    return b :: bs

/-- The loop of `KronBlock.__init__` for analog blocks (qadence/blocks/composite.py:221-237). -/
def kronCheck (ord : List ℕ → List ℕ) : QSupport → List ABlock → Except PyErr Unit
  | _, [] => .ok ()
  | acc, b :: bs =>
    if b.support ord = .global then .error .assertionError
    else if !(acc.isDisjoint (b.support ord)) then .error .assertionError
    else kronCheck ord (QSupport.add ord acc (b.support ord)) bs

/-- `kron(generator)` (qadence/blocks/utils.py:43-49, 108-113): the argument is a generator and not a block, so the
result is a `KronBlock` and not an `AnalogKron`, though all parts are analog. The block is the list of its parts. -/
def kronGenerator (ord : List ℕ → List ℕ) (bs : List ABlock) : Except PyErr (List ABlock) :=
  if bs.isEmpty then .error .notImplementedError
  else do
    kronCheck ord (.loc []) bs
    return bs

/-- `rydberg_feature_map` (qadence/constructors/rydberg_feature_maps.py:20-59): the parts of the `KronBlock`. -/
def rydbergFM (ord : List ℕ → List ℕ) (n : ℕ) (param : String) (maxDet : ℚ) (weights : Option (List PWeight)) :
    Except PyErr (List ABlock) := do
  let ws ← firstN n (coeffs n param weights)
  let d ← detuning maxDet ws
  let bs ← rotations param d 0 ws
  kronGenerator ord bs

/-- `rydberg_tower_feature_map` (qadence/constructors/rydberg_feature_maps.py:62-68). -/
def towerFM (ord : List ℕ → List ℕ) (n : ℕ) (param : String) (maxDet : ℚ) : Except PyErr (List ABlock) :=
  rydbergFM ord n param maxDet (some ((List.range n).map fun i : ℕ => .num ((i : ℚ) + 1)))

/-- `scale_primitive_blocks_only` of a `KronBlock` of analog blocks (qadence/transpile/block.py:242-246, 264-282): it is
built anew with `kron(*parts)`, which makes an `AnalogKron` of analog parts (qadence/blocks/utils.py:108-112). -/
noncomputable def scalePass (ord : List ℕ → List ℕ) (ev : Expr → ℝ) (bs : List ABlock) : Except PyErr ABlock :=
  ABlock.kronNew ord ev bs

/-- The block as the pyqtorch backend converts it (qadence/backends/pyqtorch/config.py:21-36,
qadence/transpile/transpile.py:79): the passes are applied from the last to the first, first the scales, then `flatten`
(which does nothing to an `AnalogKron`), then the background Hamiltonian. -/
noncomputable def backendPasses (ord : List ℕ → List ℕ) (ev : Expr → ℝ) (r : Register) (hInt : Block Gate)
    (hAddr : Option (Block Gate)) (bs : List ABlock) : Except PyErr (Block Prim) := do
  let b ← scalePass ord ev bs
  convert r hInt hAddr b

/-- `add_background_hamiltonian` of the `KronBlock` itself (qadence/transpile/apply_fn.py:31-35): the parts are
converted and composed with `kron`. -/
def convertKron (ord : List ℕ → List ℕ) (r : Register) (hInt : Block Gate) (hAddr : Option (Block Gate))
    (bs : List ABlock) : Except PyErr (Block Prim) := do
  let cs ← convertList r hInt hAddr bs
  Block.kronOf (Prim.supp ord) ord cs

/-- The argument `reupload_scaling`: CONSTANT, a callable or anything else. -/
inductive Scaling
  | constant
  | custom (f : (Expr → Except PyErr ABlock) → Expr → Except PyErr ABlock)
  | other

/-- `analog_feature_map` (qadence/constructors/rydberg_feature_maps.py:71-119). -/
def analogFM (pi : ℚ) (param : String) (op : Expr → Except PyErr ABlock) (t : FmType) (s : Scaling)
    (fr tr : Option (ℚ × ℚ)) (mult : Option Expr) : Except PyErr ABlock := do
  let x ← scaling pi t param fr tr
  let f ← paramFunc t
  let e := Expr.mul (mult.getD (.num 1 0)) (f x)
  match s with
  | .custom g => g op e
  | .constant => op e
  | .other => .error .notImplementedError

end Qadence.RydbergFM
