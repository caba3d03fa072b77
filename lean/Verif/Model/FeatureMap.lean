import Mathlib.Data.Rat.Defs
import Mathlib.Algebra.Order.Ring.Rat
import Verif.Model.Gate
import Verif.Model.Py

/-!
# Feature maps (`qadence/constructors/feature_maps.py`, `qadence/constructors/utils.py`, `qadence/ml_tools/constructors.py`)

Ranges are pairs of rational numbers (every float is one); the float `PI` is an argument `pi`. Arithmetic is exact.
-/

namespace Qadence.FeatureMap

open Block

/-- The argument `fm_type`: a basis set, a callable or another string. -/
inductive FmType
  | fourier
  | chebyshev
  | custom (f : Expr → Expr)
  | other

/-- `_set_range` (qadence/constructors/feature_maps.py:21-27). -/
def setRange (pi : ℚ) : FmType → ℚ × ℚ
  | .fourier => (0, 2 * pi)
  | .chebyshev => (-1, 1)
  | _ => (0, 1)

/-- `math.isclose(x, 1.0)` with the default tolerances. -/
def isCloseOne (x : ℚ) : Bool := decide (|x - 1| ≤ max (1 / 1000000000 * max |x| |1|) 0)

/-- `fm_parameter_scaling` (qadence/constructors/feature_maps.py:37-63). -/
def scaling (pi : ℚ) (t : FmType) (param : String) (fr tr : Option (ℚ × ℚ)) : Except PyErr Expr :=
  let f := fr.getD (setRange pi t)
  let g := tr.getD (setRange pi t)
  if max f.1 f.2 - min f.1 f.2 = 0 then .error .zeroDivisionError
  else
    let s := (max g.1 g.2 - min g.1 g.2) / (max f.1 f.2 - min f.1 f.2)
    let shift := min g.1 g.2 - min f.1 f.2 * s
    if isCloseOne s then .ok (.add (.var param) (.num shift 0))
    else .ok (.add (.mul (.num s 0) (.var param)) (.num shift 0))

/-- `fm_parameter_func` (qadence/constructors/feature_maps.py:66-84). -/
def paramFunc : FmType → Except PyErr (Expr → Expr)
  | .fourier => .ok id
  | .chebyshev => .ok (.fn "acos")
  | .custom f => .ok f
  | .other => .error .notImplementedError

/-- The argument `reupload_scaling`. -/
inductive Reupload
  | constant | tower | exp
  | custom (f : ℕ → ℚ)
  | other

/-- `fm_reupload_scaling_fn` (qadence/constructors/feature_maps.py:30-34, 87-107): the function and the tag. -/
def reuploadFn : Reupload → Except PyErr ((ℕ → ℚ) × String)
  | .constant => .ok (fun _ => 1, "Constant")
  | .tower => .ok (fun i => (i : ℚ) + 1, "Tower")
  | .exp => .ok (fun i => 2 ^ i, "Exponential")
  | .custom f => .ok (f, "Custom")
  | .other => .error .notImplementedError

/-- `basis_tag` (qadence/constructors/feature_maps.py:181); the text of a callable is irrelevant. -/
def basisTag : FmType → String
  | .fourier => "Fourier"
  | .chebyshev => "Chebyshev"
  | _ => "<callable>"

/-- The argument of the basis function for the gate number `i` (qadence/constructors/feature_maps.py:189-193). -/
def gateParam (scaled : Expr) (pre : Option String) (i : ℕ) : Expr :=
  match pre with
  | some p => .mul (.var (p ++ "_" ++ toString i)) scaled
  | none => scaled

/-- The loop of `feature_map` (qadence/constructors/feature_maps.py:190-194): `i` counts the gates. -/
def gates (op : RotGate) (mult : Expr) (rs : ℕ → ℚ) (tf : Expr → Expr) (scaled : Expr) (pre : Option String) :
    ℕ → List ℕ → List (Block Prim)
  | _, [] => []
  | i, q :: qs =>
    .leaf (.gate (.rot op q (.mul (.mul mult (.num (rs i) 0)) (tf (gateParam scaled pre i)))) none) none ::
      gates op mult rs tf scaled pre (i + 1) qs

/-- Arguments of `feature_map`; `op = none` is an operation which is not in the list of rotations. -/
structure Args where
  support : Option (List ℕ) := none
  param : String := "phi"
  op : Option RotGate := some .RX
  fmType : FmType := .fourier
  reupload : Reupload := .constant
  featureRange : Option (ℚ × ℚ) := none
  targetRange : Option (ℚ × ℚ) := none
  multiplier : Option Expr := none
  paramPrefix : Option String := none

/-- `fm.tag = …` for a kron (qadence/constructors/feature_maps.py:197). -/
def setTag (t : Option String) : Block Prim → Block Prim
  | .comp k bs _ => .comp k bs t
  | .leaf l _ => .leaf l t
  | .scale b s _ => .scale b s t

/-- `feature_map` after the test of the support (qadence/constructors/feature_maps.py:169-199). -/
def featureMapOn (pi : ℚ) (ord : List ℕ → List ℕ) (a : Args) (support : List ℕ) : Except PyErr (Block Prim) :=
  match a.op with
  | none => .error .valueError
  | some op => do
    let scaled ← scaling pi a.fmType a.param a.featureRange a.targetRange
    let tf ← paramFunc a.fmType
    let rs ← reuploadFn a.reupload
    let fm ← kronOf (Prim.supp ord) ord (gates op (a.multiplier.getD (.num 1 0)) rs.1 tf scaled a.paramPrefix 0 support)
    return setTag (some (rs.2 ++ " " ++ basisTag a.fmType ++ " FM")) fm

/-- `feature_map` (qadence/constructors/feature_maps.py:110-199). -/
def featureMap (pi : ℚ) (ord : List ℕ → List ℕ) (n : ℕ) (a : Args) : Except PyErr (Block Prim) :=
  match a.support with
  | none => featureMapOn pi ord a (List.range n)
  | some s => if s.length ≠ n then .error .valueError else featureMapOn pi ord a s

/-- `exp_fourier_feature_map` (qadence/constructors/feature_maps.py:202-234). -/
def expFourier (pi : ℚ) (ord : List ℕ → List ℕ) (n : ℕ) (support : Option (List ℕ)) (param : String)
    (fr : Option (ℚ × ℚ)) : Except PyErr (Block Prim) := do
  let s := support.getD (List.range n)
  let hs ← kronOf (Prim.supp ord) ord (s.map fun q => .leaf (.gate (.fixed .H q) none) none)
  let r ← featureMap pi ord n { support := some s, param := param, op := some .RZ, fmType := .fourier, reupload := .exp,
                                featureRange := some (fr.getD (0, 2 ^ n)), targetRange := some (0, 2 * pi) }
  return .comp .chain [hs, setTag none r] (some ("ExpFourierFM(" ++ param ++ ")"))

/-- `MultivariateStrategy`, or something else. -/
inductive Multivariate
  | parallel | series | other
  deriving DecidableEq, Repr

/-- `get_fm_qubits` (qadence/constructors/utils.py:71-99). -/
def fmQubits (st : Multivariate) (i n k : ℕ) : Except PyErr (List ℕ) :=
  match st with
  | .parallel => if k = 0 then .error .zeroDivisionError else .ok (List.range' (i * (n / k)) ((i + 1) * (n / k) - i * (n / k)))
  | .series => .ok (List.range n)
  | .other => .error .valueError

/-- `np.array_split`: sections of the given sizes, starting at `s`. -/
def cut : ℕ → List ℕ → List (List ℕ)
  | _, [] => []
  | s, k :: ks => List.range' s k :: cut (s + k) ks

/-- `np.array_split(np.arange(n), k)`: the first `n % k` sections are longer by one. -/
def arraySplit (n k : ℕ) : List (List ℕ) :=
  cut 0 (List.replicate (n % k) (n / k + 1) ++ List.replicate (k - n % k) (n / k))

/-- `_create_support_arrays` (qadence/ml_tools/constructors.py:47-86); `array_split` refuses zero sections. -/
def supportArrays (n k : ℕ) : Multivariate → Except PyErr (List (List ℕ))
  | .series => .ok ((List.range k).map fun _ => List.range n)
  | .parallel => if k ≤ n then (if k = 0 then .error .valueError else .ok (arraySplit n k)) else .error .valueError
  | .other => .error .valueError

/-- The relevant fields of a `FeatureMapConfig` (qadence/ml_tools/config.py:269-486) after `__post_init__`: dictionaries are
functions on the features. -/
structure Config where
  inputs : List String
  op : Option RotGate
  basis : String → FmType
  reupload : String → Reupload
  featureRange : String → Option (ℚ × ℚ)
  targetRange : String → Option (ℚ × ℚ)
  repeats : String → ℤ
  paramPrefix : Option String

/-- The arguments of the calls of `feature_map` (qadence/ml_tools/constructors.py:126-137, 186-197). -/
def Config.args (c : Config) (support : List ℕ) (f : String) : Args where
  support := some support
  param := f
  op := c.op
  fmType := c.basis f
  reupload := c.reupload f
  featureRange := c.featureRange f
  targetRange := c.targetRange f
  paramPrefix := c.paramPrefix.map fun p => p ++ "_" ++ f

/-- `{key: support for key, support in zip(inputs, support_arrays_list)}`: the last one wins. -/
def supportOf : List (String × List ℕ) → String → Option (List ℕ)
  | [], _ => none
  | (k, s) :: l, f => (supportOf l f).or (if k = f then some s else none)

/-- `max(num_uploads.values())`; without features it raises. -/
def maxUploads (c : Config) : Except PyErr ℤ :=
  match c.inputs with
  | [] => .error .valueError
  | f :: fs => .ok (fs.foldl (fun m f => max m (c.repeats f + 1)) (c.repeats f + 1))

/-- One round of the loop over the features (qadence/ml_tools/constructors.py:126-141, 184-199): the features uploaded, and the
values of `num_uploads` afterwards. -/
def round : (String → ℤ) → List String → List String × (String → ℤ)
  | u, [] => ([], u)
  | u, f :: fs =>
    let r := round (fun g => if g = f then u f - 1 else u g) fs
    if u f > 0 then (f :: r.1, r.2) else r

/-- The features of `m` rounds. -/
def rounds (fs : List String) : ℕ → (String → ℤ) → List (List String)
  | 0, _ => []
  | m + 1, u => (round u fs).1 :: rounds fs m (round u fs).2

/-- The rounds of a configuration: `num_uploads = num_repeats + 1` at the start. -/
def Config.rounds (c : Config) (m : ℤ) : List (List String) :=
  FeatureMap.rounds c.inputs m.toNat fun f => c.repeats f + 1

/-- `_encode_features_series_digital` (qadence/ml_tools/constructors.py:89-143). -/
def encodeSeries (pi : ℚ) (ord : List ℕ → List ℕ) (n : ℕ) (c : Config) : Except PyErr (List (Block Prim)) := do
  let arrays ← supportArrays n c.inputs.length .series
  let m ← maxUploads c
  (c.rounds m).flatten.mapM fun f =>
    match supportOf (c.inputs.zip arrays) f with
    | some s => featureMap pi ord n (c.args s f)
    | none => .error .keyError

/-- `_encode_features_parallel_digital` (qadence/ml_tools/constructors.py:146-203). -/
def encodeParallel (pi : ℚ) (ord : List ℕ → List ℕ) (n : ℕ) (c : Config) : Except PyErr (List (Block Prim)) := do
  let arrays ← supportArrays n c.inputs.length .parallel
  let m ← maxUploads c
  (c.rounds m).mapM fun l => do
    let bs ← l.mapM fun f =>
      match supportOf (c.inputs.zip arrays) f with
      | some s => featureMap pi ord s.length (c.args s f)
      | none => .error .keyError
    kronOf (Prim.supp ord) ord bs

/-- `generator_prefactor` (qadence/constructors/utils.py:13-23). -/
def generatorPrefactor (pi : ℚ) : Reupload → ℕ → Except PyErr ℚ
  | .constant, _ => .ok 1
  | .tower, j => .ok (j + 1)
  | .exp, j => .ok (2 * pi / 2 ^ (j + 1))
  | _, _ => .error .keyError

/-- `basis_func` (qadence/constructors/utils.py:26-31). -/
def basisFunc : FmType → Expr → Except PyErr Expr
  | .fourier, x => .ok x
  | .chebyshev, x => .ok (.mul (.num 2 0) (.fn "acos" x))
  | _, _ => .error .keyError

/-- `build_idx_fms` (qadence/constructors/utils.py:34-68). -/
def buildIdxFms (pi : ℚ) (ord : List ℕ → List ℕ) (basis : FmType) (op : RotGate) (st : Multivariate) (k n : ℕ)
    (rs : Reupload) : Except PyErr (List (Block Prim)) :=
  (List.range k).mapM fun i => do
    let qs ← fmQubits st i n k
    let bs ← qs.zipIdx.mapM fun (q : ℕ × ℕ) => do
      let s ← generatorPrefactor pi rs q.2
      let e ← basisFunc basis (.var ("x" ++ toString i))
      return Block.leaf (.gate (.rot op q.1 (.mul (.num s 0) e)) none) none
    kronOf (Prim.supp ord) ord bs

/-- `Strategy` (qadence/types.py). -/
inductive Strategy
  | digital | analog | rydberg | other
  deriving DecidableEq, Repr

/-- The field `operation` of a `FeatureMapConfig`: nothing, a class of digital rotations or a class (or function) making analog
blocks. -/
inductive Operation
  | none | digitalClass | analogClass
  deriving DecidableEq, Repr

/-- `isinstance(self.operation, AnalogBlock)` and `isinstance(self.operation, ParametricBlock)`: a class is not an instance. -/
def Operation.isAnalogInstance : Operation → Bool := fun _ => false

/-- See above. -/
def Operation.isParametricInstance : Operation → Bool := fun _ => false

/-- The first part of `FeatureMapConfig.__post_init__` (qadence/ml_tools/config.py:393-437): strategy and operation. -/
def postInit (m : Multivariate) (k : ℕ) (s : Strategy) (op : Operation) : Except PyErr (Strategy × Operation) :=
  if m = .parallel ∧ k > 1 ∧ s ≠ .digital then .error .assertionError
  else match op with
  | .none => .ok (s, match s with
      | .digital => .digitalClass
      | .analog => .analogClass
      | _ => .none)
  | op => .ok (match s with
      | .digital => if op.isAnalogInstance then .analog else .digital
      | .analog => if op.isParametricInstance then .digital else .analog
      | .rydberg => if op.isAnalogInstance then .analog else .digital
      | .other => .other, op)

end Qadence.FeatureMap
