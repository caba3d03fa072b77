import Mathlib.Analysis.SpecialFunctions.Pow.Complex
import Verif.Spec.GateSem
import Verif.Model.PyqConvert

/-!
# What PyQTorch operations do (specification)

The documented meaning of PyQTorch's operations, part of the trusted base: which operator is applied, given the values of the parameters. A
name without value raises a KeyError.
-/

namespace Qadence.Spec.Pyq

open Matrix Complex Qadence.Pyq

variable {n : ℕ}

/-- The dictionary of values given to the native operations, and the numbers and functions of torch. -/
structure Values where
  uuid : Expr → Option ℂ
  str : String → Option ℂ
  num : Expr → ℂ
  fn : String → ℂ → ℂ

/-- `d[k]` -/
def need : Option ℂ → Except PyErr ℂ
  | none => .error .keyError
  | some z => .ok z

/-- Value of a `ConcretizedCallable`. -/
noncomputable def callableValue (V : Values) : Callable → Except PyErr ℂ
  | .tensor e => .ok (V.num e)
  | .key s => need (V.str s)
  | .call1 f a => do return V.fn f (← callableValue V a)
  | .call2 "add" a b => do return (← callableValue V a) + (← callableValue V b)
  | .call2 "mul" a b => do return (← callableValue V a) * (← callableValue V b)
  | .call2 "pow" a b => do return (← callableValue V a) ^ (← callableValue V b)
  | .call2 _ _ _ => .error .attributeError

/-- Value of the parameter of a native operation. -/
noncomputable def paramValue (V : Values) : NParam → Except PyErr ℂ
  | .const e => .ok (V.num e)
  | .uuid e => need (V.uuid e)
  | .key s => need (V.str s)
  | .callable c => callableValue V c

/-- The operator which the controlled operations of PyQTorch apply to the target if all controls are 1. -/
noncomputable def nctrlTarget (ts : List ℕ) : NCtrl → Option ℂ → Oper n
  | .CNOT, _ => embed1 (ts.getD 0 0) (mat1 .X)
  | .Toffoli, _ => embed1 (ts.getD 0 0) (mat1 .X)
  | .CZ, _ => embed1 (ts.getD 0 0) (mat1 .Z)
  | .CRX, z => embed1 (ts.getD 0 0) (matRot (z.getD 0) .RX)
  | .CRY, z => embed1 (ts.getD 0 0) (matRot (z.getD 0) .RY)
  | .CRZ, z => embed1 (ts.getD 0 0) (matRot (z.getD 0) .RZ)
  | .CPHASE, z => embed1 (ts.getD 0 0) (matRot (z.getD 0) .PHASE)
  | .CSWAP, _ => swapOp (ts.getD 0 0) (ts.getD 1 0)

/-- The value of an optional parameter. -/
noncomputable def optValue (V : Values) : Option NParam → Except PyErr (Option ℂ)
  | none => .ok none
  | some p => do return some (← paramValue V p)

mutual
/-- The operator which a native operation without noise applies to the state. -/
noncomputable def runNative (V : Values) : Native → Except PyErr (Oper n)
  | .fixed g q _ => .ok (embed1 q (mat1 g))
  | .rot g q p _ => do return embed1 q (matRot (← paramValue V p) g)
  | .u q p₁ p₂ p₃ _ => do
    let φ ← paramValue V p₁
    let θ ← paramValue V p₂
    let ω ← paramValue V p₃
    return embed1 q (matRot ω .RZ * matRot θ .RY * matRot φ .RZ)
  | .swap a b _ => .ok (swapOp a b)
  | .ctrl c cs ts p _ => do return controlled cs (nctrlTarget ts c (← optValue V p))
  | .projector ket bra qs _ => .ok (embed (fun i : Fin qs.length => qs[i])
      (Matrix.of fun a b => ind ((∀ i : Fin qs.length, a i = ket.getD i false) ∧ ∀ i : Fin qs.length, b i = bra.getD i false)))
  | .primitive rows qs _ => .ok (embed (fun i : Fin qs.length => qs[i])
      (Matrix.of fun a b => V.num (((rows.getD (bitsValue a) []).getD (bitsValue b)) (.num 0 0))))
  | .hamEvo _ gen t => do
    let G ← runNative V gen
    return evolution (← paramValue V t) G
  | .scale o p => do
    let U ← runNative V o
    return (← paramValue V p) • U
  | .add os => do return (← runNatives V os).sum
  | .merge os => do return opProd (← runNatives V os)
  | .sequence os => do return opProd (← runNatives V os)
/-- The operators of all operations. -/
noncomputable def runNatives (V : Values) : List Native → Except PyErr (List (Oper n))
  | [] => .ok []
  | o :: os => do
    let U ← runNative V o
    return U :: (← runNatives V os)
end

/-- A gate as its class constructs it: the class of a controlled gate fixes the number of controls and the gate on the target. -/
inductive Built : Gate → Prop
  | fixed (g : FixedGate) (q : ℕ) : Built (.fixed g q)
  | rot (g : RotGate) (q : ℕ) (θ : Expr) : Built (.rot g q θ)
  | u (q : ℕ) (φ θ ω : Expr) : Built (.u q φ θ ω)
  | swap (a b : ℕ) : Built (.swap a b)
  | proj (ket bra : List Bool) (qs : List ℕ) : Built (.proj ket bra qs)
  | matrix (rows : List (List Expr)) (qs : List ℕ) : (∀ r ∈ rows, ∀ e ∈ r, e.isNumber) → Built (.matrix rows qs)
  | cnot (c t : ℕ) : Built (.cnot c t)
  | cz (c t : ℕ) : Built (.cz c t)
  | mcz (cs : List ℕ) (t : ℕ) : Built (.mcz cs t)
  | toffoli (cs : List ℕ) (t : ℕ) : Built (.toffoli cs t)
  | cswap (c a b : ℕ) : Built (.cswap c a b)
  | crx (c t : ℕ) (θ : Expr) : Built (.crx c t θ)
  | cry (c t : ℕ) (θ : Expr) : Built (.cry c t θ)
  | crz (c t : ℕ) (θ : Expr) : Built (.crz c t θ)
  | cphase (c t : ℕ) (θ : Expr) : Built (.cphase c t θ)
  | mcrx (cs : List ℕ) (t : ℕ) (θ : Expr) : Built (.mcrx cs t θ)
  | mcry (cs : List ℕ) (t : ℕ) (θ : Expr) : Built (.mcry cs t θ)
  | mcrz (cs : List ℕ) (t : ℕ) (θ : Expr) : Built (.mcrz cs t θ)
  | mcphase (cs : List ℕ) (t : ℕ) (θ : Expr) : Built (.mcphase cs t θ)

/-- All leaves of a block satisfy `P`. -/
inductive EveryLeaf {L : Type} (P : L → Prop) : Block L → Prop
  | leaf {l : L} (t : Option String) : P l → EveryLeaf P (.leaf l t)
  | scale {b : Block L} (s : Expr) (t : Option String) : EveryLeaf P b → EveryLeaf P (.scale b s t)
  | comp {bs : List (Block L)} (k : CKind) (t : Option String) : (∀ b ∈ bs, EveryLeaf P b) → EveryLeaf P (.comp k bs t)

/-- `P` for all leaves and `Q` for all scale factors together with the blocks they scale. -/
inductive EveryScale {L : Type} (P : L → Prop) (Q : Block L → Expr → Prop) : Block L → Prop
  | leaf {l : L} (t : Option String) : P l → EveryScale P Q (.leaf l t)
  | scale {b : Block L} {s : Expr} (t : Option String) : EveryScale P Q b → Q b s → EveryScale P Q (.scale b s t)
  | comp {bs : List (Block L)} (k : CKind) (t : Option String) : (∀ b ∈ bs, EveryScale P Q b) → EveryScale P Q (.comp k bs t)

/-- All numbers in the expression are real. -/
def RealNumbers : Expr → Prop
  | .num _ im => im = 0
  | .pi => True
  | .var _ => True
  | .add a b => RealNumbers a ∧ RealNumbers b
  | .mul a b => RealNumbers a ∧ RealNumbers b
  | .pow e _ => RealNumbers e
  | .inv e => RealNumbers e
  | .conj e => RealNumbers e
  | .fn _ e => RealNumbers e

/-- Scale factors which survive being turned into a string and read again. -/
def Readable {T : Type} (W : ParamWorld T) (s : Expr) : Prop :=
  (s.isNumber = true → 0 ≤ (W.numeric s).hash) ∧
    (s.isNumber = false → RealNumbers s ∧ "pi" ∉ s.freeSymbols)

/-- The name in sympy of a function of PyQTorch. -/
def nameInSympy : String → String
  | "hs" => "Heaviside"
  | "abs" => "Abs"
  | g => g

/-- The values given to the native operations are those of the assignment `ρ`: constants, and either the ids of the parameters `es` or their
strings and symbols. -/
structure Delivers {T : Type} (W : ParamWorld T) (cfg : Config) (V : Values) (ρ : Env) (es : List Expr) : Prop where
  num : ∀ e, e.isNumber = true → V.num e = eval ρ e
  uuid : cfg.useGateParams = true → ∀ e ∈ es, V.uuid e = some (eval ρ e)
  str : cfg.useGateParams = false → ∀ e ∈ es, V.str (stringify W e) = some (eval ρ e)
  var : cfg.useGateParams = false → ∀ e ∈ es, ∀ x ∈ e.freeSymbols, V.str x = some (ρ.var x)
  fn : ∀ g, V.fn g = ρ.fn (nameInSympy g)

/-- Gates which are built by their classes, other than `N` with state 0. -/
def Good (g : Gate) : Prop := Built g ∧ ∀ q, g ≠ .fixed (.N false) q

/-- With expressions as parameters, scale factors of parametric blocks have to be readable. -/
def ScaleOk {L T : Type} (W : ParamWorld T) (cfg : Config) (le : L → List Expr) (b : Block L) (s : Expr) : Prop :=
  cfg.useGateParams = false → (∃ e ∈ s :: exprsOf le b, e.isNumber = false) → Readable W s

/-- Primitive blocks whose gates are good, and whose generators have readable scale factors. -/
def GoodPrim {T : Type} (W : ParamWorld T) (cfg : Config) : Prim → Prop
  | .gate g _ => Good g
  | .hamEvo gen _ => EveryScale Good (ScaleOk W cfg gateExprs) gen

end Qadence.Spec.Pyq
