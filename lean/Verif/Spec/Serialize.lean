import Verif.Spec.Equality
import Verif.Model.Circuit

/-!
# What survives a round trip through dictionaries (specification)
-/

namespace Qadence.Spec

mutual
/-- The block without the tags of its gates and scale blocks; tags of composite blocks stay. -/
def untag {L : Type} : Block L → Block L
  | .leaf l _ => .leaf l none
  | .scale b s _ => .scale (untag b) s none
  | .comp k bs t => .comp k (untags bs) t
/-- All blocks of a list without the tags of gates and scale blocks. -/
def untags {L : Type} : List (Block L) → List (Block L)
  | [] => []
  | b :: bs => untag b :: untags bs
end

/-- The block with the tags of its parts removed from gates and scale blocks; its own tag stays. -/
def untagParts {L : Type} : Block L → Block L
  | .leaf l t => .leaf l t
  | .scale b s t => .scale (untag b) s t
  | .comp k bs t => .comp k (untags bs) t

/-- The gates which can be loaded from their dictionaries. -/
inductive LoadableGate : Gate → Prop
  | one (g : FixedGate) (q : ℕ) : g ∈ [.I, .X, .Y, .Z, .H, .S, .SDagger, .T, .TDagger] → LoadableGate (.fixed g q)
  | rot (g : RotGate) (q : ℕ) (θ : Expr) : g ∈ [.RX, .RY, .RZ] → LoadableGate (.rot g q θ)
  | swap (a b : ℕ) : LoadableGate (.swap a b)
  | cnot (c t : ℕ) : LoadableGate (.cnot c t)
  | cz (c t : ℕ) : LoadableGate (.cz c t)

/-- A primitive block which can be loaded from its dictionary: a Hamiltonian evolution can not. -/
inductive LoadablePrim : Prim → Prop
  | gate {g : Gate} (ν : Option (NoiseHandler Rat)) : LoadableGate g → LoadablePrim (.gate g ν)

/-- The gates which the constructors of the operations give: targets fit the class, controls and targets are distinct. -/
inductive BuiltGate : Gate → Prop
  | fixed (g : FixedGate) (q : ℕ) : BuiltGate (.fixed g q)
  | rot (g : RotGate) (q : ℕ) (θ : Expr) : BuiltGate (.rot g q θ)
  | u (q : ℕ) (φ θ ω : Expr) : BuiltGate (.u q φ θ ω)
  | swap {a b : ℕ} : a ≠ b → BuiltGate (.swap a b)
  | proj (ket bra : List Bool) (qs : List ℕ) : BuiltGate (.proj ket bra qs)
  | matrix (rows : List (List Expr)) (qs : List ℕ) : BuiltGate (.matrix rows qs)
  | cnot {c t : ℕ} : c ≠ t → BuiltGate (.cnot c t)
  | cz {c t : ℕ} : c ≠ t → BuiltGate (.cz c t)
  | mcz {cs : List ℕ} {t : ℕ} : (cs ++ [t]).Nodup → BuiltGate (.mcz cs t)
  | toffoli {cs : List ℕ} {t : ℕ} : (cs ++ [t]).Nodup → BuiltGate (.toffoli cs t)
  | cswap {c t₁ t₂ : ℕ} : [c, t₁, t₂].Nodup → BuiltGate (.cswap c t₁ t₂)
  | rotated (k : CtrlClass) (g : RotGate) {cs : List ℕ} {t : ℕ} (θ : Expr) :
    (k, g) ∈ [(.CRX, .RX), (.MCRX, .RX), (.CRY, .RY), (.MCRY, .RY), (.CRZ, .RZ), (.MCRZ, .RZ), (.CPHASE, .PHASE), (.MCPHASE, .PHASE)] →
    (cs ++ [t]).Nodup → BuiltGate (.control k cs (.rot g t θ))

/-- The expressions of the parameters of a gate. -/
def gateParameters : Gate → List Expr
  | .rot _ _ θ => [θ]
  | .u _ φ θ ω => [φ, θ, ω]
  | _ => []

/-- The expressions of the parameters of a primitive block. -/
def primParameters : Prim → List Expr
  | .gate g _ => gateParameters g
  | .hamEvo _ t => [t]

end Qadence.Spec
