import Verif.Spec.GateSem

/-!
# Blocks which are the same up to the order of the parts of krons and sums (specification)
-/

namespace Qadence.Spec

/-- Same gate on the same qubits with related expressions. -/
inductive SameGate (E : Expr → Expr → Prop) : Gate → Gate → Prop
  | fixed (g : FixedGate) (q : ℕ) : SameGate E (.fixed g q) (.fixed g q)
  | rot (g : RotGate) (q : ℕ) {θ θ' : Expr} : E θ θ' → SameGate E (.rot g q θ) (.rot g q θ')
  | u (q : ℕ) {φ φ' θ θ' ω ω' : Expr} : E φ φ' → E θ θ' → E ω ω' → SameGate E (.u q φ θ ω) (.u q φ' θ' ω')
  | swap (a b : ℕ) : SameGate E (.swap a b) (.swap a b)
  | proj (ket bra : List Bool) (qs : List ℕ) : SameGate E (.proj ket bra qs) (.proj ket bra qs)
  | matrix (rows : List (List Expr)) (qs : List ℕ) : SameGate E (.matrix rows qs) (.matrix rows qs)
  | control (c : CtrlClass) (cs : List ℕ) {g g' : Gate} : SameGate E g g' → SameGate E (.control c cs g) (.control c cs g')

/-- Same primitive block up to noise. -/
inductive SamePrim (E : Expr → Expr → Prop) : Prim → Prim → Prop
  | gate {g g' : Gate} (ν ν' : Option (NoiseHandler Rat)) : SameGate E g g' → SamePrim E (.gate g ν) (.gate g' ν')
  | hamEvo (gen : Block Gate) {t t' : Expr} : E t t' → SamePrim E (.hamEvo gen t) (.hamEvo gen t')

mutual
/-- Same block up to the order of the parts of krons and sums and up to tags of leaves and scale blocks. -/
inductive Same {L : Type} (R : L → L → Prop) (E : Expr → Expr → Prop) : Block L → Block L → Prop
  | leaf {l l' : L} (t t' : Option String) : R l l' → Same R E (.leaf l t) (.leaf l' t')
  | scale {b b' : Block L} {s s' : Expr} (t t' : Option String) : Same R E b b' → E s s' → Same R E (.scale b s t) (.scale b' s' t')
  | chain {as bs : List (Block L)} (t : Option String) : SameList R E as bs → Same R E (.comp .chain as t) (.comp .chain bs t)
  | kron {as bs cs : List (Block L)} (t : Option String) : SameList R E as cs → cs.Perm bs → Same R E (.comp .kron as t) (.comp .kron bs t)
  | add {as bs cs : List (Block L)} (t : Option String) : SameList R E as cs → cs.Perm bs → Same R E (.comp .add as t) (.comp .add bs t)
/-- Same blocks in the same order. -/
inductive SameList {L : Type} (R : L → L → Prop) (E : Expr → Expr → Prop) : List (Block L) → List (Block L) → Prop
  | nil : SameList R E [] []
  | cons {a b : Block L} {as bs : List (Block L)} : Same R E a b → SameList R E as bs → SameList R E (a :: as) (b :: bs)
end

/-- Expressions with the same value for all values of the parameters. -/
def SameValue (a b : Expr) : Prop := ∀ ρ : Env, eval ρ a = eval ρ b

/-- `x` is `b`, or occurs somewhere in `b`. -/
inductive Occurs {L : Type} (x : Block L) : Block L → Prop
  | self : Occurs x x
  | scale {b : Block L} (s : Expr) (t : Option String) : Occurs x b → Occurs x (.scale b s t)
  | comp {b : Block L} {bs : List (Block L)} (k : CKind) (t : Option String) : b ∈ bs → Occurs x b → Occurs x (.comp k bs t)

/-- `x` is a part of a composite block `b`, or a part of a composite part, and so on. -/
inductive Inside {L : Type} (x : Block L) : Block L → Prop
  | part {bs : List (Block L)} (k : CKind) (t : Option String) : x ∈ bs → Inside x (.comp k bs t)
  | deep {b : Block L} {bs : List (Block L)} (k : CKind) (t : Option String) : b ∈ bs → Inside x b → Inside x (.comp k bs t)

end Qadence.Spec
