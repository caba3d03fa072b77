import Verif.Spec.BlockSem
import Verif.Model.Gate

/-!
# Functions on the leaves of blocks (specification)
-/

namespace Qadence.Spec

variable {L : Type}

/-- `c` is `b` with every leaf replaced as told by `R`, and the same composite blocks around them (without their tags). -/
inductive Replaced (R : Block L → Block L → Prop) : Block L → Block L → Prop
  | leaf {l : L} {t : Option String} {c : Block L} : R (.leaf l t) c → Replaced R (.leaf l t) c
  | scale {b : Block L} {s : Expr} {t : Option String} {c : Block L} : R (.scale b s t) c → Replaced R (.scale b s t) c
  | comp {k : CKind} {bs cs : List (Block L)} {t : Option String} : List.Forall₂ (Replaced R) bs cs →
      Replaced R (.comp k bs t) (.comp k cs none)

/-- The noise of all gates of the target class is set to `ν`; nothing else changes. -/
inductive NoiseSet (target : Gate → Bool) (ν : Option (NoiseHandler ℚ)) : Block Prim → Block Prim → Prop
  | gate {g : Gate} {old : Option (NoiseHandler ℚ)} {t : Option String} : target g = true →
      NoiseSet target ν (.leaf (.gate g old) t) (.leaf (.gate g ν) t)
  | other {g : Gate} {old : Option (NoiseHandler ℚ)} {t : Option String} : target g = false →
      NoiseSet target ν (.leaf (.gate g old) t) (.leaf (.gate g old) t)
  | evolution {g : Block Gate} {e : Expr} {t : Option String} :
      NoiseSet target ν (.leaf (.hamEvo g e) t) (.leaf (.hamEvo g e) t)
  | scale {b c : Block Prim} {s : Expr} {t : Option String} : NoiseSet target ν b c →
      NoiseSet target ν (.scale b s t) (.scale c s t)
  | comp {k : CKind} {bs cs : List (Block Prim)} {t : Option String} : List.Forall₂ (NoiseSet target ν) bs cs →
      NoiseSet target ν (.comp k bs t) (.comp k cs t)

/-- No scale blocks inside. -/
inductive NoScale : Block L → Prop
  | leaf (l : L) (t : Option String) : NoScale (.leaf l t)
  | comp {k : CKind} {bs : List (Block L)} {t : Option String} : (∀ b ∈ bs, NoScale b) → NoScale (.comp k bs t)

/-- No tags on composite blocks (outside of scale blocks). -/
inductive NoCompTags : Block L → Prop
  | leaf (l : L) (t : Option String) : NoCompTags (.leaf l t)
  | scale (b : Block L) (s : Expr) (t : Option String) : NoCompTags (.scale b s t)
  | comp {k : CKind} {bs : List (Block L)} : (∀ b ∈ bs, NoCompTags b) → NoCompTags (.comp k bs none)

end Qadence.Spec
