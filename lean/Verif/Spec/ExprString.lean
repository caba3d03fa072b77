import Verif.Model.ExprString

/-!
# The strings accepted for expressions (specification)

Nested calls of names with literal arguments; whitespace is allowed before every symbol.
-/

namespace Qadence.Spec

open Serial

/-- Blanks, tabs, line feeds and carriage returns. -/
def Blank (w : List Char) : Prop := ∀ c ∈ w, c = ' ' ∨ c = '\t' ∨ c = '\n' ∨ c = '\r'

def LowerC (c : Char) : Prop := 'a' ≤ c ∧ c ≤ 'z'
def LetterC (c : Char) : Prop := LowerC c ∨ ('A' ≤ c ∧ c ≤ 'Z')
def DigitC (c : Char) : Prop := '0' ≤ c ∧ c ≤ '9'

/-- The name of a function: a letter, followed by letters, digits and underscores. -/
def Name (s : List Char) : Prop := ∃ c cs, s = c :: cs ∧ LetterC c ∧ ∀ d ∈ cs, LetterC d ∨ DigitC d ∨ d = '_'

/-- The name of a keyword argument: a lower case letter, followed by letters. -/
def Keyword (s : List Char) : Prop := ∃ c cs, s = c :: cs ∧ LowerC c ∧ ∀ d ∈ cs, LetterC d

/-- A sign or nothing. -/
def Sign (s : List Char) : Prop := s = [] ∨ s = ['-']

/-- An integer without superfluous zeros. -/
def IntText (s : List Char) : Prop :=
  ∃ σ m, s = σ ++ m ∧ Sign σ ∧ (m = ['0'] ∨ ∃ c cs, m = c :: cs ∧ DigitC c ∧ c ≠ '0' ∧ ∀ d ∈ cs, DigitC d)

/-- Letters, digits, underscores and points. -/
def WordText (s : List Char) : Prop := s ≠ [] ∧ ∀ d ∈ s, LetterC d ∨ DigitC d ∨ d = '_' ∨ d = '.'

/-- A number with a decimal point and without exponent, or zero. -/
def FloatText (s : List Char) : Prop :=
  ∃ σ m, s = σ ++ m ∧ Sign σ ∧ (m = ['0'] ∨ ∃ a b, m = a ++ '.' :: b ∧ (∀ d ∈ a, DigitC d) ∧ ∀ d ∈ b, DigitC d)

mutual
/-- `u` is a way to write `t`. -/
inductive Written : PTree → List Char → Prop
  | call {h u v : List Char} {a : PTree} {as : List PTree} (w₁ w₂ w₃ : List Char) : Name h → Blank w₁ → Blank w₂ → Blank w₃ →
      Written a u → WrittenTail as v → Written (.call h (a :: as)) (w₁ ++ h ++ w₂ ++ '(' :: u ++ v ++ w₃ ++ [')'])
  | int {t : List Char} (w : List Char) : Blank w → IntText t → Written (.int t) (w ++ t)
  | str {t : List Char} (w : List Char) : Blank w → FloatText t ∨ WordText t → Written (.str t) (w ++ '\'' :: t ++ ['\''])
  | kwInt {k t : List Char} (w₁ w₂ w₃ : List Char) : Keyword k → Blank w₁ → Blank w₂ → Blank w₃ → IntText t →
      Written (.kwInt k t) (w₁ ++ k ++ w₂ ++ '=' :: w₃ ++ t)
  | kwTrue {k : List Char} (w₁ w₂ w₃ : List Char) : Keyword k → Blank w₁ → Blank w₂ → Blank w₃ →
      Written (.kwBool k true) (w₁ ++ k ++ w₂ ++ '=' :: w₃ ++ "True".toList)
  | kwFalse {k : List Char} (w₁ w₂ w₃ : List Char) : Keyword k → Blank w₁ → Blank w₂ → Blank w₃ →
      Written (.kwBool k false) (w₁ ++ k ++ w₂ ++ '=' :: w₃ ++ "False".toList)
  | kwStr {k t : List Char} (w₁ w₂ w₃ : List Char) : Keyword k → Blank w₁ → Blank w₂ → Blank w₃ → WordText t →
      Written (.kwStr k t) (w₁ ++ k ++ w₂ ++ '=' :: w₃ ++ '\'' :: t ++ ['\''])
/-- Further arguments, each after a comma. -/
inductive WrittenTail : List PTree → List Char → Prop
  | nil : WrittenTail [] []
  | cons {a : PTree} {as : List PTree} {u v : List Char} (w : List Char) : Blank w → Written a u → WrittenTail as v →
      WrittenTail (a :: as) (w ++ ',' :: u ++ v)
end

/-- The constructors of atoms, which are not heads of other nodes. -/
def reserved : List (List Char) := ["Parameter".toList, "Integer".toList, "Rational".toList, "Float".toList]

mutual
/-- The expression has only parts which can be written: parameters whose name consists of letters, digits, underscores and points
and whose assumptions have names of letters; integers and fractions; decimal numbers without exponent; functions of at least one
argument. -/
def Printable : SExpr → Prop
  | .par p => WordText p.name ∧ ∀ a ∈ p.asm, Keyword a.1
  | .int _ => True
  | .rat _ _ => True
  | .float d _ => FloatText d ∨ WordText d
  | .const _ => False
  | .node h as => Name h ∧ h ∉ reserved ∧ as ≠ [] ∧ PrintableAll as
def PrintableAll : List SExpr → Prop
  | [] => True
  | a :: as => Printable a ∧ PrintableAll as
end

mutual
/-- `p` is a parameter of the expression. -/
inductive ParIn (p : Par) : SExpr → Prop
  | here : ParIn p (.par p)
  | node {h : List Char} {as : List SExpr} : ParInAny p as → ParIn p (.node h as)
inductive ParInAny (p : Par) : List SExpr → Prop
  | head {a : SExpr} {as : List SExpr} : ParIn p a → ParInAny p (a :: as)
  | tail {a : SExpr} {as : List SExpr} : ParInAny p as → ParInAny p (a :: as)
end

/-- Parameters with the same name have the same value. -/
def OneValue (e : SExpr) : Prop := ∀ p q, ParIn p e → ParIn q e → p.name = q.name → p.value = q.value

mutual
/-- As `Printable`, but constants such as `pi` may occur. -/
def PrintableC : SExpr → Prop
  | .par p => WordText p.name ∧ ∀ a ∈ p.asm, Keyword a.1
  | .int _ => True
  | .rat _ _ => True
  | .float d _ => FloatText d ∨ WordText d
  | .const c => Name c
  | .node h as => Name h ∧ h ∉ reserved ∧ as ≠ [] ∧ PrintableAllC as
def PrintableAllC : List SExpr → Prop
  | [] => True
  | a :: as => PrintableC a ∧ PrintableAllC as
end

end Qadence.Spec
