import Verif.Model.Py
import Mathlib.Data.Rat.Defs

/-!
# Expressions in serialised form

`qadence/serialization.py:71-110, 203-216, 286-293` and the grammar `qadence/serial_expr_grammar.peg`. An expression is written by
`srepr` of sympy, checked against the grammar with arpeggio, and read by `eval`.

Strings are lists of characters. `\d` of the grammar is one of the ten ASCII digits.
-/

namespace Qadence.Serial

/-- A parameter: its name, the assumptions given explicitly (sympy keeps their truth values, also for `value`), its value
(qadence/parameters.py:65-131). -/
structure Par where
  name : List Char
  asm : List (List Char × Bool)
  value : ℚ
  deriving DecidableEq

/-- sympy expressions as trees. -/
inductive SExpr
  | par (p : Par)
  | int (n : ℤ)
  | rat (p q : ℤ)
  /-- `Float(digits, precision=prec)` -/
  | float (digits : List Char) (prec : ℕ)
  /-- constants written by their name: `pi`, `I`, `E` -/
  | const (name : List Char)
  /-- `Add`, `Mul`, `Pow`, functions -/
  | node (head : List Char) (args : List SExpr)

/-! ## `srepr` -/

/-- A decimal digit. -/
def digit (n : ℕ) : Char := Char.ofNat (48 + n)

/-- The last digits of a natural number, as many as the first argument. -/
def showDigits : ℕ → ℕ → List Char
  | 0, _ => []
  | f + 1, n => if n < 10 then [digit n] else showDigits f (n / 10) ++ [digit (n % 10)]

/-- A natural number in decimal notation. -/
def showNat (n : ℕ) : List Char := showDigits (n + 1) n

/-- An integer in decimal notation. -/
def showInt : ℤ → List Char
  | .ofNat n => showNat n
  | .negSucc n => '-' :: showNat (n + 1)

/-- `True` or `False`. -/
def showBool (b : Bool) : List Char := if b then "True".toList else "False".toList

/-- `", k=v"` for all assumptions (`_print_Symbol` of sympy). -/
def showAsm : List (List Char × Bool) → List Char
  | [] => []
  | (k, v) :: as => ", ".toList ++ k ++ '=' :: showBool v ++ showAsm as

/-- `_print_Symbol` of sympy. -/
def showPar (p : Par) : List Char := "Parameter('".toList ++ p.name ++ '\'' :: showAsm p.asm ++ [')']

/-- `_print_Integer` of sympy. -/
def showInteger (n : ℤ) : List Char := "Integer(".toList ++ showInt n ++ [')']

/-- `_print_Rational` of sympy. -/
def showRational (p q : ℤ) : List Char := "Rational(".toList ++ showInt p ++ ", ".toList ++ showInt q ++ [')']

/-- `_print_Float` of sympy. -/
def showFloat (d : List Char) (p : ℕ) : List Char := "Float('".toList ++ d ++ "', precision=".toList ++ showNat p ++ [')']

/-- `", "` -/
def comma : List Char := [',', ' ']

mutual
/-- `srepr(expr)` of sympy, as used in qadence/serialization.py:288. Names with quotes, backslashes or characters which cannot be
printed are not modelled. -/
def srepr : SExpr → List Char
  | .par p => showPar p
  | .int n => showInteger n
  | .rat p q => showRational p q
  | .float d p => showFloat d p
  | .const c => c
  | .node h as => h ++ '(' :: sreprs as ++ [')']
/-- The arguments, separated by `", "`. -/
def sreprs : List SExpr → List Char
  | [] => []
  | a :: as => srepr a ++ sreprTail as
def sreprTail : List SExpr → List Char
  | [] => []
  | a :: as => comma ++ srepr a ++ sreprTail as
end

/-! ## The grammar -/

/-- What the grammar recognises. -/
inductive PTree
  /-- `expr` -/
  | call (id : List Char) (args : List PTree)
  /-- `int` -/
  | int (text : List Char)
  /-- `float_str` or `str`, without the quotes -/
  | str (text : List Char)
  /-- `pair` -/
  | kwInt (param text : List Char)
  | kwBool (param : List Char) (b : Bool)
  | kwStr (param text : List Char)

/-- The result of a parser and the remaining input. -/
abbrev Res (α : Type) := Option (α × List Char)

/-- Whitespace skipped by arpeggio before every terminal. -/
def isWs (c : Char) : Bool := c == ' ' || c == '\t' || c == '\n' || c == '\r'

def skipWs (s : List Char) : List Char := s.dropWhile isWs

def isLower (c : Char) : Bool := 'a' ≤ c && c ≤ 'z'
def isLetter (c : Char) : Bool := ('a' ≤ c && c ≤ 'z') || ('A' ≤ c && c ≤ 'Z')
def isDigit (c : Char) : Bool := '0' ≤ c && c ≤ '9'
/-- `[a-zA-Z_0-9]` -/
def isIdChar (c : Char) : Bool := isLetter c || isDigit c || c == '_'
/-- `[a-zA-Z0-9\_\.]` -/
def isStrChar (c : Char) : Bool := isLetter c || isDigit c || c == '_' || c == '.'

/-- A literal such as `'('`. -/
def lit (l s : List Char) : Option (List Char) :=
  if l.isPrefixOf (skipWs s) then some ((skipWs s).drop l.length) else none

/-- `id = r"[a-zA-Z][a-zA-Z_0-9]*"` (qadence/serial_expr_grammar.peg:7). -/
def pId (s : List Char) : Res (List Char) :=
  match skipWs s with
  | c :: cs => if isLetter c then some (c :: cs.takeWhile isIdChar, cs.dropWhile isIdChar) else none
  | [] => none

/-- `param = r"[a-z][a-zA-Z]*"` (qadence/serial_expr_grammar.peg:6). -/
def pParam (s : List Char) : Res (List Char) :=
  match skipWs s with
  | c :: cs => if isLower c then some (c :: cs.takeWhile isLetter, cs.dropWhile isLetter) else none
  | [] => none

/-- `0|[1-9][0-9]*` -/
def pNat : List Char → Res (List Char)
  | '0' :: cs => some (['0'], cs)
  | c :: cs => if isDigit c then some (c :: cs.takeWhile isDigit, cs.dropWhile isDigit) else none
  | [] => none

/-- `int = r"-?(0|[1-9][0-9]*)"` (qadence/serial_expr_grammar.peg:9). -/
def pInt (s : List Char) : Res (List Char) :=
  match skipWs s with
  | '-' :: cs => (pNat cs).map fun r => ('-' :: r.1, r.2)
  | cs => pNat cs

/-- `-?(0|\d*(\.\d*))` -/
def isFloatText (s : List Char) : Bool :=
  let t := match s with
    | '-' :: cs => cs
    | cs => cs
  t == ['0'] || (match t.dropWhile isDigit with
    | '.' :: cs => cs.all isDigit
    | _ => false)

/-- A quoted text: the characters up to the next quote. -/
def pQuoted (s : List Char) : Res (List Char) :=
  match skipWs s with
  | '\'' :: cs =>
    match cs.dropWhile (· != '\'') with
    | _ :: rest => some (cs.takeWhile (· != '\''), rest)
    | [] => none
  | _ => none

/-- `float_str = r"'-?(0|\d*(\.\d*))'"` (qadence/serial_expr_grammar.peg:10). -/
def pFloatStr (s : List Char) : Res (List Char) :=
  match pQuoted s with
  | some (t, rest) => if isFloatText t then some (t, rest) else none
  | none => none

/-- `str = r"'[a-zA-Z0-9\_\.]+'"` (qadence/serial_expr_grammar.peg:11). -/
def pStr (s : List Char) : Res (List Char) :=
  match pQuoted s with
  | some (t, rest) => if t ≠ [] ∧ t.all isStrChar then some (t, rest) else none
  | none => none

/-- `int / bool / str`, the right hand side of a pair. -/
def pPairValue (k s : List Char) : Res PTree :=
  match pInt s with
  | some (t, rest) => some (.kwInt k t, rest)
  | none =>
    match lit "True".toList s with
    | some rest => some (.kwBool k true, rest)
    | none =>
      match lit "False".toList s with
      | some rest => some (.kwBool k false, rest)
      | none => (pStr s).map fun r => (.kwStr k r.1, r.2)

/-- `pair = param '=' (int / bool / str)` (qadence/serial_expr_grammar.peg:5). -/
def pPair (s : List Char) : Res PTree :=
  match pParam s with
  | some (k, s') =>
    match lit ['='] s' with
    | some s'' => pPairValue k s''
    | none => none
  | none => none

/-- `value = int / float_str / str / pair` (qadence/serial_expr_grammar.peg:4). -/
def pValue (s : List Char) : Res PTree :=
  match pInt s with
  | some (t, rest) => some (.int t, rest)
  | none =>
    match pFloatStr s with
    | some (t, rest) => some (.str t, rest)
    | none =>
      match pStr s with
      | some (t, rest) => some (.str t, rest)
      | none => pPair s

mutual
/-- `expr = id '(' args ')'` (qadence/serial_expr_grammar.peg:2). The first argument bounds the depth of the recursion; every call
consumes characters, see `pExpr_fuel`. -/
def pExpr : ℕ → List Char → Res PTree
  | 0, _ => none
  | f + 1, s =>
    match pId s with
    | some (h, s₁) =>
      match lit ['('] s₁ with
      | some s₂ =>
        match pArg f s₂ with
        | some (a, s₃) =>
          let r := pArgs f s₃
          match lit [')'] r.2 with
          | some s₄ => some (.call h (a :: r.1), s₄)
          | none => none
        | none => none
      | none => none
    | none => none
/-- `value / expr` -/
def pArg : ℕ → List Char → Res PTree
  | 0, _ => none
  | f + 1, s =>
    match pValue s with
    | some r => some r
    | none => pExpr f s
/-- `(',' (value / expr))*` (qadence/serial_expr_grammar.peg:3). -/
def pArgs : ℕ → List Char → List PTree × List Char
  | 0, s => ([], s)
  | f + 1, s =>
    match lit [','] s with
    | some s₁ =>
      match pArg f s₁ with
      | some (a, s₂) => ((a :: (pArgs f s₂).1), (pArgs f s₂).2)
      | none => ([], s)
    | none => ([], s)
end

/-- `Program = expr EOF` (qadence/serial_expr_grammar.peg:1): the tree of a string accepted by the grammar. -/
def program (s : List Char) : Option PTree :=
  match pExpr (2 * s.length + 2) s with
  | some (t, rest) => if skipWs rest = [] then some t else none
  | none => none

/-- `parse_expr_fn` (qadence/serialization.py:85-110). -/
def parseExprFn (code : List Char) : Bool := (program code).isSome

/-! ## `eval` -/

/-- The value of digits. -/
def readNat (s : List Char) : ℕ := s.foldl (fun n c => 10 * n + (c.toNat - 48)) 0

/-- The value of an integer literal. -/
def readInt : List Char → ℤ
  | '-' :: cs => -(readNat cs : ℤ)
  | cs => readNat cs

/-- The keyword arguments of `Parameter`. -/
def evalAsm : List PTree → Except PyErr (List (List Char × Bool))
  | [] => .ok []
  | .kwBool k b :: as => do
    let r ← evalAsm as
    return (k, b) :: r
  | _ => .error .typeError

/-- `Parameter(...)` (qadence/parameters.py:65-131). A new parameter gets the value 0 here, a random value in the code. -/
def evalParameter : List PTree → Except PyErr SExpr
  | .str n :: kws => do
    let asm ← evalAsm kws
    return .par ⟨n, asm, 0⟩
  | _ => .error .typeError

/-- `Integer(...)` of sympy. -/
def evalInteger : List PTree → Except PyErr SExpr
  | [.int t] => .ok (.int (readInt t))
  | _ => .error .typeError

/-- `Rational(...)` of sympy. -/
def evalRational : List PTree → Except PyErr SExpr
  | [.int t, .int u] => .ok (.rat (readInt t) (readInt u))
  | _ => .error .typeError

/-- `Float(...)` of sympy. -/
def evalFloat : List PTree → Except PyErr SExpr
  | [.str d, .kwInt k t] => if k = "precision".toList then .ok (.float d (readNat t)) else .error .typeError
  | _ => .error .typeError

mutual
/-- `eval(code)` for a string accepted by the grammar (qadence/serialization.py:210): nested calls of constructors. The calls of
sympy functions on the parts of an existing expression give back that expression. -/
def evalTree : PTree → Except PyErr SExpr
  | .call h args =>
    if h = "Parameter".toList then evalParameter args
    else if h = "Integer".toList then evalInteger args
    else if h = "Rational".toList then evalRational args
    else if h = "Float".toList then evalFloat args
    else do
      let as ← evalTrees args
      return .node h as
  | _ => .error .typeError
/-- The arguments of a call. -/
def evalTrees : List PTree → Except PyErr (List SExpr)
  | [] => .ok []
  | a :: as => do
    let r ← evalTree a
    let rs ← evalTrees as
    return r :: rs
end

/-! ## `serialize` and `deserialize` -/

mutual
/-- `expr.free_symbols`. -/
def freePars : SExpr → List Par
  | .par p => [p]
  | .node _ as => freeParsList as
  | _ => []
def freeParsList : List SExpr → List Par
  | [] => []
  | a :: as => freePars a ++ freeParsList as
end

/-- The dictionary of an expression: the string and the values of the parameters by name. -/
structure ExprDict where
  expression : List Char
  symbols : PyDict (List Char) ℚ

/-- `serialize(expr)` (qadence/serialization.py:286-293). The order of the set `free_symbols` is `ord`. -/
def serialize (ord : List Par → List Par) (e : SExpr) : ExprDict where
  expression := srepr e
  symbols := PyDict.ofItems ((ord (freePars e)).map fun p => (p.name, p.value))

mutual
/-- `s.value = float(d["symbols"][s.name]["value"])` for all free symbols (qadence/serialization.py:211-213). -/
def setValues (vals : PyDict (List Char) ℚ) : SExpr → Except PyErr SExpr
  | .par p =>
    match vals.get? p.name with
    | some v => .ok (.par { p with value := v })
    | none => .error .keyError
  | .node h as => do
    let rs ← setValuesList vals as
    return .node h rs
  | .int n => .ok (.int n)
  | .rat p q => .ok (.rat p q)
  | .float d p => .ok (.float d p)
  | .const c => .ok (.const c)
def setValuesList (vals : PyDict (List Char) ℚ) : List SExpr → Except PyErr (List SExpr)
  | [] => .ok []
  | a :: as => do
    let r ← setValues vals a
    let rs ← setValuesList vals as
    return r :: rs
end

/-- `ExpressionSerialization.__post_init__` (qadence/serialization.py:207-216). -/
def deserialize (d : ExprDict) : Except PyErr SExpr :=
  match program d.expression with
  | some t => do
    let e ← evalTree t
    setValues d.symbols e
  | none => .error .valueError

end Qadence.Serial
