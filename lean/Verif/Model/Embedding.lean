import Verif.Model.Expr
import Verif.Model.Py

/-!
# Parameters of a block and their embedding

`qadence/parameters.py`, `qadence/blocks/utils.py`, `qadence/blocks/embedding.py`, `qadence/backends/utils.py`
-/

namespace Qadence

/-! ## Names of constants -/

/-- The results of `sympy_to_numeric` (qadence/parameters.py:226-232): Python integers, finite floats `m / 2^e` and
complex numbers with float parts. -/
inductive Num
  | int (n : Int)
  | float (m : Int) (e : Nat)
  | complex (m : Int) (e : Nat) (m' : Int) (e' : Nat)
  deriving DecidableEq, Repr

/-- The modulus of Python's hash of numbers, `sys.hash_info.modulus`. -/
def hashModulus : Nat := 2 ^ 61 - 1

/-- Python replaces the hash -1, which signals errors, by -2. -/
def hashFix (h : Int) : Int := if h = -1 then -2 else h

/-- `hash(m / 2^e)` (Python's documentation, "Hashing of numeric types"; `2^61 = 1` modulo the modulus, so that
`2^(61 - e % 61)` is the inverse of `2^e`). -/
def hashDyadic (m : Int) (e : Nat) : Int :=
  let h : Nat := m.natAbs * 2 ^ (61 - e % 61) % hashModulus
  hashFix (if m < 0 then - (h : Int) else h)

/-- `hash(z)` for complex `z`: `hash(z.real) + 1000003 * hash(z.imag)` in signed 64 bit arithmetic. -/
def hashComplex (m : Int) (e : Nat) (m' : Int) (e' : Nat) : Int :=
  hashFix (Int.bmod (hashDyadic m e + 1000003 * hashDyadic m' e') (2 ^ 64))

/-- `hash` of a number. -/
def Num.hash : Num → Int
  | int n => hashDyadic n 0
  | float m e => hashDyadic m e
  | complex m e m' e' => hashComplex m e m' e'

/-- What the embedding takes from sympy, torch and the `Parameter` objects. `T` is the type of tensors. -/
structure ParamWorld (T : Type) where
  /-- `str(expr).replace(".", "_")` -/
  str : Expr → String
  /-- `sympy_to_numeric(expr)` for constant expressions (qadence/parameters.py:226-232) -/
  numeric : Expr → Num
  /-- attributes of the parameter with the given name (qadence/parameters.py:47-125); parameters with the same
  name are taken to have the same attributes -/
  trainable : String → Bool
  value : String → Num
  isTime : String → Bool
  /-- `concretize_parameter(value)` (qadence/blocks/embedding.py:30-42) -/
  tensor : Num → T
  /-- `tensor(1.0)` -/
  one : T
  /-- `make_differentiable(expr)(**values)` followed by the reshape (qadence/blocks/embedding.py:137-141) -/
  apply : Expr → PyDict String T → Except PyErr T
  /-- `list(set(...))` -/
  uniq : List Expr → List Expr
  uniqS : List String → List String

/-- `stringify` (qadence/parameters.py:286-296); constant arrays are not modelled. -/
def stringify {T : Type} (W : ParamWorld T) (e : Expr) : String :=
  if e.isNumber then "fix_" ++ toString (W.numeric e).hash else W.str e

/-! ## Collecting the parameters of a block -/

/-- Unique ids of parameters (`uuid4` strings). -/
abbrev Uuid := Nat

/-- `ParamMap._uuid_dict` (qadence/parameters.py:319-327). -/
abbrev ParamDict := PyDict Uuid Expr

/-- A block as far as its parameters are concerned. -/
inductive PBlock
  /-- primitive blocks without parameters -/
  | plain
  /-- `ScaleBlock`: exactly one parameter -/
  | scale (uuid : Uuid) (e : Expr) (b : PBlock)
  /-- parametric blocks: rotations, controlled rotations, analog blocks, evolutions whose generator is not a block -/
  | parametric (ps : ParamDict)
  /-- a time evolution with a block as generator -/
  | timeEvo (gen : PBlock) (ps : ParamDict)
  /-- composite blocks, analog composites -/
  | comp (bs : List PBlock)

mutual
/-- `uuid_to_block` (qadence/blocks/utils.py:216-249); of the block we keep its `ParamMap._uuid_dict`. -/
def uuidToBlock : PBlock → PyDict Uuid ParamDict → PyDict Uuid ParamDict
  | .scale u e b, d => uuidToBlock b (PyDict.set d u [(u, e)])
  | .comp bs, d => uuidToBlockList bs d
  | .timeEvo gen ps, d => (PyDict.keys ps).foldl (fun d u => PyDict.set d u ps) (uuidToBlock gen d)
  | .parametric ps, d => (PyDict.keys ps).foldl (fun d u => PyDict.set d u ps) d
  | .plain, d => d
/-- `for b in block.blocks: d = uuid_to_block(b, d)` -/
def uuidToBlockList : List PBlock → PyDict Uuid ParamDict → PyDict Uuid ParamDict
  | [], d => d
  | b :: bs, d => uuidToBlockList bs (uuidToBlock b d)
end

/-- `v.parameters._uuid_dict[k]` -/
def lookupUuid (k : Uuid) (ps : ParamDict) : Except PyErr (Uuid × Expr) :=
  match PyDict.get? ps k with
  | some e => .ok (k, e)
  | none => .error .keyError

/-- `uuid_to_expression` (qadence/blocks/utils.py:252-253). -/
def uuidToExpression (b : PBlock) : Except PyErr (PyDict Uuid Expr) := do
  let items ← (uuidToBlock b []).mapM (fun kv => lookupUuid kv.1 kv.2)
  return PyDict.ofItems items

/-- `expressions` (qadence/blocks/utils.py:333-339). -/
def expressions {T : Type} (W : ParamWorld T) (b : PBlock) : Except PyErr (List Expr) := do
  return W.uniq (PyDict.values (← uuidToExpression b))

/-- `parameters` (qadence/blocks/utils.py:201-213), the symbols only. -/
def parameterSymbols {T : Type} (W : ParamWorld T) (b : PBlock) : Except PyErr (List String) := do
  return (PyDict.values (← uuidToExpression b)).flatMap (fun e => W.uniqS e.freeSymbols)

/-! ## The embedding -/

/-- The argument `inputs`: a dictionary of values or separate dictionaries for circuit and observables. -/
inductive Inputs (T : Type)
  | flat (d : PyDict String T)
  | separate (dd : PyDict String (PyDict String T))

/-- qadence/blocks/embedding.py:117-118 and `merge_separate_params` (qadence/utils.py:33-38). -/
def Inputs.merged {T : Type} : Inputs T → PyDict String T
  | flat d => d
  | separate dd => (PyDict.values dd).foldl PyDict.merge []

/-- The value of one symbol (qadence/blocks/embedding.py:123-136). -/
def symbolValue {T : Type} (W : ParamWorld T) (params inputs : PyDict String T) (x : String) : Except PyErr T :=
  match PyDict.get? inputs x with
  | some v => .ok v
  | none =>
    match PyDict.get? params x with
    | some v => .ok v
    | none => if W.isTime x then .ok W.one else .error .keyError

/-- The value of one expression (qadence/blocks/embedding.py:119-142). -/
def embedExpr {T : Type} (W : ParamWorld T) (params inputs : PyDict String T) (e : Expr) : Except PyErr T := do
  let values ← (W.uniqS e.freeSymbols).mapM (fun x => do return (x, ← symbolValue W params inputs x))
  W.apply e (PyDict.ofItems values)

/-- Keys of `embedded_params`: sympy expressions and strings, which are never equal as keys (their hashes differ). -/
inductive EKey
  | expr (e : Expr)
  | str (s : String)
  deriving DecidableEq

/-- `params[stringify(e)]` -/
def constantValue {T : Type} (W : ParamWorld T) (params : PyDict String T) (e : Expr) : Except PyErr T :=
  match PyDict.get? params (stringify W e) with
  | some v => .ok v
  | none => .error .keyError

/-- The dictionary `embedded_params` (qadence/blocks/embedding.py:116-145). -/
def embeddedParams {T : Type} (W : ParamWorld T) (b : PBlock) (params inputs : PyDict String T) :
    Except PyErr (PyDict EKey T) := do
  let exprs ← expressions W b
  let a ← (exprs.filter (fun e => !e.isNumber)).mapM
    (fun e => do return (EKey.expr e, ← embedExpr W params inputs e))
  let c ← (exprs.filter (fun e => e.isNumber)).mapM
    (fun e => do return (EKey.expr e, ← constantValue W params e))
  return PyDict.merge (PyDict.ofItems a) c

/-- `embedded_params[e]` -/
def embeddedValue {T : Type} (emb : PyDict EKey T) (u : Uuid) (e : Expr) : Except PyErr (Uuid × T) :=
  match PyDict.get? emb (.expr e) with
  | some v => .ok (u, v)
  | none => .error .keyError

/-- `embedding_fn` with `to_gate_params=True` (qadence/blocks/embedding.py:147-151). -/
def gateParams {T : Type} (W : ParamWorld T) (b : PBlock) (params : PyDict String T) (inputs : Inputs T) :
    Except PyErr (PyDict Uuid T) := do
  let emb ← embeddedParams W b params inputs.merged
  let items ← (← uuidToExpression b).mapM (fun ue => embeddedValue emb ue.1 ue.2)
  return PyDict.ofItems items

/-- The key in the returned dictionary: `stringify(k) if not isinstance(k, str) else k`. -/
def EKey.name {T : Type} (W : ParamWorld T) : EKey → String
  | expr e => stringify W e
  | str s => s

/-- `for k, v in params.items(): if k not in embedded_params: embedded_params[k] = v` -/
def addMissing {T : Type} (emb : PyDict EKey T) (params : PyDict String T) : PyDict EKey T :=
  params.foldl (fun d kv => if (PyDict.get? d (.str kv.1)).isSome then d else PyDict.set d (.str kv.1) kv.2) emb

/-- `embedding_fn` with `to_gate_params=False` (qadence/blocks/embedding.py:152-164). -/
def exprParams {T : Type} (W : ParamWorld T) (b : PBlock) (params : PyDict String T) (inputs : Inputs T) :
    Except PyErr (PyDict String T) := do
  let emb ← embeddedParams W b params inputs.merged
  let emb := PyDict.merge emb (inputs.merged.map (fun kv => (EKey.str kv.1, kv.2)))
  let emb := addMissing emb params
  return PyDict.ofItems (emb.map (fun kv => (kv.1.name W, kv.2)))

/-- The dictionary of variational parameters returned by `embedding` (qadence/blocks/embedding.py:166-182). -/
def initialParams {T : Type} (W : ParamWorld T) (b : PBlock) : Except PyErr (PyDict String T) := do
  let exprs ← expressions W b
  let syms ← parameterSymbols W b
  let trainables := (W.uniqS syms).filter (fun x => W.trainable x)
  return PyDict.merge (PyDict.ofItems (trainables.map (fun x => (x, W.tensor (W.value x)))))
    ((exprs.filter (fun e => e.isNumber)).map (fun e => (stringify W e, W.tensor (W.numeric e))))

/-! ## Tensors with a batch dimension -/

/-- Elementwise operation with broadcasting of one-dimensional tensors (zero-dimensional tensors are identified
with tensors of length one). -/
def broadcast {V : Type} (f : V → V → V) (a b : List V) : Except PyErr (List V) :=
  match a, b with
  | [x], b => .ok (b.map (f x))
  | a, [y] => .ok (a.map (fun x => f x y))
  | a, b => if a.length = b.length then .ok (List.zipWith f a b) else .error .runtimeError

/-- Operations on numbers needed for the evaluation of expressions. -/
structure NumOps (V : Type) where
  num : Rat → Rat → V
  pi : V
  add : V → V → V
  mul : V → V → V
  pow : V → Nat → V
  inv : V → V
  conj : V → V
  fn : String → V → V

/-- `torchify(expr)(**values)`: evaluation of an expression on tensors (qadence/parameters.py:204-207), in exact
arithmetic. -/
def evalBatch {V : Type} (O : NumOps V) (d : PyDict String (List V)) : Expr → Except PyErr (List V)
  | .num re im => .ok [O.num re im]
  | .pi => .ok [O.pi]
  | .var x =>
    match PyDict.get? d x with
    | some v => .ok v
    | none => .error .keyError
  | .add a b => do broadcast O.add (← evalBatch O d a) (← evalBatch O d b)
  | .mul a b => do broadcast O.mul (← evalBatch O d a) (← evalBatch O d b)
  | .pow e k => do return (← evalBatch O d e).map (fun v => O.pow v k)
  | .inv e => do return (← evalBatch O d e).map O.inv
  | .conj e => do return (← evalBatch O d e).map O.conj
  | .fn f e => do return (← evalBatch O d e).map (O.fn f)

/-- Values in a parameter dictionary. -/
inductive PVal (V : Type)
  /-- a tensor of shape `(n,)` -/
  | vec (l : List V)
  /-- a tensor of shape `(n, m)` -/
  | mat (rows : List (List V))
  /-- a tensor of shape `()` -/
  | scalar (v : V)
  /-- not a tensor -/
  | other

/-- Entries of the dictionaries of single batch elements: tensors of shape `()` and `(m,)`. -/
inductive PElem (V : Type)
  | scalar (v : V)
  | row (l : List V)
  deriving DecidableEq

/-- `p.size()[0]` -/
def PVal.size0 {V : Type} : PVal V → Except PyErr Nat
  | vec l => .ok l.length
  | mat rows => .ok rows.length
  | scalar _ => .error .indexError
  | other => .error .attributeError

def PVal.isTensor {V : Type} : PVal V → Bool
  | other => false
  | _ => true

/-- `v.repeat(k, 1)` -/
def PVal.repeat1 {V : Type} (k : Nat) : PVal V → PVal V
  | vec l => mat (List.replicate k l)
  | mat rows => mat (List.replicate k rows).flatten
  | scalar v => mat (List.replicate k [v])
  | other => other

/-- `v[i]` -/
def PVal.item {V : Type} (i : Nat) : PVal V → Except PyErr (PElem V)
  | vec l =>
    match l[i]? with
    | some v => .ok (.scalar v)
    | none => .error .indexError
  | mat rows =>
    match rows[i]? with
    | some r => .ok (.row r)
    | none => .error .indexError
  | _ => .error .indexError

/-- `max(...)` of a list of sizes; `max` of an empty sequence raises. -/
def maxSize : List Nat → Except PyErr Nat
  | [] => .error .valueError
  | s :: ss => .ok (ss.foldl max s)

/-- `to_list_of_dicts` (qadence/backends/utils.py:98-109). -/
def toListOfDicts {V : Type} (d : PyDict String (PVal V)) : Except PyErr (List (PyDict String (PElem V))) :=
  match d with
  | [] => .ok [[]]
  | d => do
    let ts := d.filter (fun kv => kv.2.isTensor)
    let sizes ← ts.mapM (fun kv => kv.2.size0)
    let m ← maxSize sizes
    let batched ← ts.mapM (fun kv => do
      let s ← kv.2.size0
      return (kv.1, if s = m then kv.2 else kv.2.repeat1 m))
    (List.range m).mapM (fun i => batched.mapM (fun kv => do return (kv.1, ← kv.2.item i)))

/-- `infer_batchsize` (qadence/backends/utils.py:169-184): every exception gives 1. -/
def inferBatchsize {V : Type} (d : PyDict String (PVal V)) : Nat :=
  match d with
  | [] => 1
  | d =>
    match (d.filter (fun kv => kv.2.isTensor)).mapM (fun kv => kv.2.size0) with
    | .error _ => 1
    | .ok sizes =>
      match maxSize sizes with
      | .error _ => 1
      | .ok m => m

end Qadence
