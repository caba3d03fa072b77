import Verif.Model.Block

/-!
# Structural passes over blocks

`qadence/transpile/flatten.py`, `qadence/transpile/block.py`, `qadence/transpile/transpile.py`,
`qadence/blocks/utils.py`, `qadence/circuit.py`.

Composite blocks are rebuilt with `_construct(type, blocks)` which only fails if the check of `KronBlock` fails.
`flatten` and `scale_primitive_blocks_only` are modelled as total functions; the property theorems show that their
results satisfy the condition checked by `KronBlock`.
-/

namespace Qadence.Block

variable {L : Type}

/-! ## flatten -/

mutual
/-- `flatten(block, [T])` (qadence/transpile/flatten.py:68-100); `_construct` drops the tag. -/
def flat1 (T : CKind) : Block L → Block L
  | .leaf l t => .leaf l t
  | .scale b s t => .scale (flat1 T b) s t
  | .comp k bs _ => .comp k (if k = T then flatBlocks T bs else flatParts T bs) none
/-- The elements yielded by `_flat_blocks(block, T)` for a block of type `T`
(qadence/transpile/flatten.py:32-38). -/
def flatBlocks (T : CKind) : List (Block L) → List (Block L)
  | [] => []
  | .comp k cs t :: bs =>
    (if k = T then flatBlocks T cs else [flat1 T (.comp k cs t)]) ++ flatBlocks T bs
  | .scale b s t :: bs => flat1 T (.scale b s t) :: flatBlocks T bs
  | .leaf l t :: bs => .leaf l t :: flatBlocks T bs
/-- The elements yielded by `_flat_blocks(block, T)` for a composite block of another type
(qadence/transpile/flatten.py:39-42). -/
def flatParts (T : CKind) : List (Block L) → List (Block L)
  | [] => []
  | b :: bs => flat1 T b :: flatParts T bs
end

/-- `flatten(block, types)` (qadence/transpile/flatten.py:68-104). -/
def flatten (types : List CKind) : Block L → Block L
  | .leaf l t => .leaf l t
  | .scale b s t => .scale (flatten types b) s t
  | .comp k bs t => types.foldl (fun b T => flat1 T b) (.comp k bs t)

/-! ## scale_primitive_blocks_only -/

/-- `blk.tag = tag`. -/
def setTag (t : Option String) : Block L → Block L
  | .leaf l _ => .leaf l t
  | .scale b s _ => .scale b s t
  | .comp k bs _ => .comp k bs t

mutual
/-- `scale_primitive_blocks_only(block, scale)` (qadence/transpile/block.py:185-282). -/
def scaleOnly (scale : Option Expr) : Block L → Block L
  | .leaf l t =>
    match scale with
    | none => .leaf l t
    | some s => .scale (.leaf l t) s none
  | .scale b s2 t =>
    setTag t (scaleOnly (some (match scale with | none => s2 | some s => .mul s s2)) b)
  | .comp .add bs t => .comp .add (scaleAll scale bs) t
  | .comp k bs t => .comp k (scaleFirst scale bs) t
/-- All parts with the same scale (qadence/transpile/block.py:252-256). -/
def scaleAll (scale : Option Expr) : List (Block L) → List (Block L)
  | [] => []
  | b :: bs => scaleOnly scale b :: scaleAll scale bs
/-- `scale_only_first_block` (qadence/transpile/block.py:273-282); an empty block is returned as it is. -/
def scaleFirst (scale : Option Expr) : List (Block L) → List (Block L)
  | [] => []
  | b :: bs => scaleOnly scale b :: scaleAll none bs
end

/-! ## unroll_block_with_scaling -/

mutual
/-- `unroll_block_with_scaling(block)` (qadence/blocks/utils.py:432-539): the terms appended to the list. -/
def unroll : Block L → List (Block L × Expr)
  | .leaf l t => [(.leaf l t, .num 1 0)]
  | .scale (.comp .add bs _) s _ => (unrollAll bs).map fun bm => (bm.1, .mul s bm.2)
  | .scale b s _ => [(b, s)]
  | .comp .add bs _ => unrollAll bs
  | .comp k bs t => [(.comp k bs t, .num 1 0)]
/-- `_add_block` (qadence/blocks/utils.py:466-471). -/
def unrollAll : List (Block L) → List (Block L × Expr)
  | [] => []
  | b :: bs => unroll b ++ unrollAll bs
end

/-! ## get_blocks_by_tag -/

mutual
/-- `QuantumCircuit.get_blocks_by_tag` (qadence/circuit.py:121-142). -/
def byTag (tag : String) : Block L → List (Block L)
  | .leaf l t => if t = some tag then [.leaf l t] else []
  | .scale b s t => if t = some tag then [.scale b s t] else []
  | .comp k bs t => (if t = some tag then [.comp k bs t] else []) ++ byTagAll tag bs
/-- `flatten(*[_get_block(b) for b in block.blocks])`. -/
def byTagAll (tag : String) : List (Block L) → List (Block L)
  | [] => []
  | b :: bs => byTag tag b ++ byTagAll tag bs
end

/-! ## transpile -/

/-- `transpile(*fs)` (qadence/transpile/transpile.py:79): `reduce(lambda acc, f: f(acc), reversed(fs), x)`. A pass may
raise an exception, which ends the pipeline. -/
def transpile {α : Type} (fs : List (α → Except PyErr α)) (x : α) : Except PyErr α :=
  fs.reverse.foldlM (fun acc f => f acc) x

/-! ## dagger -/

mutual
/-- `block.dagger()` (qadence/blocks/primitive.py:322-324, qadence/blocks/composite.py:144-146), given the
dagger of leaves and which leaves keep their tag (those returning themselves or a copy). Composites and scale blocks
are constructed anew and lose their tag. -/
def dagger (ld : L → L) (keep : L → Bool) : Block L → Block L
  | .leaf l t => .leaf (ld l) (if keep l then t else none)
  | .scale b s _ => .scale (dagger ld keep b) (.conj s) none
  | .comp k bs _ => .comp k (daggerAll ld keep bs).reverse none
/-- Daggers of all parts. -/
def daggerAll (ld : L → L) (keep : L → Bool) : List (Block L) → List (Block L)
  | [] => []
  | b :: bs => dagger ld keep b :: daggerAll ld keep bs
end

/-! ## primitive_blocks -/

mutual
/-- `primitive_blocks(block)` (qadence/blocks/utils.py:152-173). -/
def primitives : Block L → List L
  | .leaf l _ => [l]
  | .scale b _ _ => primitives b
  | .comp _ bs _ => primitivesAll bs
/-- Concatenation over the parts. -/
def primitivesAll : List (Block L) → List L
  | [] => []
  | b :: bs => primitives b ++ primitivesAll bs
end

/-! ## fill_identities -/

/-- What the identity padding has to know about leaves: their supports, the leaf `I(i)` and whether a leaf is a
`SWAP`. -/
structure LeafOps (L : Type) where
  supp : L → List Nat
  ident : Nat → L
  isSwap : L → Bool

/-- `range(start, stop + 1)`. -/
def rangeIncl (start stop : Nat) : List Nat := (List.range (stop + 1 - start)).map (start + ·)

/-- Comparison of tuples, as used by `sorted(..., key=lambda x: x.qubit_support)`. -/
def tupleLe : List Nat → List Nat → Bool
  | [], _ => true
  | _ :: _, [] => false
  | a :: as, b :: bs => a < b || (a == b && tupleLe as bs)

/-- `sorted(bs, key=lambda x: x.qubit_support)` (qadence/transpile/block.py:297). -/
def sortBySupport (supp : L → List Nat) (ord : List Nat → List Nat) (bs : List (Block L)) : List (Block L) :=
  bs.mergeSort fun a b => tupleLe (support supp ord a) (support supp ord b)

/-- `set(full) - set(support)` as a list in the unspecified order of sets. -/
def missing (ord : List Nat → List Nat) (full supp : List Nat) : List Nat :=
  ord (full.filter fun i => !supp.contains i)

/-- `(min(qs), max(qs))`; a ValueError for an empty tuple. -/
def minMax : List Nat → Except PyErr (Nat × Nat)
  | [] => .error .valueError
  | q :: qs => .ok (qs.foldl min q, qs.foldl max q)

/-- `fill_identities` for primitive blocks (which include scale blocks) and for `SWAP`
(qadence/transpile/block.py:290-313); `pad i` is `I(i)` or `chain(I(i), I(i))`. -/
def fillPrim (O : LeafOps L) (ord : List Nat → List Nat) (pad : Nat → Block L) (start stop : Nat)
    (b : Block L) : Except PyErr (Block L) :=
  let full := rangeIncl start stop
  if support O.supp ord b = full then .ok b
  else do
    let bs := setTag none b :: (missing ord full (support O.supp ord b)).map pad
    let k ← kronOf O.supp ord (sortBySupport O.supp ord bs)
    pure (setTag b.tag k)

/-- `length` (qadence/transpile/block.py:324-332) of one block. -/
def fillLength (O : LeafOps L) : Block L → Nat
  | .leaf l _ => if O.isSwap l then 2 else 1
  | .scale _ _ _ => 1
  | .comp .chain bs _ => bs.length
  | .comp _ _ _ => 1

/-- `I(i)` as a block. -/
def identBlock (O : LeafOps L) (i : Nat) : Block L := .leaf (O.ident i) none

/-- `append_ids` (qadence/transpile/block.py:334-338). `range(min(qs), max(qs))` does not contain `max(qs)`. -/
def appendIds (O : LeafOps L) (ord : List Nat → List Nat) (total : Nat) (b : Block L) :
    Except PyErr (Block L) := do
  let (lo, hi) ← minMax (support O.supp ord b)
  let ids := ((List.range (hi - lo)).map (lo + ·)).flatMap fun i =>
    List.replicate (total - fillLength O b) (identBlock O i)
  pure (chainOf (b :: ids))

mutual
/-- `fill_identities(block, start, stop)` (qadence/transpile/block.py:285-367). -/
def fill (O : LeafOps L) (ord : List Nat → List Nat) (start stop : Nat) :
    Block L → Except PyErr (Block L)
  | .leaf l t =>
    fillPrim O ord
      (fun i => if O.isSwap l then chainOf [identBlock O i, identBlock O i] else identBlock O i)
      start stop (.leaf l t)
  | .scale b s t => fillPrim O ord (identBlock O) start stop (.scale b s t)
  | .comp .kron bs t => do
    let fs ← fillOwn O ord bs
    let maxLen := (fs.map (fillLength O)).foldl max 0
    let cs ← fs.mapM (appendIds O ord maxLen)
    let idle := (missing ord (rangeIncl start stop) (support O.supp ord (.comp .kron bs t))).map
      fun i => chainOf (List.replicate maxLen (identBlock O i))
    let k ← kronOf O.supp ord (sortBySupport O.supp ord (cs ++ idle))
    pure (setTag t k)
  | .comp k bs t => do
    let fs ← fillAll O ord start stop bs
    pure (.comp k fs t)
/-- All parts over the same range. -/
def fillAll (O : LeafOps L) (ord : List Nat → List Nat) (start stop : Nat) :
    List (Block L) → Except PyErr (List (Block L))
  | [] => .ok []
  | b :: bs => do
    let c ← fill O ord start stop b
    let cs ← fillAll O ord start stop bs
    pure (c :: cs)
/-- Every part over its own range (qadence/transpile/block.py:344). -/
def fillOwn (O : LeafOps L) (ord : List Nat → List Nat) :
    List (Block L) → Except PyErr (List (Block L))
  | [] => .ok []
  | b :: bs => do
    let (lo, hi) ← minMax (support O.supp ord b)
    let c ← fill O ord lo hi b
    let cs ← fillOwn O ord bs
    pure (c :: cs)
end

/-- `fill_identities(circ)` for a circuit on `n` qubits (qadence/transpile/circuit.py:8-13): the new block. -/
def fillCircuit (O : LeafOps L) (ord : List Nat → List Nat) (n : Nat) (b : Block L) : Block L :=
  let empty := missing ord (List.range n) (support O.supp ord b)
  if empty.length > 0 then chainOf [b, chainOf (empty.map (identBlock O))] else b

/-! ## chain_single_qubit_ops -/

/-- `isinstance(b, PrimitiveBlock) and b.n_supports == 1` (qadence/transpile/block.py:370-373). -/
def isPrimitive1 (supp : L → List Nat) (ord : List Nat → List Nat) : Block L → Bool
  | .comp _ _ _ => false
  | b => (support supp ord b).length == 1

/-- `block.blocks` of a composite block. -/
def parts : Block L → List (Block L)
  | .comp _ bs _ => bs
  | _ => []

/-- `is_kron_of_primitives` (qadence/transpile/block.py:370-373). -/
def isKronOfPrimitives (supp : L → List Nat) (ord : List Nat → List Nat) : Block L → Bool
  | .comp .kron bs _ => bs.all (isPrimitive1 supp ord)
  | _ => false

/-- `is_chain_of_primitivekrons` (qadence/transpile/block.py:376-385) for a chain with the given parts. All parts are
krons here, whose length is the number of their parts. -/
def isChainOfKrons (supp : L → List Nat) (ord : List Nat → List Nat) (bs : List (Block L)) : Bool :=
  decide (bs.length > 1) &&
  bs.all (fun b => bs.all fun c => (parts b).length == (parts c).length) &&
  bs.all (fun b => isKronOfPrimitives supp ord b &&
    support supp ord b == qsList (sumSupports ord (supports supp ord bs)))

/-- One round of `zip` over iterators. `iter(block)` of a composite block returns the block itself
(qadence/blocks/composite.py:58-63), hence all iterators of one object share their position. Objects are given by
numbers, `heap` holds what is left of each. -/
def zipRound : List Nat → (Nat → List (Block L)) → Option (List (Block L) × (Nat → List (Block L)))
  | [], heap => some ([], heap)
  | i :: is, heap =>
    match heap i with
    | [] => none
    | b :: rest =>
      match zipRound is (fun j => if j = i then rest else heap j) with
      | none => none
      | some (row, h) => some (b :: row, h)

/-- `zip(*block)` where the parts of `block` are the objects `ids`. -/
def zipIter : Nat → List Nat → (Nat → List (Block L)) → List (List (Block L))
  | 0, _, _ => []
  | fuel + 1, ids, heap =>
    match zipRound ids heap with
    | none => []
    | some (row, h) => row :: zipIter fuel ids h

/-- Contents of the objects: the parts of the first block with the given object number. -/
def heapOf (ids : List Nat) (bs : List (Block L)) (i : Nat) : List (Block L) :=
  match (ids.zip bs).find? (fun p => p.1 == i) with
  | some p => parts p.2
  | none => []

mutual
/-- `chain_single_qubit_ops(block)` (qadence/transpile/block.py:388-417). `ids` tells which parts of a chain are the
same Python object. -/
def chainSingle (supp : L → List Nat) (ord : List Nat → List Nat) (ids : List (Block L) → List Nat) :
    Block L → Block L
  | .comp .chain bs t =>
    if isChainOfKrons supp ord bs then
      let fuel := (bs.map fun b => (parts b).length).sum + 1
      match kronOf supp ord ((zipIter fuel (ids bs) (heapOf (ids bs) bs)).map chainOf) with
      | .ok b => b
      | .error _ => .comp .chain bs t
    else .comp .chain (chainSingleAll supp ord ids bs) none
  | .comp k bs _ => .comp k (chainSingleAll supp ord ids bs) none
  | .scale b s t => .scale b s t
  | .leaf l t => .leaf l t
/-- All parts. -/
def chainSingleAll (supp : L → List Nat) (ord : List Nat → List Nat) (ids : List (Block L) → List Nat) :
    List (Block L) → List (Block L)
  | [] => []
  | b :: bs => chainSingle supp ord ids b :: chainSingleAll supp ord ids bs
end

end Qadence.Block
