import Verif.Model.Gate

/-!
# Functions on the leaves of blocks

`qadence/transpile/apply_fn.py` and `qadence/transpile/noise.py`.
-/

namespace Qadence.Block

variable {L : Type}

/-- `COMPOSE_FN_DICT[type(block).__name__](*parts)` (qadence/transpile/apply_fn.py:8-14, 34-35). -/
def compose (supp : L → List Nat) (ord : List Nat → List Nat) : CKind → List (Block L) → Except PyErr (Block L)
  | .chain, bs => .ok (chainOf bs)
  | .add, bs => .ok (addOf bs)
  | .kron, bs => kronOf supp ord bs

mutual
/-- `apply_fn_to_blocks(block, f)` (qadence/transpile/apply_fn.py:17-40) for blocks without analog parts. A `ScaleBlock`
is no `CompositeBlock`, so that it counts as a leaf. -/
def applyFn (supp : L → List Nat) (ord : List Nat → List Nat) (f : Block L → Except PyErr (Block L)) :
    Block L → Except PyErr (Block L)
  | .leaf l t => f (.leaf l t)
  | .scale b s t => f (.scale b s t)
  | .comp k bs _ => do
    let cs ← applyFns supp ord f bs
    compose supp ord k cs
/-- The parts of a composite block (qadence/transpile/apply_fn.py:31-33). -/
def applyFns (supp : L → List Nat) (ord : List Nat → List Nat) (f : Block L → Except PyErr (Block L)) :
    List (Block L) → Except PyErr (List (Block L))
  | [] => .ok []
  | b :: bs => do
    let c ← applyFn supp ord f b
    let cs ← applyFns supp ord f bs
    return c :: cs
end

/-- `block._noise = noise` for a gate of the target class (qadence/transpile/noise.py:17-21); `target` says whether
`isinstance(block, target_class)`, and is always true without target class. The attribute of evolutions and scale
blocks is not modelled. -/
def setNoiseLeaf (target : Gate → Bool) (ν : Option (NoiseHandler Rat)) : Prim → Prim
  | .gate g old => .gate g (if target g then ν else old)
  | .hamEvo g t => .hamEvo g t

/-- `_set_noise` (qadence/transpile/noise.py:11-23): the block after the call. -/
def setNoiseTop (target : Gate → Bool) (ν : Option (NoiseHandler Rat)) : Block Prim → Block Prim
  | .leaf l t => .leaf (setNoiseLeaf target ν l) t
  | b => b

mutual
/-- What becomes of a block when `_set_noise` changes its leaves in place. -/
def noiseInPlace (target : Gate → Bool) (ν : Option (NoiseHandler Rat)) : Block Prim → Block Prim
  | .leaf l t => setNoiseTop target ν (.leaf l t)
  | .scale b s t => setNoiseTop target ν (.scale b s t)
  | .comp k bs t => .comp k (noiseInPlaces target ν bs) t
/-- The parts of a composite block. -/
def noiseInPlaces (target : Gate → Bool) (ν : Option (NoiseHandler Rat)) : List (Block Prim) → List (Block Prim)
  | [] => []
  | b :: bs => noiseInPlace target ν b :: noiseInPlaces target ν bs
end

/-- `set_noise(block, noise, target_class)` (qadence/transpile/noise.py:26-53): the block is rebuilt, the result is
thrown away, and the block changed in place is returned. -/
def setNoise (ord : List Nat → List Nat) (target : Gate → Bool) (ν : Option (NoiseHandler Rat)) (b : Block Prim) :
    Except PyErr (Block Prim) := do
  let _ ← applyFn (Prim.supp ord) ord (fun c => .ok (setNoiseTop target ν c)) b
  return noiseInPlace target ν b

end Qadence.Block
