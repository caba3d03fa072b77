import Mathlib.Data.List.Dedup
import Mathlib.Data.Real.Basic
import Verif.Model.Py

/-!
# Batches of parameter values in `Overlap` (`qadence/overlap.py:303-445`)

The values of overlaps are arguments: `ov ρ σ` is the overlap of the bra with parameter values `ρ` and the ket with parameter
values `σ`, `re ρ` and `im ρ` are the two parts of the Hadamard test of bra and ket with the same values.
-/

namespace Qadence.OverlapBatch

/-- A tensor of parameter values: without dimensions or one-dimensional. -/
inductive PT
  | scalar (v : ℝ)
  | vec (l : List ℝ)

/-- `v.reshape(-1) if v.shape == () else v` (qadence/overlap.py:351-353, 357-359). -/
def PT.flat : PT → List ℝ
  | .scalar v => [v]
  | .vec l => l

/-- `OverlapMethod` (qadence/types.py:275-287). -/
inductive Method
  | exact
  | jensenShannon
  | computeUncompute
  | swapTest
  | hadamardTest
  deriving DecidableEq, Repr

/-- One set of parameter values. -/
abbrev Row := PyDict String ℝ

/-- Values of the parameters of a batch. -/
abbrev Batch := PyDict String (List ℝ)

/-- `values[x]` with its name. -/
def lookup (d : Batch) (x : String) : Except PyErr (String × List ℝ) :=
  match d.get? x with
  | some l => .ok (x, l)
  | none => .error .keyError

/-- `tensor[i]`. -/
def entry (l : List ℝ) (i : Nat) : Except PyErr ℝ :=
  match l[i]? with
  | some v => .ok v
  | none => .error .indexError

/-- The sets of parameter values of the states computed by `run` or `sample` of a model with feature parameters `names`
(the embedding looks up all of them; tensors of length one are repeated; other lengths have to agree). -/
def rows (names : List String) (d : Batch) : Except PyErr (List Row) := do
  let vals ← names.mapM (lookup d)
  let size := (vals.map fun kv => kv.2.length).foldl max 1
  if ∀ kv ∈ vals, kv.2.length = 1 ∨ kv.2.length = size then
    return (List.range size).map fun i => vals.map fun kv => (kv.1, if kv.2.length = 1 then kv.2.getD 0 0 else kv.2.getD i 0)
  else .error .runtimeError

/-- Elementwise operation on two tensors; tensors of length one are repeated. -/
def broadcast (f : Row → Row → ℝ) (a b : List Row) : Except PyErr (List ℝ) :=
  if a.length = b.length then .ok (List.zipWith f a b)
  else match a, b with
    | [x], b => .ok (b.map fun y => f x y)
    | a, [y] => .ok (a.map fun x => f x y)
    | _, _ => .error .runtimeError

/-- What the model needs to know about the circuits: feature parameters and values. -/
structure Circuits where
  braNames : List String
  ketNames : List String
  ov : Row → Row → ℝ
  re : Row → ℝ
  im : Row → ℝ

/-- The union of two sets of names. -/
def union (a b : List String) : List String := (a ++ b).dedup

/-- `self.bra_feat_param_names` and `self.ket_feat_param_names` (qadence/overlap.py:331-344): the circuits of the protocols
contain bra and ket, and for two protocols there is no ket model. -/
def featNames (C : Circuits) : Method → List String × List String
  | .exact | .jensenShannon => (C.braNames, C.ketNames)
  | .computeUncompute | .swapTest => (union C.braNames C.ketNames, [])
  | .hadamardTest => (union C.braNames C.ketNames, union C.braNames C.ketNames)

/-- `len(list(values.values())[0]) if len(values) != 0 else 0` (qadence/overlap.py:354-356, 360-362). -/
def batchSize (d : Batch) : Nat :=
  match d with
  | [] => 0
  | (_, l) :: _ => l.length

/-- `_process_param_values` (qadence/overlap.py:346-407); the second entry is `None` if there is no entry "ket". -/
def processParamValues (C : Circuits) (m : Method) (bra ket : PyDict String PT) : Except PyErr (Batch × Option Batch) := do
  let braV : Batch := bra.map fun kv => (kv.1, kv.2.flat)
  let ketV : Batch := ket.map fun kv => (kv.1, kv.2.flat)
  let nb := batchSize braV
  let nk := batchSize ketV
  let count := (union (featNames C m).1 (featNames C m).2).length
  if count = 2 then
    let newBra : Batch := braV.map fun kv => (kv.1, (List.replicate nk kv.2).flatten)
    let idxs := ((List.range nk).map fun i => List.replicate nb i).flatten
    let newKet ← ketV.mapM fun kv => do
      let l ← idxs.mapM (entry kv.2)
      return ((kv.1, l) : String × List ℝ)
    match m with
    | .exact | .jensenShannon => return (newBra, some newKet)
    | .computeUncompute | .swapTest => return (newBra.merge newKet, none)
    | .hadamardTest => return (newBra.merge newKet, some (newBra.merge newKet))
  else if count < 2 then
    if nb = nk ∨ nb = 0 ∨ nk = 0 then return (braV, some ketV) else .error .valueError
  else .error .valueError

/-- `self.overlap_fn` of `_select_overlap_method` (qadence/overlap.py:61-154). -/
def overlapFn (C : Circuits) (m : Method) (p : Batch × Option Batch) : Except PyErr (List ℝ) :=
  match m with
  | .exact => do
    let a ← rows C.braNames p.1
    let b ← rows C.ketNames (p.2.getD [])
    broadcast C.ov a b
  | .jensenShannon => do
    let a ← rows C.braNames p.1
    let b ← rows C.ketNames (p.2.getD [])
    return List.zipWith C.ov a b
  | .computeUncompute | .swapTest => do
    let a ← rows (union C.braNames C.ketNames) p.1
    return a.map fun ρ => C.ov ρ ρ
  | .hadamardTest => do
    let a ← rows (union C.braNames C.ketNames) p.1
    let b ← rows (union C.braNames C.ketNames) (p.2.getD [])
    broadcast (fun ρ σ => C.re ρ + C.im σ) a b

/-- `len` of the first tensor of a dictionary (qadence/overlap.py:441-442). -/
def firstLen (d : PyDict String PT) : Except PyErr Nat :=
  match d with
  | [] => .error .indexError
  | (_, .scalar _) :: _ => .error .typeError
  | (_, .vec l) :: _ => .ok l.length

/-- `overlap.reshape((batch_size_ket, batch_size_bra)).t()` (qadence/overlap.py:443). -/
def reshapeT (nk nb : Nat) (l : List ℝ) : Except PyErr (List (List ℝ)) :=
  if l.length = nk * nb then .ok ((List.range nb).map fun i => (List.range nk).map fun k => l.getD (k * nb + i) 0)
  else .error .runtimeError

/-- `Overlap.forward` (qadence/overlap.py:409-445). -/
def forward (C : Circuits) (m : Method) (bra ket : PyDict String PT) : Except PyErr (List (List ℝ)) := do
  let p ← processParamValues C m bra ket
  let o ← overlapFn C m p
  if (union (featNames C m).1 (featNames C m).2).length < 2 then return o.map fun v => [v]
  else do
    let nb ← firstLen bra
    let nk ← firstLen ket
    reshapeT (max nk 1) (max nb 1) o

end Qadence.OverlapBatch
