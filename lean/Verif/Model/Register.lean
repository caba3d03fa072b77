import Mathlib.Analysis.SpecialFunctions.Pow.Real
import Verif.Model.Py

/-!
# Registers (`qadence/register.py`)

The networkx graph is given by its nodes (in the order of `graph.nodes`) with their optional attribute `pos` and
its edges (in the order of `graph.edges`). Coordinates are real numbers instead of floats. Device specifications
are not modelled.
-/

namespace Qadence

/-- The graph of a register (qadence/register.py:73). -/
structure Register where
  nodes : List (Nat × Option (List ℝ))
  edges : List (Nat × Nat)

namespace Register

/-- `register.nodes` as an iterable (qadence/register.py:272-275). -/
def labels (r : Register) : List Nat := r.nodes.map Prod.fst

/-- `register.n_qubits` (qadence/register.py:78-81). -/
def nQubits (r : Register) : Nat := r.nodes.length

/-- `register.support` (qadence/register.py:282-285); `ord` is the iteration order of Python sets. -/
def support (ord : List Nat → List Nat) (r : Register) : List Nat := ord r.labels

/-- `register.all_node_pairs` (qadence/register.py:292-295). -/
def allNodePairs (ord : List Nat → List Nat) (r : Register) : List (Nat × Nat) :=
  ((support ord r).product (support ord r)).filter (fun p => p.1 < p.2)

/-- `register.coords[i]` (qadence/register.py:287-290): the empty tuple if there is no position. -/
def coord (r : Register) (i : Nat) : Except PyErr (List ℝ) :=
  match r.nodes.lookup i with
  | some p => .ok (p.getD [])
  | none => .error .keyError

/-- `math.dist`: both points must have the same dimension. -/
noncomputable def dist (p q : List ℝ) : Except PyErr ℝ :=
  if p.length = q.length then
    .ok (Real.sqrt ((List.zipWith (fun a b => (a - b) ^ 2) p q).sum))
  else .error .valueError

/-- The distance of two nodes. -/
noncomputable def pairDist (r : Register) (e : Nat × Nat) : Except PyErr ℝ := do
  let p ← coord r e.1
  let q ← coord r e.2
  dist p q

/-- `register.distances` (qadence/register.py:297-301) as list of items. -/
noncomputable def distances (ord : List Nat → List Nat) (r : Register) :
    Except PyErr (List ((Nat × Nat) × ℝ)) :=
  (allNodePairs ord r).mapM (fun e => do
    let d ← pairDist r e
    return (e, d))

/-- `register.edge_distances` (qadence/register.py:303-311). -/
noncomputable def edgeDistances (r : Register) : Except PyErr (List ((Nat × Nat) × ℝ)) :=
  r.edges.mapM (fun e => do
    let d ← pairDist r e
    return (e, d))

/-- `min(values) if len(distances) > 0 else 0.0` (qadence/register.py:316-318). -/
noncomputable def minValue : List ℝ → ℝ
  | [] => 0
  | d :: ds => ds.foldl min d

/-- `register.min_distance` (qadence/register.py:313-318). -/
noncomputable def minDistance (ord : List Nat → List Nat) (r : Register) : Except PyErr ℝ := do
  let ds ← distances ord r
  return minValue (ds.map Prod.snd)

/-- The new position of one node (qadence/register.py:28-29): a missing position is a KeyError, a position which is
not two-dimensional a ValueError. -/
noncomputable def scalePos (f : ℝ) : Option (List ℝ) → Except PyErr (Option (List ℝ))
  | none => .error .keyError
  | some [x, y] => .ok (some [x * f, y * f])
  | some _ => .error .valueError

/-- `_scale_node_positions` (qadence/register.py:24-30). -/
noncomputable def scaleNodePositions (r : Register) (minDist spacing : ℝ) : Except PyErr Register := do
  let f := spacing / minDist
  let ns ← r.nodes.mapM (fun n => do
    let p ← scalePos f n.2
    return (n.1, p))
  return { r with nodes := ns }

/-- `Register.__init__` for a graph (qadence/register.py:34-76). -/
noncomputable def init (ord : List Nat → List Nat) (g : Register) (spacing : Option ℝ) : Except PyErr Register :=
  match spacing with
  | none => .ok g
  | some s => do
    let d ← minDistance ord g
    if d ≠ 0 then scaleNodePositions g d s else return g

/-- `register.rescale_coords(scaling)` (qadence/register.py:320-329). -/
noncomputable def rescaleCoords (ord : List Nat → List Nat) (r : Register) (scaling : ℝ) : Except PyErr Register := do
  let g ← scaleNodePositions r 1 scaling
  init ord g none

/-- `Register.from_coordinates` (qadence/register.py:83-103). -/
noncomputable def fromCoordinates (ord : List Nat → List Nat) (coords : List (List ℝ)) (spacing : Option ℝ) :
    Except PyErr Register :=
  init ord { nodes := coords.zipIdx.map (fun c => (c.2, some c.1)), edges := [] } spacing

/-- `line_graph` (qadence/register.py:362-368). -/
def lineGraph (n : Nat) : Register where
  nodes := (List.range n).map (fun i => (i, some [(i : ℝ), 0]))
  edges := (List.range (n - 1)).zip (List.range' 1 (n - 1))

/-- `Register.line` (qadence/register.py:105-118). -/
noncomputable def line (ord : List Nat → List Nat) (n : Nat) (spacing : ℝ) : Except PyErr Register :=
  init ord (lineGraph n) (some spacing)

/-- `Register._from_dict(register._to_dict())` (qadence/register.py:331-350): the node-link data of networkx gives
the same graph again, and `__init__` is called with its default spacing 1.0. -/
noncomputable def roundTrip (ord : List Nat → List Nat) (r : Register) : Except PyErr Register :=
  init ord r (some 1)

end Register

end Qadence
