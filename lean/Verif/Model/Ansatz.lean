import Verif.Model.Hamiltonian

/-!
# Ansatz constructors (`qadence/constructors/hea.py`, `ala.py`, `iia.py`)
-/

namespace Qadence.Ansatz

/-- `support[i]` for a non-negative index. -/
def item (l : List Nat) (i : Nat) : Except PyErr Nat :=
  match l[i]? with
  | some q => .ok q
  | none => .error .indexError

/-- The entangler argument of digital ansätze: one of the six supported classes, or anything else. -/
inductive Entangler
  | CNOT | CZ | CRX | CRY | CRZ | CPHASE
  | other
  deriving DecidableEq, Repr

/-- A block without noise. -/
def gateBlock (g : Gate) : Block Prim := .leaf (.gate g none) none

/-- `_entangler` (qadence/constructors/hea.py:133-156, ala.py:117-140, iia.py:16-28). -/
def entanglerBlock (e : Entangler) (c t : Nat) (name : String) : Except PyErr (Block Prim) :=
  match e with
  | .CNOT => .ok (gateBlock (.cnot c t))
  | .CZ => .ok (gateBlock (.cz c t))
  | .CRX => .ok (gateBlock (.crx c t (.var name)))
  | .CRY => .ok (gateBlock (.cry c t (.var name)))
  | .CRZ => .ok (gateBlock (.crz c t (.var name)))
  | .CPHASE => .ok (gateBlock (.cphase c t (.var name)))
  | .other => .error .valueError

/-- One kron of rotations (qadence/constructors/hea.py:123-126, ala.py:107-110); `c` is the value of the counter
before. -/
def rotKron (ord : List Nat → List Nat) (pre : String) (support : List Nat) (n : Nat) (g : RotGate) (c : Nat) :
    Except PyErr (Block Prim) := do
  let bs ← (List.range n).mapM (fun i => do
    let q ← item support i
    return gateBlock (.rot g q (.var (pre ++ "_" ++ toString (c + i)))))
  Block.kronOf (Prim.supp ord) ord bs

/-- The krons of one layer (qadence/constructors/hea.py:122-128): every operation takes `n` numbers of the counter. -/
def rotKrons (ord : List Nat → List Nat) (pre : String) (support : List Nat) (n : Nat) :
    List RotGate → Nat → Except PyErr (List (Block Prim))
  | [], _ => .ok []
  | g :: gs, c => do
    let b ← rotKron ord pre support n g c
    let bs ← rotKrons ord pre support n gs (c + n)
    return b :: bs

/-- `_rotations_digital` (qadence/constructors/hea.py:98-130, ala.py:82-114): `depth` layers, counter `c`. -/
def rotationsDigital (ord : List Nat → List Nat) (pre : String) (support : List Nat) (n : Nat)
    (ops : List RotGate) : Nat → Nat → Except PyErr (List (Block Prim))
  | 0, _ => .ok []
  | d + 1, c => do
    let ks ← rotKrons ord pre support n ops c
    let rest ← rotationsDigital ord pre support n ops d (c + n * ops.length)
    return Block.chainOf ks :: rest

/-- A kron of entanglers between positions of the support; `c` is the counter before
(qadence/constructors/hea.py:189-213, ala.py:172-185). -/
def entKron (ord : List Nat → List Nat) (pre : String) (support : List Nat) (e : Entangler)
    (pairs : List (Nat × Nat)) (c : Nat) : Except PyErr (Block Prim) := do
  let bs ← (pairs.zipIdx c).mapM (fun p => do
    let a ← item support p.1.1
    let b ← item support p.1.2
    entanglerBlock e a b (pre ++ "_ent_" ++ toString p.2))
  Block.kronOf (Prim.supp ord) ord bs

/-- Positions linked by the first kron of an hea layer (qadence/constructors/hea.py:189-200). -/
def heaPairs₁ (n : Nat) : List (Nat × Nat) :=
  ((List.range n).filter (fun i => i % 2 = 0 && decide (i + 1 < n))).map (fun i => (i, i + 1))

/-- Positions linked by the second kron (qadence/constructors/hea.py:201-213). -/
def heaPairs₂ (n : Nat) (periodic : Bool) : List (Nat × Nat) :=
  ((List.range (n - if periodic then 0 else 1)).filter (fun i => i % 2 = 1)).map (fun i => (i, (i + 1) % n))

/-- One entangling layer (qadence/constructors/hea.py:187-214) with the counter after it. -/
def heaEntLayer (ord : List Nat → List Nat) (pre : String) (support : List Nat) (n : Nat) (periodic : Bool)
    (e : Entangler) (c : Nat) : Except PyErr (Block Prim × Nat) := do
  let k₁ ← entKron ord pre support e (heaPairs₁ n) c
  let c := c + (heaPairs₁ n).length
  if n > 2 then do
    let k₂ ← entKron ord pre support e (heaPairs₂ n periodic) c
    return (Block.chainOf [k₁, k₂], c + (heaPairs₂ n periodic).length)
  else return (Block.chainOf [k₁], c)

/-- `_entanglers_digital` (qadence/constructors/hea.py:159-215). -/
def entanglersDigital (ord : List Nat → List Nat) (pre : String) (support : List Nat) (n : Nat) (periodic : Bool)
    (e : Entangler) : Nat → Nat → Except PyErr (List (Block Prim))
  | 0, _ => .ok []
  | d + 1, c => do
    let l ← heaEntLayer ord pre support n periodic e c
    let rest ← entanglersDigital ord pre support n periodic e d l.2
    return l.1 :: rest

/-- The loop building the list of layers (qadence/constructors/hea.py:271-274). -/
def interleave {α : Type} : List α → List α → List α
  | a :: as, b :: bs => a :: b :: interleave as bs
  | _, _ => []

/-- `tag(block, t)` for a chain of blocks. -/
def tagChain (bs : List (Block Prim)) (t : String) : Block Prim := .comp .chain bs (some t)

/-- `hea_digital` (qadence/constructors/hea.py:218-275). -/
def heaDigital (ord : List Nat → List Nat) (n depth : Nat) (pre : String) (support : List Nat) (periodic : Bool)
    (ops : List RotGate) (e : Entangler) : Except PyErr (Block Prim) := do
  if e = .other then .error .valueError
  let rots ← rotationsDigital ord pre support n ops depth 0
  let ents ← entanglersDigital ord pre support n periodic e depth 0
  return tagChain (interleave rots ents) "HEA"

/-- `_entanglers_analog` (qadence/constructors/hea.py:283-299). -/
def entanglersAnalog (pre : String) (gen : Block Gate) (depth : Nat) : List (Block Prim) :=
  (List.range depth).map (fun d => .leaf (.hamEvo gen (.var (pre ++ "_t_" ++ toString d))) none)

/-- `hea_sDAQC` (qadence/constructors/hea.py:302-361) with a given generator; without one the generator is
`hamiltonian_factory(n_qubits, interaction=NN)`. -/
def heaSDAQC (ord : List Nat → List Nat) (n depth : Nat) (pre : String) (support : List Nat)
    (ops : List RotGate) (gen : Block Gate) : Except PyErr (Block Prim) := do
  if !gen.isQubitHamiltonian then .error .valueError
  let rots ← rotationsDigital ord pre support n ops depth 0
  return tagChain (interleave rots (entanglersAnalog pre gen depth)) "HEA-sDA"

/-- Python's `range(a, b, step)` for integers and a positive step. (A step of zero would be a block size of zero, for
which the range over `j` is empty and the range over `i` is not evaluated.) -/
def pyRange (a b : Int) (step : Nat) : List Int :=
  if step = 0 then [] else
    (List.range ((b - a + step - 1) / step).toNat).map (fun (k : Nat) => a + (step : Int) * (k : Int))

/-- `start_i` (qadence/constructors/ala.py:171): Python's `//` rounds down. -/
def alaStart (m d : Nat) : Int := if d % 2 = 0 then 0 else (-(m : Int)).fdiv 2

/-- Positions linked by one kron of an ala layer (qadence/constructors/ala.py:180-182). -/
def alaPairs (n m d startJ : Nat) : List (Nat × Nat) :=
  (pyRange startJ m 2).flatMap (fun (j : Int) => (pyRange (alaStart m d) n m).filterMap (fun (i : Int) =>
    if i + j + 1 < (n : Int) ∧ j + 1 < (m : Int) ∧ 0 ≤ i + j then some ((i + j).toNat, (i + j + 1).toNat) else none))

/-- The krons of one ala layer for the given values of `start_j` (qadence/constructors/ala.py:172-184). -/
def alaKrons (ord : List Nat → List Nat) (pre : String) (support : List Nat) (n m : Nat) (e : Entangler) (d : Nat) :
    List Nat → Nat → Except PyErr (List (Block Prim) × Nat)
  | [], c => .ok ([], c)
  | j :: js, c => do
    let k ← entKron ord pre support e (alaPairs n m d j) c
    let rest ← alaKrons ord pre support n m e d js (c + (alaPairs n m d j).length)
    return (k :: rest.1, rest.2)

/-- `[i for i in range(2) if m_block_qubits > 2 or i == 0]` (qadence/constructors/ala.py:184). -/
def alaStarts (m : Nat) : List Nat := if m > 2 then [0, 1] else [0]

/-- `_entanglers_ala_block_digital` (qadence/constructors/ala.py:143-188); the remaining layers have numbers
`d, d + 1, ...`. -/
def entanglersAla (ord : List Nat → List Nat) (pre : String) (support : List Nat) (n m : Nat) (e : Entangler) :
    (remaining d c : Nat) → Except PyErr (List (Block Prim))
  | 0, _, _ => .ok []
  | r + 1, d, c => do
    let l ← alaKrons ord pre support n m e d (alaStarts m) c
    let rest ← entanglersAla ord pre support n m e r (d + 1) l.2
    return Block.chainOf l.1 :: rest

/-- `ala_digital` (qadence/constructors/ala.py:191-249). -/
def alaDigital (ord : List Nat → List Nat) (n m depth : Nat) (pre : String) (support : List Nat)
    (ops : List RotGate) (e : Entangler) : Except PyErr (Block Prim) := do
  if e = .other then .error .valueError
  let rots ← rotationsDigital ord pre support n ops depth 0
  let ents ← entanglersAla ord (pre ++ "_ent") support n m e depth 0 0
  return tagChain (interleave rots ents) "ALA"

/-- One kron of rotations of the identity initialised ansatz (qadence/constructors/iia.py:80-95). -/
def iiaKron (ord : List Nat → List Nat) (n layer : Nat) (pre : String) (g : RotGate) (idx : Nat) :
    Except PyErr (Block Prim) :=
  Block.kronOf (Prim.supp ord) ord ((List.range n).map (fun q =>
    gateBlock (.rot g q (.var (pre ++ "_" ++ toString layer ++ toString (q + n * idx))))))

/-- `_rotations` with side "left" (qadence/constructors/iia.py:49-97). -/
def iiaLeft (ord : List Nat → List Nat) (n layer : Nat) (pre : String) (ops : List RotGate) :
    Except PyErr (List (Block Prim)) :=
  ops.zipIdx.mapM (fun g => iiaKron ord n layer pre g.1 g.2)

/-- `_rotations` with side "right" (qadence/constructors/iia.py:72-76): reversed operations and indices. -/
def iiaRight (ord : List Nat → List Nat) (n layer : Nat) (pre : String) (ops : List RotGate) :
    Except PyErr (List (Block Prim)) :=
  ops.reverse.zipIdx.mapM (fun g => iiaKron ord n layer pre g.1 (ops.length - g.2 - 1))

/-- The entangling layer: a digital strategy with a class and a boundary condition, or sDAQC with a generator. -/
inductive IIAEntangler
  | digital (e : Entangler) (periodic : Bool)
  | sdaqc (gen : Block Gate)

/-- The blocks of `left_entanglers[0]` (qadence/constructors/iia.py:152-206). -/
def iiaEntanglers (n layer : Nat) (pre : String) : IIAEntangler → Except PyErr (List (Block Prim))
  | .digital e false => if e = .other then .error .valueError else
      (List.range (n - 1)).mapM (fun q =>
        entanglerBlock e q (q + 1) (pre ++ "_θ_ent_" ++ "_" ++ toString layer ++ toString q))
  | .digital e true => if e = .other then .error .valueError else
      (List.range n).mapM (fun q =>
        entanglerBlock e q ((q + 1) % n) (pre ++ "_θ_ent_" ++ "_" ++ toString layer ++ toString q))
  | .sdaqc gen => if gen.isQubitHamiltonian then
      .ok [.leaf (.hamEvo gen (.var (pre ++ "_ent_t" ++ "_" ++ toString layer))) none] else .error .valueError

/-- One layer (qadence/constructors/iia.py:141-240). -/
def iiaLayer (ord : List Nat → List Nat) (n : Nat) (pre : String) (ops : List RotGate) (ent : IIAEntangler)
    (layer : Nat) : Except PyErr (Block Prim) := do
  let left ← iiaLeft ord n layer (pre ++ "_α") ops
  let ents ← iiaEntanglers n layer pre ent
  let centre ← iiaKron ord n layer (pre ++ "_γ") .RX 0
  let right ← iiaRight ord n layer (pre ++ "_β") ops
  return tagChain (left ++ [Block.chainOf ents] ++ [centre] ++ ents.reverse ++ right) ("BPMA-" ++ toString layer)

/-- `identity_initialized_ansatz` (qadence/constructors/iia.py:99-242). The initial values of the parameters are
given by `iiaItems`. -/
def iia (ord : List Nat → List Nat) (n depth : Nat) (pre : String) (ops : List RotGate) (ent : IIAEntangler) :
    Except PyErr (Block Prim) := do
  let layers ← (List.range depth).mapM (iiaLayer ord n pre ops ent)
  return Block.chainOf layers

/-- The entangling gates with a parameter (qadence/constructors/iia.py:22-26). -/
def Entangler.parametric : Entangler → Bool
  | .CRX | .CRY | .CRZ | .CPHASE => true
  | _ => false

/-- The parameters of the entanglers of a layer, with their values (qadence/constructors/iia.py:25, 44). -/
def iiaEntItems (n : Nat) (pre : String) (ent : IIAEntangler) (layer : Nat) : List (String × Rat) :=
  match ent with
  | .digital e p => if e.parametric then (List.range (if p then n else n - 1)).map (fun q =>
      (pre ++ "_θ_ent_" ++ "_" ++ toString layer ++ toString q, (0 : Rat))) else []
  | .sdaqc _ => [(pre ++ "_ent_t" ++ "_" ++ toString layer, (0 : Rat))]

/-- The parameters created for one layer with their values, in the order of creation
(qadence/constructors/iia.py:142-144, 25, 44, 80-95, 212-219): `alpha k` are the random numbers of the layer,
`beta = -alpha`, `gamma = 0`, the entangling parameters are created with value zero. -/
def iiaLayerItems (n : Nat) (pre : String) (nops : Nat) (ent : IIAEntangler) (alpha : Nat → Rat) (layer : Nat) :
    List (String × Rat) :=
  (List.range (n * nops)).map (fun k => (pre ++ "_α" ++ "_" ++ toString layer ++ toString k, alpha k)) ++
  iiaEntItems n pre ent layer ++
  (List.range n).map (fun k => (pre ++ "_γ" ++ "_" ++ toString layer ++ toString k, (0 : Rat))) ++
  (List.range (n * nops)).map (fun k => (pre ++ "_β" ++ "_" ++ toString layer ++ toString k, -alpha k))

/-- The parameters created by `identity_initialized_ansatz`, in the order of creation within and across the layers
(on the right side the operations are taken in reversed order; as names within a layer differ, this order is
irrelevant). -/
def iiaItems (n depth : Nat) (pre : String) (nops : Nat) (ent : IIAEntangler) (alpha : Nat → Nat → Rat) :
    List (String × Rat) :=
  (List.range depth).flatMap (fun l => iiaLayerItems n pre nops ent (alpha l) l)

/-- The value of a parameter: sympy returns the same cached `Symbol` for the same name (assumptions are compared as truth
values, so non-zero values do not differ), hence the value given last is the value of all occurrences
(qadence/parameters.py:122-129). -/
def lastValue (items : List (String × Rat)) (x : String) : Option Rat := items.reverse.lookup x

end Qadence.Ansatz
