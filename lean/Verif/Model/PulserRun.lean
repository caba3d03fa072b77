import Verif.Model.Py
import Verif.Spec.Operator
import Mathlib.LinearAlgebra.Matrix.Trace

/-!
# Calls of the Pulser backend (`qadence/backends/pulser/backend.py`, `convert_ops.py`)

The emulator of Pulser is a function `Sim` of the sequence (the values of its variables and whether the addressing
pattern is part of it), the simulation settings and the initial state. What is modelled of the sequence object are the
two facts which limit its use: it can be measured once, and a channel can be declared once. Basis states are bits per
qubit, numpy's order of amplitudes is the one of the bits.
-/

namespace Qadence.PulserRun

open Qadence.Spec

variable {n : ℕ} {V C : Type}

/-- `np.flip` of a vector of 2^n amplitudes: the index with all bits complemented. -/
def flip (ψ : St n → ℂ) : St n → ℂ := fun x => ψ fun j => !x j

/-- `np.flip` of a matrix: both indices. -/
def flip2 (ρ : Oper n) : Oper n := fun x y => ρ (fun j => !x j) (fun j => !y j)

/-- `invert_endianness` of a state (qadence/transpile/invert.py). -/
def invert (ψ : St n → ℂ) : St n → ℂ := fun x => ψ fun j => x j.rev

/-- `SimConfig`: the noise and its rate. -/
abbrev SimConfig := Option (String × ℝ)

/-- The emulator (`QutipEmulator.from_sequence(...).run(...)`, qadence/backends/pulser/backend.py:112-125). -/
structure Sim (n : ℕ) (V C : Type) where
  state : (vals : Option V) → (pattern : Bool) → SimConfig → (init : Option (St n → ℂ)) → (St n → ℂ)
  density : (vals : Option V) → (pattern : Bool) → SimConfig → (init : Option (St n → ℂ)) → Oper n
  sample : (vals : Option V) → (pattern : Bool) → SimConfig → (init : Option (St n → ℂ)) → (shots : ℕ) → C

/-- A sequence object. -/
structure Seq where
  parametrized : Bool
  measured : Bool := false
  channels : Bool := false

/-- What calls can change: the converted circuit's sequence and the configuration of the backend. -/
structure World where
  native : Seq
  simConfig : SimConfig := none
  cloud : Bool := false

/-- Arguments which do not change between calls: whether the device has an addressing pattern. -/
structure Circuit where
  pattern : Bool

/-- `assign_parameters` (qadence/backends/pulser/backend.py:163-181): without values the sequence of the circuit itself. -/
def assign (w : World) : Option V → Except PyErr Seq
  | none => if w.native.parametrized then .error .valueError else .ok w.native
  | some _ => .ok { w.native with parametrized := false }

/-- Changes of the sequence are changes of the circuit if it is the same object. -/
def writeBack (w : World) (vals : Option V) (s : Seq) : World :=
  match vals with
  | none => { w with native := s }
  | some _ => w

/-- `add_addressing_pattern`: declares a channel per qubit (qadence/backends/pulser/pulses.py:68-70), which Pulser refuses
for a name in use and after a measurement. -/
def addPattern (s : Seq) : Except PyErr Seq :=
  if s.measured then .error .runtimeError
  else if s.channels then .error .valueError
  else .ok { s with channels := true }

/-- `sequence.measure()`; refused by Pulser after a measurement. -/
def measure (s : Seq) : Except PyErr Seq :=
  if s.measured then .error .runtimeError else .ok { s with measured := true }

/-- The preparation of a sequence in `run` and `sample` (qadence/backends/pulser/backend.py:205-209, 302-306). -/
def prepare (c : Circuit) (w : World) (vals : Option V) : Except PyErr Unit × World :=
  match assign w vals with
  | .error e => (.error e, w)
  | .ok s =>
    match (if c.pattern then addPattern s else .ok s) with
    | .error e => (.error e, w)
    | .ok s' =>
      match measure s' with
      | .error e => (.error e, writeBack w vals s')
      | .ok s'' => (.ok (), writeBack w vals s'')

/-- A loop over the elements of a batch with a result each; stops at the first error. -/
def forEach {α β : Type} (f : World → α → Except PyErr β × World) : World → List α → Except PyErr (List β) × World
  | w, [] => (.ok [], w)
  | w, a :: l =>
    match f w a with
    | (.error e, w') => (.error e, w')
    | (.ok b, w') =>
      match forEach f w' l with
      | (.error e, w'') => (.error e, w'')
      | (.ok bs, w'') => (.ok (b :: bs), w'')

/-- The order of qubits in results. -/
inductive Endian
  | big | little
  deriving DecidableEq

/-- One element of a run without noise (qadence/backends/pulser/backend.py:204-220). -/
def runElement (S : Sim n V C) (c : Circuit) (init : Option (St n → ℂ)) (w : World) (vals : Option V) :
    Except PyErr (St n → ℂ) × World :=
  match prepare c w vals with
  | (.error e, w') => (.error e, w')
  | (.ok _, w') => (.ok (flip (S.state vals c.pattern w'.simConfig (init.map flip))), w')

/-- `run` without noise (qadence/backends/pulser/backend.py:191-229); `vals` is `to_list_of_dicts(param_values)`, with
`none` for the empty dictionary. The initial state is given as a batch. -/
def run (S : Sim n V C) (c : Circuit) (w : World) (vals : List (Option V)) (init : Option (List (St n → ℂ)))
    (en : Endian) : Except PyErr (List (St n → ℂ)) × World :=
  if w.cloud then (.error .valueError, w)
  else if (init.map List.length).getD 1 > 1 then (.error .valueError, w)
  else
    match forEach (runElement S c (init.bind List.head?)) w vals with
    | (.error e, w') => (.error e, w')
    | (.ok l, w') => (.ok (if en = .little then l.map invert else l), w')

/-- One element of a run with noise (qadence/backends/pulser/backend.py:259-263): no pattern, no measurement, the initial
state as given. -/
def noisyElement (S : Sim n V C) (init : Option (St n → ℂ)) (w : World) (vals : Option V) :
    Except PyErr (Oper n) × World :=
  match assign w vals with
  | .error e => (.error e, w)
  | .ok _ => (.ok (flip2 (S.density vals false w.simConfig init)), w)

/-- `run_noisy_sim` (qadence/backends/pulser/backend.py:247-264). -/
def noisySim (S : Sim n V C) (proto : String) (vals : List (Option V)) (init : Option (St n → ℂ)) (w : World) (rate : ℝ) :
    Except PyErr (List (Oper n)) × World :=
  forEach (noisyElement S init) { w with simConfig := some (proto, rate) } vals

/-- `_run_noisy` with a list of rates (qadence/backends/pulser/backend.py:234-282), one batch per rate. -/
def runNoisy (S : Sim n V C) (w : World) (proto : String) (rates : List ℝ) (vals : List (Option V))
    (init : Option (St n → ℂ)) : Except PyErr (List (List (Oper n))) × World :=
  if w.cloud then (.error .valueError, w)
  else forEach (noisySim S proto vals init) w rates

/-- One element of `sample` (qadence/backends/pulser/backend.py:301-308). -/
def sampleElement (S : Sim n V C) (c : Circuit) (init : Option (St n → ℂ)) (shots : ℕ) (w : World) (vals : Option V) :
    Except PyErr C × World :=
  match prepare c w vals with
  | (.error e, w') => (.error e, w')
  | (.ok _, w') => (.ok (S.sample vals c.pattern w'.simConfig (init.map flip) shots), w')

/-- `sample` (qadence/backends/pulser/backend.py:284-308); the argument `noise` is used for mitigation only. -/
def sample (S : Sim n V C) (c : Circuit) (w : World) (vals : List (Option V)) (init : Option (List (St n → ℂ)))
    (shots : ℤ) (_noise : Option String) : Except PyErr (List C) × World :=
  if shots < 1 then (.error .valueError, w)
  else if (init.map List.length).getD 1 > 1 then (.error .valueError, w)
  else forEach (sampleElement S c (init.bind List.head?) shots.toNat) w vals

/-- `PulserObservable.forward` for a state: `sum(matmul(state, block_mat) * state.conj())`
(qadence/backends/pulser/convert_ops.py:53). -/
noncomputable def obsState (M : Oper n) (ψ : St n → ℂ) : ℂ := ∑ y, (∑ x, ψ x * M x y) * (starRingEnd ℂ) (ψ y)

/-- `PulserObservable.forward` for a density matrix: `trace(matmul(block_mat, state))`
(qadence/backends/pulser/convert_ops.py:55). -/
noncomputable def obsDensity (M ρ : Oper n) : ℂ := Matrix.trace (M * ρ)

/-- `expectation` without noise (qadence/backends/pulser/backend.py:339-349). The observables are matrices in the order
big endian, whatever `endianness` is. -/
noncomputable def expectation (S : Sim n V C) (c : Circuit) (w : World) (vals : List (Option V))
    (init : Option (List (St n → ℂ))) (en : Endian) (obs : List (Oper n)) : Except PyErr (List (List ℝ)) × World :=
  match run S c w vals init en with
  | (.error e, w') => (.error e, w')
  | (.ok l, w') => (.ok (l.map fun ψ => obs.map fun M => (obsState M ψ).re), w')

/-- A call. -/
inductive Op (n : ℕ) (V : Type)
  | run (vals : List (Option V)) (init : Option (List (St n → ℂ))) (en : Endian)
  | noisy (proto : String) (rates : List ℝ) (vals : List (Option V)) (init : Option (St n → ℂ))
  | sample (vals : List (Option V)) (init : Option (List (St n → ℂ))) (shots : ℤ) (noise : Option String)

/-- What a call leaves behind. -/
def after (S : Sim n V C) (c : Circuit) (w : World) : Op n V → World
  | .run vals init en => (run S c w vals init en).2
  | .noisy proto rates vals init => (runNoisy S w proto rates vals init).2
  | .sample vals init shots noise => (sample S c w vals init shots noise).2

/-- A sequence of calls. -/
def afterAll (S : Sim n V C) (c : Circuit) (w : World) (ops : List (Op n V)) : World := ops.foldl (after S c) w

end Qadence.PulserRun
