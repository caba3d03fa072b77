import Mathlib.Analysis.SpecialFunctions.Log.Basic
import Mathlib.Algebra.Order.Floor.Ring
import Verif.Model.Py

/-!
# Bitstrings and endianness (`qadence/utils.py`, `qadence/transpile/invert.py`, `qadence/backends/utils.py`)

A Python string of `'0'`/`'1'` characters is a `List Bool`, leftmost character first.
Simplification: `int(s, 2)` is modelled on strings of binary digits only (Python would also accept
prefixes, underscores and white space), and integers are non-negative.
-/

namespace Qadence

/-- A string of binary digits. -/
abbrev Bits := List Bool

/-- `Endianness` (qadence/types.py). -/
inductive Endian
  | big
  | little
  deriving DecidableEq, Repr

/-- `int(s, 2)` on a non-empty digit string: left fold as in the usual reading of a numeral;
`int("", 2)` raises `ValueError`. -/
def pyInt2 : Bits → Except PyErr Nat
  | [] => .error .valueError
  | s => .ok (s.foldl (fun a b => 2 * a + b.toNat) 0)

/-- `basis_to_int` (qadence/utils.py:55-80). -/
def basisToInt (basis : Bits) (e : Endian) : Except PyErr Nat :=
  match e with
  | .big => pyInt2 basis
  | .little => pyInt2 basis.reverse

/-- Binary digits of `k`, with a fuel argument (`k` itself is always enough, see `binDigits_eq`). -/
def binDigitsAux : Nat → Nat → Bits
  | 0, k => [k == 1]
  | fuel + 1, k => if k < 2 then [k == 1] else binDigitsAux fuel (k / 2) ++ [k % 2 == 1]

/-- The binary digits of `k` without padding, as `format(k, "b")` prints them (`"0"` for `0`). -/
def binDigits (k : Nat) : Bits := binDigitsAux k k

/-- `format(k, "0{n}b")`: binary digits padded with zeros on the left to width at least `n`. -/
def format0b (n k : Nat) : Bits :=
  List.replicate (n - (binDigits k).length) false ++ binDigits k

/-- Python's `int(x)` of a float: truncation towards zero. -/
noncomputable def pyTrunc (r : ℝ) : ℤ := if 0 ≤ r then ⌊r⌋ else ⌈r⌉

/-- `int(math.log(k + 0.6) / math.log(2)) + 1` (qadence/utils.py:109) in exact real arithmetic.
(The value is at least one, so `toNat` is exact; see `defaultWidth_cast`.) -/
noncomputable def defaultWidth (k : Nat) : Nat :=
  (pyTrunc (Real.log ((k : ℝ) + 0.6) / Real.log 2) + 1).toNat

/-- The body of `int_to_basis` once `n_qubits` is known (qadence/utils.py:110-115). -/
def intToBasisN (k n : Nat) (e : Endian) : Except PyErr Bits :=
  if k ≤ 2 ^ n - 1 then
    match e with
    | .big => .ok (format0b n k)
    | .little => .ok (format0b n k).reverse
  else .error .assertionError

/-- `int_to_basis` (qadence/utils.py:83-115). -/
noncomputable def intToBasis (k : Nat) (n : Option Nat) (e : Endian) : Except PyErr Bits :=
  match n with
  | none => intToBasisN k (defaultWidth k) e
  | some n => intToBasisN k n e

/-- `nqubits_to_basis(n, ResultType.STRING, e)` (qadence/utils.py:142-144). -/
def nqubitsToBasis (n : Nat) (e : Endian) : Except PyErr (List Bits) :=
  (List.range (2 ^ n)).mapM (fun k => intToBasisN k n e)

/-- `samples_to_integers` (qadence/utils.py:153-165): a dict comprehension, so later keys overwrite. -/
def samplesToIntegers (samples : PyDict Bits Nat) (e : Endian) : Except PyErr (PyDict Nat Nat) := do
  let items ← samples.mapM (fun kv => do
    let k ← basisToInt kv.1 e
    pure (k, kv.2))
  pure (PyDict.ofItems items)

/-- `int(f"{num:0{n}b}"[::-1], 2)` (qadence/transpile/invert.py:108): one entry of the index
permutation. -/
def permuteInd (n num : Nat) : Except PyErr Nat := pyInt2 (format0b n num).reverse

/-- `invert_endianness` on one row of a batch of wave functions of length `2^n`
(qadence/transpile/invert.py:95-109). A row is a function from indices to amplitudes;
fancy indexing `wf[:, permute_ind]` reads entry `permute_ind[i]` at position `i`.
Simplification: `n_qubits = int(np.log2(wf.shape[1]))` is given. -/
def invertRow {α : Type _} (n : Nat) (row : List α) : Except PyErr (List α) := do
  let perm ← (List.range (2 ^ n)).mapM (permuteInd n)
  perm.mapM (fun i => match row[i]? with
    | some a => Except.ok a
    | none => Except.error PyErr.indexError)

/-- `invert_endianness` on a whole batch (qadence/transpile/invert.py:95-109). -/
def invertWf {α : Type _} (n : Nat) (wf : List (List α)) : Except PyErr (List (List α)) :=
  wf.mapM (invertRow n)

/-- `invert_endianness` on a `Counter` (qadence/transpile/invert.py:117-124). -/
def invertCounter (c : PyDict Bits Nat) : Except PyErr (PyDict Bits Nat) := do
  let items ← c.mapM (fun kv => do
    let i ← pyInt2 kv.1.reverse
    pure (format0b kv.1.length i, kv.2))
  pure (PyDict.ofItems items)

/-- `invert_endianness` on a list of counters (qadence/transpile/invert.py:127-129). -/
def invertCounters (cs : List (PyDict Bits Nat)) : Except PyErr (List (PyDict Bits Nat)) :=
  cs.mapM invertCounter

/-- One entry of `torch.matmul(sample, powers_of_2)` (qadence/backends/utils.py:83-85): the dot
product of a row of bits with `[2^(n-1), ..., 2, 1]`. -/
def rowToInt (row : Bits) : Nat :=
  (List.zipWith (fun b p => b.toNat * 2 ^ p) row (List.range row.length).reverse).sum

/-- `torch.bincount(int_tensor)` (qadence/backends/utils.py:87): the list of numbers of occurrences
of `0, 1, ..., max`. -/
def bincount (xs : List Nat) : List Nat :=
  match xs.max? with
  | none => []
  | some m => (List.range (m + 1)).map (fun k => xs.count k)

/-- `count_bitstrings` (qadence/backends/utils.py:80-95) on the rows of `sample`, all of width `n`. -/
def countBitstrings (n : Nat) (sample : List Bits) (e : Endian) : Except PyErr (PyDict Bits Nat) := do
  let counts := bincount (sample.map rowToInt)
  let items ← ((List.range counts.length).zip counts).filter (fun kc => 0 < kc.2) |>.mapM (fun kc => do
    let s ← intToBasisN kc.1 n e
    pure (s, kc.2))
  pure (PyDict.ofItems items)

end Qadence
