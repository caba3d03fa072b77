import Mathlib.Algebra.BigOperators.Group.Finset.Basic
import Verif.Model.Bits

/-! # Specification: the number denoted by a bitstring -/

namespace Qadence.Spec

open Finset

/-- The integer denoted by `s`: with big endianness the leftmost bit (qubit 0) has weight
`2^(n-1)`, with little endianness it has weight `1`. -/
def bitstringValue (e : Endian) (s : List Bool) : ℕ :=
  ∑ i ∈ range s.length,
    if s.getD i false then
      (match e with
        | .big => 2 ^ (s.length - 1 - i)
        | .little => 2 ^ i)
    else 0

/-- Total number of shots in a counter. -/
def totalShots {κ : Type*} (c : List (κ × ℕ)) : ℕ := (c.map Prod.snd).sum

/-- The count of an outcome in a counter, zero if it is absent (as `Counter.__getitem__`). -/
def countOf {κ : Type*} [DecidableEq κ] (c : List (κ × ℕ)) (k : κ) : ℕ :=
  ((c.filter (fun kv => kv.1 = k)).map Prod.snd).sum

end Qadence.Spec
