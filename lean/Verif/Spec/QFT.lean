import Verif.Spec.GateSem

/-!
# The discrete Fourier transform (specification)
-/

namespace Qadence.Spec

/-- The unitary matrix of the discrete Fourier transform on `2 ^ n` numbers; the first bit is the most significant one. -/
noncomputable def dft (n : ℕ) : Matrix (Fin n → Bool) (Fin n → Bool) ℂ := fun a b =>
  Complex.exp (2 * Real.pi * Complex.I * (bitsValue a * bitsValue b) / 2 ^ n) / (Real.sqrt (2 ^ n) : ℝ)

/-- Bits in the opposite order. -/
def revBits {n : ℕ} (a : Fin n → Bool) : Fin n → Bool := fun i => a i.rev

/-- The Fourier transform with or without reversal of the bits of the result. -/
noncomputable def dftOut (n : ℕ) (textbook : Bool) : Matrix (Fin n → Bool) (Fin n → Bool) ℂ := fun a b =>
  dft n (if textbook then a else revBits a) b

/-- The ZZ coupling of a pair of qubits in layer `l`: the controlled phase of the qubits `s[j]` and `s[l]` has the angle
`2 p / 2 ^ (j - l + 1)`, where `p` is the number used for π. -/
def layerCoupling (p : ℚ) (s : List ℕ) (n l : ℕ) (q : ℕ × ℕ) : ℚ :=
  ∑ j ∈ Finset.Ico (l + 1) n, p / 2 ^ (j - l + 2) *
    if (min (s.getD l 0) (s.getD j 0), max (s.getD l 0) (s.getD j 0)) = q then 1 else 0

end Qadence.Spec
