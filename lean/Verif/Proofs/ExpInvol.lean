import Mathlib.Analysis.Normed.Algebra.MatrixExponential
import Mathlib.Analysis.SpecialFunctions.Exponential
import Mathlib.Analysis.Complex.Trigonometric
import Mathlib.Topology.Algebra.Module.FiniteDimension
import Mathlib.Tactic.Module

/-! # Exponentials of involutions -/

namespace Qadence

open Matrix

variable {ι : Type} [Fintype ι] [DecidableEq ι]

/-- The diagonal matrices in an eigenbasis of an involution. -/
noncomputable def involHom (M : Matrix ι ι ℂ) (hM : M * M = 1) : ℂ × ℂ →ₐ[ℂ] Matrix ι ι ℂ :=
  AlgHom.ofLinearMap
    ((LinearMap.fst ℂ ℂ ℂ).smulRight ((1 / 2 : ℂ) • (1 + M)) + (LinearMap.snd ℂ ℂ ℂ).smulRight ((1 / 2 : ℂ) • (1 - M)))
    (by simp only [LinearMap.add_apply, LinearMap.smulRight_apply, LinearMap.fst_apply, LinearMap.snd_apply,
          Prod.fst_one, Prod.snd_one]; module)
    (by
      intro a b
      have h : ∀ a b c d : ℂ, (a • (1 : Matrix ι ι ℂ) + b • M) * (c • 1 + d • M) =
          (a * c + b * d) • (1 : Matrix ι ι ℂ) + (a * d + b * c) • M := by
        intro a b c d
        simp only [add_mul, mul_add, smul_mul_assoc, mul_smul_comm, one_mul, mul_one, hM]
        module
      have e : ∀ a : ℂ × ℂ, a.1 • ((1 / 2 : ℂ) • (1 + M)) + a.2 • ((1 / 2 : ℂ) • (1 - M)) =
          ((a.1 + a.2) / 2) • (1 : Matrix ι ι ℂ) + ((a.1 - a.2) / 2) • M := by intro a; module
      simp only [LinearMap.add_apply, LinearMap.smulRight_apply, LinearMap.fst_apply, LinearMap.snd_apply, e, h,
        Prod.fst_mul, Prod.snd_mul]
      module)

theorem involHom_apply (M : Matrix ι ι ℂ) (hM : M * M = 1) (a : ℂ × ℂ) :
    involHom M hM a = ((a.1 + a.2) / 2) • (1 : Matrix ι ι ℂ) + ((a.1 - a.2) / 2) • M := by
  have : involHom M hM a = a.1 • ((1 / 2 : ℂ) • (1 + M)) + a.2 • ((1 / 2 : ℂ) • (1 - M)) := rfl
  rw [this]
  module

theorem exp_invol (M : Matrix ι ι ℂ) (hM : M * M = 1) (z : ℂ) :
    NormedSpace.exp (z • M) = Complex.cosh z • (1 : Matrix ι ι ℂ) + Complex.sinh z • M := by
  have hc : Continuous (involHom M hM) := LinearMap.continuous_of_finiteDimensional (involHom M hM).toLinearMap
  letI : NormedRing (Matrix ι ι ℂ) := Matrix.linftyOpNormedRing
  letI : NormedAlgebra ℚ (Matrix ι ι ℂ) := Matrix.linftyOpNormedAlgebra
  haveI : CompleteSpace (Matrix ι ι ℂ) := FiniteDimensional.complete ℂ _
  have h := NormedSpace.map_exp (involHom M hM) hc (z, -z)
  have h1 : involHom M hM (z, -z) = z • M := by rw [involHom_apply]; module
  have h2 : NormedSpace.exp ((z, -z) : ℂ × ℂ) = (Complex.exp z, Complex.exp (-z)) := by
    apply Prod.ext
    · rw [Prod.fst_exp, ← Complex.exp_eq_exp_ℂ]
    · rw [Prod.snd_exp, ← Complex.exp_eq_exp_ℂ]
  rw [h1, h2, involHom_apply] at h
  exact h.symm

/-- exp(-i t M) = cos t - i sin t M for an involution M. -/
theorem exp_invol_I (M : Matrix ι ι ℂ) (hM : M * M = 1) (t : ℂ) :
    NormedSpace.exp ((-Complex.I * t) • M) =
      Complex.cos t • (1 : Matrix ι ι ℂ) + (-Complex.I * Complex.sin t) • M := by
  rw [exp_invol M hM]
  have h1 : -Complex.I * t = (-t) * Complex.I := by ring
  rw [h1, Complex.cosh_mul_I, Complex.sinh_mul_I, Complex.cos_neg, Complex.sin_neg]
  congr 2
  ring

end Qadence
