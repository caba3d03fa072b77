import Verif.Proofs.TensorSem
import Verif.Proofs.Embed1

/-!
# Algebra of controlled operations and rotations
-/

namespace Qadence.Spec

open Matrix

variable {n : ℕ}

theorem onesProj_sq (cs : List ℕ) : (onesProj cs * onesProj cs : Oper n) = onesProj cs := by
  rw [onesProj_mul, onesProj]
  refine congrArg Matrix.diagonal (funext fun x => ?_)
  simp

theorem onesProj_actsOn (cs : List ℕ) : ActsOn {q | q ∈ cs} (onesProj cs : Oper n) := by
  have : (onesProj cs : Oper n) = 1 + (-1 : ℂ) • controlled cs (0 : Oper n) := by
    rw [controlled_eq cs 0 ∅ (ActsOn.zero _) (by simp)]
    simp
  rw [this]
  refine ActsOn.add (ActsOn.one _) (ActsOn.smul _ ?_)
  exact (controlled_actsOn (S := ∅) cs (ActsOn.zero _)).mono (by intro q hq; simpa using hq)

/-- The controls commute with the controlled operation. -/
theorem onesProj_commute (cs : List ℕ) (M : Oper n) (S : Set ℕ) (hM : ActsOn S M) (hd : ∀ c ∈ cs, c ∉ S) :
    M * onesProj cs = onesProj cs * M :=
  ActsOn.commute_of_disjoint hM (onesProj_actsOn cs) (Set.disjoint_left.2 fun q hq hc => hd q hc hq)

/-- Controlled operations with the same controls multiply. -/
theorem controlled_mul (cs : List ℕ) (A B : Oper n) (S : Set ℕ) (hA : ActsOn S A) (hB : ActsOn S B)
    (hd : ∀ c ∈ cs, c ∉ S) : controlled cs A * controlled cs B = controlled cs (A * B) := by
  rw [controlled_eq cs A S hA hd, controlled_eq cs B S hB hd, controlled_eq cs (A * B) S (hA.mul hB) hd]
  have hc := onesProj_commute cs B S hB hd
  have hs := onesProj_sq (n := n) cs
  generalize (onesProj cs : Oper n) = P at *
  have e1 : A * P * P = A * P := by rw [Matrix.mul_assoc, hs]
  have e2 : A * P * (B * P) = A * B * P := by
    rw [hc, ← Matrix.mul_assoc, Matrix.mul_assoc A P P, hs, Matrix.mul_assoc, ← hc, Matrix.mul_assoc]
  have e3 : P * (B * P) = B * P := by rw [hc, ← Matrix.mul_assoc, hs]
  simp only [Matrix.add_mul, Matrix.mul_add, Matrix.one_mul, Matrix.mul_one, Matrix.smul_mul, Matrix.mul_smul, hs, e1,
    e2, e3, smul_add, smul_smul]
  module

theorem controlled_one (cs : List ℕ) : controlled cs (1 : Oper n) = 1 := by
  funext x y
  rw [controlled, Matrix.one_apply]
  split <;> rfl

/-- Rotations by opposite angles are inverse to each other. -/
theorem matRot_neg_mul (θ : ℂ) (g : RotGate) : matRot (-θ) g * matRot θ g = 1 := by
  have h := Complex.sin_sq_add_cos_sq (θ / 2)
  have hI := Complex.I_mul_I
  ext a b
  rw [Matrix.mul_apply, Fintype.sum_bool]
  cases g
  · simp only [matRot, neg_div, Complex.cos_neg, Complex.sin_neg]
    cases a <;> cases b <;> simp [Matrix.one_apply]
    · linear_combination h - Complex.sin (θ / 2) ^ 2 * hI
    · ring
    · ring
    · linear_combination h - Complex.sin (θ / 2) ^ 2 * hI
  · simp only [matRot, neg_div, Complex.cos_neg, Complex.sin_neg]
    cases a <;> cases b <;> simp [Matrix.one_apply]
    · linear_combination h
    · ring
    · ring
    · linear_combination h
  · simp only [matRot]
    cases a <;> cases b <;> simp [Matrix.one_apply, ← Complex.exp_add, neg_div]
  · simp only [matRot]
    cases a <;> cases b <;> simp [Matrix.one_apply, ← Complex.exp_add]

theorem matRot_zero (g : RotGate) : matRot 0 g = 1 := by
  ext a b
  cases g <;> cases a <;> cases b <;> simp [matRot, Matrix.one_apply]

theorem evolution_zero (G : Oper n) : evolution 0 G = 1 := by
  rw [evolution, mul_zero, zero_smul, NormedSpace.exp_zero]

end Qadence.Spec
