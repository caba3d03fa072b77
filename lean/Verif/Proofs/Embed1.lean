import Verif.Proofs.TensorSem

/-!
# Algebra of operators on one qubit
-/

namespace Qadence.Spec

open Matrix

variable {n : ℕ}

/-- On a qubit outside the register a matrix acts as a number. -/
theorem embed1_of_ge {q : ℕ} (h : n ≤ q) (U : Matrix Bool Bool ℂ) :
    (embed1 q U : Oper n) = U false false • (1 : Oper n) := by
  ext x y
  have hb : ∀ z : St n, bit z q = false := fun z => by simp [bit, Nat.not_lt.2 h]
  have hc : (∀ j : Fin n, q ≠ j → x j = y j) ↔ x = y :=
    ⟨fun hh => funext fun j => hh j (by omega), fun hh j _ => by rw [hh]⟩
  simp only [embed1, hb, hc, Matrix.smul_apply, Matrix.one_apply, smul_eq_mul, mul_ite, mul_one, mul_zero]

theorem bit_update {q : ℕ} (h : q < n) (x : St n) (b : Bool) : bit (Function.update x ⟨q, h⟩ b) q = b := by
  simp [bit, h]

theorem embed1_mul {q : ℕ} (h : q < n) (A B : Matrix Bool Bool ℂ) :
    (embed1 q A * embed1 q B : Oper n) = embed1 q (A * B) := by
  ext x y
  rw [Matrix.mul_apply]
  have hne : Function.update x ⟨q, h⟩ false ≠ Function.update x ⟨q, h⟩ true := by
    intro e
    have := congrFun e ⟨q, h⟩
    simp at this
  rw [Fintype.sum_eq_add _ _ hne]
  · have hx : ∀ b, ∀ j : Fin n, q ≠ j → x j = Function.update x ⟨q, h⟩ b j := by
      intro b j hj
      rw [Function.update_of_ne]
      intro e
      exact hj (by rw [e])
    have hy : ∀ b, (∀ j : Fin n, q ≠ j → Function.update x ⟨q, h⟩ b j = y j) ↔
        ∀ j : Fin n, q ≠ j → x j = y j := by
      intro b
      constructor
      · intro hh j hj
        rw [hx b j hj, hh j hj]
      · intro hh j hj
        rw [← hx b j hj, hh j hj]
    simp only [embed1, bit_update]
    rw [if_pos (hx _), if_pos (hx _)]
    simp only [hy]
    by_cases hc : ∀ j : Fin n, q ≠ j → x j = y j
    · rw [if_pos hc, if_pos hc, if_pos hc, Matrix.mul_apply, Fintype.sum_bool]
      ring
    · rw [if_neg hc, if_neg hc, if_neg hc]
      ring
  · rintro z ⟨z1, z2⟩
    by_cases hc : ∀ j : Fin n, q ≠ j → x j = z j
    · exfalso
      have : z = Function.update x ⟨q, h⟩ (z ⟨q, h⟩) := by
        funext j
        by_cases hj : q = j
        · have : j = ⟨q, h⟩ := Fin.ext hj.symm
          subst this
          simp
        · rw [Function.update_of_ne (fun e => hj (by rw [e])), hc j hj]
      cases hz : z ⟨q, h⟩ with
      | false => exact z1 (by rw [hz] at this; exact this)
      | true => exact z2 (by rw [hz] at this; exact this)
    · simp only [embed1]
      rw [if_neg hc, zero_mul]

theorem embed1_one (q : ℕ) : (embed1 q 1 : Oper n) = 1 := mat1_I

theorem embed1_smul (q : ℕ) (c : ℂ) (A : Matrix Bool Bool ℂ) : (embed1 q (c • A) : Oper n) = c • embed1 q A := by
  ext x y
  simp only [embed1, Matrix.smul_apply, smul_eq_mul, mul_ite, mul_zero]

theorem embed1_add (q : ℕ) (A B : Matrix Bool Bool ℂ) : (embed1 q (A + B) : Oper n) = embed1 q A + embed1 q B := by
  ext x y
  simp only [embed1, Matrix.add_apply]
  split <;> simp

theorem embed1_zero (q : ℕ) : (embed1 q 0 : Oper n) = 0 := by
  ext x y
  simp [embed1]

/-- Commuting matrices on the same qubit give commuting operators, also outside the register. -/
theorem embed1_commute (q : ℕ) {A B : Matrix Bool Bool ℂ} (h : A * B = B * A) :
    Commute (embed1 q A : Oper n) (embed1 q B) := by
  rcases Nat.lt_or_ge q n with hq | hq
  · rw [Commute, SemiconjBy, embed1_mul hq, embed1_mul hq, h]
  · rw [embed1_of_ge hq, embed1_of_ge hq]
    exact ((Commute.one_left _).smul_left _)

/-- Operators on different qubits commute. -/
theorem embed1_commute_of_ne {p q : ℕ} (h : p ≠ q) (A B : Matrix Bool Bool ℂ) :
    Commute (embed1 p A : Oper n) (embed1 q B) :=
  (embed1_actsOn p A).commute_of_disjoint (embed1_actsOn q B) (by simpa using h)

end Qadence.Spec
