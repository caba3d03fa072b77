import Mathlib.Tactic
import Verif.Spec.QFT
import Verif.Model.QFT
import Verif.Proofs.Embed1
import Verif.Props.Dagger

/-!
# Matrices of the layers of the Fourier transform
-/

namespace Qadence.QFT

open Spec Matrix Finset

variable {N : ℕ}

/-- The bit of a qubit as a number. -/
def bn (x : St N) (q : ℕ) : ℕ := (bit x q).toNat

theorem bn_le (x : St N) (q : ℕ) : bn x q ≤ 1 := by unfold bn; cases bit x q <;> simp

/-- A controlled phase is diagonal. -/
theorem cphase_diag (ρ : Env) {a b : ℕ} (hb : b < N) (θ : Expr) :
    (gateDen ρ (Gate.cphase a b θ) : Oper N) = diagonal fun x => Complex.exp (Complex.I * eval ρ θ * (bn x a * bn x b)) := by
  ext x y
  simp only [Gate.cphase, gateDen, controlled, List.mem_singleton, forall_eq, embed1, matRot, diagonal_apply, bn]
  by_cases hxy : x = y
  · subst hxy
    simp only [if_true, implies_true]
    cases h1 : bit x a <;> cases h2 : bit x b <;> simp
  · rw [if_neg hxy]
    split
    · split
      · next h =>
        rw [if_neg]
        intro hbit
        apply hxy
        funext j
        by_cases hj : b = j
        · subst hj
          simpa [bit] using hbit
        · exact h j hj
      · rfl
    · rfl

theorem opProd_diag (l : List (St N → ℂ)) : opProd (l.map fun d => (diagonal fun x => Complex.exp (d x) : Oper N)) =
    diagonal fun x => Complex.exp ((l.map fun d => d x).sum) := by
  induction l with
  | nil => simp [opProd]
  | cons d l ih =>
    rw [List.map_cons, opProd, ih, diagonal_mul_diagonal]
    congr 1
    funext x
    rw [List.map_cons, List.sum_cons, ← Complex.exp_add, add_comm]

/-- The Hadamard gate written with phases. -/
theorem mat_H (a b : Bool) : mat1 .H a b = Complex.exp (Complex.I * Real.pi * (a.toNat * b.toNat)) / (Real.sqrt 2 : ℝ) := by
  rw [mat1]
  cases a <;> cases b <;> simp [mul_comm Complex.I, Complex.exp_pi_mul_I]

/-- The matrix of layer `l`: qubit `σ l` gets the phase `x_l (y_l / 2 + y_{l+1} / 4 + ...)`. -/
noncomputable def layerMat (σ : ℕ → ℕ) (n l : ℕ) : Oper N := fun x y =>
  if ∀ j : Fin N, σ l ≠ j → x j = y j then
    Complex.exp (2 * Real.pi * Complex.I * (bn x (σ l) * ∑ j ∈ Ico l n, (bn y (σ j) : ℂ) / 2 ^ (j - l + 1))) /
      (Real.sqrt 2 : ℝ)
  else 0

/-- The matrix of the first `m` layers. -/
noncomputable def prefixMat (σ : ℕ → ℕ) (n m : ℕ) : Oper N := fun x y =>
  if ∀ j : Fin N, (∀ l < m, σ l ≠ j) → x j = y j then
    Complex.exp (2 * Real.pi * Complex.I *
      ∑ l ∈ range m, (bn x (σ l) * ∑ j ∈ Ico l n, (bn y (σ j) : ℂ) / 2 ^ (j - l + 1))) / (Real.sqrt 2 : ℝ) ^ m
  else 0

theorem prefixMat_zero (σ : ℕ → ℕ) (n : ℕ) : (prefixMat σ n 0 : Oper N) = 1 := by
  ext x y
  simp [prefixMat, one_apply, funext_iff]

theorem layer_mul (σ : ℕ → ℕ) {n m : ℕ} (hm : m < n) (hN : ∀ l < n, σ l < N)
    (hσ : ∀ l < n, ∀ j < n, σ l = σ j → l = j) :
    (layerMat σ n m * prefixMat σ n m : Oper N) = prefixMat σ n (m + 1) := by
  ext x y
  have hq := hN m hm
  set z : St N := Function.update x ⟨σ m, hq⟩ (bit y (σ m)) with hz
  have hzb : ∀ j, j ≠ σ m → bit z j = bit x j := by
    intro j hj
    unfold bit
    split
    · rw [hz, Function.update_of_ne]
      intro e
      exact hj (by simpa using congrArg Fin.val e)
    · rfl
  have hzm : bit z (σ m) = bit y (σ m) := bit_update hq x _
  have hzj : ∀ j : Fin N, σ m ≠ j → z j = x j := by
    intro j hj
    rw [hz, Function.update_of_ne]
    intro e
    exact hj (by rw [e])
  rw [mul_apply, sum_eq_single z]
  · have c1 : ∀ j : Fin N, σ m ≠ j → x j = z j := fun j hj => (hzj j hj).symm
    have c2 : (∀ j : Fin N, (∀ l < m, σ l ≠ j) → z j = y j) ↔ ∀ j : Fin N, (∀ l < m + 1, σ l ≠ j) → x j = y j := by
      constructor
      · intro h j hj
        rw [← hzj j (hj m (by omega)), h j fun l hl => hj l (by omega)]
      · intro h j hj
        by_cases hjm : σ m = j
        · have : bit z j = bit y j := by rw [← hjm]; exact hzm
          simpa [bit] using this
        · rw [hzj j hjm]
          apply h
          intro l hl
          rcases Nat.lt_succ_iff_lt_or_eq.1 hl with hl | rfl
          · exact hj l hl
          · exact hjm
    rw [layerMat, prefixMat, prefixMat, if_pos c1]
    by_cases h : ∀ j : Fin N, (∀ l < m, σ l ≠ j) → z j = y j
    · rw [if_pos h, if_pos (c2.1 h), div_mul_div_comm, ← Complex.exp_add, ← mul_add]
      congr 1
      · congr 2
        rw [sum_range_succ, add_comm]
        congr 1
        · apply sum_congr rfl
          intro l hl
          have hl := mem_range.1 hl
          unfold bn
          rw [hzb (σ l) fun e => by have := hσ l (by omega) m hm e; omega]
        · congr 1
          apply sum_congr rfl
          intro j hj
          have hj := mem_Ico.1 hj
          have : bit z (σ j) = bit y (σ j) := by
            have h' := h ⟨σ j, hN j hj.2⟩ (by
              intro l hl e
              have := hσ l (by omega) j hj.2 e
              omega)
            simpa [bit, hN j hj.2] using h'
          unfold bn
          rw [this]
      · rw [pow_succ, mul_comm]
    · rw [if_neg h, if_neg fun h' => h (c2.2 h'), mul_zero]
  · intro w _ hw
    rw [layerMat, prefixMat]
    split_ifs with h1 h2
    · exfalso
      apply hw
      funext j
      by_cases hj : σ m = j
      · have hw' : w j = y j := by
          apply h2
          intro l hl e
          have := hσ l (by omega) m hm (by rw [e, hj])
          omega
        have : bit z j = bit y j := by rw [← hj]; exact hzm
        rw [hw']
        simpa [bit] using this.symm
      · rw [hzj j hj, h1 j hj]
    · rw [mul_zero]
    · rw [zero_mul]
    · rw [zero_mul]
  · simp

theorem opProd_layers (σ : ℕ → ℕ) {n m : ℕ} (hm : m ≤ n) (hN : ∀ l < n, σ l < N)
    (hσ : ∀ l < n, ∀ j < n, σ l = σ j → l = j) :
    opProd ((List.range m).map fun l => (layerMat σ n l : Oper N)) = prefixMat σ n m := by
  induction m with
  | zero => rw [prefixMat_zero]; rfl
  | succ m ih =>
    rw [List.range_succ, List.map_append, opProd_append, ih (by omega)]
    simp only [List.map_cons, List.map_nil, opProd, one_mul]
    exact layer_mul σ (by omega) hN hσ

theorem bitsValue_sum {n : ℕ} (a : Fin n → Bool) : bitsValue a = ∑ i : Fin n, (a i).toNat * 2 ^ (n - 1 - (i : ℕ)) := by
  unfold bitsValue
  induction n with
  | zero => simp
  | succ n ih =>
    rw [List.ofFn_succ', List.concat_eq_append, List.foldl_append, ih]
    rw [Fin.sum_univ_castSucc]
    simp only [List.foldl_cons, List.foldl_nil, Finset.mul_sum]
    congr 1
    · apply sum_congr rfl
      intro i _
      have : n + 1 - 1 - ((Fin.castSucc i : Fin (n + 1)) : ℕ) = (n - 1 - i) + 1 := by
        have := i.2
        simp only [Fin.val_castSucc]
        omega
      rw [this, pow_succ]
      ring
    · simp

theorem bitsValue_rev {n : ℕ} (a : Fin n → Bool) : bitsValue (revBits a) = ∑ i : Fin n, (a i).toNat * 2 ^ (i : ℕ) := by
  rw [bitsValue_sum, ← Equiv.sum_comp Fin.revPerm]
  apply sum_congr rfl
  intro i _
  simp only [revBits, Fin.revPerm_apply, Fin.rev_rev, Fin.val_rev]
  congr 2
  have := i.2
  omega

/-- The phases of the layers are the ones of the Fourier transform with reversed bits. -/
theorem phase_eq {n : ℕ} (u v : ℕ → ℕ) :
    Complex.exp (2 * Real.pi * Complex.I * ∑ l ∈ range n, ((u l : ℂ) * ∑ j ∈ Ico l n, (v j : ℂ) / 2 ^ (j - l + 1))) =
    Complex.exp (2 * Real.pi * Complex.I * ((∑ l ∈ range n, (u l : ℂ) * 2 ^ l) * ∑ j ∈ range n, (v j : ℂ) * 2 ^ (n - 1 - j)) / 2 ^ n) := by
  rw [Complex.exp_eq_exp_iff_exists_int]
  refine ⟨-((∑ l ∈ range n, (u l) * ∑ j ∈ range l, v j * 2 ^ (l - 1 - j) : ℕ) : ℤ), ?_⟩
  have h : (∑ l ∈ range n, (u l : ℂ) * 2 ^ l) * (∑ j ∈ range n, (v j : ℂ) * 2 ^ (n - 1 - j)) / 2 ^ n =
      ∑ l ∈ range n, ((u l : ℂ) * ∑ j ∈ Ico l n, (v j : ℂ) / 2 ^ (j - l + 1)) +
      ∑ l ∈ range n, (u l : ℂ) * ∑ j ∈ range l, (v j : ℂ) * 2 ^ (l - 1 - j) := by
    rw [Finset.sum_mul, Finset.sum_div, ← sum_add_distrib]
    apply sum_congr rfl
    intro l hl
    have hl := mem_range.1 hl
    rw [← mul_add, mul_assoc, mul_div_assoc]
    congr 1
    rw [Finset.mul_sum, Finset.sum_div, range_eq_Ico, ← sum_Ico_consecutive _ (Nat.zero_le l) hl.le, add_comm]
    congr 1
    · apply sum_congr rfl
      intro j hj
      have hj := mem_Ico.1 hj
      have h1 : (2 : ℂ) ^ l * 2 ^ (j - l + 1) * 2 ^ (n - 1 - j) = 2 ^ n := by
        rw [← pow_add, ← pow_add]
        congr 1
        omega
      rw [← h1]
      field_simp
    · rw [range_eq_Ico]
      apply sum_congr rfl
      intro j hj
      have hj := mem_Ico.1 hj
      have h1 : (2 : ℂ) ^ l * 2 ^ (n - 1 - j) = 2 ^ (l - 1 - j) * 2 ^ n := by
        rw [← pow_add, ← pow_add]
        congr 1
        omega
      rw [div_eq_iff (pow_ne_zero _ two_ne_zero)]
      linear_combination (v j : ℂ) * h1
  rw [mul_div_assoc, h]
  push_cast
  ring

/-- All layers: the Fourier transform with reversed bits on the support. -/
theorem prefixMat_dft {n : ℕ} (f : Fin n → ℕ) (σ : ℕ → ℕ) (hf : ∀ i : Fin n, σ i = f i) :
    (prefixMat σ n n : Oper N) = embed f (dftOut n false) := by
  ext x y
  rw [prefixMat, embed]
  have hc : (∀ j : Fin N, (∀ l < n, σ l ≠ j) → x j = y j) ↔ ∀ j : Fin N, (∀ i, f i ≠ j) → x j = y j := by
    apply forall_congr'
    intro j
    apply imp_congr_left
    constructor
    · intro h i
      rw [← hf]
      exact h i i.2
    · intro h l hl
      have := h ⟨l, hl⟩
      rwa [← hf] at this
  by_cases h : ∀ j : Fin N, (∀ l < n, σ l ≠ j) → x j = y j
  · rw [if_pos h, if_pos (hc.1 h)]
    rw [dftOut, dft, phase_eq, if_neg (by simp), bitsValue_rev, bitsValue_sum]
    congr 1
    · simp only [Nat.cast_sum, Nat.cast_mul, Nat.cast_pow, Nat.cast_ofNat, sum_range, hf, bn]
    · rw [Real.sqrt_eq_rpow, Real.sqrt_eq_rpow, ← Complex.ofReal_pow, ← Real.rpow_mul_natCast (by norm_num),
        ← Real.rpow_natCast_mul (by norm_num), mul_comm]
  · rw [if_neg h, if_neg fun h' => h (hc.2 h')]

end Qadence.QFT
