import Verif.Proofs.Overlap

/-!
# Probabilities of the ancilla
-/

namespace Qadence.Overlap

open Spec Matrix Block

variable {n N : ℕ}

/-! ## The probability of the ancilla -/

theorem sum_positions {M : Type} [AddCommMonoid M] (e : Endian) (G : ℕ → M) :
    ∑ i ∈ Finset.range (2 ^ n), G i = ∑ x : St n, G (bitstringValue e (List.ofFn x)) := by
  symm
  refine Finset.sum_bij (fun x _ => bitstringValue e (List.ofFn x)) (fun x _ => ?_) (fun x _ y _ h => ?_) (fun k hk => ?_)
    fun _ _ => rfl
  · rw [Finset.mem_range]
    simpa using States.bitstringValue_lt e (List.ofFn x)
  · exact List.ofFn_injective (States.bitstringValue_inj e (by simp) h)
  · obtain ⟨x, hx⟩ := States.exists_position e (Finset.mem_range.1 hk)
    exact ⟨x, Finset.mem_univ x, hx⟩

theorem value_ancilla {m : ℕ} (x : St (m + 1)) : bitstringValue .big (List.ofFn x) < 2 ^ m ↔ x 0 = false := by
  rw [bitstringValue_big, List.ofFn_succ, bitVal_cons]
  have := bitVal_lt (List.ofFn fun i : Fin m => x i.succ)
  simp only [List.length_ofFn] at this ⊢
  cases x 0
  · simpa using this
  · simp

theorem measOp_e (N i j : ℕ) (hi : i < 2 ^ (N + 1)) (hj : j < 2 ^ (N + 1)) :
    (measOp (N + 1)).e i j = if i = j ∧ i < 2 ^ N then 1 else 0 := by
  have hp : 0 < 2 ^ N := by positivity
  simp only [measOp, TMat.kron, Nat.add_sub_cancel, TMat.ofRows]
  have hi' : i / 2 ^ N < 2 := by rw [Nat.div_lt_iff_lt_mul hp]; rw [pow_succ] at hi; omega
  have hj' : j / 2 ^ N < 2 := by rw [Nat.div_lt_iff_lt_mul hp]; rw [pow_succ] at hj; omega
  have hi2 := Nat.div_add_mod i (2 ^ N)
  have hj2 := Nat.div_add_mod j (2 ^ N)
  have hi3 := Nat.mod_lt i hp
  have hj3 := Nat.mod_lt j hp
  generalize i / 2 ^ N = a at *
  generalize j / 2 ^ N = b at *
  have ha : a = 0 ∨ a = 1 := by omega
  have hb : b = 0 ∨ b = 1 := by omega
  rcases ha with rfl | rfl <;> rcases hb with rfl | rfl <;> simp only [List.getD_cons_zero, List.getD_cons_succ, one_mul, zero_mul]
  · congr 1
    apply propext
    omega
  all_goals
    rw [if_neg]
    omega


theorem getD_tabulates {e : Endian} {row : List ℂ} {φ : St n → ℂ} (h : Tabulates e row φ) (x : St n) :
    row.getD (bitstringValue e (List.ofFn x)) 0 = φ x := by
  rw [List.getD_eq_getElem?_getD, h.2, Option.getD_some]

/-- `prob0` is the probability of measuring zero on the first qubit. -/
theorem prob0_ok {row : List ℂ} {φ : St (N + 1) → ℂ} (h : Tabulates .big row φ) :
    prob0 row = .ok (∑ x, if x 0 = true then 0 else ‖φ x‖ ^ 2) ∧ prob0' row = .ok (∑ x, if x 0 = true then 0 else ‖φ x‖ ^ 2) := by
  have hl : row.length = 2 ^ (N + 1) := h.1
  have hlog : Nat.log 2 (2 ^ (N + 1)) = N + 1 := Nat.log_pow (by norm_num) _
  have hdim : (measOp (N + 1)).dim = 2 ^ (N + 1) := by
    simp [measOp, TMat.kron, TMat.ofRows, pow_succ, mul_comm]
  have key : ∀ F : ℕ → ℂ, ∀ i ∈ Finset.range (2 ^ (N + 1)), ∑ j ∈ Finset.range (2 ^ (N + 1)), (measOp (N + 1)).e i j * F j =
      if i < 2 ^ N then F i else 0 := by
    intro F i hi
    rw [Finset.sum_eq_single i]
    · rw [measOp_e N i i (Finset.mem_range.1 hi) (Finset.mem_range.1 hi)]
      simp
    · intro j hj hji
      rw [measOp_e N i j (Finset.mem_range.1 hi) (Finset.mem_range.1 hj), if_neg (fun h => hji h.1.symm), zero_mul]
    · exact fun h => absurd hi h
  have hn : ∀ z : ℂ, (starRingEnd ℂ) z * z = ((‖z‖ ^ 2 : ℝ) : ℂ) := fun z => by
    rw [mul_comm, Complex.mul_conj, Complex.normSq_eq_norm_sq]
  unfold prob0 prob0'
  simp only [hlog, hdim, hl, if_true]
  constructor
  · congr 1
    rw [Finset.sum_congr rfl fun i hi => by rw [key (fun j => row.getD j 0) i hi], sum_positions .big, ← Complex.ofReal_re (∑ x, _)]
    congr 1
    rw [Complex.ofReal_sum]
    refine Finset.sum_congr rfl fun x _ => ?_
    rw [getD_tabulates h]
    by_cases hx : x 0 = true
    · rw [if_neg (by rw [value_ancilla, hx]; simp), if_pos hx, mul_zero, Complex.ofReal_zero]
    · rw [if_pos (by rw [value_ancilla]; simpa using hx), if_neg hx, hn]
  · congr 1
    rw [Finset.sum_congr rfl fun i hi => by rw [key (fun j => (starRingEnd ℂ) (row.getD j 0)) i hi], sum_positions .big,
      ← Complex.ofReal_re (∑ x, _)]
    congr 1
    rw [Complex.ofReal_sum]
    refine Finset.sum_congr rfl fun x _ => ?_
    rw [getD_tabulates h]
    by_cases hx : x 0 = true
    · rw [if_neg (by rw [value_ancilla, hx]; simp), if_pos hx, mul_zero, Complex.ofReal_zero]
    · rw [if_pos (by rw [value_ancilla]; simpa using hx), if_neg hx, mul_comm, hn]

theorem sum_ancilla (w₀ w₁ : St N → ℂ) : (∑ x, if x 0 = true then 0 else ‖join w₀ w₁ x‖ ^ 2) = ∑ u, ‖w₀ u‖ ^ 2 := by
  rw [← (Fin.consEquiv fun _ : Fin (N + 1) => Bool).sum_comp, Fintype.sum_prod_type, Fintype.sum_bool]
  simp only [Fin.consEquiv, Equiv.coe_fn_mk, Fin.cons_zero, if_true, Finset.sum_const_zero, Bool.false_eq_true, if_false, zero_add]
  refine Finset.sum_congr rfl fun u _ => ?_
  rw [join]
  simp only [Fin.cons_zero, Bool.false_eq_true, if_false]
  congr 2

end Qadence.Overlap
