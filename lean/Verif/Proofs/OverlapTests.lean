import Verif.Proofs.OverlapProb

/-!
# States of the Hadamard test and of the swap test
-/

namespace Qadence.Overlap

open Spec Matrix Block

variable {n N : ℕ}

/-! ## Hadamard test -/

theorem sum_normSq_add (φ ψ : St n → ℂ) :
    ∑ x, ‖((1 / 2 : ℂ) • (φ + ψ)) x‖ ^ 2 = (∑ x, ‖φ x‖ ^ 2 + ∑ x, ‖ψ x‖ ^ 2 + 2 * (braket φ ψ).re) / 4 := by
  have h : ∀ x, ‖((1 / 2 : ℂ) • (φ + ψ)) x‖ ^ 2 = (‖φ x‖ ^ 2 + ‖ψ x‖ ^ 2 + 2 * (star (φ x) * ψ x).re) / 4 := by
    intro x
    rw [Pi.smul_apply, Pi.add_apply, smul_eq_mul, norm_mul, mul_pow, ← Complex.normSq_eq_norm_sq (φ x + ψ x), Complex.normSq_add,
      Complex.normSq_eq_norm_sq, Complex.normSq_eq_norm_sq]
    have : (φ x * (starRingEnd ℂ) (ψ x)).re = (star (φ x) * ψ x).re := by
      simp [Complex.mul_re]
    rw [this]
    norm_num
    ring
  simp only [h]
  rw [← Finset.sum_div, Finset.sum_add_distrib, Finset.sum_add_distrib, ← Finset.mul_sum, braket, Complex.re_sum]

theorem H_entries : mat1 .H false false * mat1 .H false false = 1 / 2 ∧ mat1 .H false true = mat1 .H false false ∧
    mat1 .H true false = mat1 .H false false ∧ mat1 .H true true = -mat1 .H false false := by
  have h2 : (Real.sqrt 2 : ℂ) * Real.sqrt 2 = 2 := by
    rw [← Complex.ofReal_mul, Real.mul_self_sqrt (by norm_num)]
    simp
  have h3 : (Real.sqrt 2 : ℂ) ≠ 0 := by intro h; rw [h] at h2; norm_num at h2
  refine ⟨?_, ?_, ?_, ?_⟩ <;> simp [mat1, neg_div]
  field_simp
  linear_combination -h2

/-- The state of the circuits of the Hadamard test with the diagonal gate `d` on the ancilla. -/
theorem hadamard_state (A B : Oper N) (d : ℂ) {D : Matrix Bool Bool ℂ} (hD : D false false = 1 ∧ D false true = 0 ∧
    D true false = 0 ∧ D true true = d) :
    ∃ w, embed1 0 (mat1 .H) *ᵥ (embed1 0 D *ᵥ (ctrl 0 (place (Fin.succEmb N) B) *ᵥ (ctrl 0 (place (Fin.succEmb N) A) *ᵥ
      (embed1 0 (mat1 .H) *ᵥ (ket0 : St (N + 1) → ℂ))))) =
    join ((1 / 2 : ℂ) • (ket0 + d • (B *ᵥ (A *ᵥ ket0)))) w := by
  obtain ⟨h1, h2, h3, h4⟩ := H_entries
  obtain ⟨d1, d2, d3, d4⟩ := hD
  rw [ket0_join, embed1_join, ctrl_join, ctrl_join, embed1_join, embed1_join]
  rw [d1, d2, d3, d4, h2, h3, h4]
  refine ⟨_, congrArg₂ join ?_ rfl⟩
  funext u
  simp only [smul_zero, add_zero, mulVec_smul, one_smul, zero_smul, zero_add, Pi.add_apply, Pi.smul_apply, smul_eq_mul]
  linear_combination (ket0 u + d * (B *ᵥ (A *ᵥ ket0)) u) * h1

theorem hadamard_prob (A B : Oper N) (d : ℂ) (hd : ‖d‖ = 1) {D : Matrix Bool Bool ℂ} (hD : D false false = 1 ∧ D false true = 0 ∧
    D true false = 0 ∧ D true true = d) (hA : A ∈ unitary (Oper N)) (hB : B ∈ unitary (Oper N)) :
    (∑ x, if x 0 = true then 0 else ‖(embed1 0 (mat1 .H) *ᵥ (embed1 0 D *ᵥ (ctrl 0 (place (Fin.succEmb N) B) *ᵥ
      (ctrl 0 (place (Fin.succEmb N) A) *ᵥ (embed1 0 (mat1 .H) *ᵥ (ket0 : St (N + 1) → ℂ)))))) x‖ ^ 2) =
      (1 + (d * braket ket0 (B *ᵥ (A *ᵥ ket0))).re) / 2 := by
  obtain ⟨w, hw⟩ := hadamard_state A B d hD
  rw [hw, sum_ancilla, sum_normSq_add]
  have h0 : ∑ x : St N, ‖(ket0 : St N → ℂ) x‖ ^ 2 = 1 := unitVector_ket _
  have h1 : ∑ x, ‖(d • (B *ᵥ (A *ᵥ (ket0 : St N → ℂ)))) x‖ ^ 2 = 1 := by
    simp only [Pi.smul_apply, smul_eq_mul, norm_mul, hd, one_mul]
    rw [unitary_norm hB, unitary_norm hA, h0]
  have h2 : braket ket0 (d • (B *ᵥ (A *ᵥ (ket0 : St N → ℂ)))) = d * braket ket0 (B *ᵥ (A *ᵥ ket0)) := by
    simp only [braket, Pi.smul_apply, smul_eq_mul, Finset.mul_sum]
    exact Finset.sum_congr rfl fun x _ => by ring
  rw [h0, h1, h2]
  ring

/-! ## Swap test -/

/-- The qubits of the two states. -/
def left (N : ℕ) : Fin N ↪ Fin (2 * N + 1) := ⟨fun i => ⟨i + 1, by omega⟩, fun i j h => by
  have := congrArg Fin.val h
  ext
  simpa using this⟩

def right (N : ℕ) : Fin N ↪ Fin (2 * N + 1) := ⟨fun i => ⟨i + N + 1, by omega⟩, fun i j h => by
  have := congrArg Fin.val h
  ext
  simpa using this⟩

theorem left_val (i : Fin N) : (left N i : ℕ) = i + 1 := rfl

theorem right_val (i : Fin N) : (right N i : ℕ) = i + N + 1 := rfl

theorem left_ne_right (i j : Fin N) : left N i ≠ right N j := by
  intro h
  have := congrArg Fin.val h
  rw [left_val, right_val] at this
  omega

theorem cover (j : Fin (2 * N + 1)) : j = 0 ∨ (∃ i, left N i = j) ∨ ∃ i, right N i = j := by
  by_cases h0 : (j : ℕ) = 0
  · exact .inl (Fin.ext h0)
  · by_cases h1 : (j : ℕ) ≤ N
    · refine .inr (.inl ⟨⟨j - 1, by omega⟩, Fin.ext ?_⟩)
      rw [left_val]
      simp only
      omega
    · refine .inr (.inr ⟨⟨j - 1 - N, by omega⟩, Fin.ext ?_⟩)
      rw [right_val]
      simp only
      omega

theorem left_ne_zero (i : Fin N) : left N i ≠ 0 := by
  intro h
  have := congrArg Fin.val h
  rw [left_val] at this
  simp at this

theorem right_ne_zero (i : Fin N) : right N i ≠ 0 := by
  intro h
  have := congrArg Fin.val h
  rw [right_val] at this
  simp at this

/-- The three parts of a basis state of the register of the swap test. -/
noncomputable def parts (N : ℕ) : St (2 * N + 1) ≃ Bool × St N × St N := by
  refine Equiv.ofBijective (fun x => (x 0, x ∘ left N, x ∘ right N)) ((Fintype.bijective_iff_injective_and_card _).2 ⟨?_, ?_⟩)
  · intro x y h
    simp only [Prod.mk.injEq] at h
    funext j
    rcases cover j with rfl | ⟨i, rfl⟩ | ⟨i, rfl⟩
    · exact h.1
    · exact congrFun h.2.1 i
    · exact congrFun h.2.2 i
  · simp only [Fintype.card_pi, Fintype.card_bool, Finset.prod_const, Finset.card_univ, Fintype.card_fin, Fintype.card_prod]
    ring

theorem sum_parts (G : Bool → St N → St N → ℝ) :
    ∑ x : St (2 * N + 1), G (x 0) (x ∘ left N) (x ∘ right N) = ∑ c, ∑ u, ∑ v, G c u v := by
  have h : ∑ p : Bool × St N × St N, G p.1 p.2.1 p.2.2 = ∑ c, ∑ u, ∑ v, G c u v := by
    simp only [Fintype.sum_prod_type]
  rw [← h, ← (parts N).sum_comp]
  rfl

theorem ket0_apply (x : St n) : (ket0 : St n → ℂ) x = if x = fun _ => false then 1 else 0 := rfl

/-- The state after the first Hadamard gate and the preparation of both states. -/
theorem swap_prepared (A K : Oper N) (x : St (2 * N + 1)) :
    (place (right N) K *ᵥ (place (left N) A *ᵥ (embed1 0 (mat1 .H) *ᵥ (ket0 : St (2 * N + 1) → ℂ)))) x =
      mat1 .H false false * ((A *ᵥ ket0) (x ∘ left N) * (K *ᵥ ket0) (x ∘ right N)) := by
  obtain ⟨h1, h2, h3, h4⟩ := H_entries
  have e1 : ∀ x, (embed1 0 (mat1 .H) *ᵥ (ket0 : St (2 * N + 1) → ℂ)) x =
      mat1 .H false false * (ket0 (x ∘ left N) * ket0 (x ∘ right N)) := by
    intro x
    have hz : ∀ c, (ket0 : St (2 * N + 1) → ℂ) (Function.update x ⟨0, by omega⟩ c) =
        if c = true then 0 else ket0 (x ∘ left N) * ket0 (x ∘ right N) := by
      intro c
      rw [ket0_apply, ket0_apply, ket0_apply, ite_zero_mul_ite_zero, mul_one]
      have hl : Function.update x ⟨0, by omega⟩ c ∘ left N = x ∘ left N := by
        funext i
        exact Function.update_of_ne (left_ne_zero i) _ _
      have hr : Function.update x ⟨0, by omega⟩ c ∘ right N = x ∘ right N := by
        funext i
        exact Function.update_of_ne (right_ne_zero i) _ _
      cases c with
      | true =>
        rw [if_neg, if_pos rfl]
        intro h
        have := congrFun h ⟨0, by omega⟩
        simp at this
      | false =>
        rw [← hl, ← hr]
        simp only [Bool.false_eq_true, if_false]
        congr 1
        apply propext
        constructor
        · intro h
          rw [h]
          exact ⟨rfl, rfl⟩
        · rintro ⟨ha, hb⟩
          funext j
          rcases cover j with rfl | ⟨i, rfl⟩ | ⟨i, rfl⟩
          · exact Function.update_self _ _ _
          · exact congrFun ha i
          · exact congrFun hb i
    rw [embed1_mulVec (by omega), Fintype.sum_bool, hz, hz]
    simp only [if_true, mul_zero, zero_add, Bool.false_eq_true, if_false]
    congr 1
    cases bit x 0
    · rfl
    · exact h3
  rw [place_mulVec]
  have e2 : ∀ x, (place (left N) A *ᵥ (embed1 0 (mat1 .H) *ᵥ (ket0 : St (2 * N + 1) → ℂ))) x =
      mat1 .H false false * ((A *ᵥ ket0) (x ∘ left N) * ket0 (x ∘ right N)) := by
    intro x
    rw [place_mulVec]
    simp only [e1, over_comp]
    have : ∀ y, «over» (left N) x y ∘ right N = x ∘ right N := by
      intro y
      funext i
      exact over_of_ne _ _ _ fun j => left_ne_right j i
    simp only [this, mulVec, dotProduct, Finset.sum_mul, Finset.mul_sum]
    exact Finset.sum_congr rfl fun y _ => by ring
  simp only [e2, over_comp]
  have : ∀ y, «over» (right N) x y ∘ left N = x ∘ left N := by
    intro y
    funext i
    exact over_of_ne _ _ _ fun j => (left_ne_right i j).symm
  simp only [this, mulVec, dotProduct, Finset.sum_mul, Finset.mul_sum]
  exact Finset.sum_congr rfl fun y _ => by
    exact Finset.sum_congr rfl fun z _ => by ring

/-- The map of basis states of one controlled swap. -/
def swapPair (N i : ℕ) (y : St (2 * N + 1)) : St (2 * N + 1) := if bit y 0 = true then swapSt (i + 1) (i + 1 + N) y else y

theorem swapPair_zero {i : ℕ} (hi : i < N) (y : St (2 * N + 1)) : swapPair N i y 0 = y 0 := by
  unfold swapPair
  split
  · have := bit_swapSt (i + 1) (i + 1 + N) y (by omega) (by omega) 0
    rw [if_neg (by omega), if_neg (by omega)] at this
    simpa only [bit_zero] using this
  · rfl

theorem swapPair_left {i : ℕ} (hi : i < N) (y : St (2 * N + 1)) (j : Fin N) :
    swapPair N i y (left N j) = if y 0 = true ∧ (j : ℕ) = i then y (right N j) else y (left N j) := by
  unfold swapPair
  rw [bit_zero]
  by_cases h : y 0 = true
  · rw [if_pos h]
    have h1 := bit_swapSt (i + 1) (i + 1 + N) y (by omega) (by omega) (left N j : ℕ)
    rw [bit_val, bit_val, left_val] at h1
    rw [h1]
    by_cases hj : (j : ℕ) = i
    · rw [if_pos (by omega), if_pos ⟨h, hj⟩, ← bit_val (right N j) y, right_val, ← hj]
      congr 1
      omega
    · rw [if_neg (by omega), if_neg (by omega), if_neg (fun e => hj e.2)]
  · rw [if_neg h, if_neg fun e => h e.1]

theorem swapPair_right {i : ℕ} (hi : i < N) (y : St (2 * N + 1)) (j : Fin N) :
    swapPair N i y (right N j) = if y 0 = true ∧ (j : ℕ) = i then y (left N j) else y (right N j) := by
  unfold swapPair
  rw [bit_zero]
  by_cases h : y 0 = true
  · rw [if_pos h]
    have h1 := bit_swapSt (i + 1) (i + 1 + N) y (by omega) (by omega) (right N j : ℕ)
    rw [bit_val, bit_val, right_val] at h1
    rw [h1]
    by_cases hj : (j : ℕ) = i
    · rw [if_neg (by omega), if_pos (by omega), if_pos ⟨h, hj⟩, ← bit_val (left N j) y, left_val, ← hj]
    · rw [if_neg (by omega), if_neg (by omega), if_neg (fun e => hj e.2)]
  · rw [if_neg h, if_neg fun e => h e.1]

theorem parts_ext {x y : St (2 * N + 1)} (h0 : x 0 = y 0) (hl : ∀ j, x (left N j) = y (left N j))
    (hr : ∀ j, x (right N j) = y (right N j)) : x = y := by
  funext j
  rcases cover j with rfl | ⟨i, rfl⟩ | ⟨i, rfl⟩
  · exact h0
  · exact hl i
  · exact hr i

theorem swapPair_swapPair {i : ℕ} (hi : i < N) (y : St (2 * N + 1)) : swapPair N i (swapPair N i y) = y := by
  apply parts_ext
  · rw [swapPair_zero hi, swapPair_zero hi]
  · intro j
    rw [swapPair_left hi, swapPair_zero hi, swapPair_left hi, swapPair_right hi]
    split <;> rfl
  · intro j
    rw [swapPair_right hi, swapPair_zero hi, swapPair_left hi, swapPair_right hi]
    split <;> rfl

theorem mapOp_mulVec {f : St n → St n} (h : ∀ y, f (f y) = y) (φ : St n → ℂ) (x : St n) : (mapOp f *ᵥ φ) x = φ (f x) := by
  rw [mulVec, dotProduct, Finset.sum_eq_single (f x)]
  · simp [mapOp, h]
  · intro y _ hy
    have : x ≠ f y := fun e => hy (by rw [e, h])
    simp [mapOp, this]
  · simp

/-- The controlled swaps exchange the two states if the ancilla is one. -/
theorem swaps_mulVec (l : List ℕ) (hl : ∀ i ∈ l, i < N) (hnd : l.Nodup) (φ : St (2 * N + 1) → ℂ) (x : St (2 * N + 1)) :
    ∃ y : St (2 * N + 1), (opProd (l.map fun i => mapOp (swapPair N i)) *ᵥ φ) x = φ y ∧ y 0 = x 0 ∧
      (∀ j : Fin N, y (left N j) = if x 0 = true ∧ (j : ℕ) ∈ l then x (right N j) else x (left N j)) ∧
      ∀ j : Fin N, y (right N j) = if x 0 = true ∧ (j : ℕ) ∈ l then x (left N j) else x (right N j) := by
  induction l generalizing φ with
  | nil => exact ⟨x, by simp [opProd], rfl, by simp, by simp⟩
  | cons a l ih =>
    have ha := hl a (by simp)
    obtain ⟨hal, hnd'⟩ := List.nodup_cons.1 hnd
    obtain ⟨y, h1, h2, h3, h4⟩ := ih (fun i hi => hl i (by simp [hi])) hnd' (mapOp (swapPair N a) *ᵥ φ)
    refine ⟨swapPair N a y, ?_, by rw [swapPair_zero ha, h2], fun j => ?_, fun j => ?_⟩
    · rw [List.map_cons, opProd, ← mulVec_mulVec, h1, mapOp_mulVec (swapPair_swapPair ha)]
    · rw [swapPair_left ha, h2, h3, h4]
      by_cases hx : x 0 = true
      · by_cases hj : (j : ℕ) = a
        · have : (j : ℕ) ∉ l := hj ▸ hal
          simp [hx, hj, hal]
        · simp [hx, hj]
      · simp [hx]
    · rw [swapPair_right ha, h2, h3, h4]
      by_cases hx : x 0 = true
      · by_cases hj : (j : ℕ) = a
        · have : (j : ℕ) ∉ l := hj ▸ hal
          simp [hx, hj, hal]
        · simp [hx, hj]
      · simp [hx]

/-- The amplitudes of the swap test with the ancilla in state zero. -/
theorem swap_state (A K : Oper N) (x : St (2 * N + 1)) (hx : x 0 = false) :
    (embed1 0 (mat1 .H) *ᵥ (opProd ((List.range N).map fun i => mapOp (swapPair N i)) *ᵥ
      (place (right N) K *ᵥ (place (left N) A *ᵥ (embed1 0 (mat1 .H) *ᵥ (ket0 : St (2 * N + 1) → ℂ)))))) x =
      1 / 2 * ((A *ᵥ ket0) (x ∘ left N) * (K *ᵥ ket0) (x ∘ right N) + (A *ᵥ ket0) (x ∘ right N) * (K *ᵥ ket0) (x ∘ left N)) := by
  obtain ⟨h1, h2, h3, h4⟩ := H_entries
  have hl : ∀ c, Function.update x ⟨0, by omega⟩ c ∘ left N = x ∘ left N := by
    intro c
    funext i
    exact Function.update_of_ne (left_ne_zero i) _ _
  have hr : ∀ c, Function.update x ⟨0, by omega⟩ c ∘ right N = x ∘ right N := by
    intro c
    funext i
    exact Function.update_of_ne (right_ne_zero i) _ _
  have h0 : ∀ c, Function.update x (⟨0, by omega⟩ : Fin (2 * N + 1)) c 0 = c := fun c => Function.update_self _ _ _
  have key : ∀ c : Bool, (opProd ((List.range N).map fun i => mapOp (swapPair N i)) *ᵥ
      (place (right N) K *ᵥ (place (left N) A *ᵥ (embed1 0 (mat1 .H) *ᵥ (ket0 : St (2 * N + 1) → ℂ)))))
        (Function.update x ⟨0, by omega⟩ c) =
      mat1 .H false false * (if c = true then (A *ᵥ ket0) (x ∘ right N) * (K *ᵥ ket0) (x ∘ left N) else
        (A *ᵥ ket0) (x ∘ left N) * (K *ᵥ ket0) (x ∘ right N)) := by
    intro c
    obtain ⟨y, e1, e2, e3, e4⟩ := swaps_mulVec (N := N) (List.range N) (by simp) List.nodup_range
      (place (right N) K *ᵥ (place (left N) A *ᵥ (embed1 0 (mat1 .H) *ᵥ (ket0 : St (2 * N + 1) → ℂ))))
      (Function.update x ⟨0, by omega⟩ c)
    rw [e1, swap_prepared]
    have hm : ∀ j : Fin N, (j : ℕ) ∈ List.range N := fun j => List.mem_range.2 j.2
    have hl' : ∀ j, Function.update x ⟨0, by omega⟩ c (left N j) = x (left N j) := fun j => congrFun (hl c) j
    have hr' : ∀ j, Function.update x ⟨0, by omega⟩ c (right N j) = x (right N j) := fun j => congrFun (hr c) j
    cases c with
    | true =>
      have hyl : y ∘ left N = x ∘ right N := funext fun j => by
        rw [Function.comp_apply, e3, h0, if_pos ⟨rfl, hm j⟩, hr']
        rfl
      have hyr : y ∘ right N = x ∘ left N := funext fun j => by
        rw [Function.comp_apply, e4, h0, if_pos ⟨rfl, hm j⟩, hl']
        rfl
      rw [hyl, hyr, if_pos rfl]
    | false =>
      have hyl : y ∘ left N = x ∘ left N := funext fun j => by
        rw [Function.comp_apply, e3, h0, if_neg (by simp), hl']
        rfl
      have hyr : y ∘ right N = x ∘ right N := funext fun j => by
        rw [Function.comp_apply, e4, h0, if_neg (by simp), hr']
        rfl
      rw [hyl, hyr, if_neg (by simp)]
  rw [embed1_mulVec (by omega), Fintype.sum_bool, key, key, bit_zero, hx, h2]
  simp only [if_true, Bool.false_eq_true, if_false]
  linear_combination ((A *ᵥ ket0) (x ∘ left N) * (K *ᵥ ket0) (x ∘ right N) +
    (A *ᵥ ket0) (x ∘ right N) * (K *ᵥ ket0) (x ∘ left N)) * h1

/-- The probability of zero in the swap test. -/
theorem swap_prob {A K : Oper N} (hA : A ∈ unitary (Oper N)) (hK : K ∈ unitary (Oper N)) :
    (∑ x, if x 0 = true then 0 else ‖(embed1 0 (mat1 .H) *ᵥ (opProd ((List.range N).map fun i => mapOp (swapPair N i)) *ᵥ
      (place (right N) K *ᵥ (place (left N) A *ᵥ (embed1 0 (mat1 .H) *ᵥ (ket0 : St (2 * N + 1) → ℂ)))))) x‖ ^ 2) =
      (1 + ‖braket (A *ᵥ ket0) (K *ᵥ ket0)‖ ^ 2) / 2 := by
  have h0 : ∑ x : St N, ‖(ket0 : St N → ℂ) x‖ ^ 2 = 1 := unitVector_ket _
  have ha : ∑ x : St N, ‖(A *ᵥ ket0) x‖ ^ 2 = 1 := by rw [unitary_norm hA, h0]
  have hk : ∑ x : St N, ‖(K *ᵥ ket0) x‖ ^ 2 = 1 := by rw [unitary_norm hK, h0]
  have h1 : ∀ x : St (2 * N + 1), (if x 0 = true then 0 else ‖(embed1 0 (mat1 .H) *ᵥ
      (opProd ((List.range N).map fun i => mapOp (swapPair N i)) *ᵥ
      (place (right N) K *ᵥ (place (left N) A *ᵥ (embed1 0 (mat1 .H) *ᵥ (ket0 : St (2 * N + 1) → ℂ)))))) x‖ ^ 2) =
      (fun (c : Bool) (u v : St N) => if c = true then 0 else ‖(1 / 2 : ℂ) * ((A *ᵥ ket0) u * (K *ᵥ ket0) v +
        (A *ᵥ ket0) v * (K *ᵥ ket0) u)‖ ^ 2) (x 0) (x ∘ left N) (x ∘ right N) := by
    intro x
    by_cases hx : x 0 = true
    · simp only [hx, if_true]
    · rw [if_neg hx, swap_state A K x (by simpa using hx)]
      simp only [hx, Bool.false_eq_true, if_false]
  rw [Finset.sum_congr rfl fun x _ => h1 x, sum_parts (fun (c : Bool) (u v : St N) => if c = true then 0 else
    ‖(1 / 2 : ℂ) * ((A *ᵥ ket0) u * (K *ᵥ ket0) v + (A *ᵥ ket0) v * (K *ᵥ ket0) u)‖ ^ 2), Fintype.sum_bool]
  simp only [if_true, Finset.sum_const_zero, Bool.false_eq_true, if_false, zero_add]
  generalize A *ᵥ (ket0 : St N → ℂ) = a at ha ⊢
  generalize K *ᵥ (ket0 : St N → ℂ) = k at hk ⊢
  have hb : ((‖braket a k‖ ^ 2 : ℝ) : ℂ) = ∑ u, ∑ v, (star (a u) * k u) * (a v * star (k v)) := by
    rw [← Complex.normSq_eq_norm_sq, ← Complex.mul_conj, braket, map_sum, Finset.sum_mul_sum]
    refine Finset.sum_congr rfl fun u _ => Finset.sum_congr rfl fun v _ => ?_
    rw [map_mul, Complex.star_def, Complex.conj_conj]
  have hb' : ‖braket a k‖ ^ 2 = ∑ u, ∑ v, ((star (a u) * k u) * (a v * star (k v))).re := by
    rw [← Complex.ofReal_re (‖braket a k‖ ^ 2), hb, Complex.re_sum]
    exact Finset.sum_congr rfl fun u _ => Complex.re_sum _ _
  have h2 : ∀ u v, ‖(1 / 2 : ℂ) * (a u * k v + a v * k u)‖ ^ 2 =
      (‖a u‖ ^ 2 * ‖k v‖ ^ 2 + ‖a v‖ ^ 2 * ‖k u‖ ^ 2 + 2 * ((star (a u) * k u) * (a v * star (k v))).re) / 4 := by
    intro u v
    rw [norm_mul, mul_pow, ← Complex.normSq_eq_norm_sq (a u * k v + a v * k u), Complex.normSq_add,
      Complex.normSq_eq_norm_sq, Complex.normSq_eq_norm_sq, norm_mul, norm_mul, mul_pow, mul_pow]
    have : (a u * k v * (starRingEnd ℂ) (a v * k u)).re = ((star (a u) * k u) * (a v * star (k v))).re := by
      simp [Complex.mul_re, Complex.mul_im]
      ring
    rw [this]
    norm_num
    ring
  simp only [h2]
  rw [hb']
  simp only [← Finset.sum_div, Finset.sum_add_distrib, ← Finset.mul_sum, ← Finset.sum_mul, ha, hk]
  ring

end Qadence.Overlap
