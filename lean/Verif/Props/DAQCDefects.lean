import Mathlib.Tactic
import Verif.Props.DAQCRefuse

/-!
# C45: two defects and concrete cases
-/

namespace Qadence.DAQC

open Spec Block Finset Matrix

variable {n : ℕ}

/-- `g(a) @ g(b)`. -/
def pairTerm (g : FixedGate) (a b : ℕ) : Block Gate := .comp .kron [.leaf (.fixed g a) none, .leaf (.fixed g b) none] none

theorem unroll_pairTerm (g : FixedGate) (a b : ℕ) : unroll (pairTerm g a b) = [(pairTerm g a b, .num 1 0)] := rfl

theorem twoBody_pairTerm (g : FixedGate) {a b : ℕ} (hab : a ≠ b) (ha : a < n) (hb : b < n) {value : Expr → ℚ}
    (hv : value (.num 1 0) = 1) (ρ : Env) : TwoBody n g value ρ (pairTerm g a b) [(a, b, 1)] :=
  ⟨by simp, .cons ⟨⟨none, none, none, rfl⟩, by simp, hv, eval_num ρ 1, hab, ha, hb⟩ .nil⟩

theorem coupling_pairTerm {a b : ℕ} (hab : a < b) (p : ℕ × ℕ) : coupling [(a, b, 1)] p = if (a, b) = p then 1 else 0 := by
  simp [coupling, min_eq_left hab.le, max_eq_right hab.le]

/-- A set order: ascending, but `{1, 8}` is iterated as 8, 1 (as CPython does: 8 is in the first slot of a table of 8). -/
def ord8 (l : List ℕ) : List ℕ :=
  if 1 ∈ l ∧ 8 ∈ l ∧ ∀ q ∈ l, q = 1 ∨ q = 8 then [8, 1] else l.dedup.insertionSort (· ≤ ·)

theorem ord8_setOrder : SetOrder ord8 := by
  intro l
  unfold ord8
  split
  · next h =>
    refine ⟨by decide, fun q => ?_⟩
    simp only [List.mem_cons, List.not_mem_nil, or_false]
    constructor
    · rintro (rfl | rfl)
      · exact h.2.1
      · exact h.1
    · intro hq; exact (h.2.2 q hq).symm
  · refine ⟨(List.perm_insertionSort _ _).nodup_iff.2 (List.nodup_dedup l), fun q => ?_⟩
    rw [(List.perm_insertionSort _ _).mem_iff, List.mem_dedup]

theorem ord8_ascending {a b : ℕ} (c : ℚ) (h : a ≠ 8 ∧ b ≠ 8) : Ascending ord8 [(a, b, c)] := by
  intro e he l hl
  obtain rfl := List.mem_singleton.1 he
  unfold ord8
  rw [if_neg (by
    rintro ⟨-, h8, -⟩
    have := (hl 8).1 h8
    simp only at this
    omega)]
  have h1 := List.pairwise_insertionSort (α := ℕ) (· ≤ ·) l.dedup
  have h2 : (l.dedup.insertionSort (· ≤ ·)).Nodup := (List.perm_insertionSort _ _).nodup_iff.2 (List.nodup_dedup l)
  exact (h1.and h2).imp fun {a b} hab => lt_of_le_of_ne hab.1 hab.2

/-- The result depends on the couplings of a ZZ target only. -/
theorem transform_congr (ord : List ℕ → List ℕ) (value : Expr → ℚ) {target target' : Block Gate} (tf : ℚ) (build : Block Gate)
    (tol : ℚ) (ig : Bool) (h4 : n ≠ 4) (h1 : isQubitHamiltonian target = isQubitHamiltonian target')
    {f m m'} (h2 : parse ord value n target 0 = .ok (f, m, .ZZ)) (h3 : parse ord value n target' 0 = .ok (f, m', .ZZ)) :
    transform ord value n target tf (some build) tol true ig = transform ord value n target' tf (some build) tol true ig := by
  unfold transform
  simp only [Bool.not_true, Bool.false_eq_true, if_false, h4, ok_bind, h1, h2, h3, reduceCtorEq]

theorem parse_pair (ord : List ℕ → List ℕ) (value : Expr → ℚ) (hv : value (.num 1 0) = 1) {a b j k i : ℕ}
    (hs : support Gate.supp ord (pairTerm .Z a b) = [j, k]) (hi : index (flatSize n) (ixMap n (j + 1) (k + 1) - 1) = .ok i)
    (hj : j < n) (hk : k < n) : ∃ m, parse ord value n (pairTerm .Z a b) 0 = .ok (fun x => if x = i then 1 else 0, m, .ZZ) := by
  refine ⟨fun a b => if (a = j ∧ b = k) ∨ (a = k ∧ b = j) then 1 else 0, ?_⟩
  rw [parse, unroll_pairTerm, List.foldlM_cons]
  have : parseTerm ord value n 0 ⟨fun _ => 0, fun _ _ => 0, []⟩ (pairTerm .Z a b, .num 1 0) = .ok
      ⟨Function.update (fun _ => 0) i 1, fun a b => if (a = j ∧ b = k) ∨ (a = k ∧ b = j) then 1 else 0, [.ZZ, .ZZ]⟩ := by
    rw [parseTerm]
    simp only [isParameter, Bool.false_eq_true, if_false, pairTerm]
    rw [pairTerm] at hs
    rw [hs]
    simp only [List.mapM_cons, List.mapM_nil, opType, ok_bind, pure_eq_ok, addCoupling, hi, hj, hk, and_self, if_true, hv,
      zero_add, List.nil_append]
  rw [this]
  simp only [ok_bind, List.foldlM_nil, pure_eq_ok, List.all_cons, List.all_nil, decide_true, Bool.and_true, List.isEmpty_cons, Bool.not_false,
    if_true, Bool.and_self]
  congr 2
  funext x
  by_cases hx : x = i
  · subst hx; simp
  · simp [hx]

/-- Defect: the position of a coupling is computed from the qubit support of the term, whose order is the one of a Python
set. For the term Z(1) Z(8) of a 9-qubit Hamiltonian this is (8, 1), and `_ix_map` gives the position of the pair (4, 7):
with the build Hamiltonian Z(4) Z(7), the target Z(1) Z(8) is accepted and the circuit evolves under Z(4) Z(7). -/
theorem C45_counterexample_set_order (value : Expr → ℚ) (hv : value (.num 1 0) = 1) (ρ : Env) :
    ∃ b, transform ord8 value 9 (pairTerm .Z 1 8) 1 (some (pairTerm .Z 4 7)) (1 / 1000) true false = .ok b ∧
      sem (primSem 9 ρ ord8 ord8_setOrder) ρ b ≠ evolution ((1 : ℚ) : ℂ) (sem (gateSem 9 ρ) ρ (pairTerm .Z 1 8)) := by
  have T := twoBody_pairTerm (n := 9) .Z (a := 4) (b := 7) (by norm_num) (by norm_num) (by norm_num) hv ρ
  have W := twoBody_pairTerm (n := 9) .Z (a := 1) (b := 8) (by norm_num) (by norm_num) (by norm_num) hv ρ
  have aT := ord8_ascending (a := 4) (b := 7) 1 (by norm_num)
  obtain ⟨b, d, hb, hs, hd⟩ := C45_error_bound ord8_setOrder ρ (.inl rfl) (.inl rfl) T T aT aT (by norm_num)
    (tol := 1 / 1000) (by norm_num) (fun _ _ h => h) (fun _ _ h => h) 1
  refine ⟨b, ?_, ?_⟩
  · rw [← hb]
    obtain ⟨m, hm⟩ := parse_pair (n := 9) ord8 value hv (a := 1) (b := 8) (j := 8) (k := 1) (i := 28) (by decide) (by decide)
      (by norm_num) (by norm_num)
    obtain ⟨m', hm'⟩ := parse_pair (n := 9) ord8 value hv (a := 4) (b := 7) (j := 4) (k := 7) (i := 28) (by decide) (by decide)
      (by norm_num) (by norm_num)
    exact transform_congr ord8 value 1 _ _ _ (by norm_num) rfl hm hm'
  · rw [hs, sem_ham (.inl rfl) T, sem_ham (.inl rfl) W, evolution_dg, evolution_dg]
    intro h
    -- the basis state with a 1 on qubit 8
    let x : St 9 := fun j => decide (j = 8)
    have hx := congrFun (congrFun h x) x
    rw [Matrix.add_apply, ph, ph, diagonal_apply_eq, diagonal_apply_eq, diagonal_apply_eq] at hx
    have e1 : ∀ {a b : ℕ} (hab : a < b) (_ : b < 9), ham 9 .Z (coupling [(a, b, 1)]) x = zq x a * zq x b := by
      intro a b hab hb
      rw [ham, if_pos rfl, zz, sum_eq_single (a, b)]
      · rw [coupling_pairTerm hab, if_pos rfl, one_mul]
      · intro q _ hq
        rw [coupling_pairTerm hab, if_neg (Ne.symm hq), zero_mul]
      · intro h
        exact absurd (mem_P.2 ⟨hab, hb⟩) h
    rw [e1 (by norm_num) (by norm_num), e1 (by norm_num) (by norm_num)] at hx
    have z1 : zq x 1 = 1 := by decide +kernel
    have z4 : zq x 4 = 1 := by decide +kernel
    have z7 : zq x 7 = 1 := by decide +kernel
    have z8 : zq x 8 = -1 := by decide +kernel
    rw [z1, z4, z7, z8] at hx
    have hdx := hd x
    have hcard : ((1 / 1000 * ((P 9).card : ℚ) * ∑ q ∈ P 9, |coupling [(4, 7, 1)] q| : ℚ)) = 36 / 1000 := by
      have : ∑ q ∈ P 9, |coupling [(4, 7, 1)] q| = 1 := by
        rw [sum_eq_single (4, 7)]
        · rw [coupling_pairTerm (by norm_num), if_pos rfl, abs_one]
        · intro q _ hq
          rw [coupling_pairTerm (by norm_num), if_neg (Ne.symm hq), abs_zero]
        · intro h
          exact absurd (mem_P.2 ⟨by norm_num, by norm_num⟩) h
      rw [this, show (P 9).card = 36 by decide]
      norm_num
    rw [hcard] at hdx
    have hd' : d x = 2 * Complex.I * Complex.sin 1 := by
      have : d x = Complex.exp (-(Complex.I * ((1 * (1 * -1) : ℚ) : ℂ))) - Complex.exp (-(Complex.I * ((1 * (1 * 1) : ℚ) : ℂ))) := by
        rw [← hx]; ring
      rw [this, Complex.sin]
      push_cast
      ring_nf
      rw [Complex.I_sq]
      ring
    rw [hd', norm_mul, norm_mul, Complex.norm_I, show Complex.sin 1 = ((Real.sin 1 : ℝ) : ℂ) by simp] at hdx
    rw [Complex.norm_real, Real.norm_eq_abs] at hdx
    have hsin := Real.sin_gt_sub_cube (x := 1) (by norm_num)
    have := le_abs_self (Real.sin 1)
    norm_num at hdx hsin
    linarith

/-! ### The state of N -/

theorem P_two : P 2 = {(0, 1)} := by decide

theorem sliceTimes_two (g : FixedGate) (tf : ℚ) :
    SliceTimes 2 g g (coupling [(0, 1, 1)]) (coupling [(0, 1, 1)]) tf (fun _ => tf) := by
  intro q hq
  rw [P_two] at hq ⊢
  obtain rfl := mem_singleton.1 hq
  rw [sum_singleton, coupling_pairTerm (by norm_num), if_pos rfl, mul_one, mul_div_cancel_left₀]
  · have : pairSign (0, 1) (0, 1) = 1 := by simp [pairSign]
    rw [this, one_mul]
  · unfold weight
    split <;> norm_num

/-- A case of the exact theorem: two qubits, target and build Hamiltonian N(0) N(1). -/
theorem exact_two (value : Expr → ℚ) (hv : value (.num 1 0) = 1) (ρ : Env) :
    ∃ b, transform ord8 value 2 (pairTerm (.N true) 0 1) 1 (some (pairTerm (.N true) 0 1)) (1 / 1000) true false = .ok b ∧
      sem (primSem 2 ρ ord8 ord8_setOrder) ρ b = evolution ((1 : ℚ) : ℂ) (sem (gateSem 2 ρ) ρ (pairTerm (.N true) 0 1)) := by
  have T := twoBody_pairTerm (n := 2) (.N true) (a := 0) (b := 1) (by norm_num) (by norm_num) (by norm_num) hv ρ
  have aT := ord8_ascending (a := 0) (b := 1) 1 (by norm_num)
  exact C45_exact ord8_setOrder ρ (.inr rfl) (.inr rfl) T T aT aT (by norm_num) (by norm_num) (fun _ _ h => h)
    (fun _ _ h => h) 1 (sliceTimes_two _ 1) (fun _ _ => .inr (by norm_num))

/-- Defect: the state of the N operators is not looked at. The target `N(0, "0") N(1, "0")` (both qubits in state 0) is
accepted and transformed like `N(0) N(1)` (both qubits in state 1). -/
theorem C45_counterexample_N_state (value : Expr → ℚ) (hv : value (.num 1 0) = 1) (ρ : Env) :
    ∃ b, transform ord8 value 2 (pairTerm (.N false) 0 1) 1 (some (pairTerm (.N true) 0 1)) (1 / 1000) true false = .ok b ∧
      sem (primSem 2 ρ ord8 ord8_setOrder) ρ b ≠
        evolution ((1 : ℚ) : ℂ) (sem (gateSem 2 ρ) ρ (pairTerm (.N false) 0 1)) := by
  obtain ⟨b, hb, hs⟩ := exact_two value hv ρ
  refine ⟨b, ?_, ?_⟩
  · rw [← hb]
    have hp : parse ord8 value 2 (pairTerm (.N false) 0 1) 0 = parse ord8 value 2 (pairTerm (.N true) 0 1) 0 := rfl
    have hq : isQubitHamiltonian (pairTerm (.N false) 0 1) = isQubitHamiltonian (pairTerm (.N true) 0 1) := rfl
    unfold transform
    rw [hp, hq]
  · have T := twoBody_pairTerm (n := 2) (.N true) (a := 0) (b := 1) (by norm_num) (by norm_num) (by norm_num) hv ρ
    have hN : ∀ q : ℕ, q < 2 → (embed1 q (mat1 (.N false)) : Oper 2) = dg (fun x => (1 + zq x q) / 2) := by
      intro q hq
      have : mat1 (.N false) = (1 : Matrix Bool Bool ℂ) + (-1 : ℂ) • mat1 (.N true) := by
        ext a b
        rw [Matrix.add_apply, Matrix.smul_apply]
        cases a <;> cases b <;> simp [mat1, ind]
      rw [this, embed1_add, embed1_smul, embed1_one, embed1_dg hq (.inr rfl)]
      ext x y
      simp only [dg, lv, Matrix.add_apply, Matrix.smul_apply, smul_eq_mul, diagonal_apply, one_apply]
      split
      · push_cast; simp; ring
      · simp
    have hsem : sem (gateSem 2 ρ) ρ (pairTerm (.N false) 0 1) = dg (fun x => (1 + zq x 1) / 2 * ((1 + zq x 0) / 2)) := by
      rw [pairTerm, sem_kron]
      simp only [List.map_cons, List.map_nil, sem_leaf, gateSem_den, gateDen, opProd, one_mul]
      rw [hN 0 (by norm_num), hN 1 (by norm_num), dg_mul]
    rw [hs, sem_ham (.inr rfl) T, hsem, evolution_dg, evolution_dg]
    intro h
    let x : St 2 := fun _ => false
    have hx := congrFun (congrFun h x) x
    rw [ph, ph, diagonal_apply_eq, diagonal_apply_eq] at hx
    have z0 : zq x 0 = 1 := by decide +kernel
    have z1 : zq x 1 = 1 := by decide +kernel
    have h1 : ham 2 (.N true) (coupling [(0, 1, 1)]) x = 0 := by
      rw [ham, if_neg (by simp), nn, P_two, sum_singleton, z0]
      ring
    rw [h1, z0, z1] at hx
    norm_num at hx
    have him := congrArg Complex.im hx
    rw [Complex.exp_im] at him
    simp at him
    have hsin := Real.sin_gt_sub_cube (x := 1) (by norm_num)
    rw [him] at hsin
    norm_num at hsin

/-! ### Concrete cases of the hypotheses -/

/-- Three qubits, an NN build Hamiltonian with three couplings, the target `0.1 Z(1) Z(2)`. -/
example (value : Expr → ℚ) (hv : ∀ x : ℚ, value (.num x 0) = x) (ρ : Env) :
    TwoBody 3 .Z value ρ (.scale (pairTerm .Z 1 2) (.num (1 / 10) 0) none) [(1, 2, 1 / 10)] ∧
    TwoBody 3 (.N true) value ρ (addOf [.scale (pairTerm (.N true) 0 1) (.num (1 / 2) 0) none,
      .scale (pairTerm (.N true) 1 2) (.num (7 / 10) 0) none, .scale (pairTerm (.N true) 0 2) (.num (1 / 5) 0) none])
      [(0, 1, 1 / 2), (1, 2, 7 / 10), (0, 2, 1 / 5)] :=
  ⟨⟨by simp, .cons ⟨⟨none, none, none, rfl⟩, by simp, hv _, eval_num ρ _, by norm_num, by norm_num, by norm_num⟩ .nil⟩,
   ⟨by simp, .cons ⟨⟨none, none, none, rfl⟩, by simp, hv _, eval_num ρ _, by norm_num, by norm_num, by norm_num⟩
    (.cons ⟨⟨none, none, none, rfl⟩, by simp, hv _, eval_num ρ _, by norm_num, by norm_num, by norm_num⟩
    (.cons ⟨⟨none, none, none, rfl⟩, by simp, hv _, eval_num ρ _, by norm_num, by norm_num, by norm_num⟩ .nil))⟩⟩

/-- The exact theorem applies to the hypotheses of the two-qubit case, also without global phases. -/
example (value : Expr → ℚ) (hv : value (.num 1 0) = 1) (ρ : Env) :
    ∃ b, ∃ c : ℂ, transform ord8 value 2 (pairTerm .Z 0 1) 1 (some (pairTerm .Z 0 1)) (1 / 1000) true true = .ok b ∧ ‖c‖ = 1 ∧
      sem (primSem 2 ρ ord8 ord8_setOrder) ρ b =
        c • evolution ((1 : ℚ) : ℂ) (sem (gateSem 2 ρ) ρ (pairTerm .Z 0 1)) := by
  have T := twoBody_pairTerm (n := 2) .Z (a := 0) (b := 1) (by norm_num) (by norm_num) (by norm_num) hv ρ
  have aT := ord8_ascending (a := 0) (b := 1) 1 (by norm_num)
  exact C45_ignore_phases ord8_setOrder ρ (.inl rfl) (.inl rfl) T T aT aT (by norm_num) (by norm_num) (fun _ _ h => h)
    (fun _ _ h => h) 1 (sliceTimes_two _ 1) (fun _ _ => .inr (by norm_num))

/-- A target which is not covered: Z(0) Z(1) with the build Hamiltonian Z(1) Z(2). -/
example (value : Expr → ℚ) (hv : value (.num 1 0) = 1) (ρ : Env) :
    transform ord8 value 3 (pairTerm .Z 0 1) 1 (some (pairTerm .Z 1 2)) (1 / 1000) true false = .error .valueError := by
  have T := twoBody_pairTerm (n := 3) .Z (a := 0) (b := 1) (by norm_num) (by norm_num) (by norm_num) hv ρ
  have B := twoBody_pairTerm (n := 3) .Z (a := 1) (b := 2) (by norm_num) (by norm_num) (by norm_num) hv ρ
  refine C45_uncovered ord8_setOrder (.inl rfl) (.inl rfl) T B (ord8_ascending 1 (by norm_num)) (ord8_ascending 1 (by norm_num))
    (by norm_num) (by norm_num) (p := (0, 1)) (by decide) ?_ ?_ 1 false
  · rw [coupling_pairTerm (by norm_num), if_pos rfl]; norm_num
  · rw [coupling_pairTerm (by norm_num), if_neg (by simp)]; norm_num

end Qadence.DAQC
