import Verif.Model.Overlap
import Verif.Proofs.Place
import Verif.Proofs.States
import Verif.Proofs.TensorSem
import Verif.Props.Unitary
import Verif.Props.StatesNorm
import Verif.Props.Support

/-!
# Circuits with an ancilla: swap test and Hadamard test
-/

namespace Qadence.Overlap

open Spec Matrix Block

variable {n N : ℕ}

/-! ## The blocks -/

theorem gateDen_p0 (ρ : Env) (c : ℕ) : (gateDen ρ (.proj [false] [false] [c]) : Oper n) = 1 + (-1 : ℂ) • onesProj [c] := by
  funext x y
  simp only [gateDen, embed, onesProj, Matrix.diagonal_apply, Matrix.of_apply, ind, List.mem_singleton, forall_eq,
    Matrix.add_apply, Matrix.smul_apply, Matrix.one_apply]
  by_cases h : x = y
  · subst h
    cases hb : bit x c <;> simp [hb]
  · by_cases h0 : ∀ j : Fin n, (∀ i : Fin [c].length, [c][i] ≠ (j : ℕ)) → x j = y j
    · by_cases hc : bit x c = false ∧ bit y c = false
      · exfalso
        apply h
        apply st_ext
        intro q hq
        by_cases hqc : q = c
        · subst hqc; rw [hc.1, hc.2]
        · have := h0 ⟨q, hq⟩ (by simpa using fun e => hqc e.symm)
          rw [bit, bit, dif_pos hq, dif_pos hq, this]
      · have : ¬ ((∀ i : Fin [c].length, bit x [c][i] = [false].getD i false) ∧
            ∀ i : Fin [c].length, bit y [c][i] = [false].getD i false) := by
          intro hh
          exact hc ⟨by simpa using hh.1 0, by simpa using hh.2 0⟩
        rw [if_neg this]
        simp [h]
    · rw [if_neg h0]
      simp [h]

theorem sem_p0 (ρ : Env) (c : ℕ) : sem (gateSem n ρ) ρ (p0 c) = 1 + (-1 : ℂ) • onesProj [c] := by
  rw [p0, sem_leaf, gateSem_den, gateDen_p0]

theorem sem_p1 (ρ : Env) (c : ℕ) : sem (gateSem n ρ) ρ (p1 c) = onesProj [c] := by
  rw [p1, sem_leaf, gateSem_den, gateDen_p1]

theorem sem_ident (ρ : Env) (q : ℕ) : sem (gateSem n ρ) ρ (ident q) = 1 := by
  rw [ident, sem_leaf, gateSem_den, gateDen, mat1_I]

theorem qubits_p0 (c : ℕ) : qubits Gate.supp (p0 c) = {c} := by ext q; simp [p0, qubits_leaf, Gate.supp]
theorem qubits_p1 (c : ℕ) : qubits Gate.supp (p1 c) = {c} := by ext q; simp [p1, qubits_leaf, Gate.supp]
theorem qubits_ident (c : ℕ) : qubits Gate.supp (ident c) = {c} := by ext q; simp [ident, qubits_leaf, Gate.supp]

/-- Either nothing or `M` happens, depending on qubit `c`. -/
noncomputable def ctrl (c : ℕ) (M : Oper n) : Oper n := (1 + (-1 : ℂ) • onesProj [c]) + M * onesProj [c]

theorem onesProj_mulVec (c : ℕ) (φ : St n → ℂ) (x : St n) :
    (onesProj [c] *ᵥ φ) x = if bit x c = true then φ x else 0 := by
  rw [onesProj, mulVec_diagonal]
  simp

theorem ctrl_mulVec_off {c : ℕ} {M : Oper n} {φ : St n → ℂ} {x : St n} (h : bit x c = false)
    (hM : ∀ ψ : St n → ℂ, (∀ y, bit y c = false → ψ y = 0) → (M *ᵥ ψ) x = 0) : (ctrl c M *ᵥ φ) x = φ x := by
  rw [ctrl, add_mulVec, add_mulVec, one_mulVec, smul_mulVec, ← mulVec_mulVec, Pi.add_apply, Pi.add_apply, Pi.smul_apply,
    onesProj_mulVec, hM]
  · simp [h]
  · intro y hy
    rw [onesProj_mulVec, hy]
    simp

theorem ctrl_mulVec_on {c : ℕ} {M : Oper n} {φ : St n → ℂ} {x : St n} (h : bit x c = true)
    (hM : ∀ ψ χ : St n → ℂ, (∀ y, bit y c = true → ψ y = χ y) → (M *ᵥ ψ) x = (M *ᵥ χ) x) :
    (ctrl c M *ᵥ φ) x = (M *ᵥ φ) x := by
  rw [ctrl, add_mulVec, add_mulVec, one_mulVec, smul_mulVec, ← mulVec_mulVec, Pi.add_apply, Pi.add_apply, Pi.smul_apply,
    onesProj_mulVec, hM _ φ]
  · simp [h]
  · intro y hy
    rw [onesProj_mulVec, hy]
    simp

theorem lookup_map (g : ℕ → ℕ) {l : List ℕ} {q : ℕ} (h : q ∈ l) : QMap.get (l.map fun i => (i, g i)) q = .ok (g q) := by
  have : (l.map fun i => (i, g i)).lookup q = some (g q) := by
    induction l with
    | nil => simp at h
    | cons a l ih =>
      rw [List.map_cons, List.lookup_cons]
      by_cases hqa : q = a
      · subst hqa; simp
      · have : (q == a) = false := by simpa using hqa
        rw [this]
        exact ih ((List.mem_cons.1 h).resolve_left hqa)
  rw [QMap.get, this]

theorem wellFormed_leaf (g : Gate) (t : Option String) : WellFormed Gate.supp (.leaf g t) := trivial

/-- `_controlled_unitary(0, block)` succeeds for blocks with the right number of qubits. -/
theorem controlledUnitary_ok (ρ : Env) {ord : List ℕ → List ℕ} (ho : SetOrder ord) {b : Block Gate} {k : ℕ}
    (hk : b.nQubits Gate.supp Gate.nQubits ord = .ok k) (hkN : k ≤ N) (hw : WellFormed Gate.supp b)
    (hq : ∀ q ∈ qubits Gate.supp b, q < k) :
    ∃ c, controlledUnitary ord 0 b = .ok c ∧ WellFormed Gate.supp c ∧ (∀ q ∈ qubits Gate.supp c, q < N + 1) ∧
      sem (gateSem (N + 1) ρ) ρ c = ctrl 0 (place (Fin.succEmb N) (sem (gateSem N ρ) ρ b)) := by
  obtain ⟨s, h1, h2, h3, h4⟩ := reassign_place ρ ho ((List.range k).map fun i => (i, 0 + i + 1)) (Fin.succEmb N) b hw
    (fun q hq' => lt_of_lt_of_le (hq q hq') hkN) (fun i hi => by
      rw [lookup_map (fun i => 0 + i + 1) (List.mem_range.2 (hq i hi))]
      simp)
  have hs : ∀ q ∈ qubits Gate.supp s, 0 < q ∧ q < N + 1 := by
    intro q hq'
    obtain ⟨i, -, rfl⟩ := (h3 q).1 hq'
    simp
  have hon : kronOf Gate.supp ord [p1 0, s] = .ok (.comp .kron [p1 0, s] none) :=
    (kronOf_ok_iff Gate.supp ord ho _ _).2 ⟨rfl, by simp, by
      simp only [List.pairwise_cons, List.mem_singleton, forall_eq, List.not_mem_nil, false_implies, implies_true,
        List.Pairwise.nil, and_true]
      rw [qubits_p1, Set.disjoint_singleton_left]
      exact fun h => absurd (hs 0 h).1 (lt_irrefl _)⟩
  have hpw : (p0 0 :: (List.range k).map fun i => ident (0 + i + 1)).Pairwise
      fun a b => Disjoint (qubits Gate.supp a) (qubits Gate.supp b) := by
    rw [List.pairwise_cons]
    refine ⟨fun b hb => ?_, ?_⟩
    · obtain ⟨i, -, rfl⟩ := List.mem_map.1 hb
      rw [qubits_p0, qubits_ident]
      simp
    · rw [List.pairwise_map]
      refine List.pairwise_lt_range.imp fun {i j} hij => ?_
      rw [qubits_ident, qubits_ident, Set.disjoint_singleton]
      omega
  have hoff : kronOf Gate.supp ord (p0 0 :: (List.range k).map fun i => ident (0 + i + 1)) =
      .ok (.comp .kron (p0 0 :: (List.range k).map fun i => ident (0 + i + 1)) none) :=
    (kronOf_ok_iff Gate.supp ord ho _ _).2 ⟨rfl, by simp, hpw⟩
  refine ⟨.comp .add [.comp .kron (p0 0 :: (List.range k).map fun i => ident (0 + i + 1)) none, .comp .kron [p1 0, s] none]
    (some s!"c-U({0}, {s.support Gate.supp ord})"), ?_, ?_, ?_, ?_⟩
  · unfold controlledUnitary
    rw [hk, ok_bind, h1, ok_bind, hoff, ok_bind, hon, ok_bind]
    rfl
  · rw [wellFormed_add]
    intro c hc
    simp only [List.mem_cons, List.not_mem_nil, or_false] at hc
    rcases hc with rfl | rfl
    · rw [wellFormed_kron]
      refine ⟨by simp, hpw, fun c hc => ?_⟩
      rcases List.mem_cons.1 hc with rfl | hc
      · exact wellFormed_leaf _ _
      · obtain ⟨i, -, rfl⟩ := List.mem_map.1 hc
        exact wellFormed_leaf _ _
    · rw [wellFormed_kron]
      refine ⟨by simp, ((kronOf_ok_iff Gate.supp ord ho _ _).1 hon).2.2, fun c hc => ?_⟩
      simp only [List.mem_cons, List.not_mem_nil, or_false] at hc
      rcases hc with rfl | rfl
      · exact wellFormed_leaf _ _
      · exact h2
  · intro q hq'
    simp only [mem_qubits_comp, List.mem_cons, List.not_mem_nil, or_false, exists_eq_or_imp, exists_eq_left,
      List.mem_map, List.mem_range, qubits_p0, qubits_p1, Set.mem_singleton_iff] at hq'
    rcases hq' with (rfl | ⟨c, ⟨i, hi, rfl⟩, hq'⟩) | rfl | hq'
    · omega
    · rw [qubits_ident, Set.mem_singleton_iff] at hq'
      omega
    · omega
    · exact (hs q hq').2
  · rw [sem_add]
    simp only [List.map_cons, List.map_nil, List.sum_cons, List.sum_nil, add_zero, sem_kron, sem_p0, sem_p1, opProd, one_mul, h4]
    have : opProd (((List.range k).map fun i => ident (0 + i + 1)).map (sem (gateSem (N + 1) ρ) ρ)) = 1 := by
      generalize List.range k = l
      induction l with
      | nil => rfl
      | cons a l ih => rw [List.map_cons, List.map_cons, opProd, sem_ident, ih, one_mul]
    rw [this, one_mul]
    rfl

/-- `_cswap` is the controlled swap. -/
theorem cswap_ok (ρ : Env) {ord : List ℕ → List ℕ} (ho : SetOrder ord) {c a b : ℕ} (hc : c < n) (ha : a < n) (hb : b < n)
    (hca : c ≠ a) (hcb : c ≠ b) (hab : a ≠ b) :
    ∃ w, cswap ord c a b = .ok w ∧ WellFormed Gate.supp w ∧ (∀ q ∈ qubits Gate.supp w, q < n) ∧
      sem (gateSem n ρ) ρ w = mapOp fun y => if bit y c = true then swapSt a b y else y := by
  have hsw : qubits Gate.supp (.leaf (.swap a b) none) = {a, b} := by ext q; simp [qubits_leaf, Gate.supp]
  have hoff : kronOf Gate.supp ord [p0 c, ident a, ident b] = .ok (.comp .kron [p0 c, ident a, ident b] none) :=
    (kronOf_ok_iff Gate.supp ord ho _ _).2 ⟨rfl, by simp, by simp [qubits_p0, qubits_ident, hca, hcb, hab]⟩
  have hon : kronOf Gate.supp ord [p1 c, .leaf (.swap a b) none] = .ok (.comp .kron [p1 c, .leaf (.swap a b) none] none) :=
    (kronOf_ok_iff Gate.supp ord ho _ _).2 ⟨rfl, by simp, by simp [qubits_p1, hsw, hca, hcb]⟩
  refine ⟨.comp .add [.comp .kron [p0 c, ident a, ident b] none, .comp .kron [p1 c, .leaf (.swap a b) none] none]
    (some s!"CSWAP({c}, {a}, {b})"), ?_, ?_, ?_, ?_⟩
  · unfold cswap
    rw [hoff, ok_bind, hon, ok_bind]
    rfl
  · rw [wellFormed_add]
    intro w hw
    simp only [List.mem_cons, List.not_mem_nil, or_false] at hw
    rcases hw with rfl | rfl
    · rw [wellFormed_kron]
      refine ⟨by simp, ((kronOf_ok_iff Gate.supp ord ho _ _).1 hoff).2.2, fun w hw => ?_⟩
      simp only [List.mem_cons, List.not_mem_nil, or_false] at hw
      rcases hw with rfl | rfl | rfl <;> exact wellFormed_leaf _ _
    · rw [wellFormed_kron]
      refine ⟨by simp, ((kronOf_ok_iff Gate.supp ord ho _ _).1 hon).2.2, fun w hw => ?_⟩
      simp only [List.mem_cons, List.not_mem_nil, or_false] at hw
      rcases hw with rfl | rfl <;> exact wellFormed_leaf _ _
  · intro q hq
    simp only [mem_qubits_comp, List.mem_cons, List.not_mem_nil, or_false, exists_eq_or_imp, exists_eq_left,
      qubits_p0, qubits_p1, qubits_ident, hsw, Set.mem_singleton_iff, Set.mem_insert_iff] at hq
    rcases hq with (rfl | rfl | rfl) | rfl | rfl | rfl <;> assumption
  · rw [sem_add]
    simp only [List.map_cons, List.map_nil, List.sum_cons, List.sum_nil, add_zero, sem_kron, sem_p0, sem_p1, sem_ident, opProd,
      one_mul, sem_leaf, gateSem_den, gateDen]
    rw [← controlled_swap c a b ha hb hca hcb,
      controlled_eq [c] (swapOp a b) {q | q ∈ [a, b]} (gateDen_actsOn ρ (.swap a b)) (by simp [hca, hcb])]

/-! ## States with an ancilla -/

/-- The state with the ancilla in state zero together with `w₀`, in state one together with `w₁`. -/
def join (w₀ w₁ : St N → ℂ) : St (N + 1) → ℂ := fun x => if x 0 = true then w₁ (x ∘ Fin.succ) else w₀ (x ∘ Fin.succ)

theorem bit_zero (x : St (N + 1)) : bit x 0 = x 0 := by
  unfold bit
  simp

theorem ket0_join : (ket0 : St (N + 1) → ℂ) = join ket0 0 := by
  funext x
  rw [join]
  unfold ket0 ket
  by_cases h : x 0 = true
  · rw [if_pos h, if_neg]
    · rfl
    · intro e
      rw [e] at h
      simp at h
  · rw [if_neg h]
    congr 1
    apply propext
    constructor
    · rintro rfl
      rfl
    · intro e
      funext j
      refine Fin.cases ?_ (fun i => ?_) j
      · simpa using h
      · exact congrFun e i

theorem update_zero_succ (x : St (N + 1)) (c : Bool) : Function.update x ⟨0, Nat.succ_pos N⟩ c ∘ Fin.succ = x ∘ Fin.succ := by
  funext i
  simp only [Function.comp_apply]
  rw [Function.update_of_ne]
  intro h
  have := congrArg Fin.val h
  simp at this

theorem embed1_join (U : Matrix Bool Bool ℂ) (w₀ w₁ : St N → ℂ) :
    embed1 0 U *ᵥ join w₀ w₁ = join (U false false • w₀ + U false true • w₁) (U true false • w₀ + U true true • w₁) := by
  funext x
  rw [embed1_mulVec (Nat.succ_pos N), Fintype.sum_bool, bit_zero]
  have h1 : ∀ c, join w₀ w₁ (Function.update x ⟨0, Nat.succ_pos N⟩ c) = if c = true then w₁ (x ∘ Fin.succ) else w₀ (x ∘ Fin.succ) := by
    intro c
    rw [join, update_zero_succ]
    have : Function.update x ⟨0, Nat.succ_pos N⟩ c 0 = c := Function.update_self _ _ _
    rw [this]
  rw [h1, h1, join]
  cases x 0 <;> simp <;> ring

theorem place_join (M : Oper N) (w₀ w₁ : St N → ℂ) : place (Fin.succEmb N) M *ᵥ join w₀ w₁ = join (M *ᵥ w₀) (M *ᵥ w₁) := by
  funext x
  rw [place_mulVec]
  have h0 : ∀ y, «over» (Fin.succEmb N) x y 0 = x 0 := fun y => over_of_ne _ _ _ (by simp [Fin.succ_ne_zero])
  have h1 : ∀ y, «over» (Fin.succEmb N) x y ∘ Fin.succ = y := fun y => over_comp (Fin.succEmb N) x y
  simp only [join, h0, h1, mulVec, dotProduct]
  split <;> rfl

theorem ctrl_join (M : Oper N) (w₀ w₁ : St N → ℂ) : ctrl 0 (place (Fin.succEmb N) M) *ᵥ join w₀ w₁ = join w₀ (M *ᵥ w₁) := by
  have h : onesProj [0] *ᵥ join w₀ w₁ = join 0 w₁ := by
    funext x
    rw [onesProj_mulVec, bit_zero]
    by_cases h : x 0 = true <;> simp [join, h]
  rw [ctrl, add_mulVec, add_mulVec, one_mulVec, smul_mulVec, ← mulVec_mulVec, h, place_join]
  funext x
  simp only [Pi.add_apply, Pi.smul_apply, join, mulVec_zero, Pi.zero_apply]
  split <;> simp

end Qadence.Overlap
