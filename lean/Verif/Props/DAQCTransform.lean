import Mathlib.Tactic
import Verif.Props.DAQC

/-!
# C45: the slices of the transform and their operator
-/

namespace Qadence.DAQC

open Spec Block Finset Matrix

variable {n : ℕ}

/-! ### Flipping two qubits -/

/-- The basis state with the bit of a qubit flipped. -/
def flipN (q : ℕ) (x : St n) : St n := fun j => if (j : ℕ) = q then !(x j) else x j

/-- The basis state with two bits flipped. -/
def flip2 (p : ℕ × ℕ) (x : St n) : St n := flipN p.1 (flipN p.2 x)

theorem flipN_flipN (q : ℕ) (x : St n) : flipN q (flipN q x) = x := by
  funext j
  simp only [flipN]
  split <;> simp

theorem zq_flipN {a : ℕ} (x : St n) (q : ℕ) (hq : q < n) : zq (flipN a x) q = (-1) ^ kd q a * zq x q := by
  simp only [zq, bit_of_lt hq, flipN, kd]
  by_cases h : q = a
  · cases x ⟨q, hq⟩ <;> simp [h]
  · simp [h]

theorem embed1_X_apply (q : ℕ) (hq : q < n) (x y : St n) :
    (embed1 q (mat1 .X) : Oper n) x y = if y = flipN q x then 1 else 0 := by
  have key : y = flipN q x ↔ (∀ j : Fin n, q ≠ j → x j = y j) ∧ bit y q = !bit x q := by
    rw [bit_of_lt hq, bit_of_lt hq]
    constructor
    · rintro rfl
      refine ⟨fun j hj => ?_, by simp [flipN]⟩
      simp [flipN, Ne.symm hj]
    · rintro ⟨h1, h2⟩
      funext j
      by_cases hj : q = j
      · subst hj
        simp [flipN]; exact h2
      · simp [flipN, Ne.symm hj, h1 j hj]
  rw [embed1]
  by_cases h : ∀ j : Fin n, q ≠ j → x j = y j
  · rw [if_pos h]
    have : y = flipN q x ↔ bit y q = !bit x q := by rw [key]; exact and_iff_right h
    simp only [this]
    cases bit x q <;> cases bit y q <;> simp [mat1, ind]
  · rw [if_neg h, if_neg (by rw [key]; tauto)]

theorem X_diag (q : ℕ) (hq : q < n) (d : St n → ℂ) :
    (embed1 q (mat1 .X) : Oper n) * diagonal d * embed1 q (mat1 .X) = diagonal fun x => d (flipN q x) := by
  ext x y
  rw [Matrix.mul_apply, sum_eq_single (flipN q x)]
  · rw [mul_diagonal, embed1_X_apply q hq, embed1_X_apply q hq, flipN_flipN, if_pos rfl, diagonal_apply]
    by_cases h : x = y
    · subst h; simp
    · rw [if_neg (Ne.symm h), if_neg h, mul_zero]
  · intro z _ hz
    rw [mul_diagonal, embed1_X_apply q hq, if_neg hz, zero_mul, zero_mul]
  · simp

/-- The pair of X gates around a slice. -/
noncomputable def xx (p : ℕ × ℕ) : Oper n := embed1 p.2 (mat1 .X) * embed1 p.1 (mat1 .X)

theorem xx_ph {p : ℕ × ℕ} (hp : p ∈ P n) (d : St n → ℚ) : xx p * ph d * xx p = ph fun x => d (flip2 p x) := by
  have hp' := mem_P.1 hp
  have h1 : p.1 < n := by omega
  have hc : (embed1 p.2 (mat1 .X) : Oper n) * embed1 p.1 (mat1 .X) = embed1 p.1 (mat1 .X) * embed1 p.2 (mat1 .X) :=
    embed1_commute_of_ne (by omega) _ _
  have e : xx p * ph d * xx p = (embed1 p.2 (mat1 .X) : Oper n) *
      (embed1 p.1 (mat1 .X) * ph d * embed1 p.1 (mat1 .X)) * embed1 p.2 (mat1 .X) := by
    unfold xx
    conv_lhs => rw [hc]
    conv_lhs => rw [← hc]
    simp only [Matrix.mul_assoc]
    rw [hc]
  rw [e, ph, X_diag _ h1, X_diag _ hp'.2]
  rfl

/-! ### The Hamiltonians -/

/-- Energies of the ZZ interaction. -/
def zz (n : ℕ) (J : ℕ × ℕ → ℚ) (x : St n) : ℚ := ∑ p ∈ P n, J p * (zq x p.1 * zq x p.2)

/-- Energies of the NN interaction. -/
def nn (n : ℕ) (J : ℕ × ℕ → ℚ) (x : St n) : ℚ := ∑ p ∈ P n, J p * ((1 - zq x p.1) / 2 * ((1 - zq x p.2) / 2))

/-- Energies of the detunings. -/
def dq (n : ℕ) (J : ℕ × ℕ → ℚ) (x : St n) : ℚ := ∑ p ∈ P n, J p * (-(2 - zq x p.1 - zq x p.2) / 4)

/-- The global shift. -/
def shift (n : ℕ) (J : ℕ × ℕ → ℚ) : ℚ := ∑ p ∈ P n, J p / 4

theorem nn_add_dq (J : ℕ × ℕ → ℚ) (x : St n) : nn n J x + dq n J x + shift n J = zz n J x / 4 := by
  rw [nn, dq, shift, zz, ← sum_add_distrib, ← sum_add_distrib, sum_div]
  apply sum_congr rfl
  intro p _
  ring

theorem zz_flip2 (J : ℕ × ℕ → ℚ) {p : ℕ × ℕ} (x : St n) :
    zz n J (flip2 p x) = ∑ q ∈ P n, J q * (sign p.1 p.2 q.1 q.2 * (zq x q.1 * zq x q.2)) := by
  apply sum_congr rfl
  intro q hq
  have h := mem_P.1 hq
  rw [flip2, zq_flipN _ _ (by omega), zq_flipN _ _ (by omega), zq_flipN _ _ (by omega), zq_flipN _ _ (by omega), sign]
  rw [pow_add, pow_add, pow_add]
  ring

/-- Energies of a two-body Hamiltonian. -/
def ham (n : ℕ) (g : FixedGate) (J : ℕ × ℕ → ℚ) (x : St n) : ℚ := if g = .Z then zz n J x else nn n J x

theorem sem_ham {g : FixedGate} (hg : g = .Z ∨ g = .N true) {value : Expr → ℚ} {ρ : Env} {gen : Block Gate}
    {cs : List (ℕ × ℕ × ℚ)} (h : TwoBody n g value ρ gen cs) :
    sem (gateSem n ρ) ρ gen = dg (ham n g (coupling cs)) := by
  have hcs : ∀ e ∈ cs, e.1 ≠ e.2.1 ∧ e.1 < n ∧ e.2.1 < n := by
    have := h.terms
    clear h
    generalize unroll gen = l at this
    induction this with
    | nil => simp
    | cons h _ ih =>
      intro e he
      rcases List.mem_cons.1 he with rfl | he
      · exact h.2.2.2.2
      · exact ih e he
  rw [sem_twoBody hg h]
  congr 1
  funext x
  rw [sum_coupling (n := n) hcs (fun a b => lv g x a * lv g x b) (fun a b => mul_comm _ _)]
  rcases hg with rfl | rfl
  · simp [ham, zz, lv]
  · simp [ham, nn, lv]

theorem eval_num (ρ : Env) (x : ℚ) : eval ρ (num x) = (x : ℂ) := by
  rw [num, eval]
  apply Complex.ext <;> simp

/-- Phases and detunings. -/
theorem phase_detuning {ord : List ℕ → List ℕ} (ho : SetOrder ord) (hn : 0 < n) (ρ : Env) {mat : ℕ → ℕ → ℚ}
    {J : ℕ × ℕ → ℚ} (h1 : ∀ p ∈ P n, mat p.1 p.2 = J p ∧ mat p.2 p.1 = J p) (h2 : ∀ a, mat a a = 0) :
    ∃ a b, phaseAndDetunings ord n mat = .ok (a, b) ∧
      sem (gateSem n ρ) ρ a = dg (fun _ => shift n J) ∧ sem (gateSem n ρ) ρ b = dg (dq n J) := by
  have hk : kronOf Gate.supp ord ((List.range n).map fun i => .leaf (.fixed .I i) none) =
      .ok (.comp .kron ((List.range n).map fun i => .leaf (.fixed .I i) none) none) := by
    rw [kronOf_ok_iff _ _ ho]
    refine ⟨rfl, by simpa using hn.ne', ?_⟩
    rw [List.pairwise_map]
    refine List.nodup_range.imp ?_
    intro a b hab
    rw [qubits_leaf, qubits_leaf]
    simpa [Gate.supp] using hab
  refine ⟨_, _, by rw [phaseAndDetunings, hk, ok_bind]; rfl, ?_, ?_⟩
  · rw [scaleOf, sem_scale, sem_kron, eval_num]
    have e1 : opProd ((((List.range n).map fun i => (.leaf (.fixed .I i) none : Block Gate))).map (sem (gateSem n ρ) ρ)) =
        (1 : Oper n) := by
      rw [List.map_map]
      generalize List.range n = l
      induction l with
      | nil => rfl
      | cons i l ih =>
        rw [List.map_cons, opProd, ih, one_mul]
        simp only [Function.comp_apply, sem_leaf, gateSem_den, gateDen]
        exact mat1_I
    rw [e1]
    have e2 : (1 : Oper n) = dg (fun _ => 1) := by simp [dg]
    rw [e2, smul_dg]
    congr 1
    funext x
    have := sum_double n mat
    simp only [h2, sum_const_zero, add_zero] at this
    have e3 : (((List.range n).map fun j => ((List.range n).map (mat j)).sum).sum) =
        ∑ j ∈ range n, ∑ k ∈ range n, mat j k := by
      rw [← List.sum_toFinset _ List.nodup_range]
      simp only [List.toFinset_range]
      apply sum_congr rfl
      intro j _
      rw [← List.sum_toFinset _ List.nodup_range, List.toFinset_range]
    rw [e3, this, mul_one, shift, sum_div]
    apply sum_congr rfl
    intro p hp
    rw [(h1 p hp).1, (h1 p hp).2]
    ring
  · rw [addOf, sem_add, List.map_map]
    have e : ∀ l : List ℕ, (∀ i ∈ l, i < n) → (l.map (sem (gateSem n ρ) ρ ∘ fun i =>
        scaleOf (.leaf (.fixed (.N true) i) none) (num (-(((List.range n).map fun j => mat j i).sum / 2))))) =
        (l.map fun i => fun x : St n => -(((List.range n).map fun j => mat j i).sum / 2) * ((1 - zq x i) / 2)).map dg := by
      intro l hl
      induction l with
      | nil => rfl
      | cons i l ih =>
        rw [List.map_cons, List.map_cons, List.map_cons, ih fun j hj => hl j (by simp [hj])]
        congr 1
        simp only [Function.comp_apply, scaleOf, sem_scale, sem_leaf, gateSem_den, gateDen, eval_num]
        rw [embed1_dg (hl i (by simp)) (Or.inr rfl), smul_dg]
        simp [lv]
    rw [e _ (by simp), dg_sum]
    congr 1
    funext x
    rw [List.map_map]
    have e3 : ((List.range n).map ((fun d : St n → ℚ => d x) ∘ fun i => fun x : St n =>
        -(((List.range n).map fun j => mat j i).sum / 2) * ((1 - zq x i) / 2))).sum =
        ∑ i ∈ range n, ∑ j ∈ range n, -(mat j i / 2) * ((1 - zq x i) / 2) := by
      rw [← List.sum_toFinset _ List.nodup_range, List.toFinset_range]
      apply sum_congr rfl
      intro i _
      simp only [Function.comp_apply]
      rw [← List.sum_toFinset _ List.nodup_range, List.toFinset_range, sum_div, ← sum_neg_distrib, sum_mul]
    rw [e3, sum_double]
    simp only [h2, zero_div, neg_zero, zero_mul, sum_const_zero, add_zero]
    apply sum_congr rfl
    intro p hp
    rw [(h1 p hp).1, (h1 p hp).2]
    ring

/-! ### The slices -/

theorem sem_x {ord : List ℕ → List ℕ} (ho : SetOrder ord) (ρ : Env) {p : ℕ × ℕ} (hp : p ∈ P n) : ∃ x,
    kronOf (Prim.supp ord) ord [xGate p.1, xGate p.2] = .ok x ∧ sem (primSem n ρ ord ho) ρ x = xx p := by
  have hp' := mem_P.1 hp
  refine ⟨.comp .kron [xGate p.1, xGate p.2] none, ?_, ?_⟩
  · rw [kronOf_ok_iff _ _ ho]
    refine ⟨rfl, by simp, ?_⟩
    rw [List.pairwise_pair, xGate, xGate, qubits_leaf, qubits_leaf]
    simp [Prim.supp, Gate.supp]
    omega
  · rw [sem_kron]
    simp only [List.map_cons, List.map_nil, xGate, sem_leaf, opProd, one_mul]
    rfl

theorem sem_evo {ord : List ℕ → List ℕ} (ho : SetOrder ord) (ρ : Env) {gen : Block Gate} {d : St n → ℚ}
    (h : sem (gateSem n ρ) ρ gen = dg d) (t : ℚ) : sem (primSem n ρ ord ho) ρ (evo gen t) = ph (fun x => t * d x) := by
  rw [evo, sem_leaf]
  change evolution (eval ρ (num t)) (sem (gateSem n ρ) ρ gen) = _
  rw [h, eval_num, evolution_dg]

theorem sem_evoDagger {ord : List ℕ → List ℕ} (ho : SetOrder ord) (ρ : Env) {gen : Block Gate} {d : St n → ℚ}
    (h : sem (gateSem n ρ) ρ gen = dg d) (t : ℚ) :
    sem (primSem n ρ ord ho) ρ (evoDagger gen t) = ph (fun x => -t * d x) := by
  rw [evoDagger, sem_leaf]
  change evolution (eval ρ (.neg (num t))) (sem (gateSem n ρ) ρ gen) = _
  have : (eval ρ (.neg (num t)) : ℂ) = ((-t : ℚ) : ℂ) := by rw [eval_neg, eval_num]; push_cast; ring
  rw [h, this, evolution_dg]

theorem slices_ok {ord : List ℕ → List ℕ} (ho : SetOrder ord) (ρ : Env) (t : ℕ → ℚ) (tol : ℚ) {build : Block Gate}
    {d : St n → ℚ} (hb : sem (gateSem n ρ) ρ build = dg d) {det : Option (Block Gate)} {e : St n → ℚ}
    (hd : match det with
      | some b => sem (gateSem n ρ) ρ b = dg e
      | none => e = fun _ => 0) :
    ∃ l, slices ord n t tol build det = .ok l ∧ sem (primSem n ρ ord ho) ρ (chainOf l) =
      ph fun x => ∑ p ∈ P n, (if |t (pos n (up p))| > tol then t (pos n (up p)) else 0) * (d (flip2 p x) + e (flip2 p x)) := by
  let dn : ℕ × ℕ → ℕ × ℕ := fun p => (p.1 - 1, p.2 - 1)
  have key : ∀ L : List (ℕ × ℕ), (∀ p ∈ L, p ∈ pairs n) → ∃ l,
      (L.mapM fun p => do
        let x ← kronOf (Prim.supp ord) ord [xGate (p.1 - 1), xGate (p.2 - 1)]
        let time := t (pos n p)
        match det with
        | some h => return chainOf [x, evo h time, evo build time, x]
        | none => return chainOf [x, evo build time, x] : Except PyErr (List (Block Prim))) = .ok l ∧
      l.map (sem (primSem n ρ ord ho) ρ) =
        (L.map fun p => fun x : St n => t (pos n p) * (d (flip2 (dn p) x) + e (flip2 (dn p) x))).map ph := by
    intro L hL
    induction L with
    | nil => exact ⟨[], rfl, rfl⟩
    | cons p L ih =>
      obtain ⟨l, h1, h2⟩ := ih fun p hp => hL p (by simp [hp])
      obtain ⟨q, hq, rfl⟩ := exists_up (hL p (by simp))
      obtain ⟨x, hx, hs⟩ := sem_x ho ρ hq
      have hx' : kronOf (Prim.supp ord) ord [xGate ((up q).1 - 1), xGate ((up q).2 - 1)] = .ok x := hx
      have hdn : dn (up q) = q := rfl
      cases det with
      | none =>
        refine ⟨chainOf [x, evo build (t (pos n (up q))), x] :: l, ?_, ?_⟩
        · rw [List.mapM_cons, hx', h1]; rfl
        · rw [List.map_cons, h2, List.map_cons, List.map_cons, chainOf, sem_chain]
          simp only [List.map_cons, List.map_nil, opProd, one_mul, hs, sem_evo ho ρ hb]
          congr 1
          rw [xx_ph hq, hdn]
          simp only at hd
          simp [hd]
      | some b =>
        refine ⟨chainOf [x, evo b (t (pos n (up q))), evo build (t (pos n (up q))), x] :: l, ?_, ?_⟩
        · rw [List.mapM_cons, hx', h1]; rfl
        · rw [List.map_cons, h2, List.map_cons, List.map_cons, chainOf, sem_chain]
          simp only at hd
          simp only [List.map_cons, List.map_nil, opProd, one_mul, hs, sem_evo ho ρ hb, sem_evo ho ρ hd]
          congr 1
          rw [Matrix.mul_assoc (xx q), ph_mul, xx_ph hq, hdn]
          congr 1
          funext x
          ring
  obtain ⟨l, h1, h2⟩ := key ((pairs n).filter fun p => decide (|t (pos n p)| > tol)) (fun p hp => (List.mem_filter.1 hp).1)
  refine ⟨l, h1, ?_⟩
  rw [chainOf, sem_chain, h2, opProd_ph]
  congr 1
  funext x
  have e1 := sum_pairs n (fun p => (if |t (pos n p)| > tol then t (pos n p) else 0) *
    (d (flip2 (dn p) x) + e (flip2 (dn p) x)))
  have hdn : ∀ q, dn (up q) = q := fun _ => rfl
  simp only [hdn] at e1
  rw [← e1, List.map_map]
  generalize pairs n = L
  induction L with
  | nil => rfl
  | cons p L ih =>
    rw [List.map_cons, List.sum_cons, ← ih]
    by_cases hp : |t (pos n p)| > tol
    · rw [List.filter_cons_of_pos (by simpa using hp), List.map_cons, List.sum_cons, if_pos hp]
      rfl
    · rw [List.filter_cons_of_neg (by simpa using hp), if_neg hp, zero_mul, zero_add]

end Qadence.DAQC
