import Verif.Props.Digitalize

/-!
# Examples and counterexamples for C34, C35 and C66
-/

namespace Qadence.Decompose

open Spec Block Matrix Measure Ansatz QFT

variable {n : ℕ}

/-- π / 2. -/
def halfPi : Expr := .mul (.num (1 / 2) 0) .pi

theorem eval_halfPi (ρ : Env) : eval ρ halfPi = Real.pi / 2 := by
  rw [halfPi, eval, eval_rat, eval]
  push_cast
  ring

theorem eval_mul' (ρ : Env) (a b : Expr) : eval ρ (.mul a b) = eval ρ a * eval ρ b := by rw [eval]

theorem evolution_half {P : Oper n} (hP : P * P = 1) : evolution (Real.pi / 2) P = (-Complex.I) • P := by
  rw [evolution, exp_invol_I P hP, show (Real.pi / 2 : ℂ) = ((Real.pi / 2 : ℝ) : ℂ) by push_cast; rfl, ← Complex.ofReal_cos,
    ← Complex.ofReal_sin, Real.cos_pi_div_two, Real.sin_pi_div_two]
  simp

theorem locals_sq {l : List (ℕ × Matrix Bool Bool ℂ)} (hnd : (l.map Prod.fst).Nodup) (hn : ∀ p ∈ l, p.1 < n)
    (h : ∀ p ∈ l, p.2 * p.2 = 1) : (locals l : Oper n) * locals l = 1 := by
  induction l with
  | nil => simp [locals, opProd]
  | cons p l ih =>
    rw [List.map_cons, List.nodup_cons] at hnd
    rw [locals_cons, mul_assoc, ← mul_assoc (embed1 p.1 p.2), ← locals_commute (fun r hr => ?_), mul_assoc,
      embed1_mul (hn p (by simp)), h p (by simp), embed1_one, mul_one,
      ih hnd.2 (fun r hr => hn r (by simp [hr])) (fun r hr => h r (by simp [hr]))]
    rintro he
    exact hnd.1 (List.mem_map.2 ⟨r, hr, he⟩)

theorem Y_sq : mat1 .Y * mat1 .Y = 1 := by
  ext a b
  rw [mul_apply]
  cases a <;> cases b <;> simp [mat1]

theorem neg_I_cancel {P Q : Oper n} (h : (-Complex.I) • P = (-Complex.I) • Q) : P = Q :=
  smul_right_injective _ (neg_ne_zero.2 Complex.I_ne_zero) h

/-! ### C34 -/

/-- Concrete case: X on qubit 2, Y on qubit 1 and Z on qubit 3. -/
def plainDemo : Block Gate := .comp .kron [.leaf (.fixed .X 2) none, .leaf (.fixed .Y 1) none, .leaf (.fixed .Z 3) none] none

theorem plainDemo_plain : Plain 4 plainDemo [(.X, 2), (.Y, 1), (.Z, 3)] := by
  refine ⟨⟨.inr ⟨.kron, _, none, rfl, by simp, rfl⟩, by simp, by simp, by simp⟩, by simp, ⟨1, 2, fun q => ?_⟩, ?_⟩
  · simp
    omega
  · simp [plainDemo]

/-- The hypotheses of `C34_pauli_exp_partial` are met and the gates are as expected. -/
example : (∀ x ∈ [(plainDemo, Expr.num 3 0)], ∃ ps, Plain 4 x.1 ps) ∧
    pauliExp demoOrd halfPi [(plainDemo, .num 3 0)] = .ok [gateBlock (.fixed .H 2),
      gateBlock (.rot .RX 1 (.mul (.num (1 / 2) 0) .pi)), gateBlock (.cnot 1 2), gateBlock (.cnot 2 3),
      gateBlock (.rot .RZ 3 (.mul (.mul (.num 2 0) halfPi) (.num 3 0))), gateBlock (.cnot 2 3), gateBlock (.cnot 1 2),
      gateBlock (.rot .RX 1 (.mul (.num (-1 / 2) 0) .pi)), gateBlock (.fixed .H 2)] := by
  refine ⟨fun x hx => ?_, ?_⟩
  · rw [List.mem_singleton] at hx
    subst hx
    exact ⟨_, plainDemo_plain⟩
  · have := expTerm_letters demoOrd halfPi (.num 3 0) (Plain.letters plainDemo_plain) (a := 1) (b := 3) rfl rfl
    rw [pauliExp, List.mapM_cons, this]
    rfl

/-- X on the qubits 0 and 2. -/
def gapTerm : Block Gate := .comp .kron [.leaf (.fixed .X 0) none, .leaf (.fixed .X 2) none] none

theorem gapTerm_letters : Letters 3 gapTerm [(.X, 0), (.X, 2)] :=
  ⟨.inr ⟨.kron, _, none, rfl, by simp, by simp, .cons ⟨none, rfl⟩ (.cons ⟨none, rfl⟩ .nil)⟩, by simp, by simp, by simp⟩

/-- C34 is false for a support with a gap: the qubit in between gets a Z. -/
theorem C34_counterexample_gap {ord : List ℕ → List ℕ} (ho : SetOrder ord) (ρ : Env) :
    ∃ bs, pauliExp ord halfPi [(gapTerm, .num 1 0)] = .ok bs ∧
      sem (primSem 3 ρ ord ho) ρ (chainOf bs) ≠ evolution (eval ρ halfPi * eval ρ (.num 1 0)) (sem (gateSem 3 ρ) ρ gapTerm) := by
  obtain ⟨a, k, bs, h1, h2, h3, h4, h5⟩ := C34_filled ho ρ halfPi (.num 1 0) gapTerm_letters
  refine ⟨bs, h4, ?_⟩
  have hk : a = 0 ∧ k = 2 := by
    simp at h1 h2 h3
    omega
  obtain ⟨rfl, rfl⟩ := hk
  have e1 : (filled [(.X, 0), (.X, 2)] 0 2 : Oper 3) = locals [(0, mat1 .X), (1, mat1 .Z), (2, mat1 .X)] := by
    simp [filled, locals, List.range', filledLetter]
  have e2 : sem (gateSem 3 ρ) ρ gapTerm = (locals [(0, mat1 .X), (2, mat1 .X)] : Oper 3) := by
    rw [gapTerm, sem_kron]
    rfl
  rw [h5, e1, e2, eval_halfPi, eval_rat, Rat.cast_one, mul_one,
    evolution_half (locals_sq (by simp) (by simp) (by simp [X_sq, Z_sq])),
    evolution_half (locals_sq (by simp) (by simp) (by simp [X_sq]))]
  intro h
  have h := neg_I_cancel h
  simp only [locals, List.map_cons, List.map_nil, opProd, one_mul] at h
  have h := congrArg (fun M : Oper 3 => embed1 2 (mat1 .X) * M * embed1 0 (mat1 .X)) h
  have x2 : (embed1 2 (mat1 .X) * embed1 2 (mat1 .X) : Oper 3) = 1 := by rw [embed1_mul (by omega), X_sq, embed1_one]
  have x0 : (embed1 0 (mat1 .X) * embed1 0 (mat1 .X) : Oper 3) = 1 := by rw [embed1_mul (by omega), X_sq, embed1_one]
  rw [← mul_assoc, ← mul_assoc, x2, one_mul, mul_assoc, x0, mul_one, ← mul_assoc, x2, one_mul, x0] at h
  have := congrFun (congrFun h fun _ => true) fun _ => true
  rw [embed1_Z_apply 1 (by omega), one_apply_eq] at this
  simp [bit] at this
  norm_num at this

/-- C34 is false for the identity: it is exponentiated like Z. -/
theorem C34_counterexample_identity {ord : List ℕ → List ℕ} (ho : SetOrder ord) (ρ : Env) :
    ∃ bs, pauliExp ord halfPi [(.leaf (.fixed .I 0) none, .num 1 0)] = .ok bs ∧
      sem (primSem 1 ρ ord ho) ρ (chainOf bs) ≠
        evolution (eval ρ halfPi * eval ρ (.num 1 0)) (sem (gateSem 1 ρ) ρ (.leaf (.fixed .I 0) none)) := by
  obtain ⟨a, k, bs, h1, h2, h3, h4, h5⟩ := C34_filled (n := 1) ho ρ halfPi (.num 1 0)
    (term := .leaf (.fixed .I 0) none) (ps := [(.I, 0)]) ⟨.inl ⟨_, _, _, rfl, rfl⟩, by simp, by simp, by simp⟩
  refine ⟨bs, h4, ?_⟩
  have hk : a = 0 ∧ k = 0 := by
    simp at h1 h2 h3
    omega
  obtain ⟨rfl, rfl⟩ := hk
  have e1 : (filled [(.I, 0)] 0 0 : Oper 1) = locals [(0, mat1 .Z)] := by
    simp [filled, locals, List.range', filledLetter]
  have e2 : sem (gateSem 1 ρ) ρ (.leaf (.fixed .I 0) none) = (1 : Oper 1) := embed1_one 0
  rw [h5, e1, e2, eval_halfPi, eval_rat, Rat.cast_one, mul_one,
    evolution_half (locals_sq (by simp) (by simp) (by simp [Z_sq])), evolution_half (mul_one 1)]
  intro h
  have h := neg_I_cancel h
  simp only [locals, List.map_cons, List.map_nil, opProd, one_mul] at h
  have := congrFun (congrFun h fun _ => true) fun _ => true
  rw [embed1_Z_apply 0 (by omega), one_apply_eq] at this
  simp [bit] at this
  norm_num at this

/-- C34 is false for N: it is exponentiated like Z, which is not even the same up to a phase: at time π the gates are a multiple
of the identity. -/
theorem C34_counterexample_number {ord : List ℕ → List ℕ} (ho : SetOrder ord) (ρ : Env) :
    ∃ bs, pauliExp ord .pi [(.leaf (.fixed (.N true) 0) none, .num 1 0)] = .ok bs ∧
      sem (primSem 1 ρ ord ho) ρ (chainOf bs) = -1 ∧
      ∀ c : ℂ, evolution (eval ρ .pi * eval ρ (.num 1 0)) (sem (gateSem 1 ρ) ρ (.leaf (.fixed (.N true) 0) none)) ≠ c • (1 : Oper 1) := by
  obtain ⟨a, k, bs, h1, h2, h3, h4, h5⟩ := C34_filled (n := 1) ho ρ .pi (.num 1 0)
    (term := .leaf (.fixed (.N true) 0) none) (ps := [(.N true, 0)]) ⟨.inl ⟨_, _, _, rfl, rfl⟩, by simp, by simp, by simp⟩
  have hk : a = 0 ∧ k = 0 := by
    simp at h1 h2 h3
    omega
  obtain ⟨rfl, rfl⟩ := hk
  have e1 : (filled [(.N true, 0)] 0 0 : Oper 1) = locals [(0, mat1 .Z)] := by
    simp [filled, locals, List.range', filledLetter]
  refine ⟨bs, h4, ?_, ?_⟩
  · rw [h5, e1, evolution, exp_invol_I _ (locals_sq (by simp) (by simp) (by simp [Z_sq])), eval_rat, eval, Rat.cast_one, mul_one,
      ← Complex.ofReal_cos, ← Complex.ofReal_sin, Real.cos_pi, Real.sin_pi]
    simp
  · intro c h
    have e2 : sem (gateSem 1 ρ) ρ (.leaf (.fixed (.N true) 0) none) =
        (diagonal fun x : St 1 => if bit x 0 then (1 : ℂ) else 0) := by
      rw [sem_leaf]
      change (embed1 0 (mat1 (.N true)) : Oper 1) = _
      ext x y
      have hx : x = y ↔ bit x 0 = bit y 0 := by
        constructor
        · rintro rfl; rfl
        · intro h
          apply st_ext
          intro q hq
          obtain rfl : q = 0 := by omega
          exact h
      have hc : ∀ j : Fin 1, 0 ≠ (j : ℕ) → x j = y j := fun j hj => absurd (by omega) hj
      rw [diagonal_apply, embed1, if_pos hc]
      simp only [hx]
      cases bit x 0 <;> cases bit y 0 <;> simp [mat1, ind]
    rw [e2, evolution, ← diagonal_smul, Matrix.exp_diagonal] at h
    have h0 := congrFun (congrFun h fun _ => false) fun _ => false
    have h1 := congrFun (congrFun h fun _ => true) fun _ => true
    simp only [diagonal_apply_eq, Pi.coe_exp, ← Complex.exp_eq_exp_ℂ, Matrix.smul_apply, one_apply_eq] at h0 h1
    rw [eval_rat, eval] at h0 h1
    simp [bit] at h0 h1
    rw [← h0] at h1
    have : Complex.exp (-(Complex.I * Real.pi)) = -1 := by
      rw [show -(Complex.I * Real.pi) = -(Real.pi * Complex.I) by ring, Complex.exp_neg, Complex.exp_pi_mul_I]
      norm_num
    rw [this] at h1
    norm_num at h1

/-- C34 is false for a composite with one part: the letter is not seen. -/
theorem C34_counterexample_one_part {ord : List ℕ → List ℕ} (ho : SetOrder ord) (ρ : Env) :
    ∃ bs, pauliExp ord halfPi [(.comp .kron [.leaf (.fixed .X 0) none] none, .num 1 0)] = .ok bs ∧
      sem (primSem 1 ρ ord ho) ρ (chainOf bs) ≠ evolution (eval ρ halfPi * eval ρ (.num 1 0))
        (sem (gateSem 1 ρ) ρ (.comp .kron [.leaf (.fixed .X 0) none] none)) := by
  have hs : firstQubit ord (.comp .kron [.leaf (.fixed .X 0) none] none) = .ok 0 := by
    rw [firstQubit]
    have h1 := mem_support Gate.supp ord ho (.comp .kron [.leaf (.fixed .X 0) none] none)
    have h2 : ∀ q, q ∈ support Gate.supp ord (.comp .kron [.leaf (.fixed .X 0) none] none) ↔ q = 0 := by
      intro q
      rw [h1, mem_qubits_comp]
      simp [qubits_leaf, Gate.supp]
    cases h3 : support Gate.supp ord (.comp .kron [.leaf (.fixed .X 0) none] none) with
    | nil =>
      have := (h2 0).2 rfl
      rw [h3] at this
      simp at this
    | cons a l =>
      have := (h2 a).1 (by rw [h3]; simp)
      rw [this]
      rfl
  have hz : ∀ s, toZBasis ord s (.comp .kron [.leaf (.fixed .X 0) none] none) = .ok [] := by
    intro s
    rw [toZBasis, hs]
    rfl
  refine ⟨[gateBlock (.rot .RZ 0 (.mul (.mul (.num 2 0) halfPi) (.num 1 0)))], ?_, ?_⟩
  · rw [pauliExp, List.mapM_cons, expTerm]
    have : partsOf (.comp .kron [.leaf (.fixed .X 0) none] none) = .ok [.comp .kron [.leaf (.fixed .X 0) none] none] := rfl
    simp only [this, ok_bind, List.mapM_cons, List.mapM_nil, hs, hz, List.reverse_cons, List.reverse_nil, List.nil_append]
    rfl
  · have e2 : sem (gateSem 1 ρ) ρ (.comp .kron [.leaf (.fixed .X 0) none] none) = (locals [(0, mat1 .X)] : Oper 1) := by
      rw [sem_kron]
      rfl
    rw [e2, eval_halfPi, eval_rat, Rat.cast_one, mul_one,
      evolution_half (locals_sq (by simp) (by simp) (by simp [X_sq])), chainOf, sem_chain, List.map_cons, List.map_nil,
      opProd_singleton, den_gateBlock, gateDen, rz_eq]
    simp only [eval_mul', eval_rat, eval_halfPi]
    intro h
    have := congrFun (congrFun h fun _ => false) fun _ => false
    rw [Matrix.add_apply, Matrix.smul_apply, Matrix.smul_apply, Matrix.smul_apply, embed1_Z_apply 0 (by omega), one_apply_eq] at this
    have e3 : (locals [(0, mat1 .X)] : Oper 1) (fun _ => false) (fun _ => false) = 0 := by
      simp [locals, opProd, embed1, mat1, bit, ind]
    rw [e3] at this
    have e4 : ((2 : ℚ) : ℂ) * (Real.pi / 2) * ((1 : ℚ) : ℂ) / 2 = ((Real.pi / 2 : ℝ) : ℂ) := by
      push_cast
      ring
    rw [e4, ← Complex.ofReal_cos, ← Complex.ofReal_sin, Real.cos_pi_div_two, Real.sin_pi_div_two] at this
    simp [bit] at this

/-- C34 is false for nested composites: the gates are those for Z on the qubits 0 and 2, whatever the letters inside. -/
theorem C34_counterexample_nested (t s : Expr) (g h : FixedGate) (hg : g = .X ∨ g = .Y ∨ g = .Z) (hh : h = .X ∨ h = .Y ∨ h = .Z) :
    pauliExp demoOrd t [(.comp .kron [.comp .kron [.leaf (.fixed g 0) none, .leaf (.fixed h 1) none] none,
      .leaf (.fixed .Z 2) none] none, s)] =
    pauliExp demoOrd t [(.comp .kron [.leaf (.fixed .Z 0) none, .leaf (.fixed .Z 2) none] none, s)] := by
  rcases hg with rfl | rfl | rfl <;> rcases hh with rfl | rfl | rfl <;> rfl

/-! ### C35 -/

/-- Concrete case for order 2: the terms `X(0) X(1)`, `Y(0) Y(1)` and `3 * Y(1)`. -/
def pair (g : FixedGate) : Block Gate := .comp .kron [.leaf (.fixed g 0) none, .leaf (.fixed g 1) none] none

theorem pair_plain {g : FixedGate} (hg : g = .X ∨ g = .Y ∨ g = .Z) : Plain 2 (pair g) [(g, 0), (g, 1)] := by
  refine ⟨⟨.inr ⟨.kron, _, none, rfl, by simp, by simp [pauliLetter, hg]⟩, by simp, by simp, by simp⟩, by simp,
    ⟨0, 1, fun q => ?_⟩, by simp [pair]⟩
  simp
  omega

theorem letter_plain {g : FixedGate} (hg : g = .X ∨ g = .Y ∨ g = .Z) {q : ℕ} (hq : q < n) (t : Option String) :
    Plain n (.leaf (.fixed g q) t) [(g, q)] := by
  refine ⟨⟨.inl (by simp [pauliLetter, hg]), by simp, by simp [hq], by simp⟩, by simp, ⟨q, 0, fun r => ?_⟩, by simp⟩
  simp
  omega

example : (∀ x ∈ [(pair .X, Expr.num 1 0), (pair .Y, .num 1 0), (.leaf (.fixed .Y 1) none, .num 3 0)], ∃ ps, Plain 2 x.1 ps) ∧
    ∀ x ∈ [(pair .X, Expr.num 1 0), (pair .Y, .num 1 0), (.leaf (.fixed .Y 1) none, .num 3 0)].dropLast,
      ∃ ps, Plain 2 x.1 ps ∧ Even (countY ps) := by
  constructor
  · intro x hx
    simp only [List.mem_cons, List.not_mem_nil, or_false] at hx
    rcases hx with rfl | rfl | rfl
    · exact ⟨_, pair_plain (.inl rfl)⟩
    · exact ⟨_, pair_plain (.inr (.inl rfl))⟩
    · exact ⟨_, letter_plain (.inr (.inl rfl)) (by omega) none⟩
  · intro x hx
    simp only [List.dropLast, List.mem_cons, List.not_mem_nil, or_false] at hx
    rcases hx with rfl | rfl
    · exact ⟨_, pair_plain (.inl rfl), by decide⟩
    · exact ⟨_, pair_plain (.inr (.inl rfl)), by decide⟩

/-- The schedule of order 2 for three terms begins with these steps. -/
example : (sched 0 3 .st2).take 6 = [(0, 1 / 20), (1, 1 / 20), (2, 1 / 10), (1, 1 / 20), (0, 1 / 20), (0, 1 / 20)] := by
  decide +kernel

theorem evolution_neg (t : ℂ) (P : Oper n) : evolution (-t) P * evolution t P = 1 := by
  rw [evolution, evolution, ← Matrix.exp_add_of_commute]
  · rw [← add_smul]
    simp
  · exact ((Commute.refl P).smul_left _).smul_right _

theorem evolution_add (s t : ℂ) (P : Oper n) : evolution s P * evolution t P = evolution (s + t) P := by
  rw [evolution, evolution, evolution, ← Matrix.exp_add_of_commute]
  · rw [← add_smul]
    congr 2
    ring
  · exact ((Commute.refl P).smul_left _).smul_right _

theorem evolution_commute {P Q : Oper n} (h : Commute P Q) (s t : ℂ) : Commute (evolution s P) (evolution t Q) := by
  rw [Commute, SemiconjBy, evolution, evolution, ← Matrix.exp_add_of_commute, ← Matrix.exp_add_of_commute, add_comm]
  · exact (h.symm.smul_left _).smul_right _
  · exact (h.smul_left _).smul_right _

/-- C35 is false for order 2 and a term with an odd number of letters Y: the reversed gates evolve backwards in time, so that in
the decomposition for `Y(0) + Z(1)` the first term has no effect at all. -/
theorem C35_counterexample_odd_y {ord : List ℕ → List ℕ} (ho : SetOrder ord) (ρ : Env) (p2 : ℚ) (t : Expr) :
    ∃ bs, trotter ord p2 t [(.leaf (.fixed .Y 0) none, .num 1 0), (.leaf (.fixed .Z 1) none, .num 1 0)] .st2 = .ok bs ∧
      sem (primSem 2 ρ ord ho) ρ (chainOf bs) = evolution (eval ρ t) (embed1 1 (mat1 .Z)) ∧
      (eval ρ t = Real.pi / 2 → sem (primSem 2 ρ ord ho) ρ (chainOf bs) ≠
        evolution (eval ρ t) (embed1 0 (mat1 .Y) + embed1 1 (mat1 .Z))) := by
  have hY : Plain 2 (.leaf (.fixed .Y 0) none) [(.Y, 0)] := letter_plain (.inr (.inl rfl)) (by omega) none
  have hZ : Plain 2 (.leaf (.fixed .Z 1) none) [(.Z, 1)] := letter_plain (.inr (.inr rfl)) (by omega) none
  obtain ⟨a, k, bs, h1, h2, h3, h4, h5, h6⟩ := expTerm_spec ho ρ (.mul (delta t) (.num (1 / 2) 0)) (.num 1 0) (Plain.letters hY)
  obtain ⟨a', k', cs, h1', h2', h3', h4', h5', -⟩ := expTerm_spec ho ρ (delta t) (.num 1 0) (Plain.letters hZ)
  rw [Plain.filled hY ρ h1 h2 h3] at h5 h6
  rw [Plain.filled hZ ρ h1' h2' h3'] at h5'
  have hc : Commute (embed1 0 (mat1 .Y) : Oper 2) (embed1 1 (mat1 .Z)) := embed1_commute_of_ne (by omega) _ _
  have e : sem (primSem 2 ρ ord ho) ρ (chainOf (times 10 (bs ++ cs ++ bs.reverse))) = evolution (eval ρ t) (embed1 1 (mat1 .Z)) := by
    rw [chainOf, sem_chain, opProd_times, List.map_append, List.map_append, opProd_append, opProd_append, h5, h6, h5', sem_leaf,
      sem_leaf]
    change (evolution _ (embed1 0 (mat1 .Y)) * (evolution _ (embed1 1 (mat1 .Z)) * evolution _ (embed1 0 (mat1 .Y)))) ^ 10 = _
    rw [(evolution_commute hc.symm _ _).eq, ← mul_assoc, show countY [(FixedGate.Y, 0)] = 1 from rfl, pow_one, neg_one_mul,
      evolution_neg, one_mul]
    have : ∀ (s : ℂ) (k : ℕ), (evolution s (embed1 1 (mat1 .Z)) : Oper 2) ^ k = evolution (k * s) (embed1 1 (mat1 .Z)) := by
      intro s k
      induction k with
      | zero => simp [evolution]
      | succ k ih =>
        rw [pow_succ, ih, evolution_add]
        congr 1
        push_cast
        ring
    rw [this, delta, eval_mul', eval_rat, eval_rat]
    congr 1
    push_cast
    ring
  refine ⟨times 10 (bs ++ cs ++ bs.reverse), ?_, e, fun ht => ?_⟩
  · rw [trotter, suzuki2]
    simp only [List.dropLast, pauliExp, List.mapM_cons, List.mapM_nil, h4, h4', ok_bind, List.getLast?_cons_cons,
      List.getLast?_singleton]
    simp [pure_eq_ok, ok_bind]
  · rw [e, ht]
    have e0 : (embed1 0 (mat1 .Y) * embed1 0 (mat1 .Y) : Oper 2) = 1 := by rw [embed1_mul (by omega), Y_sq, embed1_one]
    have e1 : (embed1 1 (mat1 .Z) * embed1 1 (mat1 .Z) : Oper 2) = 1 := by rw [embed1_mul (by omega), Z_sq, embed1_one]
    have : evolution (Real.pi / 2) (embed1 0 (mat1 .Y) + embed1 1 (mat1 .Z) : Oper 2) =
        evolution (Real.pi / 2) (embed1 0 (mat1 .Y)) * evolution (Real.pi / 2) (embed1 1 (mat1 .Z)) := by
      rw [evolution, evolution, evolution, ← Matrix.exp_add_of_commute, smul_add]
      exact (hc.smul_left _).smul_right _
    rw [this, evolution_half e0, evolution_half e1]
    intro h
    have h := congrArg (fun M : Oper 2 => M * embed1 1 (mat1 .Z)) h
    simp only [smul_mul_assoc, mul_assoc, mul_smul_comm, e1, mul_one] at h
    have := congrFun (congrFun h fun _ => false) fun _ => false
    simp only [Matrix.smul_apply, one_apply_eq] at this
    simp [embed1, mat1, bit] at this

/-- The order asked for is ignored unless the generator contains a chain: whether the terms commute makes no difference. -/
theorem C35_order_ignored (ord : List ℕ → List ℕ) (p2 : ℚ) (o : Order) {gen : Block Gate} (h : noChain gen) (t : Expr) :
    digitalEvo ord p2 o gen t = digitalEvo ord p2 .basic gen t := by
  unfold digitalEvo
  by_cases hq : isQubitHamiltonian gen = true
  · rw [if_pos hq, if_pos hq]
    rcases effectiveOrder_cases gen hq o with h1 | ⟨-, h2⟩
    · rw [h1]
      rcases effectiveOrder_cases gen hq .basic with h3 | ⟨h3, -⟩ <;> rw [h3]
    · exact absurd h h2
  · rw [if_neg hq, if_neg hq]

/-- `X(0) + Z(0)`. -/
def xz : Block Gate := .comp .add [.leaf (.fixed .X 0) none, .leaf (.fixed .Z 0) none] none

/-- The decomposition of the evolution under `X(0) + Z(0)` is one step of order 1, whatever order is asked for, and at time π/2
far from the evolution: the amplitude of staying in the state 0 is zero. -/
theorem C35_counterexample_order_ignored {ord : List ℕ → List ℕ} (ho : SetOrder ord) (ρ : Env) (p2 : ℚ) (o : Order) :
    ∃ b, digitalEvo ord p2 o xz halfPi = .ok b ∧
      sem (primSem 1 ρ ord ho) ρ b (fun _ => false) (fun _ => false) = 0 ∧
      evolution (eval ρ halfPi) (sem (gateSem 1 ρ) ρ xz) (fun _ => false) (fun _ => false) ≠ 0 := by
  rw [C35_order_ignored ord p2 o (by simp [xz, noChain, noChainAll])]
  obtain ⟨bs, h1, h2⟩ := trotter_spec (n := 1) ho p2 ρ halfPi (l := unroll xz) .basic (.inl rfl) (by
    intro x hx
    rw [show unroll xz = [(.leaf (.fixed .X 0) none, .num 1 0), (.leaf (.fixed .Z 0) none, .num 1 0)] by
      simp [xz, unroll, unrollAll]] at hx
    simp only [List.mem_cons, List.not_mem_nil, or_false] at hx
    rcases hx with rfl | rfl
    · exact ⟨_, letter_plain (.inl rfl) (by omega) none⟩
    · exact ⟨_, letter_plain (.inr (.inr rfl)) (by omega) none⟩) (.inl rfl)
  have e0 : (embed1 0 (mat1 .X) * embed1 0 (mat1 .X) : Oper 1) = 1 := by rw [embed1_mul (by omega), X_sq, embed1_one]
  have e1 : (embed1 0 (mat1 .Z) * embed1 0 (mat1 .Z) : Oper 1) = 1 := by rw [embed1_mul (by omega), Z_sq, embed1_one]
  have hu : unroll xz = [(.leaf (.fixed .X 0) none, .num 1 0), (.leaf (.fixed .Z 0) none, .num 1 0)] := by
    simp [xz, unroll, unrollAll]
  refine ⟨chainOf bs, ?_, ?_, ?_⟩
  · rw [digitalEvo, if_pos (by decide)]
    have : effectiveOrder xz .basic = .ok .basic := by
      rcases effectiveOrder_cases xz (by decide) .basic with h3 | ⟨h3, -⟩ <;> exact h3
    rw [this, ok_bind, h1]
    rfl
  · rw [chainOf, sem_chain, h2, hu, eval_halfPi]
    have : productFormula (Real.pi / 2) (termOp ρ [(.leaf (.fixed .X 0) none, .num 1 0), (.leaf (.fixed .Z 0) none, .num 1 0)])
        (sched p2 2 .basic) = evolution (Real.pi / 2) (embed1 0 (mat1 .Z) : Oper 1) * evolution (Real.pi / 2) (embed1 0 (mat1 .X)) := by
      simp [productFormula, sched, sweep, List.range_succ, opProd, termOp, eval_one]
      rfl
    rw [show ([(.leaf (.fixed .X 0) none, .num 1 0), (.leaf (.fixed .Z 0) none, .num 1 0)] : List (Block Gate × Expr)).length = 2 from rfl,
      this, evolution_half e0, evolution_half e1, smul_mul_smul_comm, embed1_mul (by omega), Matrix.smul_apply]
    rw [embed1, if_pos (fun _ _ => rfl), mul_apply]
    simp [bit, mat1, ind]
  · have hs : sem (gateSem 1 ρ) ρ xz = (embed1 0 (mat1 .X) + embed1 0 (mat1 .Z) : Oper 1) := by
      rw [xz, sem_add]
      simp [sem_leaf]
      rfl
    have hxz : (embed1 0 (mat1 .X) + embed1 0 (mat1 .Z) : Oper 1) =
        ((Real.sqrt 2 : ℝ) : ℂ) • (((Real.sqrt 2 / 2 : ℝ) : ℂ) • (embed1 0 (mat1 .X) + embed1 0 (mat1 .Z))) := by
      rw [smul_smul, ← Complex.ofReal_mul, show Real.sqrt 2 * (Real.sqrt 2 / 2) = 1 by
        have := Real.mul_self_sqrt (show (0 : ℝ) ≤ 2 by norm_num); linarith, Complex.ofReal_one, one_smul]
    have hsq : (((Real.sqrt 2 / 2 : ℝ) : ℂ) • (embed1 0 (mat1 .X) + embed1 0 (mat1 .Z) : Oper 1)) *
        (((Real.sqrt 2 / 2 : ℝ) : ℂ) • (embed1 0 (mat1 .X) + embed1 0 (mat1 .Z))) = 1 := by
      have hanti : mat1 .X * mat1 .Z + mat1 .Z * mat1 .X = 0 := by
        ext a b
        rw [Matrix.add_apply, mul_apply, mul_apply]
        cases a <;> cases b <;> simp [mat1, ind]
      rw [smul_mul_smul_comm, sqrt_half, mul_add, add_mul, add_mul, e0, e1, embed1_mul (by omega), embed1_mul (by omega)]
      have : (embed1 0 (mat1 .X * mat1 .Z) : Oper 1) = -embed1 0 (mat1 .Z * mat1 .X) := by
        have h := congrArg (embed1 (n := 1) 0) hanti
        rw [embed1_add] at h
        have h0 : (embed1 0 (0 : Matrix Bool Bool ℂ) : Oper 1) = 0 := by
          have := embed1_smul (n := 1) 0 (0 : ℂ) 0
          simpa using this
        rw [h0] at h
        exact eq_neg_of_add_eq_zero_left h
      rw [this]
      have : (1 : Oper 1) + embed1 0 (mat1 .Z * mat1 .X) + (-embed1 0 (mat1 .Z * mat1 .X) + 1) = (2 : ℂ) • 1 := by module
      rw [this, smul_smul]
      norm_num
    rw [hs, hxz, evolution_smul, evolution, exp_invol_I _ hsq, Matrix.add_apply, Matrix.smul_apply, Matrix.smul_apply,
      Matrix.smul_apply, Matrix.add_apply, one_apply_eq, embed1_Z_apply 0 (by omega), eval_halfPi]
    have h3 : (embed1 0 (mat1 .X) : Oper 1) (fun _ => false) (fun _ => false) = 0 := by
      simp [embed1, bit, mat1, ind]
    rw [h3]
    have h4 : (Real.pi / 2 * (Real.sqrt 2 : ℝ) : ℂ) = ((Real.pi / 2 * Real.sqrt 2 : ℝ) : ℂ) := by push_cast; rfl
    rw [h4, ← Complex.ofReal_cos, ← Complex.ofReal_sin]
    have h5 : (if bit (fun _ => false : St 1) 0 = true then (-1 : ℂ) else 1) = 1 := by simp [bit]
    rw [h5]
    generalize Real.pi / 2 * Real.sqrt 2 = x
    intro h
    have e : ((Real.cos x : ℝ) : ℂ) • (1 : ℂ) + (-Complex.I * ((Real.sin x : ℝ) : ℂ)) • ((Real.sqrt 2 / 2 : ℝ) : ℂ) • (0 + 1 : ℂ) =
        ((Real.cos x : ℝ) : ℂ) + ((-(Real.sin x * (Real.sqrt 2 / 2)) : ℝ) : ℂ) * Complex.I := by
      simp only [smul_eq_mul]
      push_cast
      ring
    simp only [if_true] at h
    rw [e] at h
    have hre := congrArg Complex.re h
    have him := congrArg Complex.im h
    simp only [Complex.add_re, Complex.add_im, Complex.ofReal_re, Complex.ofReal_im, Complex.re_ofReal_mul, Complex.im_ofReal_mul,
      Complex.I_re, Complex.I_im, Complex.zero_re, Complex.zero_im, mul_zero, mul_one, add_zero, zero_add] at hre him
    have hs2 : Real.sqrt 2 ≠ 0 := by positivity
    have hsin : Real.sin x = 0 := by
      rcases mul_eq_zero.1 (neg_eq_zero.1 him) with h | h
      · exact h
      · exact absurd h (by positivity)
    have := Real.sin_sq_add_cos_sq x
    rw [hre, hsin] at this
    norm_num at this

/-- Concrete case for `C35_digital_decomposition_partial` and `C66_digitalize_partial`: the terms `Z(0) Z(1)` and
`1/2 X(0) X(1)` commute, although they have different letters on the same qubits. -/
def zzxx : Block Gate := .comp .add [pair .Z, .scale (pair .X) (.num (1 / 2) 0) none] none

theorem zzxx_decomposable (ρ : Env) (o : Order) : Decomposable 2 ρ o zzxx := by
  have hu : unroll zzxx = [(pair .Z, .num 1 0), (pair .X, .num (1 / 2) 0)] := by
    simp [zzxx, unroll, unrollAll, pair]
  have hanti : mat1 .X * mat1 .Z = (-1 : ℂ) • (mat1 .Z * mat1 .X) := by
    ext a b
    rw [Matrix.smul_apply, mul_apply, mul_apply]
    cases a <;> cases b <;> simp [mat1, ind]
  have hsem : ∀ g, sem (gateSem 2 ρ) ρ (pair g) = embed1 1 (mat1 g) * embed1 0 (mat1 g) := by
    intro g
    rw [pair, sem_kron]
    simp [opProd, sem_leaf]
    rfl
  have key : ∀ g h : FixedGate, (embed1 1 (mat1 g) * embed1 0 (mat1 g) : Oper 2) * (embed1 1 (mat1 h) * embed1 0 (mat1 h)) =
      embed1 1 (mat1 g * mat1 h) * embed1 0 (mat1 g * mat1 h) := by
    intro g h
    rw [← embed1_mul (by omega), ← embed1_mul (by omega), mul_assoc, ← mul_assoc (embed1 0 (mat1 g)),
      (embed1_commute_of_ne (show 0 ≠ 1 by omega) (mat1 g) (mat1 h)).eq, mul_assoc, mul_assoc]
  have hc : Commute (sem (gateSem 2 ρ) ρ (pair .Z)) (sem (gateSem 2 ρ) ρ (pair .X)) := by
    rw [Commute, SemiconjBy, hsem, hsem, key, key, hanti, embed1_smul, embed1_smul, smul_mul_smul_comm]
    norm_num
  refine ⟨?_, ?_, .inr (.inl (by simp [zzxx, pair, noChain, noChainAll]))⟩
  · rw [hu]
    intro x hx
    simp only [List.mem_cons, List.not_mem_nil, or_false] at hx
    rcases hx with rfl | rfl
    · exact ⟨_, pair_plain (.inr (.inr rfl))⟩
    · exact ⟨_, pair_plain (.inl rfl)⟩
  · rw [hu]
    intro x hx y hy
    simp only [List.mem_cons, List.not_mem_nil, or_false] at hx hy
    rcases hx with rfl | rfl <;> rcases hy with rfl | rfl
    · exact Commute.refl _
    · exact hc
    · exact hc.symm
    · exact Commute.refl _

/-! ### C66 -/

example (ρ : Env) (o : Order) : let b : Block Prim := .comp .kron [.leaf (.hamEvo zzxx halfPi) none, gateBlock (.fixed .H 2)] none
    WellFormed (Prim.supp demoOrd) b ∧ AllLeaves (Digital 2 ρ o) b := by
  refine ⟨?_, ?_⟩
  · rw [wellFormed_kron]
    refine ⟨by simp, ?_, by simp [gateBlock, WellFormed]⟩
    simp only [List.pairwise_cons, List.mem_singleton, forall_eq, List.not_mem_nil, false_implies, implies_true, List.Pairwise.nil,
      and_true]
    rw [Set.disjoint_left, qubits_leaf, gateBlock, qubits_leaf]
    intro q hq hq'
    have h1 : q ∈ qubits Gate.supp zzxx := (mem_support Gate.supp demoOrd demoOrd_setOrder zzxx q).1 hq
    have h2 : q = 2 := by simpa [Prim.supp, Gate.supp] using hq'
    subst h2
    simp [zzxx, pair, mem_qubits_comp, qubits_scale, qubits_leaf, Gate.supp] at h1
  · simp only [AllLeaves, AllLeavesList, Digital, gateBlock, and_true]
    exact zzxx_decomposable ρ o

/-- C66 is false for U: the rotation about Y is applied twice. -/
theorem C66_counterexample_u {ord : List ℕ → List ℕ} (ho : SetOrder ord) (ρ : Env) (p2 : ℚ) (o : Order) :
    ∃ b, digitalize ord p2 o (gateBlock (.u 0 (.num 0 0) .pi (.num 0 0))) = .ok b ∧
      sem (primSem 1 ρ ord ho) ρ b ≠ sem (primSem 1 ρ ord ho) ρ (gateBlock (.u 0 (.num 0 0) .pi (.num 0 0))) := by
  refine ⟨digitalU 0 (.num 0 0) .pi (.num 0 0), rfl, ?_⟩
  have hz : matRot 0 .RZ = 1 := by
    ext a b
    cases a <;> cases b <;> simp [matRot]
  have h0 : eval ρ (.num 0 0) = 0 := by rw [eval_rat]; simp
  have hpi : eval ρ .pi = Real.pi := by rw [eval]
  rw [digitalU, chainOf, sem_chain]
  simp only [List.map_cons, List.map_nil, opProd, one_mul, den_gateBlock, gateDen, h0, hpi, hz, embed1_one, mul_one]
  rw [embed1_mul (by omega)]
  intro h
  have := congrFun (congrFun h fun _ => false) fun _ => false
  rw [embed1, if_pos (fun _ _ => rfl), embed1, if_pos (fun _ _ => rfl), mul_apply] at this
  have e1 : Complex.cos (Real.pi / 2) = 0 := by
    rw [show (Real.pi / 2 : ℂ) = ((Real.pi / 2 : ℝ) : ℂ) by push_cast; rfl, ← Complex.ofReal_cos, Real.cos_pi_div_two]
    rfl
  have e2 : Complex.sin (Real.pi / 2) = 1 := by
    rw [show (Real.pi / 2 : ℂ) = ((Real.pi / 2 : ℝ) : ℂ) by push_cast; rfl, ← Complex.ofReal_sin, Real.sin_pi_div_two]
    rfl
  simp [bit, matRot, e1, e2] at this

/-- Evolutions inside scale blocks are not decomposed. -/
theorem C66_counterexample_scale (ord : List ℕ → List ℕ) (p2 : ℚ) (o : Order) (gen : Block Gate) (t s : Expr) :
    digitalize ord p2 o (.scale (.leaf (.hamEvo gen t) none) s none) = .ok (.scale (.leaf (.hamEvo gen t) none) s none) := by
  rw [digitalize]

/-- A kron with an evolution whose support has a gap cannot be digitalized, since the gates use the qubit in between. -/
theorem C66_counterexample_kron (p2 : ℚ) :
    kronOf (Prim.supp demoOrd) demoOrd [.leaf (.hamEvo gapTerm .pi) none, gateBlock (.fixed .X 1)] =
      .ok (.comp .kron [.leaf (.hamEvo gapTerm .pi) none, gateBlock (.fixed .X 1)] none) ∧
    digitalize demoOrd p2 .basic (.comp .kron [.leaf (.hamEvo gapTerm .pi) none, gateBlock (.fixed .X 1)] none) =
      .error .assertionError := by
  constructor <;> rfl

end Qadence.Decompose
