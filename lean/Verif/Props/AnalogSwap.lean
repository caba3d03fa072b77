import Verif.Model.AnalogSwap
import Verif.Props.Hamiltonian
import Verif.Proofs.Place
import Verif.Proofs.ExpInvol
import Verif.Proofs.GateSem
import Mathlib.Tactic

/-!
# C83: AnalogSWAP is a SWAP up to a global phase
-/

namespace Qadence.AnalogSwap

open Spec Block Matrix

variable {n : ℕ} {ord : List ℕ → List ℕ}

/-! ## The exponential -/

section
variable {ι : Type} [Fintype ι] [DecidableEq ι]

/-- A combination of 1, K, K², K³. -/
def comb (K : Matrix ι ι ℂ) (a b c d : ℂ) : Matrix ι ι ℂ := a • 1 + b • K + c • (K * K) + d • (K * (K * K))

theorem comb_mul (K : Matrix ι ι ℂ) (h4 : K * (K * (K * K)) = comb K 0 (-3) 1 3) (a b c d a' b' c' d' : ℂ) :
    comb K a b c d * comb K a' b' c' d' = comb K (a * a')
      (a * b' + b * a' - 3 * (b * d' + c * c' + d * b') - 9 * (c * d' + d * c') - 30 * (d * d'))
      (a * c' + b * b' + c * a' + (b * d' + c * c' + d * b') + 0 * (c * d' + d * c') + 1 * (d * d'))
      (a * d' + b * c' + c * b' + d * a' + 3 * (b * d' + c * c' + d * b') + 10 * (c * d' + d * c') + 30 * (d * d')) := by
  have e4 : K * (K * (K * K)) = (3 : ℂ) • (K * (K * K)) + K * K - (3 : ℂ) • K := by
    rw [h4, comb]; module
  simp only [comb, mul_add, mul_sub, add_mul, smul_mul_assoc, mul_smul_comm, one_mul, mul_one, mul_assoc, e4]
  module

/-- If `K³ - 3K² - K + 3 = 3/2 (1 - S)` and `K S = K`, then `exp(-iπK) = -S`: the eigenvalues of `K` are 0 where `S` is -1
and odd elsewhere. -/
theorem exp_K (K S : Matrix ι ι ℂ) (hK : K * S = K)
    (hA : comb K 3 (-1) (-3) 1 = (3 / 2 : ℂ) • (1 - S)) :
    NormedSpace.exp ((-Complex.I * Real.pi) • K) = -S := by
  have h4 : K * (K * (K * K)) = comb K 0 (-3) 1 3 := by
    have h := congrArg (K * ·) hA
    simp only [comb, mul_add, mul_smul_comm, mul_one, mul_sub, hK, sub_self, smul_zero] at h
    rw [comb, ← sub_eq_zero, ← h]
    module
  have hS : S = comb K (-1) (2 / 3) 2 (-2 / 3) := by
    have : S = 1 - (2 / 3 : ℂ) • ((3 / 2 : ℂ) • (1 - S)) := by module
    rw [this, ← hA, comb, comb]
    module
  have hS2 : S * S = 1 := by
    rw [hS, comb_mul K h4, comb]; ring_nf; simp
  set R : Matrix ι ι ℂ := comb K 1 (1 / 12) 0 (-1 / 12) with hR
  have hR2 : R * R = 1 := by
    rw [hR, comb_mul K h4, comb]; ring_nf; simp
  set M : Matrix ι ι ℂ := comb K 1 (3 / 4) (-1) (1 / 4) with hM
  have hM2 : M * M = 1 := by
    rw [hM, comb_mul K h4, comb]; ring_nf; simp
  have hsum : (-Complex.I * Real.pi) • K = (-Complex.I * Real.pi) • M + ((-Complex.I * (Real.pi / 2 : ℝ)) • S +
      ((-Complex.I * (-Real.pi : ℝ)) • R + (-Complex.I * (Real.pi / 2 : ℝ)) • (1 : Matrix ι ι ℂ))) := by
    rw [hS, hR, hM]
    simp only [comb]
    push_cast
    module
  have c1 : Commute ((-Complex.I * (-Real.pi : ℝ)) • R) ((-Complex.I * (Real.pi / 2 : ℝ)) • (1 : Matrix ι ι ℂ)) :=
    ((Commute.one_right R).smul_left _).smul_right _
  have cSR : Commute S R := by
    show S * R = R * S
    rw [hS, hR, comb_mul K h4, comb_mul K h4]; ring_nf
  have cMS : Commute M S := by
    show M * S = S * M
    rw [hS, hM, comb_mul K h4, comb_mul K h4]; ring_nf
  have cMR : Commute M R := by
    show M * R = R * M
    rw [hM, hR, comb_mul K h4, comb_mul K h4]; ring_nf
  have c2 : Commute ((-Complex.I * (Real.pi / 2 : ℝ)) • S) ((-Complex.I * (-Real.pi : ℝ)) • R +
      (-Complex.I * (Real.pi / 2 : ℝ)) • (1 : Matrix ι ι ℂ)) :=
    ((cSR.smul_right _).add_right ((Commute.one_right S).smul_right _)).smul_left _
  have c3 : Commute ((-Complex.I * Real.pi) • M) ((-Complex.I * (Real.pi / 2 : ℝ)) • S + ((-Complex.I * (-Real.pi : ℝ)) • R +
      (-Complex.I * (Real.pi / 2 : ℝ)) • (1 : Matrix ι ι ℂ))) :=
    ((cMS.smul_right _).add_right ((cMR.smul_right _).add_right ((Commute.one_right M).smul_right _))).smul_left _
  rw [hsum, Matrix.exp_add_of_commute _ _ c3, Matrix.exp_add_of_commute _ _ c2, Matrix.exp_add_of_commute _ _ c1,
    exp_invol_I M hM2, exp_invol_I S hS2, exp_invol_I R hR2, exp_invol_I 1 (one_mul 1)]
  have t1 : Complex.cos ((Real.pi / 2 : ℝ) : ℂ) = 0 := by rw [← Complex.ofReal_cos]; simp
  have t2 : Complex.sin ((Real.pi / 2 : ℝ) : ℂ) = 1 := by rw [← Complex.ofReal_sin]; simp
  have t3 : Complex.cos ((-Real.pi : ℝ) : ℂ) = -1 := by rw [← Complex.ofReal_cos]; simp
  have t4 : Complex.sin ((-Real.pi : ℝ) : ℂ) = 0 := by rw [← Complex.ofReal_sin]; simp
  rw [t1, t2, t3, t4, Complex.cos_pi, Complex.sin_pi]
  simp [smul_smul]

end

/-! ## Two qubits -/

theorem sum_st2 (f : St 2 → ℂ) :
    ∑ x, f x = f ![false, false] + f ![false, true] + f ![true, false] + f ![true, true] := by
  rw [Fintype.sum_equiv (finTwoArrowEquiv Bool) f (fun p => f ![p.1, p.2])]
  · simp only [Fintype.sum_prod_type, Fintype.sum_bool]; ring
  · intro x
    congr 1
    funext i
    fin_cases i <;> rfl

/-- The generator on two qubits of a register. -/
noncomputable def ham (c t : ℕ) : Oper n :=
  (4 : ℂ) • (embed1 c (mat1 (.N true)) * embed1 t (mat1 (.N true))) +
    ((2 / 3 * Real.sqrt 2 : ℝ) : ℂ) • embed1 c (mat1 .X) + ((2 / 3 * Real.sqrt 2 : ℝ) : ℂ) • embed1 t (mat1 .X) +
    ((1 + Real.sqrt 5 / 3 : ℝ) : ℂ) • embed1 c (mat1 .Z) + ((1 + Real.sqrt 5 / 3 : ℝ) : ℂ) • embed1 t (mat1 .Z)

/-- The entries of 3/4 of the generator. -/
noncomputable def kEntry : Bool → Bool → Bool → Bool → ℂ
  | false, false, false, false => 3 / 2 + (Real.sqrt 5 : ℝ) / 2
  | true, true, true, true => 3 / 2 - (Real.sqrt 5 : ℝ) / 2
  | false, false, false, true => (Real.sqrt 2 : ℝ) / 2
  | false, false, true, false => (Real.sqrt 2 : ℝ) / 2
  | false, true, false, false => (Real.sqrt 2 : ℝ) / 2
  | true, false, false, false => (Real.sqrt 2 : ℝ) / 2
  | true, true, false, true => (Real.sqrt 2 : ℝ) / 2
  | true, true, true, false => (Real.sqrt 2 : ℝ) / 2
  | false, true, true, true => (Real.sqrt 2 : ℝ) / 2
  | true, false, true, true => (Real.sqrt 2 : ℝ) / 2
  | _, _, _, _ => 0

theorem forall_st2 {P : St 2 → Prop} (h : ∀ a b, P ![a, b]) (x : St 2) : P x := by
  have : x = ![x 0, x 1] := by funext i; fin_cases i <;> rfl
  rw [this]; exact h _ _

/-- 3/4 of the generator on two qubits. -/
noncomputable def k2 : Oper 2 := (3 / 4 : ℂ) • ham 0 1

theorem k2_entry (a b c d : Bool) : k2 ![a, b] ![c, d] = kEntry a b c d := by
  simp only [k2, ham, Matrix.smul_apply, Matrix.add_apply, Matrix.mul_apply, sum_st2, smul_eq_mul]
  cases a <;> cases b <;> cases c <;> cases d <;>
    simp [embed1, bit, mat1, ind, kEntry, Fin.forall_fin_two] <;> ring

/-- The exchange of two qubits. -/
def sEntry (a b c d : Bool) : ℂ := if a = d ∧ b = c then 1 else 0

theorem swap2_entry (a b c d : Bool) : (swapOp 0 1 : Oper 2) ![a, b] ![c, d] = sEntry a b c d := by
  simp [swapOp, sEntry, bit, Fin.forall_fin_two]

theorem sqrt2_sq : ((Real.sqrt 2 : ℝ) : ℂ) ^ 2 = 2 := by
  rw [← Complex.ofReal_pow, Real.sq_sqrt (by norm_num)]; norm_num

theorem sqrt5_sq : ((Real.sqrt 5 : ℝ) : ℂ) ^ 2 = 5 := by
  rw [← Complex.ofReal_pow, Real.sq_sqrt (by norm_num)]; norm_num

theorem k2_swap : k2 * swapOp 0 1 = k2 := by
  ext x y
  induction x using forall_st2 with | _ a b
  induction y using forall_st2 with | _ c d
  rw [Matrix.mul_apply, sum_st2]
  simp only [k2_entry, swap2_entry]
  cases a <;> cases b <;> cases c <;> cases d <;> simp [kEntry, sEntry]

/-- The entries of the square. -/
theorem k2_sq (a b c d : Bool) : (k2 * k2) ![a, b] ![c, d] =
      kEntry a b false false * kEntry false false c d + kEntry a b false true * kEntry false true c d +
        kEntry a b true false * kEntry true false c d + kEntry a b true true * kEntry true true c d := by
  rw [Matrix.mul_apply, sum_st2]
  simp only [k2_entry]

theorem k2_cubic : comb k2 3 (-1) (-3) 1 = (3 / 2 : ℂ) • (1 - swapOp 0 1) := by
  have h2 := sqrt2_sq
  have h5 := sqrt5_sq
  have h23 : ((Real.sqrt 2 : ℝ) : ℂ) ^ 3 = 2 * (Real.sqrt 2 : ℝ) := by rw [pow_succ, h2]
  have h53 : ((Real.sqrt 5 : ℝ) : ℂ) ^ 3 = 5 * (Real.sqrt 5 : ℝ) := by rw [pow_succ, h5]
  ext x y
  induction x using forall_st2 with | _ a b
  induction y using forall_st2 with | _ c d
  have h1 : (1 : Oper 2) ![a, b] ![c, d] = if a = c ∧ b = d then 1 else 0 := by
    rw [Matrix.one_apply]
    congr 1
    simp [funext_iff, Fin.forall_fin_two]
  have h3 : (k2 * (k2 * k2)) ![a, b] ![c, d] = kEntry a b false false * (k2 * k2) ![false, false] ![c, d] +
      kEntry a b false true * (k2 * k2) ![false, true] ![c, d] + kEntry a b true false * (k2 * k2) ![true, false] ![c, d] +
      kEntry a b true true * (k2 * k2) ![true, true] ![c, d] := by
    rw [Matrix.mul_apply, sum_st2]
    simp only [k2_entry]
  have hl : comb k2 3 (-1) (-3) 1 ![a, b] ![c, d] = 3 * (1 : Oper 2) ![a, b] ![c, d] + -1 * k2 ![a, b] ![c, d] +
      -3 * (k2 * k2) ![a, b] ![c, d] + 1 * (k2 * (k2 * k2)) ![a, b] ![c, d] := rfl
  have hr : ((3 / 2 : ℂ) • (1 - swapOp 0 1) : Oper 2) ![a, b] ![c, d] =
      3 / 2 * ((1 : Oper 2) ![a, b] ![c, d] - (swapOp 0 1 : Oper 2) ![a, b] ![c, d]) := rfl
  rw [hl, hr, h1, swap2_entry, h3]
  simp only [k2_sq, k2_entry]
  cases a <;> cases b <;> cases c <;> cases d <;> simp only [kEntry, sEntry] <;> simp <;> ring_nf <;>
    simp only [h2, h5, h23, h53] <;> ring

/-! ## Registers -/

/-- The two qubits of a register. -/
def pair {c t : ℕ} (hc : c < n) (ht : t < n) (hct : c ≠ t) : Fin 2 ↪ Fin n where
  toFun i := if i = 0 then ⟨c, hc⟩ else ⟨t, ht⟩
  inj' := by
    intro i j h
    fin_cases i <;> fin_cases j <;> simp at h ⊢ <;> omega

/-- The names of the qubits. -/
def pairName (c t : ℕ) (q : ℕ) : ℕ := if q = 0 then c else t

theorem places {c t : ℕ} (hc : c < n) (ht : t < n) (hct : c ≠ t) (S : Set ℕ) (hS : ∀ q ∈ S, q < 2) :
    Places (pair hc ht hct) (pairName c t) S := by
  intro q hq
  refine ⟨hS q hq, ?_⟩
  have := hS q hq
  interval_cases q <;> rfl

theorem ham_place {c t : ℕ} (hc : c < n) (ht : t < n) (hct : c ≠ t) :
    (ham c t : Oper n) = place (pair hc ht hct) (ham 0 1) := by
  have e0 : ∀ U, (embed1 c U : Oper n) = place (pair hc ht hct) (embed1 0 U) := fun U =>
    embed1_place (F := pairName c t) (q := 0) (places hc ht hct {0} (by simp)) U
  have e1 : ∀ U, (embed1 t U : Oper n) = place (pair hc ht hct) (embed1 1 U) := fun U =>
    embed1_place (F := pairName c t) (q := 1) (places hc ht hct {1} (by simp)) U
  simp only [ham, place_add, place_smul, place_mul, e0, e1]

theorem swap_place (ρ : Env) {c t : ℕ} (hc : c < n) (ht : t < n) (hct : c ≠ t) :
    (swapOp c t : Oper n) = place (pair hc ht hct) (swapOp 0 1) :=
  gateDen_place ρ (F := pairName c t) (.swap 0 1) (places hc ht hct _ (by simp [Gate.supp]))

/-- The generator evolves for 3π/4 to the exchange of the qubits with a sign. -/
theorem evolution_ham {c t : ℕ} (hc : c < n) (ht : t < n) (hct : c ≠ t) :
    evolution ((3 * Real.pi / 4 : ℝ) : ℂ) (ham c t : Oper n) = -swapOp c t := by
  have hρ : Env := ⟨fun _ => 0, fun _ _ => 0⟩
  set f := pair hc ht hct
  have hk : place f k2 = (3 / 4 : ℂ) • ham c t := by rw [k2, place_smul, ← ham_place hc ht hct]
  have hs := swap_place hρ hc ht hct
  have h1 : ((3 / 4 : ℂ) • (ham c t : Oper n)) * swapOp c t = (3 / 4 : ℂ) • ham c t := by
    rw [← hk, hs, ← place_mul, k2_swap]
  have h2 : comb ((3 / 4 : ℂ) • (ham c t : Oper n)) 3 (-1) (-3) 1 = (3 / 2 : ℂ) • (1 - swapOp c t) := by
    have := congrArg (place f) k2_cubic
    have e : (1 - swapOp 0 1 : Oper 2) = 1 + (-1 : ℂ) • swapOp 0 1 := by module
    rw [e] at this
    simp only [comb, place_add, place_smul, place_mul, place_one, hk] at this
    rw [comb, this, hs]
    module
  have := exp_K _ _ h1 h2
  rw [smul_smul] at this
  rw [← this, evolution]
  congr 2
  push_cast
  ring

/-- The functions and numbers have their usual meaning. -/
def SqrtEnv (ρ : Env) : Prop := ∀ x : ℝ, 0 ≤ x → ρ.fn "sqrt" (x : ℂ) = (Real.sqrt x : ℝ)

theorem eval_num (ρ : Env) (q : ℚ) : eval ρ (.num q 0) = (q : ℂ) := by
  apply Complex.ext <;> simp [eval]

/-- The block of (I - Z)/2. -/
def numberBlock (q : ℕ) : Block Gate :=
  .scale (addOf [ofFixed .I q, .scale (ofFixed .Z q) (.num (-1) 0) none]) (.inv (.num 2 0)) none

theorem number_eq (q : ℕ) : number q = .ok (numberBlock q) := rfl

theorem sem_number (ρ : Env) (q : ℕ) : sem (gateSem n ρ) ρ (numberBlock q) = embed1 q (mat1 (.N true)) := by
  have hm : mat1 (.N true) = (1 / 2 : ℂ) • (mat1 .I + (-1 : ℂ) • mat1 .Z) := by
    ext a b
    rw [Matrix.smul_apply, Matrix.add_apply, Matrix.smul_apply]
    cases a <;> cases b <;> simp [mat1, ind]
    norm_num
  have hi : eval ρ (.inv (.num 2 0)) = 1 / 2 := by
    rw [eval, eval_num]; norm_num
  rw [hm, numberBlock, sem_scale, addOf, sem_add, hi]
  simp only [List.map_cons, List.map_nil, List.sum_cons, List.sum_nil, add_zero, sem_scale, sem_ofFixed, eval_num,
    embed1_smul, embed1_add]
  push_cast
  rfl

theorem qubits_number (q : ℕ) : qubits Gate.supp (numberBlock q) = {q} := by
  ext p
  simp [numberBlock, addOf, qubits, qubitsList, ofFixed, Gate.supp]

/-- The generator as a block. -/
def genBlock (c t : ℕ) : Block Gate :=
  addOf [addOf [addOf [addOf [.scale (.comp .kron [numberBlock c, numberBlock t] none) (.num 4 0) none,
    .scale (ofFixed .X c) amp none], .scale (ofFixed .X t) amp none], .scale (ofFixed .Z c) det none],
    .scale (ofFixed .Z t) det none]

theorem generator_eq (ho : SetOrder ord) {c t : ℕ} (h : c ≠ t) : generator ord c t = .ok (genBlock c t) := by
  have hk : kronOf Gate.supp ord [numberBlock c, numberBlock t] = .ok (.comp .kron [numberBlock c, numberBlock t] none) := by
    rw [kronOf_ok_iff _ _ ho]
    refine ⟨rfl, by simp, ?_⟩
    simp [qubits_number, h]
  unfold generator
  rw [number_eq, number_eq]
  simp only [ok_bind]
  rw [hk]
  rfl

theorem sem_gen (ρ : Env) (hρ : SqrtEnv ρ) {c t : ℕ} (h : c ≠ t) : sem (gateSem n ρ) ρ (genBlock c t) = ham c t := by
  have ha : eval ρ amp = ((2 / 3 * Real.sqrt 2 : ℝ) : ℂ) := by
    have := hρ 2 (by norm_num)
    rw [amp, eval, eval_num, AnalogSwap.sqrt, eval, eval_num]
    push_cast at this ⊢
    rw [this]
  have hd : eval ρ det = ((1 + Real.sqrt 5 / 3 : ℝ) : ℂ) := by
    have := hρ 5 (by norm_num)
    rw [det, eval, eval_num, eval, eval, eval_num, AnalogSwap.sqrt, eval, eval_num]
    push_cast at this ⊢
    rw [this]
    ring
  have h4 : eval ρ (.num 4 0) = 4 := by rw [eval_num]; norm_num
  simp only [genBlock, addOf, sem_add, List.map_cons, List.map_nil, List.sum_cons, List.sum_nil, add_zero, sem_scale,
    sem_kron, opProd, one_mul, sem_number, sem_ofFixed, ha, hd, h4, ham]
  rw [(embed1_commute_of_ne h.symm _ _ :
    (embed1 t (mat1 (.N true)) * embed1 c (mat1 (.N true)) : Oper n) = _)]

/-- **C83.** `AnalogSWAP` with its default parameter exchanges the two qubits, up to the global phase -1, on every
register and for every pair of different qubits. -/
theorem C83_swap (ho : SetOrder ord) (ρ : Env) (hρ : SqrtEnv ρ) {c t : ℕ} (hc : c < n) (ht : t < n) (hct : c ≠ t) :
    ∃ b, analogSwap ord c t = .ok b ∧ sem (primSem n ρ ord ho) ρ b = -swapOp c t := by
  refine ⟨.leaf (.hamEvo (genBlock c t) defaultParameter) none, ?_, ?_⟩
  · unfold analogSwap
    rw [generator_eq ho hct]
    rfl
  · rw [sem_leaf]
    show evolution (eval ρ defaultParameter) (sem (gateSem n ρ) ρ (genBlock c t)) = _
    rw [sem_gen ρ hρ hct, ← evolution_ham hc ht hct]
    congr 1
    simp only [defaultParameter, eval]
    push_cast
    apply Complex.ext <;> simp <;> ring

/-- **C83.** For any parameter the operator is the evolution under the generator. -/
theorem C83_parameter (ho : SetOrder ord) (ρ : Env) (hρ : SqrtEnv ρ) {c t : ℕ} (hct : c ≠ t) (p : Expr) :
    ∃ b, analogSwap ord c t p = .ok b ∧ sem (primSem n ρ ord ho) ρ b = evolution (eval ρ p) (ham c t) := by
  refine ⟨.leaf (.hamEvo (genBlock c t) p) none, ?_, ?_⟩
  · unfold analogSwap
    rw [generator_eq ho hct]
    rfl
  · rw [sem_leaf]
    show evolution (eval ρ p) (sem (gateSem n ρ) ρ (genBlock c t)) = _
    rw [sem_gen ρ hρ hct]

/-- **C83.** Twice the default parameter is the identity. -/
theorem C83_twice {c t : ℕ} (hc : c < n) (ht : t < n) (hct : c ≠ t) :
    evolution ((2 * (3 * Real.pi / 4) : ℝ) : ℂ) (ham c t : Oper n) = 1 := by
  have h := evolution_ham hc ht hct
  have hs := swap_place ⟨fun _ => 0, fun _ _ => 0⟩ hc ht hct
  have h2 : (swapOp 0 1 * swapOp 0 1 : Oper 2) = 1 := by
    ext x y
    induction x using forall_st2 with | _ a b
    induction y using forall_st2 with | _ c d
    rw [Matrix.mul_apply, sum_st2, Matrix.one_apply]
    simp only [swap2_entry]
    cases a <;> cases b <;> cases c <;> cases d <;> simp [sEntry, funext_iff, Fin.forall_fin_two]
  have hS : (swapOp c t * swapOp c t : Oper n) = 1 := by rw [hs, ← place_mul, h2, place_one]
  have : evolution ((2 * (3 * Real.pi / 4) : ℝ) : ℂ) (ham c t : Oper n) =
      evolution ((3 * Real.pi / 4 : ℝ) : ℂ) (ham c t) * evolution ((3 * Real.pi / 4 : ℝ) : ℂ) (ham c t) := by
    rw [evolution, evolution, ← Matrix.exp_add_of_commute _ _ (Commute.refl _)]
    congr 1
    push_cast
    module
  rw [this, h, neg_mul_neg, hS]

/-- **C83.** Control and target may be exchanged. -/
theorem C83_symmetric {c t : ℕ} (h : c ≠ t) : (ham c t : Oper n) = ham t c := by
  unfold ham
  rw [(embed1_commute_of_ne h _ _ : (embed1 c (mat1 (.N true)) * embed1 t (mat1 (.N true)) : Oper n) = _)]
  module

/-- **C83.** The same qubit twice is refused. -/
theorem C83_same (ho : SetOrder ord) (c : ℕ) (p : Expr) : analogSwap ord c c p = .error .assertionError := by
  have hk : kronOf Gate.supp ord [numberBlock c, numberBlock c] = .error .assertionError := by
    rcases hr : kronOf Gate.supp ord [numberBlock c, numberBlock c] with e | b
    · unfold kronOf at hr
      rw [if_neg (by simp)] at hr
      split_ifs at hr
      exact hr.symm
    · rw [kronOf_ok_iff _ _ ho] at hr
      simp [qubits_number] at hr
  unfold analogSwap generator
  rw [number_eq]
  simp only [ok_bind]
  rw [hk]
  rfl

/-- An environment as assumed. -/
example : SqrtEnv ⟨fun _ => 0, fun _ x => (Real.sqrt x.re : ℝ)⟩ := fun x _ => by simp

end Qadence.AnalogSwap
