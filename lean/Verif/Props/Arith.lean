import Verif.Model.Arith
import Verif.Props.Passes
import Verif.Proofs.Except

/-!
# C07: arithmetic on blocks is arithmetic on operators
-/

namespace Qadence

open Spec Block

variable {L : Type} {n : ℕ}

namespace Spec

/-- `Zero` is the zero operator and `I` the identity. -/
structure ArithOpsOk (A : ArithOps L) (S : LeafSem L n) : Prop where
  isI : ∀ l, A.isI l = true → S.den l = 1
  isZero : ∀ l, A.isZero l = true → S.den l = 0

end Spec

namespace Block

variable {A : ArithOps L} {S : LeafSem L n}

theorem sem_isZeroBlock (hA : ArithOpsOk A S) (ρ : Env) {a : Block L} (h : isZeroBlock A a = true) :
    sem S ρ a = 0 := by
  cases a with
  | leaf l t => rw [sem_leaf]; exact hA.isZero l h
  | scale b s t => simp [isZeroBlock] at h
  | comp k bs t => simp [isZeroBlock] at h

theorem sem_isIBlock (hA : ArithOpsOk A S) (ρ : Env) {a : Block L} (h : isIBlock A a = true) :
    sem S ρ a = 1 := by
  cases a with
  | leaf l t => rw [sem_leaf]; exact hA.isI l h
  | scale b s t => simp [isIBlock] at h
  | comp k bs t => simp [isIBlock] at h

theorem sem_mulScalar (S : LeafSem L n) (ρ : Env) (a : Block L) (c : Expr) :
    sem S ρ (mulScalar a c) = eval ρ c • sem S ρ a := by
  cases a with
  | leaf l t => rw [mulScalar, sem_scale]; simp
  | comp k bs t => rw [mulScalar, sem_scale]; simp
  | scale b s t => rw [mulScalar, sem_scale, sem_scale, smul_smul, eval, mul_comm]

theorem eval_neg_one (ρ : Env) : eval ρ (.num (-1) 0) = -1 := by
  apply Complex.ext <;> simp [eval]

theorem sem_neg (hA : ArithOpsOk A S) (ρ : Env) (a : Block L) : sem S ρ (neg A a) = -sem S ρ a := by
  unfold neg
  split
  · next h => rw [sem_isZeroBlock hA ρ h, neg_zero]
  · rw [sem_mulScalar, eval_neg_one, neg_one_smul]

theorem sem_minus (S : LeafSem L n) (ρ : Env) (a : Block L) : sem S ρ (minus a) = -sem S ρ a := by
  cases a with
  | leaf l t => rw [minus, sem_scale, eval_neg_one, neg_one_smul]; simp
  | comp k bs t => rw [minus, sem_scale, eval_neg_one, neg_one_smul]; simp
  | scale b s t =>
    rw [minus, sem_scale, sem_scale, Expr.neg, eval, eval_neg_one, neg_one_mul, neg_smul]

theorem unpack_comp (k k' : CKind) (bs : List (Block L)) (t : Option String) :
    unpack k (.comp k' bs t) = if k' = k then bs else [.comp k' bs t] := by
  simp only [unpack]

theorem opProd_unpack_chain (S : LeafSem L n) (ρ : Env) (a : Block L) :
    opProd ((unpack .chain a).map (sem S ρ)) = sem S ρ a := by
  cases a with
  | leaf l t => simp [unpack, opProd]
  | scale b s t => simp [unpack, opProd]
  | comp k bs t =>
    rw [unpack_comp]
    split
    · next h => subst h; rw [sem_chain]
    · simp [opProd]

theorem opProd_unpack_kron (S : LeafSem L n) (ρ : Env) (a : Block L) :
    opProd ((unpack .kron a).map (sem S ρ)) = sem S ρ a := by
  cases a with
  | leaf l t => simp [unpack, opProd]
  | scale b s t => simp [unpack, opProd]
  | comp k bs t =>
    rw [unpack_comp]
    split
    · next h => subst h; rw [sem_kron]
    · simp [opProd]

theorem sum_unpack_add (S : LeafSem L n) (ρ : Env) (a : Block L) :
    ((unpack .add a).map (sem S ρ)).sum = sem S ρ a := by
  cases a with
  | leaf l t => simp [unpack]
  | scale b s t => simp [unpack]
  | comp k bs t =>
    rw [unpack_comp]
    split
    · next h => subst h; rw [sem_add]
    · simp

theorem opProd_replicate (k : ℕ) (M : Oper n) : opProd (List.replicate k M) = M ^ k := by
  rw [opProd_eq_reverse_prod]; simp

theorem mem_unpack_qubits (supp : L → List ℕ) (k : CKind) (a : Block L) (q : ℕ) :
    q ∈ qubits supp a ↔ ∃ b ∈ unpack k a, q ∈ qubits supp b := by
  cases a with
  | leaf l t => simp [unpack]
  | scale b s t => simp [unpack]
  | comp k' bs t =>
    rw [unpack_comp]
    split
    · rw [mem_qubits_comp]
    · simp

end Block

variable {A : ArithOps L} {S : LeafSem L n}

/-- **C07**: `a * b` applies `a` first, then `b`. -/
theorem C07_mul_block (hA : ArithOpsOk A S) (ρ : Env) (a b : Block L) :
    ∃ c, mul A a (.block b) = .ok c ∧ sem S ρ c = sem S ρ b * sem S ρ a := by
  refine ⟨_, rfl, ?_⟩
  split
  · next h => rw [sem_isZeroBlock hA ρ h, mul_zero]
  · simp [chainOf, sem_chain, opProd]

/-- **C07**: `a * c` for a number or parameter `c`. -/
theorem C07_mul_scalar (hA : ArithOpsOk A S) (ρ : Env) (a : Block L) (c : Expr) :
    ∃ r, mul A a (.scalar c) = .ok r ∧ sem S ρ r = eval ρ c • sem S ρ a := by
  refine ⟨_, rfl, ?_⟩
  split
  · next h => rw [sem_isZeroBlock hA ρ h, smul_zero]
  · exact sem_mulScalar S ρ a c

/-- **C07**: `c * a`. -/
theorem C07_rmul_scalar (hA : ArithOpsOk A S) (ρ : Env) (a : Block L) (c : Expr) :
    ∃ r, rmul A a (.scalar c) = .ok r ∧ sem S ρ r = eval ρ c • sem S ρ a := C07_mul_scalar hA ρ a c

/-- **C07**: scaling a scaled block gives a single scale block. -/
theorem C07_mul_scalar_merges (hA : isZeroBlock A (.scale b s t) = false) (c : Expr) :
    mul A (.scale b s t) (.scalar c) = .ok (.scale b (.mul s c) none) := by
  simp [mul, hA, mulScalar]

/-- **C07**: `a / c`; division by the number zero is refused. -/
theorem C07_truediv (hA : ArithOpsOk A S) (ρ : Env) (a r : Block L) (c : Expr)
    (h : truediv A a (.scalar c) = .ok r) :
    c ≠ .num 0 0 ∧ sem S ρ r = (eval ρ c)⁻¹ • sem S ρ a := by
  unfold truediv at h
  simp only at h
  split at h
  · cases h
  · next hc =>
    obtain ⟨r', h1, h2⟩ := C07_mul_scalar hA ρ a (.inv c)
    rw [h1] at h
    injection h with h
    subst h
    exact ⟨hc, h2⟩

/-- **C07**: blocks cannot be divided by blocks. -/
theorem C07_truediv_block (A : ArithOps L) (a b : Block L) : truediv A a (.block b) = .error .typeError := rfl

/-- **C07**: `a + b`. -/
theorem C07_add (hA : ArithOpsOk A S) (ρ : Env) (a b : Block L) :
    ∃ c, add' A a (.block b) = .ok c ∧ sem S ρ c = sem S ρ a + sem S ρ b := by
  refine ⟨_, rfl, ?_⟩
  split
  · next h => rw [sem_isZeroBlock hA ρ h, zero_add]
  · simp [addOf, sem_add]

/-- **C07**: `a - b`. -/
theorem C07_sub (hA : ArithOpsOk A S) (ρ : Env) (a b : Block L) :
    ∃ c, sub A a (.block b) = .ok c ∧ sem S ρ c = sem S ρ a - sem S ρ b := by
  refine ⟨_, rfl, ?_⟩
  split
  · next h => rw [sem_isZeroBlock hA ρ h, zero_sub, sem_neg hA]
  · simp [addOf, sem_add, sem_minus, sub_eq_add_neg]

/-- **C07**: `-a` and `+a`. -/
theorem C07_neg_pos (hA : ArithOpsOk A S) (ρ : Env) (a : Block L) :
    sem S ρ (neg A a) = -sem S ρ a ∧ sem S ρ (pos a) = sem S ρ a := ⟨sem_neg hA ρ a, rfl⟩

/-- **C07** (partial: `Zero() ** 0` is excluded, see the counterexample): `a ** k`. -/
theorem C07_pow_partial (hA : ArithOpsOk A S) (ρ : Env) (a : Block L) (k : ℕ)
    (h : isZeroBlock A a = false ∨ 0 < k) : sem S ρ (pow A a k) = sem S ρ a ^ k := by
  unfold pow
  split
  · next hz =>
    rcases h with h | h
    · rw [h] at hz; cases hz
    · rw [sem_isZeroBlock hA ρ hz, zero_pow (by omega)]
  · cases a with
    | leaf l t => simp [chainOf, sem_chain, opProd_replicate]
    | comp k bs t => simp [chainOf, sem_chain, opProd_replicate]
    | scale b s t =>
      simp only [chainOf, sem_scale, sem_chain, List.map_replicate, opProd_replicate, eval, smul_pow]

/-- **C07**: `Zero() ** 0` is `Zero()` instead of the identity. -/
theorem C07_counterexample_zero_pow_zero (hA : ArithOpsOk A S) (ρ : Env) (l : L) (hl : A.isZero l = true) :
    sem S ρ (pow A (.leaf l none) 0) ≠ sem S ρ (.leaf l none) ^ 0 := by
  have h : isZeroBlock A (.leaf l none) = true := hl
  unfold pow
  rw [if_pos h, sem_isZeroBlock hA ρ h, pow_zero]
  intro e
  have := congrFun (congrFun e (fun _ => false)) (fun _ => false)
  simp at this

/-- **C07**: `a @ b` succeeds exactly if the blocks act on different qubits, and applies both. -/
theorem C07_matmul {ord : List ℕ → List ℕ} (ho : SetOrder ord) (ρ : Env) (a b c : Block L) :
    matmul S.supp ord a (.block b) = .ok c ↔
      c = .comp .kron [a, b] none ∧ Disjoint (qubits S.supp a) (qubits S.supp b) := by
  unfold matmul
  rw [kronOf_ok_iff S.supp ord ho]
  simp

open Classical in
/-- **C07**: the entries of `a @ b` are the products of the entries of `a` and `b`: the operator is the tensor
product. -/
theorem C07_matmul_tensor {ord : List ℕ → List ℕ} (ho : SetOrder ord) (ρ : Env) (a b c : Block L)
    (h : matmul S.supp ord a (.block b) = .ok c) (x y : St n) :
    sem S ρ c = sem S ρ a * sem S ρ b ∧ sem S ρ c = sem S ρ b * sem S ρ a ∧
    sem S ρ c x y = sem S ρ a x (fun j => if (j : ℕ) ∈ qubits S.supp a then y j else x j) *
      sem S ρ b (fun j => if (j : ℕ) ∈ qubits S.supp a then y j else x j) y := by
  obtain ⟨rfl, hd⟩ := (C07_matmul ho ρ a b c).1 h
  have e : sem S ρ (.comp .kron [a, b] none) = sem S ρ b * sem S ρ a := by simp [sem_kron, opProd]
  have e' := sem_commute_of_disjoint S ρ a b hd
  refine ⟨e.trans e'.symm, e, ?_⟩
  rw [e.trans e'.symm, (sem_actsOn S ρ a).mul_apply_of_disjoint (sem_actsOn S ρ b) hd]

/-- **C07**: `a *= b`. -/
theorem C07_imul (hA : ArithOpsOk A S) (ρ : Env) (a b : Block L) :
    ∃ c, imul A a (.block b) = .ok c ∧ sem S ρ c = sem S ρ b * sem S ρ a := by
  unfold imul
  split
  · next h => exact ⟨a, rfl, by rw [sem_isZeroBlock hA ρ h, mul_zero]⟩
  · refine ⟨_, rfl, ?_⟩
    split
    · next h => rw [sem_isIBlock hA ρ h, mul_one]
    · rw [chainOf, sem_chain, List.map_append, opProd_append, opProd_unpack_chain, opProd_unpack_chain]

/-- **C07**: `a *= c` with a number is refused, except for `Zero`. -/
theorem C07_imul_scalar (A : ArithOps L) (a : Block L) (c : Expr) (h : isZeroBlock A a = false) :
    imul A a (.scalar c) = .error (if isIBlock A a then .valueError else .typeError) := by
  simp [imul, h]

/-- **C07**: `a += b`. -/
theorem C07_iadd (hA : ArithOpsOk A S) (ρ : Env) (a b : Block L) :
    ∃ c, iadd A a (.block b) = .ok c ∧ sem S ρ c = sem S ρ a + sem S ρ b := by
  refine ⟨_, rfl, ?_⟩
  split
  · next h => rw [sem_isZeroBlock hA ρ h, zero_add]
  · rw [addOf, sem_add, List.map_append, List.sum_append, sum_unpack_add, sum_unpack_add]

/-- **C07**: `a -= b`. -/
theorem C07_isub (hA : ArithOpsOk A S) (ρ : Env) (a b : Block L) :
    ∃ c, isub A a (.block b) = .ok c ∧ sem S ρ c = sem S ρ a - sem S ρ b := by
  refine ⟨_, rfl, ?_⟩
  split
  · next h => rw [sem_isZeroBlock hA ρ h, zero_sub, sem_neg hA]
  · rw [addOf, sem_add, List.map_append, List.sum_append, sum_unpack_add, sub_eq_add_neg]
    congr 1
    rw [← sum_unpack_add S ρ b, List.map_map]
    have : (sem S ρ ∘ neg A) = fun b => -sem S ρ b := by funext c; exact sem_neg hA ρ c
    rw [this]
    generalize unpack .add b = l
    induction l with
    | nil => simp
    | cons c l ih => simp [ih]; abel

/-- **C07**: `a @= b` for well-formed blocks succeeds exactly if the blocks act on different qubits; the operator is
the product of the operators. -/
theorem C07_imatmul {ord : List ℕ → List ℕ} (ho : SetOrder ord) (ρ : Env) (a b : Block L)
    (ha : WellFormed S.supp a) (hb : WellFormed S.supp b) (hd : Disjoint (qubits S.supp a) (qubits S.supp b)) :
    ∃ c, imatmul S.supp ord a (.block b) = .ok c ∧ sem S ρ c = sem S ρ b * sem S ρ a := by
  refine ⟨.comp .kron (unpack .kron a ++ unpack .kron b) none, ?_, ?_⟩
  · unfold imatmul
    rw [kronOf_ok_iff S.supp ord ho]
    have hpw : ∀ a : Block L, WellFormed S.supp a → unpack .kron a ≠ [] ∧ (unpack .kron a).Pairwise
        fun a b => Disjoint (qubits S.supp a) (qubits S.supp b) := by
      intro a ha
      cases a with
      | leaf l t => simp [unpack]
      | scale b s t => simp [unpack]
      | comp k bs t =>
        rw [unpack_comp]
        split
        · next h => subst h; exact ⟨(wellFormed_kron.1 ha).1, (wellFormed_kron.1 ha).2.1⟩
        · simp
    refine ⟨rfl, by simp [(hpw a ha).1], ?_⟩
    rw [List.pairwise_append]
    refine ⟨(hpw a ha).2, (hpw b hb).2, fun x hx y hy => ?_⟩
    rw [Set.disjoint_left] at hd ⊢
    intro q h1 h2
    exact hd ((mem_unpack_qubits S.supp .kron a q).2 ⟨x, hx, h1⟩)
      ((mem_unpack_qubits S.supp .kron b q).2 ⟨y, hy, h2⟩)
  · rw [sem_kron, List.map_append, opProd_append, opProd_unpack_kron, opProd_unpack_kron]

/-- **C07**: `sum([b1, ..., bk])` of at least one block. -/
theorem C07_sum (hA : ArithOpsOk A S) (ρ : Env) (bs : List (Block L)) (h : bs ≠ []) :
    ∃ c, sumBlocks A bs = .ok c ∧ sem S ρ c = (bs.map (sem S ρ)).sum := by
  obtain ⟨b, bs, rfl⟩ := List.exists_cons_of_ne_nil h
  simp only [sumBlocks]
  rw [List.map_cons, List.sum_cons]
  clear h
  induction bs generalizing b with
  | nil => exact ⟨b, rfl, by simp⟩
  | cons c bs ih =>
    obtain ⟨d, h1, h2⟩ := C07_add hA ρ b c
    rw [List.foldlM_cons, h1, ok_bind]
    obtain ⟨e, h3, h4⟩ := ih d
    exact ⟨e, h3, by rw [h4, h2, List.map_cons, List.sum_cons, add_assoc]⟩

/-- The hypotheses can be met: numbers as leaves, 0 is `Zero`, 1 is `I`, 2 is twice the identity. -/
example : ArithOpsOk (⟨fun l => l == 1, fun l => l == 0⟩ : ArithOps ℕ)
    (⟨fun _ => [], fun l => (l : ℂ) • 1, fun _ => (ActsOn.one _).smul _⟩ : LeafSem ℕ 2) :=
  ⟨fun l h => by simp at h; simp [h], fun l h => by simp at h; simp [h]⟩

/-- `2 * (x * 3) - y` -/
example : (do
    let a ← mul (⟨fun _ => false, fun _ => false⟩ : ArithOps ℕ) (.leaf 5 none) (.scalar (.num 3 0))
    let b ← rmul ⟨fun _ => false, fun _ => false⟩ a (.scalar (.num 2 0))
    sub ⟨fun _ => false, fun _ => false⟩ b (.block (.leaf 6 none))) =
    .ok (.comp .add [.scale (.leaf 5 none) (.mul (.num 3 0) (.num 2 0)) none,
      .scale (.leaf 6 none) (.num (-1) 0) none] none) := rfl

end Qadence
