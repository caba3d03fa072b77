import Mathlib.Tactic
import Mathlib.Analysis.SpecialFunctions.Exponential
import Verif.Spec.DAQC
import Verif.Proofs.Embed1
import Verif.Proofs.Except
import Verif.Props.IIA
import Verif.Props.Measure
import Verif.Props.Passes
import Verif.Props.DAQCIndex
import Verif.Props.Hamiltonian

/-!
# C45: the digital-analog transform reproduces the target evolution
-/

namespace Qadence.DAQC

open Spec Block Finset Matrix

variable {n : ℕ}

/-! ### Diagonal operators -/

/-- Eigenvalue of Z on a basis state. -/
def zq (x : St n) (q : ℕ) : ℚ := if bit x q then -1 else 1

/-- Eigenvalues of the letters Z and N. -/
def lv (g : FixedGate) (x : St n) (q : ℕ) : ℚ := if g = .Z then zq x q else (1 - zq x q) / 2

/-- A diagonal operator with rational entries. -/
noncomputable def dg (d : St n → ℚ) : Oper n := diagonal fun x => ((d x : ℚ) : ℂ)

/-- A diagonal operator of phases. -/
noncomputable def ph (d : St n → ℚ) : Oper n := diagonal fun x => Complex.exp (-(Complex.I * ((d x : ℚ) : ℂ)))

theorem ph_mul (a b : St n → ℚ) : ph a * ph b = ph (fun x => a x + b x) := by
  rw [ph, ph, ph, diagonal_mul_diagonal]
  congr 1
  funext x
  rw [← Complex.exp_add]
  congr 1
  push_cast
  ring

theorem ph_zero : (ph fun _ => 0 : Oper n) = 1 := by
  rw [ph]
  simp

theorem opProd_ph (l : List (St n → ℚ)) : opProd (l.map ph) = ph (fun x => (l.map fun d => d x).sum) := by
  induction l with
  | nil => simp only [List.map_nil, opProd, List.sum_nil]; exact ph_zero.symm
  | cons d l ih =>
    rw [List.map_cons, opProd, ih, ph_mul]
    simp only [List.map_cons, List.sum_cons]
    congr 1
    funext x
    ring

theorem evolution_dg (t : ℚ) (d : St n → ℚ) : evolution (t : ℂ) (dg d) = ph (fun x => t * d x) := by
  rw [evolution, dg, ph, ← diagonal_smul, Matrix.exp_diagonal]
  congr 1
  funext x
  rw [Pi.coe_exp, ← Complex.exp_eq_exp_ℂ, Pi.smul_apply, smul_eq_mul]
  congr 1
  push_cast
  ring

theorem embed1_dg {q : ℕ} (hq : q < n) {g : FixedGate} (hg : g = .Z ∨ g = .N true) :
    (embed1 q (mat1 g) : Oper n) = dg (fun x => lv g x q) := by
  have hZ : (embed1 q (mat1 .Z) : Oper n) = dg (fun x => zq x q) := by
    ext x y
    rw [Measure.embed1_Z_apply q hq, dg, diagonal_apply]
    unfold zq
    split
    · split <;> simp
    · simp
  rcases hg with rfl | rfl
  · rw [hZ]; simp [lv]
  · have : mat1 (.N true) = (1 / 2 : ℂ) • (1 : Matrix Bool Bool ℂ) + (-1 / 2 : ℂ) • mat1 .Z := by
      ext a b
      rw [Matrix.add_apply, Matrix.smul_apply, Matrix.smul_apply]
      cases a <;> cases b <;> simp [mat1, ind] <;> norm_num
    rw [this, embed1_add, embed1_smul, embed1_smul, embed1_one, hZ]
    ext x y
    simp only [dg, lv, Matrix.add_apply, Matrix.smul_apply, smul_eq_mul, diagonal_apply, one_apply]
    split
    · push_cast; simp; ring
    · simp

theorem dg_mul (a b : St n → ℚ) : dg a * dg b = dg (fun x => a x * b x) := by
  rw [dg, dg, dg, diagonal_mul_diagonal]
  congr 1
  funext x
  push_cast
  ring

theorem dg_sum (l : List (St n → ℚ)) : (l.map dg).sum = dg (fun x => (l.map fun d => d x).sum) := by
  induction l with
  | nil => simp [dg]
  | cons d l ih =>
    rw [List.map_cons, List.sum_cons, ih, dg, dg, diagonal_add]
    congr 1
    funext x
    simp

theorem smul_dg (c : ℚ) (d : St n → ℚ) : (c : ℂ) • dg d = dg (fun x => c * d x) := by
  rw [dg, dg, ← diagonal_smul]
  congr 1
  funext x
  simp

/-- The operator of a two-body Hamiltonian. -/
theorem sem_twoBody {g : FixedGate} (hg : g = .Z ∨ g = .N true) {value : Expr → ℚ} {ρ : Env} {gen : Block Gate}
    {cs : List (ℕ × ℕ × ℚ)} (h : TwoBody n g value ρ gen cs) :
    sem (gateSem n ρ) ρ gen = dg (fun x => (cs.map fun e => e.2.2 * (lv g x e.1 * lv g x e.2.1)).sum) := by
  rw [← C13_unroll_exact (gateSem n ρ) ρ gen]
  have key : ((unroll gen).map fun t => eval ρ t.2 • sem (gateSem n ρ) ρ t.1) =
      (cs.map fun e => fun x : St n => e.2.2 * (lv g x e.1 * lv g x e.2.1)).map dg := by
    have ht := h.terms
    clear h
    generalize unroll gen = l at ht ⊢
    induction ht with
    | nil => rfl
    | cons h _ ih =>
      rw [List.map_cons, List.map_cons, List.map_cons, ih]
      congr 1
      obtain ⟨⟨t1, t2, t3, h1⟩, -, -, h2, -, h3, h4⟩ := h
      rw [h1, h2, sem_kron]
      simp only [List.map_cons, List.map_nil, sem_leaf, gateSem_den, gateDen, opProd, one_mul]
      rw [embed1_dg h3 hg, embed1_dg h4 hg, dg_mul, smul_dg]
      congr 1
      funext x
      ring
  rw [key, dg_sum]
  simp only [List.map_map]
  rfl

/-- Sums over the terms as sums over pairs. -/
theorem sum_coupling {cs : List (ℕ × ℕ × ℚ)} (hcs : ∀ e ∈ cs, e.1 ≠ e.2.1 ∧ e.1 < n ∧ e.2.1 < n) (F : ℕ → ℕ → ℚ)
    (hF : ∀ a b, F a b = F b a) :
    (cs.map fun e => e.2.2 * F e.1 e.2.1).sum = ∑ p ∈ P n, coupling cs p * F p.1 p.2 := by
  induction cs with
  | nil => simp [coupling]
  | cons e cs ih =>
    rw [List.map_cons, List.sum_cons, ih fun e he => hcs e (by simp [he])]
    simp only [coupling, List.map_cons, List.sum_cons, add_mul, sum_add_distrib]
    congr 1
    obtain ⟨h1, h2, h3⟩ := hcs e (by simp)
    have hm : (min e.1 e.2.1, max e.1 e.2.1) ∈ P n := mem_P.2 ⟨by simp; omega, by simp; omega⟩
    rw [sum_eq_single (min e.1 e.2.1, max e.1 e.2.1)]
    · rw [if_pos rfl]
      congr 1
      rcases Nat.lt_or_gt_of_ne h1 with h | h
      · simp [min_eq_left h.le, max_eq_right h.le]
      · simp [min_eq_right h.le, max_eq_left h.le, hF e.1 e.2.1]
    · intro b _ hb
      rw [if_neg (Ne.symm hb), zero_mul]
    · intro h; exact absurd hm h

/-! ### Parsing -/

theorem support_pair {ord : List ℕ → List ℕ} (ho : SetOrder ord) {g : FixedGate} {j k : ℕ} (hjk : j ≠ k)
    (ha : ∀ l : List ℕ, (∀ q, q ∈ l ↔ q = j ∨ q = k) → (ord l).Pairwise (· < ·)) (t₁ t₂ t₃) :
    support Gate.supp ord (.comp .kron [.leaf (.fixed g j) t₁, .leaf (.fixed g k) t₂] t₃) = [min j k, max j k] := by
  have hmem : ∀ q, q ∈ support Gate.supp ord (.comp .kron [.leaf (.fixed g j) t₁, .leaf (.fixed g k) t₂] t₃) ↔ q = j ∨ q = k := by
    intro q
    rw [mem_support Gate.supp ord ho, mem_qubits_comp]
    simp [qubits_leaf, Gate.supp]
  have hex : ∃ l, support Gate.supp ord (.comp .kron [.leaf (.fixed g j) t₁, .leaf (.fixed g k) t₂] t₃) = ord l := by
    simp only [support, supports, sumSupports, Gate.supp, List.foldl_cons, List.foldl_nil]
    have e1 : QSupport.add ord (.loc []) (.loc [j]) = .loc (ord [j]) := by simp [QSupport.add]
    have n2 : ord [j] ≠ [k] := by
      intro h
      have := ((ho [j]).2 k).1 (by rw [h]; simp)
      simp at this
      exact hjk this.symm
    have e2 : QSupport.add ord (.loc (ord [j])) (.loc [k]) = .loc (ord (ord [j] ++ [k])) := by simp [QSupport.add, n2]
    have n3 : ord (ord [j] ++ [k]) ≠ [] := by
      intro h
      have := ((ho (ord [j] ++ [k])).2 k).2 (by simp)
      rw [h] at this
      simp at this
    rw [e1, e2]
    exact ⟨ord (ord [j] ++ [k]) ++ [], by simp [QSupport.add, n3, qsList]⟩
  obtain ⟨l, hl⟩ := hex
  rw [hl] at hmem ⊢
  have hs := ha l fun q => by rw [← hmem, (ho l).2]
  have hp : (ord l).Perm [min j k, max j k] := by
    rw [List.perm_ext_iff_of_nodup (ho l).1 (by simp; omega)]
    intro q
    rw [hmem]
    simp only [List.mem_cons, List.not_mem_nil, or_false]
    omega
  exact hp.eq_of_pairwise (fun a b _ _ h1 h2 => by omega) hs (by simp; omega)

/-- The type of a letter. -/
def typeOf (g : FixedGate) : GenType := if g = .Z then .ZZ else .NN

theorem opType_letter {g : FixedGate} (hg : g = .Z ∨ g = .N true) (q : ℕ) (t) : opType (.leaf (.fixed g q) t) = .ok (typeOf g) := by
  rcases hg with rfl | rfl <;> rfl

theorem pos_index {p : ℕ × ℕ} (hp : p ∈ P n) :
    index (flatSize n) (ixMap n ((p.1 : ℤ) + 1) ((p.2 : ℤ) + 1) - 1) = .ok (pos n (up p)) := by
  have h := ix_range (isPair_of_mem (up_mem.2 hp))
  simp only [up] at h
  push_cast at h
  rw [index, if_pos (by omega)]
  simp [pos, up]

theorem parse_fold {ord : List ℕ → List ℕ} (ho : SetOrder ord) {g : FixedGate}
    (hg : g = .Z ∨ g = .N true) {value : Expr → ℚ} {ρ : Env} (tol : ℚ) {l : List (Block Gate × Expr)}
    {cs : List (ℕ × ℕ × ℚ)} (ha : Ascending ord cs)
    (h : List.Forall₂ (fun (t : Block Gate × Expr) (e : ℕ × ℕ × ℚ) =>
      (∃ t₁ t₂ t₃, t.1 = .comp .kron [.leaf (.fixed g e.1) t₁, .leaf (.fixed g e.2.1) t₂] t₃) ∧
      (∀ x, t.2 ≠ .var x) ∧ value t.2 = e.2.2 ∧ eval ρ t.2 = (e.2.2 : ℂ) ∧ e.1 ≠ e.2.1 ∧ e.1 < n ∧ e.2.1 < n) l cs)
    (st : Parse) : ∃ st', l.foldlM (parseTerm ord value n tol) st = .ok st' ∧
      (∀ p ∈ P n, st'.flat (pos n (up p)) = st.flat (pos n (up p)) + coupling cs p) ∧
      (∀ p ∈ P n, st'.mat p.1 p.2 = st.mat p.1 p.2 + coupling cs p ∧ st'.mat p.2 p.1 = st.mat p.2 p.1 + coupling cs p) ∧
      (∀ a, st'.mat a a = st.mat a a) ∧ st'.types = st.types ++ List.replicate (2 * cs.length) (typeOf g) := by
  induction h generalizing st with
  | nil => exact ⟨st, rfl, by simp [coupling], by simp [coupling], by simp, by simp⟩
  | @cons t e l cs h _ ih =>
    obtain ⟨⟨t1, t2, t3, h1⟩, hv, hval, -, hne, hj, hk⟩ := h
    have hp0 : (min e.1 e.2.1, max e.1 e.2.1) ∈ P n := mem_P.2 ⟨by simp; omega, by simp; omega⟩
    have hstep : parseTerm ord value n tol st t = .ok
        { flat := Function.update st.flat (pos n (up (min e.1 e.2.1, max e.1 e.2.1)))
            (st.flat (pos n (up (min e.1 e.2.1, max e.1 e.2.1))) + e.2.2)
          mat := fun a b => if (a = min e.1 e.2.1 ∧ b = max e.1 e.2.1) ∨ (a = max e.1 e.2.1 ∧ b = min e.1 e.2.1)
            then st.mat a b + e.2.2 else st.mat a b
          types := st.types ++ [typeOf g, typeOf g] } := by
      have hnp : isParameter t.2 = false := by
        cases ht : t.2 with
        | var x => exact absurd ht (hv x)
        | _ => rfl
      rw [parseTerm, hnp, h1]
      simp only [Bool.false_eq_true, if_false]
      rw [List.mapM_cons, List.mapM_cons, List.mapM_nil, opType_letter hg, opType_letter hg,
        support_pair ho hne (ha e (by simp)), hval]
      simp only [ok_bind, pure_eq_ok, addCoupling]
      have := pos_index hp0
      simp only at this
      rw [this, ok_bind, if_pos (by omega)]
    obtain ⟨st', h2, h3, h4, h5, h6⟩ := ih (fun e he => ha e (by simp [he])) _
    refine ⟨st', by rw [List.foldlM_cons, hstep, ok_bind]; exact h2, ?_, ?_, ?_, ?_⟩
    · intro p hp
      rw [h3 p hp]
      simp only [coupling, List.map_cons, List.sum_cons]
      by_cases hpe : (min e.1 e.2.1, max e.1 e.2.1) = p
      · rw [if_pos hpe, hpe, Function.update_self]; ring
      · rw [if_neg hpe, Function.update_of_ne, zero_add]
        intro hh
        exact hpe (up_inj (pos_inj (up_mem.2 hp) (up_mem.2 hp0) hh)).symm
    · intro p hp
      have hp' := mem_P.1 hp
      rw [(h4 p hp).1, (h4 p hp).2]
      simp only [coupling, List.map_cons, List.sum_cons]
      by_cases hpe : (min e.1 e.2.1, max e.1 e.2.1) = p
      · subst hpe
        simp
        constructor <;> ring
      · have hpe' : ¬ (p.1 = min e.1 e.2.1 ∧ p.2 = max e.1 e.2.1) := fun hh => hpe (Prod.ext hh.1.symm hh.2.symm)
        have hpe2 : ¬ (p.1 = max e.1 e.2.1 ∧ p.2 = min e.1 e.2.1) := by omega
        have hpe3 : ¬ (p.2 = max e.1 e.2.1 ∧ p.1 = min e.1 e.2.1) := fun hh => hpe' ⟨hh.2, hh.1⟩
        have hpe4 : ¬ (p.2 = min e.1 e.2.1 ∧ p.1 = max e.1 e.2.1) := by omega
        rw [if_neg hpe, if_neg (by tauto), if_neg (by tauto), zero_add]
        exact ⟨rfl, rfl⟩
    · intro a
      rw [h5]
      simp only
      rw [if_neg (by omega)]
    · rw [h6]
      simp only [List.length_cons, List.append_assoc]
      rw [show 2 * (cs.length + 1) = 2 + 2 * cs.length by ring, List.replicate_add]
      rfl

theorem parse_twoBody {ord : List ℕ → List ℕ} (ho : SetOrder ord) {g : FixedGate}
    (hg : g = .Z ∨ g = .N true) {value : Expr → ℚ} {ρ : Env} (tol : ℚ) {gen : Block Gate}
    {cs : List (ℕ × ℕ × ℚ)} (ha : Ascending ord cs) (h : TwoBody n g value ρ gen cs) : ∃ flat mat,
      parse ord value n gen tol = .ok (flat, mat, typeOf g) ∧
      (∀ p ∈ P n, flat (pos n (up p)) = if coupling cs p = 0 then tol else coupling cs p) ∧
      (∀ p ∈ P n, mat p.1 p.2 = coupling cs p ∧ mat p.2 p.1 = coupling cs p) ∧ ∀ a, mat a a = 0 := by
  obtain ⟨st, h1, h2, h3, h4, h5⟩ := parse_fold ho hg tol ha h.terms ⟨fun _ => 0, fun _ _ => 0, []⟩
  refine ⟨fun i => if st.flat i = 0 then tol else st.flat i, st.mat, ?_, ?_, ?_, ?_⟩
  · rw [parse, h1, ok_bind]
    have hlen : cs.length ≠ 0 := by simpa using h.nonempty
    have hall : ∀ ty, st.types.all (· = ty) = decide (typeOf g = ty) := by
      intro ty
      rw [h5, List.nil_append]
      obtain ⟨m, hm⟩ : ∃ m, 2 * cs.length = m + 1 := ⟨2 * cs.length - 1, by omega⟩
      rw [hm, List.all_replicate]
      simp
    have hne : (!st.types.isEmpty) = true := by
      rw [h5, List.nil_append, show 2 * cs.length = (2 * cs.length - 1) + 1 by omega, List.replicate_succ]
      rfl
    simp only [hall, hne]
    rcases hg with rfl | rfl
    · simp [typeOf, ok_bind, pure_eq_ok]
    · simp [typeOf, ok_bind, pure_eq_ok]
  · intro p hp
    simp only [h2 p hp, zero_add]
  · intro p hp
    have := h3 p hp
    simpa using this
  · intro a
    rw [h4]

end Qadence.DAQC
