import Verif.Model.Decompose
import Verif.Props.Tomography
import Verif.Props.QFT
import Verif.Proofs.ExpInvol

/-!
# Exponentials of Pauli strings by basis changes and a ladder of CNOT gates
-/

namespace Qadence.Decompose

open Spec Block Matrix Measure Ansatz QFT

variable {n : ℕ}

/-! ### Basis changes -/

/-- The basis change of a letter; `s` is the sign of the angle for Y. -/
noncomputable def zl (s : ℚ) : FixedGate → Matrix Bool Bool ℂ
  | .X => mat1 .H
  | .Y => matRot (((s / 2 : ℚ) : ℂ) * Real.pi) .RX
  | _ => 1

/-- What the circuit exponentiates in place of the letter. -/
noncomputable def img (s : ℚ) : FixedGate → Matrix Bool Bool ℂ
  | .X => mat1 .X
  | .Y => (s : ℂ) • mat1 .Y
  | _ => mat1 .Z

theorem matRot_RX_half {s : ℚ} (hs : s = 1 ∨ s = -1) :
    matRot (((s / 2 : ℚ) : ℂ) * Real.pi) .RX =
      ((Real.sqrt 2 / 2 : ℝ) : ℂ) • (1 + (-Complex.I * s) • mat1 .X) := by
  have h : (((s / 2 : ℚ) : ℂ) * Real.pi) / 2 = ((s * (Real.pi / 4) : ℝ) : ℂ) := by push_cast; ring
  have hc : Real.cos ((s : ℝ) * (Real.pi / 4)) = Real.sqrt 2 / 2 := by
    rcases hs with rfl | rfl <;> simp [Real.cos_pi_div_four, Real.cos_neg]
  have hsn : Real.sin ((s : ℝ) * (Real.pi / 4)) = s * (Real.sqrt 2 / 2) := by
    rcases hs with rfl | rfl <;> simp [Real.sin_pi_div_four, Real.sin_neg]
  ext a b
  rw [Matrix.smul_apply, Matrix.add_apply, Matrix.smul_apply]
  simp only [matRot, h, ← Complex.ofReal_cos, ← Complex.ofReal_sin, hc, hsn]
  cases a <;> cases b <;> simp [mat1, ind] <;> ring

theorem sqrt_half : ((Real.sqrt 2 / 2 : ℝ) : ℂ) * ((Real.sqrt 2 / 2 : ℝ) : ℂ) = 1 / 2 := by
  rw [← Complex.ofReal_mul]
  have : Real.sqrt 2 / 2 * (Real.sqrt 2 / 2) = 1 / 2 := by
    have := Real.mul_self_sqrt (show (0 : ℝ) ≤ 2 by norm_num)
    nlinarith
  rw [this]
  norm_num

theorem X_sq : mat1 .X * mat1 .X = 1 := by
  ext a b
  rw [mul_apply]
  cases a <;> cases b <;> simp [mat1, ind]

theorem zl_inv {s : ℚ} (hs : s = 1 ∨ s = -1) (g : FixedGate) : zl (-s) g * zl s g = 1 := by
  have hs' : -s = 1 ∨ -s = -1 := by rcases hs with rfl | rfl <;> simp
  cases g <;> simp only [zl, mul_one]
  · exact mat1_H_sq
  · rw [matRot_RX_half hs, matRot_RX_half hs', smul_mul_smul_comm, sqrt_half]
    have hss : (s : ℂ) * s = 1 := by rcases hs with rfl | rfl <;> simp
    have : (1 + (-Complex.I * ((-s : ℚ) : ℂ)) • mat1 .X) * (1 + (-Complex.I * s) • mat1 .X) = (2 : ℂ) • 1 := by
      rw [mul_add, add_mul, add_mul, one_mul, mul_one, one_mul, smul_mul_smul_comm, X_sq]
      have e1 : -Complex.I * ((-s : ℚ) : ℂ) * (-Complex.I * s) = 1 := by
        push_cast
        linear_combination (-(Complex.I * Complex.I)) * hss - Complex.I_mul_I
      rw [e1]
      push_cast
      module
    rw [this, smul_smul]
    norm_num

theorem zl_img {s : ℚ} (hs : s = 1 ∨ s = -1) (g : FixedGate) : zl s g * img s g = mat1 .Z * zl s g := by
  cases g <;> simp only [zl, img, mul_one, one_mul]
  · have := rotMat_intertwine .X (.inl rfl)
    simp only [rotMat] at this
    rwa [show mat1 .I = 1 from rfl, mul_one] at this
  · have hXY : mat1 .X * mat1 .Y = Complex.I • mat1 .Z := by
      ext a b
      rw [mul_apply, Matrix.smul_apply]
      cases a <;> cases b <;> simp [mat1, ind]
    have hZX : mat1 .Z * mat1 .X = Complex.I • mat1 .Y := by
      ext a b
      rw [mul_apply, Matrix.smul_apply]
      cases a <;> cases b <;> simp [mat1, ind]
    have hss : (s : ℂ) * s = 1 := by rcases hs with rfl | rfl <;> simp
    rw [matRot_RX_half hs, smul_mul_assoc, mul_smul_comm, mul_smul_comm]
    congr 1
    rw [add_mul, mul_add, one_mul, mul_one, smul_mul_assoc, mul_smul_comm, hXY, hZX, smul_add, smul_smul, smul_smul, smul_smul]
    have e1 : (s : ℂ) * (-Complex.I * s * Complex.I) = 1 := by
      linear_combination (-(Complex.I * Complex.I)) * hss - Complex.I_mul_I
    have e2 : -Complex.I * (s : ℂ) * Complex.I = s := by
      linear_combination (-(s : ℂ)) * Complex.I_mul_I
    rw [mul_assoc] at e1
    simp only [mul_assoc] at e1 e2 ⊢
    rw [e1, e2, one_smul, add_comm]

/-- All basis changes. -/
noncomputable def basis (s : ℚ) (ps : List (FixedGate × ℕ)) : Oper n := locals (ps.map fun p => (p.2, zl s p.1))

/-- The letter on a qubit; Z where there is none. -/
def letterAt (ps : List (FixedGate × ℕ)) (q : ℕ) : FixedGate := ((ps.find? fun p => p.2 = q).map Prod.fst).getD .Z

/-- The product of the letters on a list of qubits. -/
noncomputable def imgString (s : ℚ) (ps : List (FixedGate × ℕ)) (qs : List ℕ) : Oper n :=
  opProd (qs.map fun q => embed1 q (img s (letterAt ps q)))

theorem letterAt_mem {ps : List (FixedGate × ℕ)} (hnd : (ps.map Prod.snd).Nodup) {p : FixedGate × ℕ} (hp : p ∈ ps) :
    letterAt ps p.2 = p.1 := by
  induction ps with
  | nil => simp at hp
  | cons r ps ih =>
    rw [List.map_cons, List.nodup_cons] at hnd
    unfold letterAt
    rw [List.find?_cons]
    rcases List.mem_cons.1 hp with rfl | hp
    · simp
    · have : r.2 ≠ p.2 := fun h => hnd.1 (h ▸ List.mem_map.2 ⟨p, hp, rfl⟩)
      simp only [this, decide_false]
      exact ih hnd.2 hp

theorem letterAt_not_mem {ps : List (FixedGate × ℕ)} {q : ℕ} (h : q ∉ ps.map Prod.snd) : letterAt ps q = .Z := by
  have : ps.find? (fun p => p.2 = q) = none := by
    rw [List.find?_eq_none]
    intro p hp
    simp only [decide_eq_true_eq]
    rintro rfl
    exact h (List.mem_map.2 ⟨p, hp, rfl⟩)
  rw [letterAt, this]
  rfl

theorem basis_img {s : ℚ} (hs : s = 1 ∨ s = -1) {ps : List (FixedGate × ℕ)} (hnd : (ps.map Prod.snd).Nodup) {qs : List ℕ}
    (hq : ∀ q ∈ qs, q < n) : (basis s ps : Oper n) * imgString s ps qs = zString qs * basis s ps := by
  have hnd' : ((ps.map fun p => (p.2, zl s p.1)).map Prod.fst).Nodup := by rwa [List.map_map]
  have key : ∀ q, q < n → (basis s ps : Oper n) * embed1 q (img s (letterAt ps q)) = embed1 q (mat1 .Z) * basis s ps := by
    intro q hq
    by_cases hm : q ∈ ps.map Prod.snd
    · obtain ⟨p, hp, rfl⟩ := List.mem_map.1 hm
      rw [letterAt_mem hnd hp]
      exact locals_intertwine hnd' hq (List.mem_map.2 ⟨p, hp, rfl⟩) (zl_img hs p.1)
    · rw [letterAt_not_mem hm]
      apply locals_commute
      intro r hr
      obtain ⟨p, hp, rfl⟩ := List.mem_map.1 hr
      exact fun h => hm (h ▸ List.mem_map.2 ⟨p, hp, rfl⟩)
  induction qs with
  | nil => simp [imgString, zString, opProd]
  | cons q qs ih =>
    have ih := ih fun r hr => hq r (by simp [hr])
    have e1 : (imgString s ps (q :: qs) : Oper n) = imgString s ps qs * embed1 q (img s (letterAt ps q)) := rfl
    have e2 : (zString (q :: qs) : Oper n) = zString qs * embed1 q (mat1 .Z) := rfl
    rw [e1, e2, ← mul_assoc, ih, mul_assoc, key q (hq q (by simp)), mul_assoc]

theorem basis_inv {s : ℚ} (hs : s = 1 ∨ s = -1) {ps : List (FixedGate × ℕ)} (hq : ∀ p ∈ ps, p.2 < n) :
    (basis (-s) ps.reverse : Oper n) * basis s ps = 1 := by
  induction ps with
  | nil => simp [basis, locals, opProd]
  | cons p ps ih =>
    have ih := ih fun r hr => hq r (by simp [hr])
    have e1 : (basis s (p :: ps) : Oper n) = basis s ps * embed1 p.2 (zl s p.1) := rfl
    have e2 : (basis (-s) (p :: ps).reverse : Oper n) = embed1 p.2 (zl (-s) p.1) * basis (-s) ps.reverse := by
      rw [basis, locals, List.reverse_cons, List.map_append, List.map_append, opProd_append]
      simp [opProd, basis, locals]
    rw [e1, e2, mul_assoc, ← mul_assoc _ (basis s ps), ih, one_mul, embed1_mul (hq p (by simp)), zl_inv hs, embed1_one]

/-! ### The ladder -/

/-- The operator of the ladder of `k` CNOT gates from qubit `a` on. -/
noncomputable def ladderOp (a k : ℕ) : Oper n :=
  opProd ((List.range' a k).map fun i => controlled [i] (embed1 (i + 1) (mat1 .X)))

theorem cnot_eq {i : ℕ} (h : i + 1 < n) : controlled [i] (embed1 (i + 1) (mat1 .X)) = (mapOp (ctrlFlip [i] (i + 1)) : Oper n) :=
  controlled_X ⟨fun _ => 0, fun _ _ => 0⟩ [i] (i + 1) h (by simp)

theorem cnot_sq {i : ℕ} (h : i + 1 < n) :
    controlled [i] (embed1 (i + 1) (mat1 .X)) * controlled [i] (embed1 (i + 1) (mat1 .X)) = (1 : Oper n) := by
  rw [cnot_eq h, mapOp_mul]
  have : (ctrlFlip [i] (i + 1) ∘ ctrlFlip [i] (i + 1) : St n → St n) = id := by
    funext x
    apply st_ext
    intro q _
    simp only [Function.comp_apply, bit_ctrlFlip _ _ _ h, List.mem_singleton, forall_eq, id]
    by_cases hq : q = i + 1
    · subst hq
      by_cases hb : bit x i = true <;> simp [hb]
    · simp [hq]
  rw [this]
  ext x y
  simp [mapOp, one_apply]

theorem zString_apply {qs : List ℕ} (hn : ∀ q ∈ qs, q < n) : (zString qs : Oper n) = diagonal fun x => (qs.map fun q => if bit x q then (-1 : ℂ) else 1).prod := by
  induction qs with
  | nil => simp [zString, opProd]
  | cons q qs ih =>
    have e2 : (zString (q :: qs) : Oper n) = zString qs * embed1 q (mat1 .Z) := rfl
    have : (embed1 q (mat1 .Z) : Oper n) = diagonal fun x => if bit x q then (-1 : ℂ) else 1 := by
      ext x y
      rw [embed1_Z_apply _ (hn q (by simp)), diagonal_apply]
    rw [e2, ih fun r hr => hn r (by simp [hr]), this, diagonal_mul_diagonal]
    congr 1
    funext x
    rw [List.map_cons, List.prod_cons, mul_comm]

theorem cnot_zz {i : ℕ} (h : i + 1 < n) (qs : List ℕ) (hqs : ∀ q ∈ qs, q ≠ i + 1) (hn : ∀ q ∈ qs, q < n) :
    controlled [i] (embed1 (i + 1) (mat1 .X)) * (zString (i :: (i + 1) :: qs) : Oper n) =
      zString ((i + 1) :: qs) * controlled [i] (embed1 (i + 1) (mat1 .X)) := by
  rw [cnot_eq h, zString_apply (by simp only [List.forall_mem_cons]; exact ⟨by omega, h, hn⟩), zString_apply (by simp only [List.forall_mem_cons]; exact ⟨h, hn⟩)]
  ext x y
  rw [mul_diagonal, diagonal_mul, mapOp, of_apply]
  by_cases hxy : x = ctrlFlip [i] (i + 1) y
  · have hq : (qs.map fun q => if bit x q then (-1 : ℂ) else 1) = qs.map fun q => if bit y q then (-1 : ℂ) else 1 := by
      apply List.map_congr_left
      intro q hq
      rw [hxy, bit_ctrlFlip _ _ _ h]
      simp [hqs q hq]
    rw [if_pos hxy]
    simp only [List.map_cons, List.prod_cons, hq]
    rw [hxy, bit_ctrlFlip _ _ _ h]
    cases hi : bit y i <;> cases hb : bit y (i + 1) <;> simp [hb, hi]
  · rw [if_neg hxy]
    simp

theorem ladder_z (a k : ℕ) (h : a + k < n) :
    (ladderOp a k : Oper n) * zString (List.range' a (k + 1)) = embed1 (a + k) (mat1 .Z) * ladderOp a k := by
  induction k generalizing a with
  | zero => simp [ladderOp, opProd, zString]
  | succ k ih =>
    have e1 : (ladderOp a (k + 1) : Oper n) = ladderOp (a + 1) k * controlled [a] (embed1 (a + 1) (mat1 .X)) := rfl
    have e2 : List.range' a (k + 1 + 1) = a :: (a + 1) :: List.range' (a + 1 + 1) k := rfl
    have e3 : List.range' (a + 1) (k + 1) = (a + 1) :: List.range' (a + 1 + 1) k := rfl
    have := ih (a + 1) (by omega)
    rw [e1, e2, mul_assoc, cnot_zz (by omega), ← e3, ← mul_assoc, this, mul_assoc]
    · congr 2
      omega
    · intro q hq
      rw [List.mem_range'_1] at hq
      omega
    · intro q hq
      rw [List.mem_range'_1] at hq
      omega

theorem ladder_inv (a k : ℕ) (h : a + k < n) :
    opProd (((List.range' a k).map fun i => controlled [i] (embed1 (i + 1) (mat1 .X))).reverse) * (ladderOp a k : Oper n) = 1 := by
  induction k generalizing a with
  | zero => simp [ladderOp, opProd]
  | succ k ih =>
    have e1 : (ladderOp a (k + 1) : Oper n) = ladderOp (a + 1) k * controlled [a] (embed1 (a + 1) (mat1 .X)) := rfl
    have e2 : List.range' a (k + 1) = a :: List.range' (a + 1) k := rfl
    rw [e1, e2, List.map_cons, List.reverse_cons, opProd_append, opProd_singleton, mul_assoc, ← mul_assoc _ (ladderOp (a + 1) k),
      ih (a + 1) (by omega), one_mul, cnot_sq (by omega)]

/-! ### The exponential -/

theorem Z_sq : mat1 .Z * mat1 .Z = 1 := by
  ext a b
  rw [mul_apply]
  cases a <;> cases b <;> simp [mat1]

theorem rz_eq (q : ℕ) (θ : ℂ) : (embed1 q (matRot θ .RZ) : Oper n) =
    Complex.cos (θ / 2) • (1 : Oper n) + (-Complex.I * Complex.sin (θ / 2)) • embed1 q (mat1 .Z) := by
  rw [← embed1_one q, ← embed1_smul, ← embed1_smul, ← embed1_add]
  congr 1
  have h1 : Complex.exp (Complex.I * θ / 2) = Complex.cos (θ / 2) + Complex.sin (θ / 2) * Complex.I := by
    rw [← Complex.exp_mul_I]; congr 1; ring
  have h2 : Complex.exp (-(Complex.I * θ / 2)) = Complex.cos (θ / 2) - Complex.sin (θ / 2) * Complex.I := by
    have := Complex.exp_mul_I (-(θ / 2))
    rw [Complex.cos_neg, Complex.sin_neg] at this
    rw [show -(Complex.I * θ / 2) = -(θ / 2) * Complex.I by ring, this]
    ring
  ext a b
  rw [Matrix.add_apply, Matrix.smul_apply, Matrix.smul_apply]
  cases a <;> cases b <;> simp [matRot, mat1, h1, h2] <;> ring

theorem conj_exp {A B M P : Oper n} (hBA : B * A = 1) (hM : M * M = 1) (hP : A * P = M * A) (c s : ℂ) :
    B * (c • 1 + s • M) * A = c • 1 + s • P ∧ P * P = 1 := by
  have hAB : A * B = 1 := mul_eq_one_comm.1 hBA
  have hP' : P = B * M * A := by rw [mul_assoc, ← hP, ← mul_assoc, hBA, one_mul]
  constructor
  · rw [hP', mul_add, add_mul, mul_smul_comm, mul_one, smul_mul_assoc, hBA, mul_smul_comm, smul_mul_assoc]
  · rw [hP']
    calc B * M * A * (B * M * A) = B * M * (A * B) * M * A := by simp only [mul_assoc]
      _ = B * (M * M) * A := by rw [hAB, mul_one]; simp only [mul_assoc]
      _ = 1 := by rw [hM, mul_one, hBA]

/-- Basis change, ladder, rotation, reversed ladder and reversed basis change exponentiate the string on the whole interval. -/
theorem sandwich {s : ℚ} (hs : s = 1 ∨ s = -1) {ps : List (FixedGate × ℕ)} (hnd : (ps.map Prod.snd).Nodup)
    (hq : ∀ p ∈ ps, p.2 < n) {a k : ℕ} (h : a + k < n) (θ : ℂ) :
    (basis (-s) ps.reverse * opProd (((List.range' a k).map fun i => controlled [i] (embed1 (i + 1) (mat1 .X))).reverse)) *
      embed1 (a + k) (matRot θ .RZ) * (ladderOp a k * basis s ps) =
      evolution (θ / 2) (imgString s ps (List.range' a (k + 1)) : Oper n) := by
  have hBA : (basis (-s) ps.reverse * opProd (((List.range' a k).map fun i => controlled [i] (embed1 (i + 1) (mat1 .X))).reverse)) *
      (ladderOp a k * basis s ps) = (1 : Oper n) := by
    rw [mul_assoc, ← mul_assoc _ (ladderOp a k), ladder_inv a k h, one_mul, basis_inv hs hq]
  have hM : (embed1 (a + k) (mat1 .Z) * embed1 (a + k) (mat1 .Z) : Oper n) = 1 := by
    rw [embed1_mul h, Z_sq, embed1_one]
  have hP : (ladderOp a k * basis s ps) * imgString s ps (List.range' a (k + 1)) =
      embed1 (a + k) (mat1 .Z) * (ladderOp a k * basis s ps : Oper n) := by
    rw [mul_assoc, basis_img hs hnd (fun q hq => by rw [List.mem_range'_1] at hq; omega), ← mul_assoc, ladder_z a k h, mul_assoc]
  obtain ⟨h1, h2⟩ := conj_exp hBA hM hP (Complex.cos (θ / 2)) (-Complex.I * Complex.sin (θ / 2))
  rw [rz_eq, h1, evolution, exp_invol_I _ h2]

end Qadence.Decompose
