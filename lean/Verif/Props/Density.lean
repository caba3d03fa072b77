import Mathlib.Tactic
import Mathlib.Analysis.SpecialFunctions.Log.NegMulLog
import Mathlib.Analysis.Calculus.Deriv.MeanValue
import Mathlib.Data.List.GetD
import Mathlib.LinearAlgebra.Matrix.Charpoly.Basic
import Verif.Model.Density
import Verif.Proofs.Except
import Verif.Spec.Density

/-!
# C74: purity, entropy, fidelity and equivalence of states
-/

namespace Qadence.Density

open Matrix Spec.Density

open scoped ComplexOrder

variable {d : ℕ}

namespace Assumed

/-- What is assumed about the decompositions of torch, for Hermitian matrices only. -/
structure TorchOk (T : LinAlg d) : Prop where
  eigh : ∀ M : Mat d, M.IsHermitian → Decomposes M (T.eigh M).1 (T.eigh M).2
  eigvalsh : ∀ M : Mat d, M.IsHermitian → ∃ V, Decomposes M (T.eigvalsh M) V

end Assumed

open Assumed

/-! ### Eigenvalues -/

theorem decomposes_charpoly {M V : Mat d} {w : Fin d → ℝ} (h : Decomposes M w V) :
    M.charpoly = ∏ i, (Polynomial.X - Polynomial.C (w i : ℂ)) := by
  rw [h.eq, Matrix.charpoly_mul_comm, ← mul_assoc, h.unitary, one_mul, charpoly_diagonal]

/-- Functions of the eigenvalues have the same sums for matrices of the same characteristic polynomial. -/
theorem sum_eig {M N V W : Mat d} {w v : Fin d → ℝ} (h : Decomposes M w V) (h' : Decomposes N v W)
    (e : M.charpoly = N.charpoly) (f : ℝ → ℝ) : ∑ i, f (w i) = ∑ i, f (v i) := by
  rw [decomposes_charpoly h, decomposes_charpoly h'] at e
  have r : ∀ u : Fin d → ℝ, (∏ i, (Polynomial.X - Polynomial.C (u i : ℂ))).roots = Finset.univ.val.map fun i => (u i : ℂ) := by
    intro u
    rw [← Polynomial.roots_multiset_prod_X_sub_C (Finset.univ.val.map fun i => (u i : ℂ)), Multiset.map_map]
    rfl
  have e2 := congrArg Polynomial.roots e
  rw [r, r] at e2
  have e3 := congrArg (fun s : Multiset ℂ => (s.map fun z => f z.re).sum) e2
  simp only [Multiset.map_map, Function.comp_def, Complex.ofReal_re] at e3
  exact e3

theorem decomposes_spectral {M : Mat d} (h : M.IsHermitian) :
    Decomposes M h.eigenvalues (h.eigenvectorUnitary : Mat d) := by
  constructor
  · exact Unitary.coe_star_mul_self h.eigenvectorUnitary
  · have := h.spectral_theorem
    rw [Unitary.conjStarAlgAut_apply] at this
    exact this

theorem decomposes_trace {M V : Mat d} {w : Fin d → ℝ} (h : Decomposes M w V) : M.trace = ∑ i, (w i : ℂ) := by
  rw [h.eq, trace_mul_comm, ← mul_assoc, h.unitary, one_mul, trace_diagonal]

theorem decomposes_pow {M V : Mat d} {w : Fin d → ℝ} (h : Decomposes M w V) (k : ℕ) :
    Decomposes (M ^ k) (fun i => w i ^ k) V := by
  refine ⟨h.unitary, ?_⟩
  have hV : V * Vᴴ = 1 := mul_eq_one_comm.1 h.unitary
  induction k with
  | zero =>
    have : (diagonal fun i => (((w i ^ 0 : ℝ)) : ℂ)) = (1 : Mat d) := by simp
    rw [this, mul_one, hV, pow_zero]
  | succ k ih =>
    rw [pow_succ, ih]
    conv_lhs => rw [h.eq]
    rw [show V * diagonal (fun i => ((w i ^ k : ℝ) : ℂ)) * Vᴴ * (V * diagonal (fun i => (w i : ℂ)) * Vᴴ) =
      V * diagonal (fun i => ((w i ^ k : ℝ) : ℂ)) * (Vᴴ * V) * (diagonal (fun i => (w i : ℂ)) * Vᴴ) by
        simp only [mul_assoc], h.unitary, mul_one, ← mul_assoc, mul_assoc V, diagonal_mul_diagonal]
    congr 3
    ext i
    push_cast
    rw [pow_succ]

theorem decomposes_eig {M V : Mat d} {w : Fin d → ℝ} (h : Decomposes M w V) (i : Fin d) :
    ((w i : ℝ) : ℂ) = (Vᴴ * M * V) i i := by
  rw [h.eq, show Vᴴ * (V * diagonal (fun i => (w i : ℂ)) * Vᴴ) * V = (Vᴴ * V) * diagonal (fun i => (w i : ℂ)) * (Vᴴ * V) by
    simp only [mul_assoc], h.unitary, one_mul, mul_one, diagonal_apply_eq]

theorem decomposes_nonneg {M V : Mat d} {w : Fin d → ℝ} (h : Decomposes M w V) (hM : M.PosSemidef) (i : Fin d) :
    0 ≤ w i := by
  have := (hM.conjTranspose_mul_mul_same V).diag_nonneg (i := i)
  rw [← decomposes_eig h i] at this
  exact_mod_cast this

/-- A matrix built from non-negative eigenvalues is positive. -/
theorem decomposes_pos {M V : Mat d} {w : Fin d → ℝ} (h : Decomposes M w V) (hw : ∀ i, 0 ≤ w i) : M.PosSemidef := by
  rw [h.eq]
  refine PosSemidef.mul_mul_conjTranspose_same (PosSemidef.diagonal fun i => ?_) V
  show (0 : ℂ) ≤ (w i : ℂ)
  exact_mod_cast hw i

/-! ### Purity -/

/-- The purity of order `k` is the trace of the k-th power, for every Hermitian matrix of the batch. -/
theorem C74_purity (T : LinAlg d) (hT : TorchOk T) (rhos : List (Mat d)) (h : ∀ r ∈ rhos, r.IsHermitian) (k : ℕ) :
    (purity T rhos k).map (fun x : ℝ => (x : ℂ)) = rhos.map fun r => (r ^ k).trace := by
  rw [purity, List.map_map]
  refine List.map_congr_left fun r hr => ?_
  obtain ⟨V, hV⟩ := hT.eigvalsh r (h r hr)
  rw [Function.comp_apply, purityRow, decomposes_trace (decomposes_pow hV k)]
  push_cast
  rfl

/-- The purity of a state is at most one, and one exactly for projectors. -/
theorem C74_purity_one (T : LinAlg d) (hT : TorchOk T) (rho : Mat d) (h : IsState rho) :
    purityRow T 2 rho ≤ 1 ∧ (purityRow T 2 rho = 1 ↔ rho * rho = rho) := by
  obtain ⟨V, hV⟩ := hT.eigvalsh rho h.pos.isHermitian
  have h0 := decomposes_nonneg hV h.pos
  have hs : ∑ i, T.eigvalsh rho i = 1 := by
    have := (decomposes_trace hV).symm.trans h.trace
    exact_mod_cast this
  have h1 : ∀ i, T.eigvalsh rho i ≤ 1 := fun i => by
    rw [← hs]
    exact Finset.single_le_sum (fun j _ => h0 j) (Finset.mem_univ i)
  have hle : ∀ i ∈ Finset.univ, T.eigvalsh rho i ^ 2 ≤ T.eigvalsh rho i := fun i _ => by
    nlinarith [h0 i, h1 i]
  refine ⟨by rw [purityRow, ← hs]; exact Finset.sum_le_sum hle, ?_⟩
  rw [purityRow]
  constructor
  · intro e
    rw [← hs, Finset.sum_eq_sum_iff_of_le hle] at e
    have := decomposes_pow hV 2
    rw [← pow_two, this.eq]
    conv_rhs => rw [hV.eq]
    congr 3
    ext i
    rw [e i (Finset.mem_univ i)]
  · intro e
    have h2 := decomposes_trace (decomposes_pow hV 2)
    rw [pow_two, e, h.trace] at h2
    exact_mod_cast h2.symm

/-! ### Entropy -/

theorem negMulLog_mono {x y : ℝ} (hx : 0 ≤ x) (hxy : x ≤ y) (hy : y ≤ Real.exp (-1)) :
    Real.negMulLog x ≤ Real.negMulLog y := by
  have : MonotoneOn Real.negMulLog (Set.Icc 0 (Real.exp (-1))) := by
    refine monotoneOn_of_deriv_nonneg (convex_Icc _ _) Real.continuous_negMulLog.continuousOn ?_ ?_
    · intro z hz
      rw [interior_Icc] at hz
      exact (Real.differentiableAt_negMulLog_iff.2 hz.1.ne').differentiableWithinAt
    · intro z hz
      rw [interior_Icc] at hz
      rw [Real.deriv_negMulLog hz.1.ne']
      have := Real.log_lt_log hz.1 hz.2
      rw [Real.log_exp] at this
      linarith
  exact this ⟨hx, hxy.trans hy⟩ ⟨hx.trans hxy, hy⟩ hxy

theorem entropyRow_eq (T : LinAlg d) (eps : ℝ) (rho : Mat d) :
    entropyRow T eps rho = (∑ i, Real.negMulLog (validEig eps (normalizedEigs T rho i))) / Real.log 2 := by
  rw [entropyRow, ← Finset.sum_neg_distrib, Finset.sum_div]
  refine Finset.sum_congr rfl fun i _ => ?_
  rw [Real.negMulLog]
  ring

theorem vonNeumann_eq (T : LinAlg d) (hT : TorchOk T) (rho : Mat d) (h : rho.IsHermitian) :
    vonNeumann h = (∑ i, Real.negMulLog (normalizedEigs T rho i)) / Real.log 2 := by
  obtain ⟨V, hV⟩ := hT.eigvalsh rho h
  have ht : rho.trace.re = ∑ i, T.eigvalsh rho i := by
    rw [decomposes_trace hV]
    simp
  have := sum_eig (decomposes_spectral h) hV rfl fun x => Real.negMulLog (x / rho.trace.re)
  rw [vonNeumann, ← Finset.sum_neg_distrib]
  simp only [normalizedEigs, ← ht]
  rw [← this, Finset.sum_div]
  refine Finset.sum_congr rfl fun i _ => ?_
  rw [Real.negMulLog, Real.logb]
  ring

/-- For a positive matrix of any positive trace the result is at least the von Neumann entropy of the normalised
matrix, and exceeds it by at most `-eps log₂ eps` for every eigenvalue below `eps`. -/
theorem C74_entropy (T : LinAlg d) (hT : TorchOk T) (rho : Mat d) (h : rho.PosSemidef) {eps : ℝ}
    (h1 : eps ≤ Real.exp (-1)) :
    vonNeumann h.isHermitian ≤ entropyRow T eps rho ∧
      entropyRow T eps rho ≤ vonNeumann h.isHermitian +
        (Finset.univ.filter fun i => h.isHermitian.eigenvalues i / rho.trace.re < eps).card * (-eps * Real.logb 2 eps) := by
  obtain ⟨V, hV⟩ := hT.eigvalsh rho h.isHermitian
  have hn := decomposes_nonneg hV h
  have hw : ∀ i, 0 ≤ normalizedEigs T rho i := fun i => div_nonneg (hn i) (Finset.sum_nonneg fun j _ => hn j)
  have hl : 0 < Real.log 2 := Real.log_pos (by norm_num)
  have ht : rho.trace.re = ∑ i, T.eigvalsh rho i := by
    rw [decomposes_trace hV]
    simp
  have hc := sum_eig (decomposes_spectral h.isHermitian) hV rfl
    fun x => if x / rho.trace.re < eps then (1 : ℝ) else 0
  have hcard : ((Finset.univ.filter fun i => h.isHermitian.eigenvalues i / rho.trace.re < eps).card : ℝ) =
      ∑ i, if normalizedEigs T rho i < eps then (1 : ℝ) else 0 := by
    rw [Finset.card_filter]
    push_cast
    simp only [normalizedEigs, ← ht]
    exact hc
  rw [vonNeumann_eq T hT rho h.isHermitian, entropyRow_eq]
  have step : ∀ i, Real.negMulLog (normalizedEigs T rho i) ≤ Real.negMulLog (validEig eps (normalizedEigs T rho i)) ∧
      Real.negMulLog (validEig eps (normalizedEigs T rho i)) ≤ Real.negMulLog (normalizedEigs T rho i) +
        (if normalizedEigs T rho i < eps then (1 : ℝ) else 0) * Real.negMulLog eps := by
    intro i
    unfold validEig
    split
    · next hlt =>
      refine ⟨negMulLog_mono (hw i) hlt.le h1, ?_⟩
      have := Real.negMulLog_nonneg (hw i) (by
        have := Real.exp_le_one_iff.2 (show (-1 : ℝ) ≤ 0 by norm_num)
        linarith)
      linarith
    · simp
  constructor
  · exact div_le_div_of_nonneg_right (Finset.sum_le_sum fun i _ => (step i).1) hl.le
  · rw [hcard]
    have := Finset.sum_le_sum fun i (_ : i ∈ Finset.univ) => (step i).2
    rw [Finset.sum_add_distrib, ← Finset.sum_mul] at this
    have h2 := div_le_div_of_nonneg_right this hl.le
    refine h2.trans_eq ?_
    rw [add_div, Real.negMulLog, Real.logb]
    ring

/-- If no eigenvalue lies below `eps`, the result is the von Neumann entropy. -/
theorem C74_entropy_exact (T : LinAlg d) (hT : TorchOk T) (rho : Mat d) (h : rho.PosSemidef) {eps : ℝ}
    (he : ∀ i, eps ≤ h.isHermitian.eigenvalues i / rho.trace.re) :
    entropyRow T eps rho = vonNeumann h.isHermitian := by
  obtain ⟨V, hV⟩ := hT.eigvalsh rho h.isHermitian
  have ht : rho.trace.re = ∑ i, T.eigvalsh rho i := by
    rw [decomposes_trace hV]
    simp
  have hs := decomposes_spectral h.isHermitian
  have := sum_eig hs hV rfl fun x => Real.negMulLog (validEig eps (x / rho.trace.re))
  rw [entropyRow_eq]
  have h2 := sum_eig hs hV rfl fun x => Real.negMulLog (x / rho.trace.re)
  rw [vonNeumann_eq T hT rho h.isHermitian]
  simp only [normalizedEigs, ← ht]
  rw [← this, ← h2]
  congr 1
  refine Finset.sum_congr rfl fun i _ => ?_
  rw [validEig, if_neg (not_lt.2 (he i))]

/-! ### Fidelity -/

theorem sqrtMat_spec (T : LinAlg d) (hT : TorchOk T) (rho : Mat d) (h : rho.PosSemidef) : IsSqrt (sqrtMat T rho) rho := by
  have hV := hT.eigh rho h.isHermitian
  have h0 := decomposes_nonneg hV h
  have hD : Decomposes (sqrtMat T rho) (fun i => Real.sqrt (max ((T.eigh rho).1 i) 0)) (T.eigh rho).2 :=
    ⟨hV.unitary, by rw [sqrtMat, ← mul_assoc]; rfl⟩
  refine ⟨decomposes_pos hD fun i => Real.sqrt_nonneg _, ?_⟩
  have := decomposes_pow hD 2
  rw [← pow_two, this.eq]
  conv_rhs => rw [hV.eq]
  congr 3
  ext i
  rw [Real.sq_sqrt (le_max_right _ _), max_eq_left (h0 i)]

theorem fidelity_hermitian {S sigma : Mat d} (hS : S.PosSemidef) (hs : sigma.PosSemidef) :
    (S * (sigma * S)).PosSemidef := by
  have := hs.mul_mul_conjTranspose_same S
  rwa [hS.isHermitian.eq, mul_assoc] at this

theorem charpoly_sandwich (S sigma rho : Mat d) (h : S * S = rho) : (S * (sigma * S)).charpoly = (sigma * rho).charpoly := by
  rw [Matrix.charpoly_mul_comm, mul_assoc, h]

/-- The trace of a positive matrix from the eigenvalues of its square. -/
theorem trace_sqrt {R M V : Mat d} {w : Fin d → ℝ} (hR : R.PosSemidef) (hM : Decomposes M w V)
    (h : (R * R).charpoly = M.charpoly) : ((∑ i, Real.sqrt (max (w i) 0) : ℝ) : ℂ) = R.trace := by
  have hr := decomposes_spectral hR.isHermitian
  have h0 := decomposes_nonneg hr hR
  have h2 := decomposes_pow hr 2
  rw [pow_two] at h2
  rw [← sum_eig h2 hM h fun x => Real.sqrt (max x 0), decomposes_trace hr]
  push_cast
  refine Finset.sum_congr rfl fun i _ => ?_
  rw [max_eq_left (sq_nonneg _), Real.sqrt_sq (h0 i)]

/-- The fidelity of positive matrices is the trace of the positive square root of `√ρ σ √ρ`. -/
theorem C74_fidelity (T : LinAlg d) (hT : TorchOk T) (rho sigma : Mat d) (hr : rho.PosSemidef) (hs : sigma.PosSemidef) :
    (∃ S R, IsSqrt S rho ∧ IsSqrt R (S * sigma * S)) ∧
    ∀ S R, IsSqrt S rho → IsSqrt R (S * sigma * S) → (fidelityRow T rho sigma : ℂ) = R.trace := by
  have hS := sqrtMat_spec T hT rho hr
  have hB := fidelity_hermitian hS.pos hs
  refine ⟨⟨_, _, hS, sqrtMat_spec T hT _ (by rw [mul_assoc]; exact hB)⟩, fun S R h1 h2 => ?_⟩
  obtain ⟨V, hV⟩ := hT.eigvalsh _ hB.isHermitian
  refine trace_sqrt h2.pos hV ?_
  rw [h2.sq, mul_assoc, charpoly_sandwich S sigma rho h1.sq, charpoly_sandwich _ sigma rho hS.sq]

/-- The fidelity is symmetric. -/
theorem C74_fidelity_symm (T : LinAlg d) (hT : TorchOk T) (rho sigma : Mat d) (hr : rho.PosSemidef)
    (hs : sigma.PosSemidef) : fidelityRow T rho sigma = fidelityRow T sigma rho := by
  have hS := sqrtMat_spec T hT rho hr
  have hS' := sqrtMat_spec T hT sigma hs
  obtain ⟨V, hV⟩ := hT.eigvalsh _ (fidelity_hermitian hS.pos hs).isHermitian
  obtain ⟨W, hW⟩ := hT.eigvalsh _ (fidelity_hermitian hS'.pos hr).isHermitian
  refine sum_eig hV hW ?_ fun x => Real.sqrt (max x 0)
  rw [charpoly_sandwich _ sigma rho hS.sq, charpoly_sandwich _ rho sigma hS'.sq, Matrix.charpoly_mul_comm]

/-- The fidelity of a state with itself is one. -/
theorem C74_fidelity_self (T : LinAlg d) (hT : TorchOk T) (rho : Mat d) (h : IsState rho) : fidelityRow T rho rho = 1 := by
  obtain ⟨⟨S, -, hS, -⟩, key⟩ := C74_fidelity T hT rho rho h.pos h.pos
  have : IsSqrt rho (S * rho * S) := ⟨h.pos, by rw [← hS.sq]; simp only [mul_assoc]⟩
  have := key S rho hS this
  rw [h.trace] at this
  exact_mod_cast this

theorem proj_mul (ψ φ : Fin d → ℂ) : proj ψ * proj φ = (star ψ ⬝ᵥ φ) • vecMulVec ψ (star φ) := by
  rw [proj, proj, vecMulVec_mul_vecMulVec, vecMulVec_smul]

theorem proj_pos (ψ : Fin d → ℂ) : (proj ψ).PosSemidef := posSemidef_vecMulVec_self_star ψ

theorem proj_trace (ψ : Fin d → ℂ) : (proj ψ).trace = star ψ ⬝ᵥ ψ := by
  rw [proj, trace_vecMulVec, dotProduct_comm]

/-- The fidelity of two normalised pure states is the absolute value of their scalar product. -/
theorem C74_fidelity_pure (T : LinAlg d) (hT : TorchOk T) (ψ φ : Fin d → ℂ) (hψ : star ψ ⬝ᵥ ψ = 1) :
    fidelityRow T (proj ψ) (proj φ) = ‖star ψ ⬝ᵥ φ‖ := by
  obtain ⟨-, key⟩ := C74_fidelity T hT (proj ψ) (proj φ) (proj_pos ψ) (proj_pos φ)
  have h1 : IsSqrt (proj ψ) (proj ψ) := ⟨proj_pos ψ, by rw [proj_mul, hψ, one_smul]; rfl⟩
  have hc : star φ ⬝ᵥ ψ = star (star ψ ⬝ᵥ φ) := by
    rw [star_dotProduct]
  have hsand : proj ψ * proj φ * proj ψ = ((‖star ψ ⬝ᵥ φ‖ ^ 2 : ℝ) : ℂ) • proj ψ := by
    rw [proj_mul, smul_mul_assoc, proj, vecMulVec_mul_vecMulVec, vecMulVec_smul, smul_smul, hc]
    congr 1
    rw [mul_comm, Complex.star_def, ← Complex.normSq_eq_conj_mul_self, Complex.normSq_eq_norm_sq]
  have h2 : IsSqrt (((‖star ψ ⬝ᵥ φ‖ : ℝ) : ℂ) • proj ψ) (proj ψ * proj φ * proj ψ) := by
    refine ⟨(proj_pos ψ).smul (by exact_mod_cast norm_nonneg _), ?_⟩
    rw [hsand, smul_mul_smul_comm, h1.sq]
    push_cast
    rw [pow_two]
  have := key _ _ h1 h2
  rw [trace_smul, proj_trace, hψ, smul_eq_mul, mul_one] at this
  exact_mod_cast this

/-- The trace of the square root of `S σ S` is at most the mean of the traces. -/
theorem trace_le_mean {S Q R : Mat d} (hS : S.PosSemidef) (hQ : Q.PosSemidef) (hR : R.PosSemidef)
    (h : R * R = S * (Q * Q) * S) : 2 * R.trace.re ≤ (S * S).trace.re + (Q * Q).trace.re := by
  have hr := decomposes_spectral hR.isHermitian
  set V : Mat d := (hR.isHermitian.eigenvectorUnitary : Mat d) with hVdef
  set r := hR.isHermitian.eigenvalues with hrdef
  have hV : V * Vᴴ = 1 := mul_eq_one_comm.1 hr.unitary
  have conj : ∀ f g : Fin d → ℂ, V * diagonal f * Vᴴ * (V * diagonal g * Vᴴ) = V * diagonal (fun i => f i * g i) * Vᴴ := by
    intro f g
    rw [show V * diagonal f * Vᴴ * (V * diagonal g * Vᴴ) = V * diagonal f * (Vᴴ * V) * (diagonal g * Vᴴ) by
      simp only [mul_assoc], hr.unitary, mul_one, ← mul_assoc, mul_assoc V, diagonal_mul_diagonal]
  set P : Mat d := V * diagonal (fun i => ((r i)⁻¹ : ℂ)) * Vᴴ with hP
  have hPH : Pᴴ = P := by
    rw [hP, conjTranspose_mul, conjTranspose_mul, conjTranspose_conjTranspose, diagonal_conjTranspose, mul_assoc]
    congr 3
    ext i
    simp
  have e1 : R * R * P = R := by
    rw [hr.eq, hP, conj, conj]
    congr 3
    ext i
    by_cases h0 : (r i : ℂ) = 0
    · simp [h0]
    · field_simp
  have e2 : P * R * P = P := by
    rw [hr.eq, hP, conj, conj]
    congr 3
    ext i
    by_cases h0 : (r i : ℂ) = 0
    · simp [h0]
    · field_simp
  set A : Mat d := S * Q with hA
  have hAA : A * Aᴴ = R * R := by
    rw [h, hA, conjTranspose_mul, hS.isHermitian.eq, hQ.isHermitian.eq]
    simp only [mul_assoc]
  set U : Mat d := P * A with hU
  have hUH : Uᴴ = Aᴴ * P := by rw [hU, conjTranspose_mul, hPH]
  have hAU : A * Uᴴ = R := by rw [hUH, ← mul_assoc, hAA, e1]
  have hproj : (Uᴴ * U) * (Uᴴ * U) = Uᴴ * U := by
    calc (Uᴴ * U) * (Uᴴ * U) = Uᴴ * (P * (A * Uᴴ) * P) * A := by rw [hU]; simp only [mul_assoc]
      _ = Uᴴ * U := by rw [hAU, e2, hU, mul_assoc]
  have hGH : (Uᴴ * U)ᴴ = Uᴴ * U := by rw [conjTranspose_mul, conjTranspose_conjTranspose]
  -- the part of σ seen by U
  have h3 : (U * (Q * Q) * Uᴴ).trace.re ≤ (Q * Q).trace.re := by
    have hpos := (posSemidef_self_mul_conjTranspose ((1 - Uᴴ * U) * Q)).trace_nonneg
    have e : ((1 - Uᴴ * U) * Q * ((1 - Uᴴ * U) * Q)ᴴ).trace = (Q * Q).trace - (U * (Q * Q) * Uᴴ).trace := by
      rw [conjTranspose_mul (1 - Uᴴ * U) Q, hQ.isHermitian.eq, conjTranspose_sub, conjTranspose_one, hGH,
        show (1 - Uᴴ * U) * Q * (Q * (1 - Uᴴ * U)) = (1 - Uᴴ * U) * (Q * Q * (1 - Uᴴ * U)) by simp only [mul_assoc],
        trace_mul_comm, mul_assoc,
        show (1 - Uᴴ * U) * (1 - Uᴴ * U) = 1 - Uᴴ * U by
          rw [mul_sub, sub_mul, sub_mul, hproj]; simp,
        mul_sub, mul_one, trace_sub, ← mul_assoc, trace_mul_comm _ U, ← mul_assoc]
    rw [e] at hpos
    have := (Complex.le_def.1 hpos).1
    simp only [Complex.zero_re, Complex.sub_re] at this
    linarith
  have hpos := (posSemidef_self_mul_conjTranspose (S - U * Q)).trace_nonneg
  have hRre : (U * Q * S).trace = star R.trace := by
    rw [← trace_conjTranspose, ← hAU, conjTranspose_mul, conjTranspose_conjTranspose, hA, conjTranspose_mul,
      hS.isHermitian.eq, hQ.isHermitian.eq, mul_assoc]
  have e : ((S - U * Q) * (S - U * Q)ᴴ).trace =
      (S * S).trace - R.trace - star R.trace + (U * (Q * Q) * Uᴴ).trace := by
    rw [conjTranspose_sub, conjTranspose_mul, hS.isHermitian.eq, hQ.isHermitian.eq, mul_sub, sub_mul, sub_mul,
      trace_sub, trace_sub, trace_sub, hRre, ← mul_assoc S, ← hA, hAU]
    rw [show U * Q * (Q * Uᴴ) = U * (Q * Q) * Uᴴ by simp only [mul_assoc]]
    ring
  rw [e] at hpos
  have := (Complex.le_def.1 hpos).1
  simp only [Complex.zero_re, Complex.sub_re, Complex.add_re, Complex.star_def, Complex.conj_re] at this
  linarith

/-- The fidelity of two states lies between zero and one. -/
theorem C74_fidelity_bounds (T : LinAlg d) (hT : TorchOk T) (rho sigma : Mat d) (hr : IsState rho) (hs : IsState sigma) :
    0 ≤ fidelityRow T rho sigma ∧ fidelityRow T rho sigma ≤ 1 := by
  refine ⟨Finset.sum_nonneg fun i _ => Real.sqrt_nonneg _, ?_⟩
  obtain ⟨⟨S, R, hS, hR⟩, key⟩ := C74_fidelity T hT rho sigma hr.pos hs.pos
  have hQ := sqrtMat_spec T hT sigma hs.pos
  have h1 := trace_le_mean hS.pos hQ.pos hR.pos (by rw [hQ.sq, hR.sq])
  have h2 := congrArg Complex.re (key S R hS hR)
  rw [hS.sq, hQ.sq, hr.trace, hs.trace, ← h2] at h1
  simp only [Complex.ofReal_re, Complex.one_re] at h1
  linarith

/-- Batches: every matrix is compared with the one at the same place; surplus matrices of the second batch are ignored,
missing ones raise an IndexError. -/
theorem C74_fidelity_batch (T : LinAlg d) (rhos sigmas : List (Mat d)) :
    (rhos.length ≤ sigmas.length → fidelity T rhos sigmas = .ok (List.zipWith (fidelityRow T) rhos sigmas)) ∧
    (sigmas.length < rhos.length → fidelity T rhos sigmas = .error .indexError) := by
  have aux : ∀ (rs : List (Mat d)) (k : ℕ),
      (rs.length + k ≤ sigmas.length → (rs.zipIdx k).mapM (fun p => match sigmas[p.2]? with
        | some sigma => (.ok (fidelityRow T p.1 sigma) : Except PyErr ℝ)
        | none => .error .indexError) = .ok (List.zipWith (fidelityRow T) rs (sigmas.drop k))) ∧
      (sigmas.length < rs.length + k → rs ≠ [] → (rs.zipIdx k).mapM (fun p => match sigmas[p.2]? with
        | some sigma => (.ok (fidelityRow T p.1 sigma) : Except PyErr ℝ)
        | none => .error .indexError) = .error .indexError) := by
    intro rs
    induction rs with
    | nil => intro k; exact ⟨fun _ => rfl, fun _ h => absurd rfl h⟩
    | cons a rs ih =>
      intro k
      rw [List.zipIdx_cons, List.mapM_cons]
      constructor
      · intro h
        simp only [List.length_cons] at h
        have hk : k < sigmas.length := by omega
        rw [List.drop_eq_getElem_cons hk]
        simp only [List.getElem?_eq_getElem hk, ok_bind, (ih (k + 1)).1 (by omega), List.zipWith_cons_cons]
        rfl
      · intro h _
        simp only [List.length_cons] at h
        by_cases hk : k < sigmas.length
        · have hne : rs ≠ [] := by
            rintro rfl
            simp at h
            omega
          simp only [List.getElem?_eq_getElem hk, ok_bind, (ih (k + 1)).2 (by omega) hne, error_bind]
        · simp only [List.getElem?_eq_none (not_lt.1 hk), error_bind]
  constructor
  · intro h
    have := (aux rhos 0).1 (by simpa using h)
    rw [List.drop_zero] at this
    exact this
  · intro h
    refine (aux rhos 0).2 (by simpa using h) ?_
    rintro rfl
    simp at h

/-! ### Equivalent states -/

namespace Assumed

/-- The sum of the squared distances of the entries. -/
noncomputable def distSq (a b : List ℂ) : ℝ := (List.zipWith (fun x y => ‖y - x‖ ^ 2) a b).sum

/-- The scalar product. -/
noncomputable def braket (a b : List ℂ) : ℂ := (List.zipWith (fun x y => star x * y) a b).sum

end Assumed

theorem distSq_expand (c : ℂ) (a b : List ℂ) (h : a.length = b.length) :
    distSq (a.map fun x => c * x) b = States.normSq b - 2 * (star c * braket a b).re + ‖c‖ ^ 2 * States.normSq a := by
  induction a generalizing b with
  | nil =>
    cases b with
    | nil => simp [distSq, braket, States.normSq]
    | cons => simp at h
  | cons x a ih =>
    cases b with
    | nil => simp at h
    | cons y b =>
      have := ih b (by simpa using h)
      simp only [distSq, braket, States.normSq, List.map_cons, List.zipWith_cons_cons, List.sum_cons] at this ⊢
      rw [this]
      have e : ‖y - c * x‖ ^ 2 = ‖y‖ ^ 2 - 2 * (star c * (star x * y)).re + ‖c‖ ^ 2 * ‖x‖ ^ 2 := by
        simp only [← Complex.normSq_eq_norm_sq, Complex.normSq_apply, Complex.sub_re, Complex.sub_im, Complex.mul_re,
          Complex.mul_im, Complex.star_def, Complex.conj_re, Complex.conj_im]
        ring
      rw [e, mul_add, Complex.add_re]
      ring

/-- For normalised states the overlap is one minus the squared distance of the second from its projection on the first. -/
theorem overlap_dist (a b : List ℂ) (h : a.length = b.length) (ha : States.normSq a = 1) (hb : States.normSq b = 1) :
    distSq (a.map fun x => braket a b * x) b = 1 - States.overlapExact a b := by
  have e : States.overlapExact a b = ‖braket a b‖ ^ 2 := rfl
  rw [distSq_expand _ a b h, ha, hb, e, Complex.star_def, ← Complex.normSq_eq_conj_mul_self, Complex.ofReal_re,
    Complex.normSq_eq_norm_sq]
  ring

theorem distSq_zero (a b : List ℂ) (h : a.length = b.length) : distSq a b = 0 ↔ b = a := by
  induction a generalizing b with
  | nil => cases b <;> simp_all [distSq]
  | cons x a ih =>
    cases b with
    | nil => simp at h
    | cons y b =>
      have h0 : 0 ≤ distSq a b := by
        refine List.sum_nonneg ?_
        intro v hv
        rw [List.mem_iff_getElem] at hv
        obtain ⟨i, hi, rfl⟩ := hv
        rw [List.getElem_zipWith]
        positivity
      have ih := ih b (by simpa using h)
      have e : distSq (x :: a) (y :: b) = ‖y - x‖ ^ 2 + distSq a b := by simp [distSq]
      rw [e, List.cons.injEq, ← ih]
      constructor
      · intro hz
        have h1 : ‖y - x‖ ^ 2 = 0 := by nlinarith [sq_nonneg ‖y - x‖]
        refine ⟨sub_eq_zero.1 (norm_eq_zero.1 (pow_eq_zero_iff (by norm_num) |>.1 h1)), by linarith⟩
      · rintro ⟨rfl, h2⟩
        rw [h2]
        simp

theorem distSq_nonneg (a b : List ℂ) : 0 ≤ distSq a b := by
  refine List.sum_nonneg ?_
  intro v hv
  rw [List.mem_iff_getElem] at hv
  obtain ⟨i, hi, rfl⟩ := hv
  rw [List.getElem_zipWith]
  positivity

namespace Assumed

/-- The row of a batch with index `i`; a batch of one row is repeated. -/
def rowAt (s : List (List ℂ)) (i : ℕ) : List ℂ := if s.length = 1 then s.getD 0 [] else s.getD i []

/-- The number of rows of the result. -/
def rows (s0 s1 : List (List ℂ)) : ℕ := if s0.length = 1 then s1.length else s0.length

/-- The batches fit together. -/
def Fit (s0 s1 : List (List ℂ)) : Prop := s0.length = s1.length ∨ s0.length = 1 ∨ s1.length = 1

/-- The rows compared with each other have the same length and norm one. -/
def Normalised (s0 s1 : List (List ℂ)) : Prop := ∀ i < rows s0 s1, (rowAt s0 i).length = (rowAt s1 i).length ∧
  States.normSq (rowAt s0 i) = 1 ∧ States.normSq (rowAt s1 i) = 1

end Assumed

theorem broadcast_spec (s0 s1 : List (List ℂ)) (h : Fit s0 s1) :
    broadcast s0 s1 = .ok ((List.range (rows s0 s1)).map fun i => (rowAt s0 i, rowAt s1 i)) := by
  unfold broadcast
  split
  · next e =>
    congr 1
    apply List.ext_getElem
    · simp [rows, e]
    · intro k h1 h2
      simp only [List.length_zip] at h1
      have k0 : k < s0.length := by omega
      have k1 : k < s1.length := by omega
      simp only [List.getElem_zip, List.getElem_map, List.getElem_range, rowAt]
      by_cases e1 : s0.length = 1
      · have : k = 0 := by omega
        subst this
        rw [if_pos e1, if_pos (by omega), List.getD_eq_getElem _ _ k0, List.getD_eq_getElem _ _ k1]
      · rw [if_neg e1, if_neg (by omega), List.getD_eq_getElem _ _ k0, List.getD_eq_getElem _ _ k1]
  · next e =>
    rcases h with h | h | h
    · exact absurd h e
    · obtain ⟨a, rfl⟩ := List.length_eq_one_iff.1 h
      simp only
      congr 1
      apply List.ext_getElem
      · simp [rows]
      · intro k h1 h2
        simp only [List.length_map] at h1
        have h3 : s1.length ≠ 1 := fun h => e (by simp [h])
        simp [rowAt, h3, List.getElem?_eq_getElem h1]
    · obtain ⟨b, rfl⟩ := List.length_eq_one_iff.1 h
      have h3 : s0.length ≠ 1 := fun h => e (by simp [h])
      split
      · next a => exact absurd rfl h3
      · next b' hb =>
        cases hb
        congr 1
        apply List.ext_getElem
        · simp [rows, h3]
        · intro k h1 h2
          simp only [List.length_map] at h1
          simp [rowAt, h3, List.getElem?_eq_getElem h1]
      · next h4 h5 => exact absurd rfl (h5 b)

theorem equivalent_iff (s0 s1 : List (List ℂ)) (rtol atol : ℝ) (hf : Fit s0 s1) (h : Normalised s0 s1) :
    ∃ r, equivalentState s0 s1 rtol atol = .ok r ∧ (r = true ↔ ∀ i < rows s0 s1,
      distSq ((rowAt s0 i).map fun x => braket (rowAt s0 i) (rowAt s1 i) * x) (rowAt s1 i) ≤ atol + rtol) := by
  refine ⟨_, by rw [equivalentState, overlap, broadcast_spec s0 s1 hf]; rfl, ?_⟩
  simp only [List.map_map, List.all_eq_true, List.mem_map, List.mem_range, Function.comp_apply, forall_exists_index,
    and_imp, forall_apply_eq_imp_iff₂, decide_eq_true_eq]
  refine forall₂_congr fun i hi => ?_
  obtain ⟨h1, h2, h3⟩ := h i hi
  have e := overlap_dist _ _ h1 h2 h3
  have e2 : States.overlapExact (rowAt s0 i) (rowAt s1 i) - 1 =
      -distSq ((rowAt s0 i).map fun x => braket (rowAt s0 i) (rowAt s1 i) * x) (rowAt s1 i) := by
    rw [e]
    ring
  rw [e2, abs_neg, abs_of_nonneg (distSq_nonneg _ _), abs_one, mul_one]

/-- Batches of normalised states are equivalent exactly if every state of the second batch is within the tolerance of its
projection on the corresponding state of the first batch; a batch of one state is compared with all states of the other.
Batches of different sizes are refused. -/
theorem C74_equivalent (s0 s1 : List (List ℂ)) (rtol atol : ℝ) :
    (Fit s0 s1 → Normalised s0 s1 → ∃ r, equivalentState s0 s1 rtol atol = .ok r ∧ (r = true ↔ ∀ i < rows s0 s1,
      distSq ((rowAt s0 i).map fun x => braket (rowAt s0 i) (rowAt s1 i) * x) (rowAt s1 i) ≤ atol + rtol)) ∧
    (¬ Fit s0 s1 → equivalentState s0 s1 rtol atol = .error .runtimeError) := by
  refine ⟨equivalent_iff s0 s1 rtol atol, fun hf => ?_⟩
  simp only [Fit, not_or] at hf
  obtain ⟨h1, h2, h3⟩ := hf
  have : broadcast s0 s1 = .error .runtimeError := by
    unfold broadcast
    rw [if_neg h1]
    split
    · exact absurd rfl h2
    · exact absurd rfl h3
    · rfl
  rw [equivalentState, overlap, this]
  rfl

/-- Without tolerance: the states agree up to a phase. -/
theorem C74_equivalent_exact (s0 s1 : List (List ℂ)) (hf : Fit s0 s1) (h : Normalised s0 s1) :
    ∃ r, equivalentState s0 s1 0 0 = .ok r ∧ (r = true ↔
      ∀ i < rows s0 s1, ∃ c : ℂ, ‖c‖ = 1 ∧ rowAt s1 i = (rowAt s0 i).map fun x => c * x) := by
  obtain ⟨r, hr, hiff⟩ := equivalent_iff s0 s1 0 0 hf h
  refine ⟨r, hr, hiff.trans ?_⟩
  refine forall₂_congr fun i hi => ?_
  obtain ⟨h1, h2, h3⟩ := h i hi
  generalize rowAt s0 i = a at *
  generalize rowAt s1 i = b at *
  have hn : ∀ c : ℂ, States.normSq (a.map fun x => c * x) = ‖c‖ ^ 2 := by
    intro c
    rw [States.normSq, List.map_map, ← mul_one (‖c‖ ^ 2), ← h2, States.normSq, ← List.sum_map_mul_left]
    congr 1
    refine List.map_congr_left fun x _ => ?_
    simp [mul_pow]
  constructor
  · intro hle
    have hz : distSq (a.map fun x => braket a b * x) b = 0 := le_antisymm (by linarith) (distSq_nonneg _ _)
    have e := (distSq_zero _ _ (by simpa using h1)).1 hz
    refine ⟨braket a b, ?_, e⟩
    have := hn (braket a b)
    rw [← e, h3] at this
    nlinarith [norm_nonneg (braket a b)]
  · rintro ⟨c, hc, e⟩
    have hi : braket a b = c := by
      rw [e, braket]
      have : ∀ l : List ℂ, (List.zipWith (fun x y => star x * y) l (l.map fun x => c * x)).sum = c * (States.normSq l : ℂ) := by
        intro l
        induction l with
        | nil => simp [States.normSq]
        | cons x l ih =>
          rw [List.map_cons, List.zipWith_cons_cons, List.sum_cons, ih]
          simp only [States.normSq, List.map_cons, List.sum_cons, Complex.ofReal_add, mul_add]
          congr 1
          rw [← Complex.normSq_eq_norm_sq, Complex.normSq_eq_conj_mul_self, Complex.star_def]
          ring
      rw [this, h2]
      simp
    rw [hi, ← e, (distSq_zero _ _ rfl).2 rfl]
    simp

/-- States which are not normalised may be called equivalent although they point in different directions. -/
theorem C74_counterexample_norm : equivalentState [[1, 0]] [[1, 5]] 0 0 = .ok true ∧
    ¬ ∃ c : ℂ, ([1, 5] : List ℂ) = [1, 0].map fun x => c * x := by
  constructor
  · simp [equivalentState, overlap, broadcast, States.overlapExact, pure_eq_ok, ok_bind]
  · rintro ⟨c, hc⟩
    simp at hc

/-! ### The assumptions can be met -/

/-- Decompositions with the assumed properties exist. -/
theorem torch_exists : ∃ T : LinAlg d, TorchOk T := by
  classical
  refine ⟨⟨fun M => if h : M.IsHermitian then h.eigenvalues else 0,
    fun M => if h : M.IsHermitian then (h.eigenvalues, (h.eigenvectorUnitary : Mat d)) else (0, 0)⟩, ⟨?_, ?_⟩⟩
  · intro M h
    simp only [h, dif_pos]
    exact decomposes_spectral h
  · intro M h
    simp only [h, dif_pos]
    exact ⟨_, decomposes_spectral h⟩

/-- Two different pure states of a qubit. -/
example : ∃ T : LinAlg 2, TorchOk T ∧ fidelityRow T (proj ![1, 0]) (proj ![3 / 5, 4 / 5]) = 3 / 5 ∧
    fidelityRow T (proj ![3 / 5, 4 / 5]) (proj ![1, 0]) = 3 / 5 ∧ purityRow T 2 (proj ![3 / 5, 4 / 5]) = 1 := by
  obtain ⟨T, hT⟩ := torch_exists (d := 2)
  have n1 : star (![1, 0] : Fin 2 → ℂ) ⬝ᵥ ![1, 0] = 1 := by simp [dotProduct, Fin.sum_univ_two]
  have n2 : star (![3 / 5, 4 / 5] : Fin 2 → ℂ) ⬝ᵥ ![3 / 5, 4 / 5] = 1 := by
    have h3 : (starRingEnd ℂ) 3 = 3 := Complex.conj_ofNat 3
    have h4 : (starRingEnd ℂ) 4 = 4 := Complex.conj_ofNat 4
    have h5 : (starRingEnd ℂ) 5 = 5 := Complex.conj_ofNat 5
    simp [dotProduct, Fin.sum_univ_two, h3, h4, h5]
    norm_num
  have h1 := C74_fidelity_pure T hT ![1, 0] ![3 / 5, 4 / 5] n1
  have e : ‖star (![1, 0] : Fin 2 → ℂ) ⬝ᵥ ![3 / 5, 4 / 5]‖ = 3 / 5 := by
    simp [dotProduct, Fin.sum_univ_two]
  rw [e] at h1
  refine ⟨T, hT, h1, ?_, ?_⟩
  · rw [C74_fidelity_symm T hT _ _ (proj_pos _) (proj_pos _), h1]
  · refine (C74_purity_one T hT _ ⟨proj_pos _, by rw [proj_trace, n2]⟩).2.2 ?_
    rw [proj_mul, n2, one_smul]
    rfl

/-- The maximally mixed state of a qubit has entropy one. -/
example : ∃ T : LinAlg 2, TorchOk T ∧ entropyRow T (1 / 1000) (1 : Mat 2) = 1 := by
  obtain ⟨T, hT⟩ := torch_exists (d := 2)
  refine ⟨T, hT, ?_⟩
  have hd : Decomposes (1 : Mat 2) (fun _ => 1) 1 := ⟨by simp, by simp⟩
  obtain ⟨V, hV⟩ := hT.eigvalsh 1 isHermitian_one
  have hs := sum_eig hd hV rfl fun x => x
  have h := sum_eig hd hV rfl fun x => Real.negMulLog (validEig (1 / 1000) (x / 2))
  have hs2 : ∑ j, T.eigvalsh (1 : Mat 2) j = 2 := by rw [← hs]; simp
  rw [entropyRow_eq]
  simp only [normalizedEigs, hs2]
  rw [← h]
  have hl : Real.log 2 ≠ 0 := (Real.log_pos (by norm_num)).ne'
  have : validEig (1 / 1000) (1 / 2) = 1 / 2 := by rw [validEig, if_neg (by norm_num)]
  rw [Fin.sum_univ_two, this, Real.negMulLog, one_div, Real.log_inv]
  field_simp
  norm_num

/-- A state is equivalent to the same state with another phase, also if a batch is compared with a single state. -/
example : equivalentState [[3 / 5, 4 / 5]] [[3 / 5 * Complex.I, 4 / 5 * Complex.I], [3 / 5, 4 / 5]] 0 0 = .ok true := by
  obtain ⟨r, hr, h⟩ := C74_equivalent_exact [[3 / 5, 4 / 5]] [[3 / 5 * Complex.I, 4 / 5 * Complex.I], [3 / 5, 4 / 5]]
    (Or.inr (Or.inl rfl)) (by
      intro i hi
      have hi : i < 2 := hi
      interval_cases i <;> simp [rowAt, States.normSq] <;> norm_num)
  rw [hr, h.2 ?_]
  intro i hi
  have hi : i < 2 := hi
  interval_cases i
  · exact ⟨Complex.I, by simp, by simp [rowAt, mul_comm]⟩
  · exact ⟨1, by simp, by simp [rowAt]⟩

end Qadence.Density
