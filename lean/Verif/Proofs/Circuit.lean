import Mathlib.Tactic
import Mathlib.Analysis.Matrix.Spectrum
import Verif.Spec.Circuit
import Verif.Spec.Trig
import Verif.Proofs.GateSem
import Verif.Proofs.BlockSem
import Verif.Proofs.TensorSem
import Verif.Proofs.Embed1
import Verif.Proofs.Controlled

/-!
# Expectation values are trigonometric polynomials
-/

namespace Qadence.Spec

open Matrix Complex

variable {n : ℕ}

/-! ### Parameters which do not occur do not matter -/

theorem eval_set {u : String} (e : Expr) (h : u ∉ e.freeSymbols) (ρ : Env) (x : ℂ) :
    eval (ρ.set u x) e = eval ρ e := by
  induction e with
  | num | pi => rfl
  | var y =>
    have : y ≠ u := fun e => h (by simp [Expr.freeSymbols, e])
    simp [eval, Env.set, Function.update_of_ne this]
  | add a b iha ihb =>
    simp only [Expr.freeSymbols, List.mem_append, not_or] at h
    simp only [eval, iha h.1, ihb h.2]
  | mul a b iha ihb =>
    simp only [Expr.freeSymbols, List.mem_append, not_or] at h
    simp only [eval, iha h.1, ihb h.2]
  | pow a k ih => simp only [eval, ih (by simpa [Expr.freeSymbols] using h)]
  | inv a ih => simp only [eval, ih (by simpa [Expr.freeSymbols] using h)]
  | conj a ih => simp only [eval, ih (by simpa [Expr.freeSymbols] using h)]
  | fn f a ih =>
    have := ih (by simpa [Expr.freeSymbols] using h)
    simp only [eval, this]
    rfl

theorem eval_set_self (u : String) (ρ : Env) (x : ℂ) : eval (ρ.set u x) (.var u) = x := by simp [eval, Env.set]

theorem gateDen_set {u : String} (g : Gate) (h : u ∉ gateVars g) (ρ : Env) (x : ℂ) :
    (gateDen (ρ.set u x) g : Oper n) = gateDen ρ g := by
  induction g with
  | fixed | swap | proj => rfl
  | rot g q θ => simp only [gateDen, eval_set θ (by simpa [gateVars] using h)]
  | u q φ θ ω =>
    simp only [gateVars, List.mem_append, not_or] at h
    simp only [gateDen, eval_set _ h.1.1, eval_set _ h.1.2, eval_set _ h.2]
  | matrix rows qs =>
    simp only [gateDen]
    congr 1
    funext a b
    simp only [Matrix.of_apply]
    apply eval_set
    intro hu
    apply h
    rw [gateVars, List.mem_flatMap]
    by_cases h1 : bitsValue a < rows.length
    · rw [List.getD_eq_getElem?_getD, List.getD_eq_getElem?_getD, List.getElem?_eq_getElem h1, Option.getD_some] at hu
      by_cases h2 : bitsValue b < rows[bitsValue a].length
      · rw [List.getElem?_eq_getElem h2, Option.getD_some] at hu
        exact ⟨_, List.mem_flatten.2 ⟨_, List.getElem_mem h1, List.getElem_mem h2⟩, hu⟩
      · rw [List.getElem?_eq_none (by omega)] at hu
        simp [Expr.freeSymbols] at hu
    · rw [List.getD_eq_getElem?_getD, List.getD_eq_getElem?_getD, List.getElem?_eq_none (l := rows) (by omega)] at hu
      simp [Expr.freeSymbols] at hu
  | control c cs g ih => simp only [gateDen, ih (by simpa [gateVars] using h)]

theorem sem_congr {L : Type} (S S' : LeafSem L n) (ρ ρ' : Env) (f : L → List String) (u : String)
    (hd : ∀ l, u ∉ f l → S.den l = S'.den l) (he : ∀ e : Expr, u ∉ e.freeSymbols → eval ρ e = eval ρ' e) (b : Block L)
    (h : u ∉ gather f Expr.freeSymbols b) : sem S ρ b = sem S' ρ' b := by
  induction b using Block.induction with
  | leaf l t => exact hd l (by simpa [gather] using h)
  | scale b s t ih =>
    rw [gather, List.mem_append, not_or] at h
    rw [sem, sem, ih h.2, he s h.1]
  | comp k bs t ih =>
    rw [gather_comp, List.mem_flatMap] at h
    have hm : bs.map (sem S ρ) = bs.map (sem S' ρ') :=
      List.map_congr_left fun b hb => ih b hb fun hu => h ⟨b, hb, hu⟩
    cases k <;> simp only [sem, semList_eq_map, hm]

theorem primDen_set {u : String} (l : Prim) (h : u ∉ primVars l) (ρ : Env) (x : ℂ) :
    (primDen (ρ.set u x) l : Oper n) = primDen ρ l := by
  cases l with
  | gate g _ => exact gateDen_set g (by simpa [primVars] using h) ρ x
  | hamEvo gen t =>
    rw [primVars, List.mem_append, not_or] at h
    rw [primDen, primDen, eval_set t h.2, sem_congr (gateSem n (ρ.set u x)) (gateSem n ρ) _ ρ gateVars u
      (fun l hl => gateDen_set l hl ρ x) (fun e he => eval_set e he ρ x) gen h.1]

theorem sem_set {ord : List ℕ → List ℕ} (ho : Block.SetOrder ord) {u : String} (b : Block Prim) (h : u ∉ vars b)
    (ρ : Env) (x : ℂ) : sem (primSem n (ρ.set u x) ord ho) (ρ.set u x) b = sem (primSem n ρ ord ho) ρ b :=
  sem_congr _ _ _ _ primVars u (fun l hl => primDen_set l hl ρ x) (fun e he => eval_set e he ρ x) b h

/-- If `u` occurs in one primitive block only, the operator is the one of this block between two fixed operators. -/
theorem sem_hole {ord : List ℕ → List ℕ} (ho : Block.SetOrder ord) {u : String} {l : Prim} {b : Block Prim}
    (h : OnlyIn u l b) (ρ : Env) : ∃ A B : Oper n, ∀ x : ℂ,
      sem (primSem n (ρ.set u x) ord ho) (ρ.set u x) b = A * primDen (ρ.set u x) l * B := by
  induction h with
  | leaf t => exact ⟨1, 1, fun x => by rw [one_mul, mul_one]; rfl⟩
  | @scale b s t _ hs ih =>
    obtain ⟨A, B, h⟩ := ih
    refine ⟨eval ρ s • A, B, fun x => ?_⟩
    rw [sem, h, eval_set s hs, Matrix.smul_mul, Matrix.smul_mul]
  | @comp b k hk pre post t _ hpre hpost ih =>
    obtain ⟨A, B, h⟩ := ih
    refine ⟨opProd (post.map (sem (primSem n ρ ord ho) ρ)) * A, B * opProd (pre.map (sem (primSem n ρ ord ho) ρ)),
      fun x => ?_⟩
    have e1 : ∀ l : List (Block Prim), (∀ c ∈ l, u ∉ vars c) →
        l.map (sem (primSem n (ρ.set u x) ord ho) (ρ.set u x)) = l.map (sem (primSem n ρ ord ho) ρ) :=
      fun l hl => List.map_congr_left fun c hc => sem_set ho c (hl c hc) ρ x
    have e2 : sem (primSem n (ρ.set u x) ord ho) (ρ.set u x) (.comp k (pre ++ b :: post) t) =
        opProd ((pre ++ b :: post).map (sem (primSem n (ρ.set u x) ord ho) (ρ.set u x))) := by
      cases k
      · rw [sem, semList_eq_map]
      · rw [sem, semList_eq_map]
      · exact absurd rfl hk
    rw [e2, List.map_append, List.map_cons, e1 pre hpre, e1 post hpost, opProd_append, opProd, h]
    simp only [Matrix.mul_assoc]

/-! ### Frequencies -/

/-- The operator depends on the parameter through the phases exp(-i λ x / 2) with λ in the set. -/
def Spectral (S : Set ℝ) (D : ℝ → Oper n) : Prop :=
  ∃ (k : ℕ) (lam : Fin k → ℝ) (P : Fin k → Oper n), (∀ j, lam j ∈ S) ∧
    ∀ x : ℝ, D x = ∑ j, exp (-(I * lam j * x / 2)) • P j

theorem trig_of_spectral {S : Set ℝ} {D : ℝ → Oper n} (hD : Spectral S D) {G : Set ℝ}
    (hG : ∀ a ∈ S, ∀ b ∈ S, a ≠ b → |a - b| ∈ G) (A B O : Oper n) (ψ : St n → ℂ) :
    (fun x => expVal O ψ (A * D x * B)) ∈ Trig G := by
  obtain ⟨k, lam, P, hlam, hx⟩ := hD
  set w : Fin k → St n → ℂ := fun j => (A * P j * B) *ᵥ ψ with hw
  have h1 : ∀ x : ℝ, (A * D x * B) *ᵥ ψ = ∑ j, exp (-(I * lam j * x / 2)) • w j := by
    intro x
    rw [hx, Matrix.mul_sum, Matrix.sum_mul, Matrix.sum_mulVec]
    refine Finset.sum_congr rfl fun j _ => ?_
    rw [Matrix.mul_smul, Matrix.smul_mul, Matrix.smul_mulVec]
  set z : Fin k → Fin k → ℂ := fun j m => star (w j) ⬝ᵥ (O *ᵥ w m) with hz
  have h2 : ∀ x : ℝ, expVal O ψ (A * D x * B) =
      ∑ j, ∑ m, ((z j m).re * Real.cos ((lam j - lam m) * x / 2) - (z j m).im * Real.sin ((lam j - lam m) * x / 2)) := by
    intro x
    rw [expVal, h1, star_sum, Matrix.mulVec_sum, sum_dotProduct, Complex.re_sum]
    refine Finset.sum_congr rfl fun j _ => ?_
    rw [dotProduct_sum, Complex.re_sum]
    refine Finset.sum_congr rfl fun m _ => ?_
    rw [star_smul, Matrix.mulVec_smul, smul_dotProduct, dotProduct_smul, smul_eq_mul, smul_eq_mul, ← mul_assoc]
    have e : star (exp (-(I * lam j * x / 2))) * exp (-(I * lam m * x / 2)) =
        exp (((lam j - lam m) * x / 2 : ℝ) * I) := by
      rw [Complex.star_def, ← Complex.exp_conj, ← Complex.exp_add]
      congr 1
      simp only [map_neg, map_div₀, map_mul, conj_I, conj_ofReal, map_ofNat]
      push_cast
      ring
    rw [e, Complex.mul_re, Complex.exp_ofReal_mul_I_re, Complex.exp_ofReal_mul_I_im, mul_comm, mul_comm (Real.sin _)]
  have h3 : (fun x => expVal O ψ (A * D x * B)) = ∑ j, ∑ m,
      ((z j m).re • (fun x => Real.cos ((lam j - lam m) * x / 2)) -
        (z j m).im • (fun x => Real.sin ((lam j - lam m) * x / 2))) := by
    funext x
    rw [h2]
    simp [Finset.sum_apply]
  have hc : ∀ j m, (fun x : ℝ => Real.cos ((lam j - lam m) * x / 2)) ∈ Trig G := by
    intro j m
    by_cases he : lam j = lam m
    · have : (fun x : ℝ => Real.cos ((lam j - lam m) * x / 2)) = fun _ => 1 := by
        funext x
        simp [he]
      rw [this]
      exact Submodule.subset_span (.inl (.inl rfl))
    · have : (fun x : ℝ => Real.cos ((lam j - lam m) * x / 2)) = fun x => Real.cos (|lam j - lam m| * x / 2) := by
        funext x
        rcases abs_choice (lam j - lam m) with h | h
        · rw [h]
        · rw [h, ← Real.cos_neg]
          congr 1
          ring
      rw [this]
      exact Submodule.subset_span (.inl (.inr ⟨_, hG _ (hlam j) _ (hlam m) he, rfl⟩))
  have hs : ∀ j m, (fun x : ℝ => Real.sin ((lam j - lam m) * x / 2)) ∈ Trig G := by
    intro j m
    by_cases he : lam j = lam m
    · have : (fun x : ℝ => Real.sin ((lam j - lam m) * x / 2)) = 0 := by
        funext x
        simp [he]
      rw [this]
      exact Submodule.zero_mem _
    · have hmem : (fun x : ℝ => Real.sin (|lam j - lam m| * x / 2)) ∈ Trig G :=
        Submodule.subset_span (.inr ⟨_, hG _ (hlam j) _ (hlam m) he, rfl⟩)
      rcases abs_choice (lam j - lam m) with h | h
      · rw [h] at hmem
        exact hmem
      · have : (fun x : ℝ => Real.sin ((lam j - lam m) * x / 2)) = -(fun x => Real.sin (|lam j - lam m| * x / 2)) := by
          funext x
          rw [h, Pi.neg_apply, ← Real.sin_neg]
          congr 1
          ring
        rw [this]
        exact Submodule.neg_mem _ hmem
  rw [h3]
  exact Submodule.sum_mem _ fun j _ => Submodule.sum_mem _ fun m _ =>
    Submodule.sub_mem _ (Submodule.smul_mem _ _ (hc j m)) (Submodule.smul_mem _ _ (hs j m))

theorem Spectral.two {S : Set ℝ} {D : ℝ → Oper n} (a b : ℝ) (ha : a ∈ S) (hb : b ∈ S) (P Q : Oper n)
    (h : ∀ x : ℝ, D x = exp (-(I * a * x / 2)) • P + exp (-(I * b * x / 2)) • Q) : Spectral S D := by
  refine ⟨2, ![a, b], ![P, Q], ?_, ?_⟩
  · intro j
    fin_cases j
    · exact ha
    · exact hb
  · intro x
    rw [h, Fin.sum_univ_two]
    rfl

/-- Eigenvalues of the generators of the rotations, with the sign of the exponent. -/
def rotEigs : RotGate → ℝ × ℝ
  | .PHASE => (0, -2)
  | _ => (1, -1)

theorem matRot_spectral (g : RotGate) : ∃ P Q : Matrix Bool Bool ℂ, ∀ x : ℝ,
    matRot x g = exp (-(I * (rotEigs g).1 * x / 2)) • P + exp (-(I * (rotEigs g).2 * x / 2)) • Q := by
  have ec : ∀ x : ℝ, cos ((x : ℂ) / 2) = (exp (-(I * 1 * x / 2)) + exp (-(I * (-1) * x / 2))) / 2 := by
    intro x
    rw [Complex.cos, add_comm]
    congr 3 <;> ring
  have es : ∀ x : ℝ, sin ((x : ℂ) / 2) = (exp (-(I * 1 * x / 2)) - exp (-(I * (-1) * x / 2))) * I / 2 := by
    intro x
    rw [Complex.sin]
    congr 4 <;> ring
  have hI : I * I = -1 := I_mul_I
  cases g with
  | RX =>
    refine ⟨Matrix.of fun _ _ => 1 / 2, Matrix.of fun a b => if a = b then 1 / 2 else -(1 / 2), fun x => ?_⟩
    funext a b
    simp only [matRot, rotEigs, Matrix.add_apply, Matrix.smul_apply, Matrix.of_apply, smul_eq_mul, ec, es]
    push_cast
    split
    · ring
    · linear_combination (-(exp (-(I * 1 * x / 2)) - exp (-(I * -1 * x / 2))) / 2) * hI
  | RY =>
    refine ⟨Matrix.of fun a b => if a = b then 1 / 2 else if a then I / 2 else -(I / 2),
      Matrix.of fun a b => if a = b then 1 / 2 else if a then -(I / 2) else I / 2, fun x => ?_⟩
    funext a b
    simp only [matRot, rotEigs, Matrix.add_apply, Matrix.smul_apply, Matrix.of_apply, smul_eq_mul, ec, es]
    push_cast
    split
    · ring
    · split <;> ring
  | RZ =>
    refine ⟨Matrix.of fun a b => if a = b then (if a then 0 else 1) else 0,
      Matrix.of fun a b => if a = b then (if a then 1 else 0) else 0, fun x => ?_⟩
    funext a b
    simp only [matRot, rotEigs, Matrix.add_apply, Matrix.smul_apply, Matrix.of_apply, smul_eq_mul]
    push_cast
    split
    · split
      · rw [mul_zero, zero_add, mul_one]
        congr 1
        ring
      · rw [mul_zero, add_zero, mul_one]
        congr 1
        ring
    · simp
  | PHASE =>
    refine ⟨Matrix.of fun a b => if a = b then (if a then 0 else 1) else 0,
      Matrix.of fun a b => if a = b then (if a then 1 else 0) else 0, fun x => ?_⟩
    funext a b
    simp only [matRot, rotEigs, Matrix.add_apply, Matrix.smul_apply, Matrix.of_apply, smul_eq_mul]
    push_cast
    split
    · split
      · rw [mul_zero, zero_add, mul_one]
        congr 1
        ring
      · simp
    · simp

theorem embed1_rot_spectral (q : ℕ) (g : RotGate) (A B : Matrix Bool Bool ℂ) :
    Spectral {(rotEigs g).1, (rotEigs g).2} fun x => (embed1 q (A * matRot x g * B) : Oper n) := by
  obtain ⟨P, Q, h⟩ := matRot_spectral g
  refine Spectral.two (rotEigs g).1 (rotEigs g).2 (by simp) (by simp) (embed1 q (A * P * B)) (embed1 q (A * Q * B)) fun x => ?_
  beta_reduce
  rw [h, Matrix.mul_add, Matrix.add_mul, embed1_add, Matrix.mul_smul, Matrix.smul_mul, embed1_smul, Matrix.mul_smul,
    Matrix.smul_mul, embed1_smul]

theorem controlled_spectral {S : Set ℝ} {D : ℝ → Oper n} (hD : Spectral S D) {T : Set ℕ} (hT : ∀ x, ActsOn T (D x))
    {cs : List ℕ} (hcs : ∀ c ∈ cs, c ∉ T) : Spectral (insert 0 S) fun x => controlled cs (D x) := by
  obtain ⟨k, lam, P, hlam, hx⟩ := hD
  refine ⟨k + 1, Fin.cons 0 lam, Fin.cons (1 + (-1 : ℂ) • onesProj cs) fun j => P j * onesProj cs, ?_, ?_⟩
  · intro j
    refine Fin.cases ?_ (fun i => ?_) j
    · simp
    · simpa using .inr (hlam i)
  · intro x
    beta_reduce
    rw [controlled_eq cs (D x) T (hT x) hcs, Fin.sum_univ_succ, hx]
    simp only [Fin.cons_zero, Fin.cons_succ, ofReal_zero, mul_zero, zero_mul, zero_div, neg_zero, exp_zero, one_smul]
    congr 1
    rw [Matrix.sum_mul]
    exact Finset.sum_congr rfl fun j _ => by rw [Matrix.smul_mul]

/-- The evolution with a Hermitian generator. -/
theorem evolution_spectral {G : Oper n} (hG : G.IsHermitian) :
    Spectral (Set.range fun j => hG.eigenvalues j * 2) fun x => evolution (x : ℂ) G := by
  set U : Oper n := (hG.eigenvectorUnitary : Oper n) with hU
  have hUU : U * star U = 1 := (Matrix.mem_unitaryGroup_iff).1 hG.eigenvectorUnitary.2
  have hUU' : star U * U = 1 := (Matrix.mem_unitaryGroup_iff').1 hG.eigenvectorUnitary.2
  have hsp : G = U * diagonal (fun j => (hG.eigenvalues j : ℂ)) * star U := by
    have := hG.spectral_theorem
    rw [Unitary.conjStarAlgAut_apply] at this
    exact this
  have he : ∀ x : ℝ, evolution (x : ℂ) G = U * diagonal (fun j => exp (-(I * x * hG.eigenvalues j))) * star U := by
    intro x
    have e1 : (-I * (x : ℂ)) • G = U * diagonal (fun j => -(I * x * hG.eigenvalues j)) * star U := by
      conv_lhs => rw [hsp]
      rw [← Matrix.smul_mul, ← Matrix.mul_smul]
      congr 2
      rw [← Matrix.diagonal_smul]
      congr 1
      funext j
      simp [smul_eq_mul]
    have hinv : U⁻¹ = star U := Matrix.inv_eq_right_inv hUU
    have hunit : IsUnit U := ⟨⟨U, star U, hUU, hUU'⟩, rfl⟩
    rw [evolution, e1, ← hinv, Matrix.exp_conj _ _ hunit, Matrix.exp_diagonal]
    congr 2
    congr 1
    funext j
    rw [Pi.coe_exp, ← Complex.exp_eq_exp_ℂ]
  have equiv := Fintype.equivFin (St n)
  refine ⟨Fintype.card (St n), fun j => hG.eigenvalues (equiv.symm j) * 2,
    fun j => U * diagonal (Pi.single (equiv.symm j) 1) * star U, fun j => ⟨_, rfl⟩, fun x => ?_⟩
  beta_reduce
  rw [he, Equiv.sum_comp equiv.symm fun j => exp (-(I * ↑(hG.eigenvalues j * 2) * x / 2)) •
    (U * diagonal (Pi.single j 1) * star U)]
  have hsum : ∑ j, exp (-(I * ↑(hG.eigenvalues j * 2) * x / 2)) • (U * diagonal (Pi.single j 1) * star U) =
      U * (∑ j, exp (-(I * ↑(hG.eigenvalues j * 2) * x / 2)) • diagonal (Pi.single j (1 : ℂ))) * star U := by
    rw [Matrix.mul_sum, Matrix.sum_mul]
    exact Finset.sum_congr rfl fun j _ => by rw [Matrix.mul_smul, Matrix.smul_mul]
  rw [hsum]
  congr 2
  ext a b
  rw [Matrix.sum_apply]
  simp only [Matrix.smul_apply, diagonal_apply, Pi.single_apply, smul_eq_mul]
  by_cases hab : a = b
  · subst hab
    rw [Finset.sum_eq_single a]
    · simp only [if_true, mul_one]
      congr 1
      push_cast
      ring
    · intro j _ hj
      simp [Ne.symm hj]
    · simp
  · simp [hab]

end Qadence.Spec
