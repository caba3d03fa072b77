import Mathlib.Tactic
import Mathlib.Algebra.MvPolynomial.PDeriv
import Mathlib.Algebra.MvPolynomial.Degrees
import Mathlib.Analysis.Calculus.Deriv.Polynomial
import Mathlib.Analysis.Calculus.IteratedDeriv.Defs
import Verif.Model.FiniteDiff
import Verif.Proofs.Except

/-!
# C30: finite differences
-/

namespace Qadence.FiniteDiff

open Polynomial

variable {β κ : Type} {m : ℕ} {defaultEps : ℕ → ℝ} {f : (β → Fin m → ℝ) → κ → ℝ} {x : β → Fin m → ℝ}

/-- The unit direction of a column: the same change of one variable for all batch elements. -/
def unit (i : Fin m) : β → Fin m → ℝ := fun _ => Pi.single i 1

theorem direction_eq (i : Fin m) (eps : ℝ) : (direction i eps : β → Fin m → ℝ) = eps • unit i := by
  funext b j
  by_cases h : j = i
  · subst h
    simp [direction, unit]
  · simp [direction, unit, h]

theorem pyIndex_nat (i : Fin m) : pyIndex m (i : ℤ) = .ok i := by
  have := i.2
  rw [pyIndex, dif_pos ⟨by omega, by omega⟩]
  simp

theorem C30_negative_index (i : Fin m) : pyIndex m ((i : ℤ) - m) = .ok i := by
  have := i.2
  rw [pyIndex, dif_neg (by omega), dif_pos ⟨by omega, by omega⟩]
  simp

theorem order_one {i : ℤ} {c : Fin m} (hi : pyIndex m i = .ok c) {eps : ℝ} :
    finitediff defaultEps f x [i] (some eps) = .ok fun k => (f (x + eps • unit c) k - f (x - eps • unit c) k) * (1 / eps) / 2 := by
  simp [finitediff, hi, ok_bind, direction_eq]

theorem order_two {i : ℤ} {c : Fin m} (hi : pyIndex m i = .ok c) {eps : ℝ} :
    finitediff defaultEps f x [i, i] (some eps) =
      .ok fun k => (f (x + eps • unit c) k + f (x - eps • unit c) k - 2 * f x k) * (1 / eps) ^ 2 := by
  simp [finitediff, hi, ok_bind, direction_eq]

theorem order_three {i : ℤ} {c : Fin m} (hi : pyIndex m i = .ok c) {eps : ℝ} :
    finitediff defaultEps f x [i, i, i] (some eps) =
      .ok fun k => (f (x + (2 : ℝ) • eps • unit c) k - 2 * f (x + eps • unit c) k + 2 * f (x - eps • unit c) k -
        f (x - (2 : ℝ) • eps • unit c) k) * (1 / eps) ^ 3 / 2 := by
  simp [finitediff, hi, ok_bind, direction_eq]

/-- A function is a polynomial of degree at most `d` along a direction. -/
def PolyAlong (f : (β → Fin m → ℝ) → κ → ℝ) (x : β → Fin m → ℝ) (c : Fin m) (k : κ) (d : ℕ) : Prop :=
  ∃ P : ℝ[X], P.natDegree ≤ d ∧ ∀ t : ℝ, f (x + t • unit c) k = P.eval t

theorem eval_le_four (P : ℝ[X]) (h : P.natDegree ≤ 4) (t : ℝ) :
    P.eval t = P.coeff 0 + P.coeff 1 * t + P.coeff 2 * t ^ 2 + P.coeff 3 * t ^ 3 + P.coeff 4 * t ^ 4 := by
  rw [Polynomial.eval_eq_sum_range' (n := 5) (by omega)]
  simp [Finset.sum_range_succ]

theorem iteratedDeriv_poly (P : ℝ[X]) (n : ℕ) : iteratedDeriv n (fun t => P.eval t) 0 = n.factorial * P.coeff n := by
  have h : ∀ n (P : ℝ[X]), iteratedDeriv n (fun t => P.eval t) = fun t => (derivative^[n] P).eval t := by
    intro n
    induction n with
    | zero => intro P; simp
    | succ n ih =>
      intro P
      rw [iteratedDeriv_succ']
      have : deriv (fun t => P.eval t) = fun t => (derivative P).eval t := by
        funext t
        exact Polynomial.deriv P
      rw [this, ih]
      rfl
  rw [h]
  beta_reduce
  rw [← Polynomial.coeff_zero_eq_eval_zero, Polynomial.coeff_iterate_derivative]
  simp [Nat.descFactorial_self]

/-- **C30** First order: exact if the function is a polynomial of degree at most 2 in the variable. -/
theorem C30_first {i : ℤ} {c : Fin m} (hi : pyIndex m i = .ok c) {eps : ℝ} (he : eps ≠ 0)
    (hf : ∀ k, PolyAlong f x c k 2) :
    finitediff defaultEps f x [i] (some eps) = .ok fun k => iteratedDeriv 1 (fun t : ℝ => f (x + t • unit c) k) 0 := by
  rw [order_one hi]
  congr 1
  funext k
  obtain ⟨P, hP, h⟩ := hf k
  have hn := h (-eps)
  rw [neg_smul, ← sub_eq_add_neg] at hn
  simp only [h, hn, iteratedDeriv_poly]
  rw [eval_le_four P (by omega), eval_le_four P (by omega), P.coeff_eq_zero_of_natDegree_lt (n := 3) (by omega)]
  field_simp
  simp
  ring

/-- **C30** Second order: exact if the function is a polynomial of degree at most 3 in the variable. -/
theorem C30_second {i : ℤ} {c : Fin m} (hi : pyIndex m i = .ok c) {eps : ℝ} (he : eps ≠ 0)
    (hf : ∀ k, PolyAlong f x c k 3) :
    finitediff defaultEps f x [i, i] (some eps) = .ok fun k => iteratedDeriv 2 (fun t : ℝ => f (x + t • unit c) k) 0 := by
  rw [order_two hi]
  congr 1
  funext k
  obtain ⟨P, hP, h⟩ := hf k
  have hn := h (-eps)
  have h0 := h 0
  rw [neg_smul, ← sub_eq_add_neg] at hn
  rw [zero_smul, add_zero] at h0
  simp only [h, hn, h0, iteratedDeriv_poly]
  rw [eval_le_four P (by omega), eval_le_four P (by omega), eval_le_four P (by omega),
    P.coeff_eq_zero_of_natDegree_lt (n := 4) (by omega)]
  field_simp
  simp [Nat.factorial]
  ring

/-- **C30** Third order: exact if the function is a polynomial of degree at most 4 in the variable. -/
theorem C30_third {i : ℤ} {c : Fin m} (hi : pyIndex m i = .ok c) {eps : ℝ} (he : eps ≠ 0)
    (hf : ∀ k, PolyAlong f x c k 4) :
    finitediff defaultEps f x [i, i, i] (some eps) =
      .ok fun k => iteratedDeriv 3 (fun t : ℝ => f (x + t • unit c) k) 0 := by
  rw [order_three hi]
  congr 1
  funext k
  obtain ⟨P, hP, h⟩ := hf k
  have hn := h (-eps)
  have h2 := h (2 * eps)
  have hn2 := h (-(2 * eps))
  rw [neg_smul, ← sub_eq_add_neg] at hn hn2
  simp only [smul_smul, h, hn, hn2, iteratedDeriv_poly]
  rw [eval_le_four P (by omega), eval_le_four P (by omega), eval_le_four P (by omega), eval_le_four P (by omega)]
  field_simp
  simp [Nat.factorial]
  ring

/-- **C30** Mixed second derivatives are exact on functions which are bilinear in the two variables; the inner call uses
the default step. -/
theorem C30_mixed {i j : ℤ} {c d : Fin m} (hi : pyIndex m i = .ok c) (hj : pyIndex m j = .ok d) (hij : i ≠ j) {eps : ℝ}
    (he : eps ≠ 0) (hd : defaultEps 1 ≠ 0) {a₀ a₁ a₂ a₃ : κ → ℝ}
    (hf : ∀ (s t : ℝ) k, f (x + s • unit c + t • unit d) k = a₀ k + a₁ k * s + a₂ k * t + a₃ k * (s * t)) :
    finitediff defaultEps f x [i, j] (some eps) = .ok a₃ ∧
      ∀ k, deriv (fun s : ℝ => deriv (fun t : ℝ => f (x + s • unit c + t • unit d) k) 0) 0 = a₃ k := by
  constructor
  · have hc : (([i, j] : List ℤ).toFinset.card > 1) := by
      simp [hij]
    have h1 : ∀ y : β → Fin m → ℝ, finitediff defaultEps f y [j] none =
        .ok fun k => (f (y + defaultEps 1 • unit d) k - f (y - defaultEps 1 • unit d) k) * (1 / defaultEps 1) / 2 := by
      intro y
      simp [finitediff, hj, ok_bind, direction_eq]
    rw [finitediff, hi, ok_bind]
    simp only [List.length_cons, List.length_nil, Option.getD_some]
    rw [if_pos (.inr hc), h1, ok_bind, h1, ok_bind]
    show Except.ok _ = Except.ok _
    congr 1
    funext k
    have e1 := hf eps (defaultEps 1) k
    have e2 := hf eps (-defaultEps 1) k
    have e3 := hf (-eps) (defaultEps 1) k
    have e4 := hf (-eps) (-defaultEps 1) k
    rw [neg_smul, ← sub_eq_add_neg] at e2 e3
    rw [neg_smul, neg_smul, ← sub_eq_add_neg, ← sub_eq_add_neg] at e4
    simp only [direction_eq, e1, e2, e3, e4]
    field_simp
    ring
  · intro k
    have h : ∀ s : ℝ, deriv (fun t : ℝ => f (x + s • unit c + t • unit d) k) 0 = a₂ k + a₃ k * s := by
      intro s
      simp only [hf]
      have : HasDerivAt (fun t : ℝ => a₀ k + a₁ k * s + a₂ k * t + a₃ k * (s * t)) (a₂ k * 1 + a₃ k * (s * 1)) 0 :=
        (((hasDerivAt_id (0 : ℝ)).const_mul (a₂ k)).const_add _).add
          (((hasDerivAt_id (0 : ℝ)).const_mul s).const_mul (a₃ k))
      rw [this.deriv]
      ring
    simp only [h]
    have : HasDerivAt (fun s : ℝ => a₂ k + a₃ k * s) (a₃ k * 1) 0 :=
      ((hasDerivAt_id (0 : ℝ)).const_mul (a₃ k)).const_add _
    rw [this.deriv, mul_one]

/-! ### All orders on polynomials in several variables -/

/-- The unit vector of a variable. -/
def basis (c : Fin m) : Fin m → ℝ := Pi.single c 1

/-- The value of a polynomial when one variable is changed. -/
theorem eval_shift (p : MvPolynomial (Fin m) ℝ) (y : Fin m → ℝ) (c : Fin m) (t : ℝ) :
    MvPolynomial.eval (y + t • basis c) p =
      ∑ v ∈ p.support, p.coeff v * (∏ j ∈ Finset.univ.erase c, y j ^ v j) * (y c + t) ^ v c := by
  rw [MvPolynomial.eval_eq']
  refine Finset.sum_congr rfl fun v _ => ?_
  rw [← Finset.mul_prod_erase Finset.univ _ (Finset.mem_univ c), mul_assoc]
  congr 1
  rw [mul_comm]
  congr 1
  · refine Finset.prod_congr rfl fun j hj => ?_
    simp [basis, Finset.ne_of_mem_erase hj]
  · simp [basis]

/-- Partial derivatives of polynomials are the derivatives of the function in the variable. -/
theorem hasDerivAt_pderiv (p : MvPolynomial (Fin m) ℝ) (y : Fin m → ℝ) (c : Fin m) (t : ℝ) :
    HasDerivAt (fun t : ℝ => MvPolynomial.eval (y + t • basis c) p)
      (MvPolynomial.eval (y + t • basis c) (MvPolynomial.pderiv c p)) t := by
  induction p using MvPolynomial.induction_on with
  | C a =>
    simp only [MvPolynomial.eval_C, MvPolynomial.pderiv_C, map_zero]
    exact hasDerivAt_const t a
  | add p q hp hq =>
    simp only [map_add]
    exact hp.add hq
  | mul_X p j hp =>
    have hX : HasDerivAt (fun t : ℝ => (y + t • basis c) j) (basis c j) t := by
      have h := ((hasDerivAt_id t).mul_const (basis c j)).const_add (y j)
      rw [one_mul] at h
      exact h
    have h := hp.mul hX
    have e : MvPolynomial.eval (y + t • basis c) (MvPolynomial.pderiv c (p * MvPolynomial.X j)) =
        MvPolynomial.eval (y + t • basis c) (MvPolynomial.pderiv c p) * (y + t • basis c) j +
          MvPolynomial.eval (y + t • basis c) p * basis c j := by
      simp only [MvPolynomial.pderiv_mul, map_add, map_mul, MvPolynomial.eval_X, MvPolynomial.pderiv_X]
      congr 2
      by_cases hj : j = c
      · subst hj
        simp [basis]
      · simp [basis, hj]
    rw [e]
    simp only [map_mul, MvPolynomial.eval_X]
    exact h

theorem iteratedDeriv_pderiv (n : ℕ) (p : MvPolynomial (Fin m) ℝ) (y : Fin m → ℝ) (c : Fin m) :
    iteratedDeriv n (fun t : ℝ => MvPolynomial.eval (y + t • basis c) p) 0 =
      MvPolynomial.eval y ((MvPolynomial.pderiv c)^[n] p) := by
  have h : ∀ n (p : MvPolynomial (Fin m) ℝ), iteratedDeriv n (fun t : ℝ => MvPolynomial.eval (y + t • basis c) p) =
      fun t : ℝ => MvPolynomial.eval (y + t • basis c) ((MvPolynomial.pderiv c)^[n] p) := by
    intro n
    induction n with
    | zero => intro p; simp
    | succ n ih =>
      intro p
      rw [iteratedDeriv_succ']
      have : deriv (fun t : ℝ => MvPolynomial.eval (y + t • basis c) p) =
          fun t : ℝ => MvPolynomial.eval (y + t • basis c) (MvPolynomial.pderiv c p) := by
        funext t
        exact (hasDerivAt_pderiv p y c t).deriv
      rw [this, ih]
      rfl
  rw [h]
  simp

/-- Along one variable a polynomial in several variables is a polynomial of at most its degree in this variable. -/
theorem poly_line (p : MvPolynomial (Fin m) ℝ) (y : Fin m → ℝ) (c : Fin m) :
    ∃ P : ℝ[X], P.natDegree ≤ MvPolynomial.degreeOf c p ∧
      ∀ t : ℝ, MvPolynomial.eval (y + t • basis c) p = P.eval t := by
  refine ⟨∑ v ∈ p.support, C (p.coeff v * (∏ j ∈ Finset.univ.erase c, y j ^ v j)) * (C (y c) + X) ^ v c, ?_, fun t => ?_⟩
  · refine Polynomial.natDegree_sum_le_of_forall_le _ _ fun v hv => ?_
    refine (Polynomial.natDegree_C_mul_le _ _).trans ?_
    refine Polynomial.natDegree_pow_le.trans ?_
    have h1 : (C (y c) + X : ℝ[X]).natDegree ≤ 1 := by
      rw [add_comm]
      exact (Polynomial.natDegree_X_add_C _).le
    have h2 := MvPolynomial.monomial_le_degreeOf c hv
    nlinarith
  · rw [eval_shift, Polynomial.eval_finset_sum]
    refine Finset.sum_congr rfl fun v _ => ?_
    rw [Polynomial.eval_mul, Polynomial.eval_C, Polynomial.eval_pow, Polynomial.eval_add, Polynomial.eval_C,
      Polynomial.eval_X]

theorem degreeOf_pderiv_le (j c : Fin m) (p : MvPolynomial (Fin m) ℝ) :
    MvPolynomial.degreeOf j (MvPolynomial.pderiv c p) ≤ MvPolynomial.degreeOf j p := by
  conv_lhs => rw [p.as_sum, map_sum]
  refine (MvPolynomial.degreeOf_sum_le _ _ _).trans (Finset.sup_le fun v hv => ?_)
  rw [MvPolynomial.pderiv_monomial]
  refine (?_ : _ ≤ v j).trans (MvPolynomial.monomial_le_degreeOf j hv)
  by_cases h0 : p.coeff v * (v c : ℝ) = 0
  · rw [h0, MvPolynomial.monomial_zero, MvPolynomial.degreeOf_zero]
    exact Nat.zero_le _
  · rw [MvPolynomial.degreeOf_monomial_eq _ _ h0]
    simp

/-- Iterated partial derivatives. -/
noncomputable def pderivs (cs : List (Fin m)) (p : MvPolynomial (Fin m) ℝ) : MvPolynomial (Fin m) ℝ :=
  cs.foldr (fun c q => MvPolynomial.pderiv c q) p

theorem degreeOf_pderivs_le (j : Fin m) (cs : List (Fin m)) (p : MvPolynomial (Fin m) ℝ) :
    MvPolynomial.degreeOf j (pderivs cs p) ≤ MvPolynomial.degreeOf j p := by
  induction cs with
  | nil => exact le_rfl
  | cons c cs ih => exact (degreeOf_pderiv_le j c _).trans ih

theorem polyAlong_eval (p : β → MvPolynomial (Fin m) ℝ) (x : β → Fin m → ℝ) (c : Fin m) (b : β) {d : ℕ}
    (h : MvPolynomial.degreeOf c (p b) ≤ d) :
    PolyAlong (fun X b => MvPolynomial.eval (X b) (p b)) x c b d := by
  obtain ⟨P, h1, h2⟩ := poly_line (p b) (x b) c
  exact ⟨P, h1.trans h, h2⟩

/-- **C30** All orders, also mixed: `finitediff` is exact on polynomials of degree at most 2 in every variable. -/
theorem C30_polynomial (hd : ∀ k, defaultEps k ≠ 0) (p : β → MvPolynomial (Fin m) ℝ)
    (hp : ∀ b j, MvPolynomial.degreeOf j (p b) ≤ 2) (is : List ℤ) (his : is ≠ []) (cs : List (Fin m))
    (hcs : is.mapM (pyIndex m) = .ok cs) (eps : Option ℝ) (he : eps ≠ some 0) (x : β → Fin m → ℝ) :
    finitediff defaultEps (fun X b => MvPolynomial.eval (X b) (p b)) x is eps =
      .ok fun b => MvPolynomial.eval (x b) (pderivs cs (p b)) := by
  induction is generalizing cs eps x with
  | nil => exact absurd rfl his
  | cons i di ih =>
    rw [List.mapM_cons] at hcs
    obtain ⟨c, hi, hcs⟩ := bind_ok hcs
    obtain ⟨cs', hdi, hcs⟩ := bind_ok hcs
    have := pure_ok hcs
    subst this
    set e := eps.getD (defaultEps (di.length + 1)) with he'
    have e0 : e ≠ 0 := by
      rw [he']
      cases eps with
      | none => exact hd _
      | some e => exact fun h => he (by rw [Option.getD_some] at h; rw [h])
    have heps : finitediff defaultEps (fun X b => MvPolynomial.eval (X b) (p b)) x (i :: di) eps =
        finitediff defaultEps (fun X b => MvPolynomial.eval (X b) (p b)) x (i :: di) (some e) := by
      rw [finitediff, finitediff]
      rfl
    rw [heps]
    by_cases hrec : di.length + 1 > 3 ∨ (i :: di).toFinset.card > 1
    · have hne : di ≠ [] := by
        rintro rfl
        simp at hrec
      rw [finitediff, hi, ok_bind]
      simp only [Option.getD_some]
      rw [if_pos hrec, ih hne cs' hdi none (by simp), ok_bind, ih hne cs' hdi none (by simp), ok_bind]
      show Except.ok _ = Except.ok _
      congr 1
      funext b
      obtain ⟨P, hP, h⟩ := poly_line (pderivs cs' (p b)) (x b) c
      have hdeg := (hP.trans (degreeOf_pderivs_le c cs' (p b))).trans (hp b c)
      have hn := h (-e)
      rw [neg_smul, ← sub_eq_add_neg] at hn
      have hder : MvPolynomial.eval (x b) (pderivs (c :: cs') (p b)) = P.coeff 1 := by
        have h1 := iteratedDeriv_pderiv 1 (pderivs cs' (p b)) (x b) c
        have h2 := iteratedDeriv_poly P 1
        rw [show (fun t : ℝ => MvPolynomial.eval (x b + t • basis c) (pderivs cs' (p b))) = fun t => P.eval t from
          funext h, h2] at h1
        rw [pderivs, List.foldr_cons, ← pderivs]
        simpa using h1.symm
      rw [hder]
      have e1 : (x + direction c e : β → Fin m → ℝ) b = x b + e • basis c := by
        rw [direction_eq]
        rfl
      have e2 : (x - direction c e : β → Fin m → ℝ) b = x b - e • basis c := by
        rw [direction_eq]
        rfl
      beta_reduce
      rw [e1, e2, h, hn, eval_le_four P (by omega), eval_le_four P (by omega),
        P.coeff_eq_zero_of_natDegree_lt (n := 3) (by omega)]
      field_simp
      ring
    · push Not at hrec
      obtain ⟨hlen, hcard⟩ := hrec
      have hall : ∀ j ∈ di, j = i := by
        intro j hj
        exact Finset.card_le_one.1 hcard j (by simp [hj]) i (by simp)
      have hline : ∀ b (t : ℝ), (x + t • unit c : β → Fin m → ℝ) b = x b + t • basis c := fun b t => rfl
      match di, hdi, hall, hlen with
      | [], hdi, _, _ =>
        have := pure_ok (show (Except.ok [] : Except PyErr (List (Fin m))) = .ok cs' from hdi)
        rw [C30_first hi e0 (fun b => polyAlong_eval p x c b (hp b c))]
        cases this
        congr 1
        funext b
        simp only [hline]
        rw [iteratedDeriv_pderiv]
        rfl
      | [j], hdi, hall, _ =>
        obtain rfl := hall j (by simp)
        have : cs' = [c] := by
          rw [List.mapM_cons, hi, ok_bind] at hdi
          exact (pure_ok hdi).symm
        subst this
        rw [C30_second hi e0 (fun b => polyAlong_eval p x c b ((hp b c).trans (by omega)))]
        congr 1
        funext b
        simp only [hline]
        rw [iteratedDeriv_pderiv]
        rfl
      | [j, k], hdi, hall, _ =>
        obtain rfl := hall j (by simp)
        obtain rfl := hall k (by simp)
        have : cs' = [c, c] := by
          rw [List.mapM_cons, hi, ok_bind, List.mapM_cons, hi, ok_bind] at hdi
          exact (pure_ok hdi).symm
        subst this
        rw [C30_third hi e0 (fun b => polyAlong_eval p x c b ((hp b c).trans (by omega)))]
        congr 1
        funext b
        simp only [hline]
        rw [iteratedDeriv_pderiv]
        rfl
      | _ :: _ :: _ :: _, _, _, hlen => simp at hlen; omega

/-- Without indices there is an error. -/
theorem C30_no_index (eps : Option ℝ) : finitediff defaultEps f x [] eps = .error .indexError := by
  rw [finitediff]

/-- Degree 3 is too much for the first order: the difference of x ^ 3 at 0 is eps ^ 2, not 0. -/
theorem C30_first_sharp {eps : ℝ} (he : eps ≠ 0) :
    finitediff (β := Unit) (m := 1) defaultEps (fun X b => (X b 0) ^ 3) 0 [0] (some eps) = .ok fun _ => eps ^ 2 := by
  rw [order_one (c := 0) rfl]
  congr 1
  funext b
  simp [unit]
  field_simp
  ring

/-- The functions x², x³ and x⁴ in the second of two variables. -/
example (x : Unit → Fin 2 → ℝ) (k : ℕ) : PolyAlong (fun X (b : Unit) => X b 0 + (X b 1) ^ k) x 1 () k := by
  refine ⟨C (x () 0) + (C (x () 1) + X) ^ k, ?_, fun t => ?_⟩
  · refine (Polynomial.natDegree_C_add).le.trans (Polynomial.natDegree_pow_le.trans ?_)
    rw [add_comm, Polynomial.natDegree_X_add_C, mul_one]
  · simp [unit]

/-- A polynomial of degree 2 in both variables, differentiated as in `finitediff(f, x, (0, 1, -1))`. -/
example (x : Unit → Fin 2 → ℝ) :
    let p : MvPolynomial (Fin 2) ℝ := MvPolynomial.X 0 ^ 2 * MvPolynomial.X 1 ^ 2
    finitediff (fun _ => 0.01) (fun X (b : Unit) => MvPolynomial.eval (X b) p) x [0, 1, -1] none =
      .ok fun b => MvPolynomial.eval (x b) (pderivs [0, 1, 1] p) := by
  intro p
  refine C30_polynomial (fun _ => by norm_num) (fun _ => p) (fun _ j => ?_) _ (by simp) _ rfl _ (by simp) x
  refine (MvPolynomial.degreeOf_mul_le _ _ _).trans ?_
  refine (add_le_add (MvPolynomial.degreeOf_pow_le _ _ _) (MvPolynomial.degreeOf_pow_le _ _ _)).trans ?_
  rw [MvPolynomial.degreeOf_X, MvPolynomial.degreeOf_X]
  fin_cases j <;> simp

end Qadence.FiniteDiff
