import Mathlib.Tactic
import Mathlib.LinearAlgebra.Lagrange
import Verif.Model.ZNE
import Verif.Proofs.Except

/-!
# C58: zero-noise extrapolation
-/

namespace Qadence.ZNE

open Polynomial

theorem residual_nonneg (xs ys : List ℝ) (P : ℝ[X]) : 0 ≤ residual xs ys P := by
  refine List.sum_nonneg fun a ha => ?_
  obtain ⟨p, -, rfl⟩ := List.mem_map.1 ha
  exact sq_nonneg _

theorem residual_of_values (xs : List ℝ) (P : ℝ[X]) : residual xs (xs.map P.eval) P = 0 := by
  refine List.sum_eq_zero fun a ha => ?_
  obtain ⟨p, hp, rfl⟩ := List.mem_map.1 ha
  rw [List.zip_map_right] at hp
  obtain ⟨⟨a, b⟩, hab, rfl⟩ := List.mem_map.1 hp
  have : a = b := by
    have := List.of_mem_zip hab
    rw [List.mem_iff_getElem] at hab
    obtain ⟨i, hi, e⟩ := hab
    rw [List.getElem_zip] at e
    exact (Prod.mk.inj e).1.symm.trans (Prod.mk.inj e).2
  subst this
  simp

theorem values_of_residual {xs : List ℝ} {P Q : ℝ[X]} (h : residual xs (xs.map Q.eval) P = 0) :
    ∀ x ∈ xs, P.eval x = Q.eval x := by
  intro x hx
  obtain ⟨i, hi, rfl⟩ := List.mem_iff_getElem.1 hx
  have hmem : (xs[i], Q.eval xs[i]) ∈ xs.zip (xs.map Q.eval) := by
    rw [List.mem_iff_getElem]
    exact ⟨i, by simpa using hi, by simp⟩
  have h0 : (P.eval xs[i] - Q.eval xs[i]) ^ 2 = 0 := by
    have hall : ∀ a ∈ (xs.zip (xs.map Q.eval)).map (fun p => (P.eval p.1 - p.2) ^ 2), (0 : ℝ) ≤ a := by
      intro a ha
      obtain ⟨p, -, rfl⟩ := List.mem_map.1 ha
      exact sq_nonneg _
    exact List.all_zero_of_le_zero_le_of_sum_eq_zero hall h (List.mem_map.2 ⟨_, hmem, rfl⟩)
  have := pow_eq_zero_iff (two_ne_zero) |>.1 h0
  linarith

/-- With different levels a polynomial of small enough degree is reproduced by the fit. -/
theorem fit_eq {xs : List ℝ} (hnd : xs.Nodup) (hne : xs ≠ []) {Q : ℝ[X]} (hQ : Q.natDegree < xs.length) {P : ℝ[X]}
    (hP : IsPolyfit xs (xs.map Q.eval) (xs.length - 1) P) : P = Q := by
  have hlen := List.length_pos_iff.2 hne
  have h0 : residual xs (xs.map Q.eval) P = 0 := by
    have h1 := hP.best Q (by omega)
    rw [residual_of_values] at h1
    exact le_antisymm h1 (residual_nonneg _ _ _)
  have hv := values_of_residual h0
  have hcard : xs.toFinset.card = xs.length := List.toFinset_card_of_nodup hnd
  refine Polynomial.eq_of_degrees_lt_of_eval_finset_eq xs.toFinset ?_ ?_ (fun x hx => hv x (List.mem_toFinset.1 hx))
  · rw [hcard]
    refine (Polynomial.degree_le_natDegree).trans_lt ?_
    have := hP.degree
    exact_mod_cast (by omega : P.natDegree < xs.length)
  · rw [hcard]
    refine (Polynomial.degree_le_natDegree).trans_lt ?_
    exact_mod_cast hQ

theorem mapM_map_ok {α β γ : Type} {f : β → Except PyErr γ} {g : α → β} {h : α → γ} {l : List α}
    (hl : ∀ a ∈ l, f (g a) = .ok (h a)) : (l.map g).mapM f = .ok (l.map h) := by
  induction l with
  | nil => rfl
  | cons a l ih =>
    rw [List.map_cons, List.mapM_cons, hl a List.mem_cons_self, ok_bind,
      ih (fun b hb => hl b (List.mem_cons_of_mem _ hb)), ok_bind]
    rfl

/-- `fit` is a polynomial fit on the given levels. -/
def Fits (fit : List ℝ → List ℝ → ℕ → ℝ[X]) (levels : List ℝ) : Prop :=
  ∀ ys, ys.length = levels.length → IsPolyfit levels ys (levels.length - 1) (fit levels ys (levels.length - 1))

/-- **C58** (different levels) If the expectation of every observable and parameter is a polynomial of the noise level, of degree
smaller than the number of levels, and the levels are different, then the extrapolated values are the values of the
polynomials at zero noise. `E o p` is the polynomial of observable `o` and parameter `p`. -/
theorem C58_exact_partial {fit : List ℝ → List ℝ → ℕ → ℝ[X]} {levels : List ℝ} (hfit : Fits fit levels)
    (hnd : levels.Nodup) (hne : levels ≠ []) {m k : ℕ} {E : Fin m → Fin k → ℝ[X]}
    (hE : ∀ o p, (E o p).natDegree < levels.length) :
    zne fit levels (List.ofFn fun o => levels.map fun l => List.ofFn fun p => (E o p).eval l) =
      .ok (List.ofFn fun o => List.ofFn fun p => (E o p).eval 0) := by
  rw [zne, List.ofFn_eq_map, List.ofFn_eq_map]
  refine mapM_map_ok fun o _ => ?_
  have hmap : ∀ p ∈ List.range k, (do
      let data ← (levels.map (fun l => List.ofFn fun p => (E o p).eval l)).mapM (fun s => pyGet s p)
      if data.length ≠ levels.length then (.error .typeError : Except PyErr ℝ)
      else return (fit levels data (levels.length - 1)).eval 0) =
        .ok (if h : p < k then (E o ⟨p, h⟩).eval 0 else 0) := by
    intro p hp
    rw [List.mem_range] at hp
    have hdata : (levels.map (fun l => List.ofFn fun p => (E o p).eval l)).mapM (fun s => pyGet s p) =
        .ok (levels.map (E o ⟨p, hp⟩).eval) := by
      refine mapM_map_ok fun l _ => ?_
      rw [pyGet, List.getElem?_ofFn, dif_pos hp]
    rw [hdata, ok_bind, if_neg (by simp), fit_eq hnd hne (hE o ⟨p, hp⟩) (hfit _ (by simp)), dif_pos hp]
    rfl
  have hfirst : ∃ s ss, levels.map (fun l => List.ofFn fun p => (E o p).eval l) = s :: ss ∧ s.length = k := by
    obtain ⟨l₀, ls, rfl⟩ := List.exists_cons_of_ne_nil hne
    exact ⟨_, _, rfl, by simp⟩
  obtain ⟨s, ss, hs, hk⟩ := hfirst
  rw [hs] at hmap
  rw [zneDataset.eq_def, hs]
  simp only [ok_bind, hk]
  rw [mapM_ok_map hmap]
  congr 1
  apply List.ext_getElem
  · simp
  · intro i h1 h2
    have hi : i < k := by simpa using h2
    simp [hi]

/-- On different levels a fit exists (the interpolation polynomial), so that the hypotheses of the theorem can be met. -/
theorem fits_exists {levels : List ℝ} (hnd : levels.Nodup) (hne : levels ≠ []) : ∃ fit, Fits fit levels := by
  have h : ∀ ys : List ℝ, ∃ P : ℝ[X], ys.length = levels.length → IsPolyfit levels ys (levels.length - 1) P := by
    intro ys
    by_cases hy : ys.length = levels.length
    · have hlen := List.length_pos_iff.2 hne
      set P := Lagrange.interpolate levels.toFinset id (fun x => ys.getD (levels.idxOf x) 0) with hP
      have hinj : Set.InjOn (id : ℝ → ℝ) levels.toFinset := Function.injective_id.injOn
      have hev : levels.map P.eval = ys := by
        apply List.ext_getElem
        · simp [hy]
        · intro i h1 h2
          have hi : i < levels.length := by simpa using h1
          rw [List.getElem_map]
          have := Lagrange.eval_interpolate_at_node (r := fun x => ys.getD (levels.idxOf x) 0) hinj
            (List.mem_toFinset.2 (List.getElem_mem hi))
          rw [id, ← hP] at this
          rw [this, hnd.idxOf_getElem i hi, List.getD_eq_getElem?_getD, List.getElem?_eq_getElem h2]
          rfl
      have hdeg : P.natDegree < levels.length := by
        have h1 := Lagrange.degree_interpolate_lt (r := fun x => ys.getD (levels.idxOf x) 0) hinj
        rw [List.toFinset_card_of_nodup hnd, ← hP] at h1
        by_cases hz : P = 0
        · rw [hz]
          simpa using hlen
        · exact (Polynomial.natDegree_lt_iff_degree_lt hz).2 h1
      have hres : residual levels ys P = 0 := by rw [← hev, residual_of_values]
      refine ⟨P, fun _ => ⟨by omega, fun Q _ => by rw [hres]; exact residual_nonneg _ _ _, fun Q hQ he => ?_⟩⟩
      rw [hres] at he
      have hPQ : Q = P := by
        rw [← hev] at he
        have hv := values_of_residual he
        refine Polynomial.eq_of_degrees_lt_of_eval_finset_eq levels.toFinset ?_ ?_
          (fun x hx => hv x (List.mem_toFinset.1 hx))
        · rw [List.toFinset_card_of_nodup hnd]
          exact (Polynomial.degree_le_natDegree).trans_lt (by exact_mod_cast (by omega : Q.natDegree < levels.length))
        · rw [List.toFinset_card_of_nodup hnd]
          exact (Polynomial.degree_le_natDegree).trans_lt (by exact_mod_cast hdeg)
      rw [hPQ]
    · exact ⟨0, fun h => absurd h hy⟩
  choose F hF using h
  exact ⟨fun _ ys _ => F ys, fun ys hy => hF ys hy⟩

/-- Three levels, quadratic noise. -/
example : ∃ fit, zne fit [1, 2, 3] [[[6], [11], [18]]] = .ok [[3]] := by
  obtain ⟨fit, hfit⟩ := fits_exists (levels := [1, 2, 3]) (by norm_num) (by simp)
  refine ⟨fit, ?_⟩
  have h := C58_exact_partial hfit (by norm_num) (by simp) (m := 1) (k := 1)
    (E := fun _ _ => X ^ 2 + C 2 * X + C 3) (fun _ _ => by
      have : (X ^ 2 + C 2 * X + C 3 : ℝ[X]).natDegree ≤ 2 := by compute_degree
      simpa using Nat.lt_succ_of_le this)
  norm_num [List.ofFn_succ] at h
  exact h

/-- **C58** (false part) The levels may contain repetitions, then the degree of the fit is larger than the number of
different levels and the fit is not determined: two measurements of a constant at the same level are extrapolated to half
of its value. -/
theorem C58_counterexample_repeated_levels {fit : List ℝ → List ℝ → ℕ → ℝ[X]} (hfit : Fits fit [1, 1]) :
    zne fit [1, 1] [[[1], [1]]] = .ok [[1 / 2]] := by
  have h := hfit [1, 1] rfl
  set P := fit [1, 1] [1, 1] (2 - 1) with hP
  have hz : zne fit [1, 1] [[[1], [1]]] = .ok [[P.eval 0]] := by
    rw [zne, List.mapM_cons, zneDataset]
    rfl
  rw [hz]
  have hdeg : P.natDegree ≤ 1 := h.degree
  have hev : ∀ Q : ℝ[X], Q.natDegree ≤ 1 → ∀ t, Q.eval t = Q.coeff 0 + Q.coeff 1 * t := by
    intro Q hQ t
    rw [Polynomial.eval_eq_sum_range' (n := 2) (by omega)]
    simp [Finset.sum_range_succ]
  have hr : residual [1, 1] [1, 1] P = 0 := by
    have := h.best 1 (by simp)
    have h1 : residual [1, 1] [1, 1] 1 = 0 := by simp [residual]
    rw [h1] at this
    exact le_antisymm this (residual_nonneg _ _ _)
  have h1 : P.coeff 0 + P.coeff 1 = 1 := by
    simp only [residual, List.zip_cons_cons, List.zip_nil_right, List.map_cons, List.map_nil, List.sum_cons, List.sum_nil,
      hev P hdeg, mul_one, add_zero] at hr
    nlinarith [sq_nonneg (P.coeff 0 + P.coeff 1 - 1)]
  have h2 := h.least (C (1 / 2) + C (1 / 2) * X) (show _ ≤ 1 by compute_degree) (by
    show residual [1, 1] [1, 1] _ = residual [1, 1] [1, 1] P
    rw [hr]
    simp [residual]
    norm_num)
  have h3 : scaledNorm [1, 1] 1 P = 2 * P.coeff 0 ^ 2 + 2 * P.coeff 1 ^ 2 := by
    simp [scaledNorm, Finset.sum_range_succ]
    norm_num
  have h4 : scaledNorm [1, 1] 1 (C (1 / 2) + C (1 / 2) * X) = 1 := by
    simp [scaledNorm, Finset.sum_range_succ]
    norm_num
  have h5 : 2 * P.coeff 0 ^ 2 + 2 * P.coeff 1 ^ 2 ≤ 1 := by
    have h6 : scaledNorm [1, 1] 1 P ≤ scaledNorm [1, 1] 1 (C (1 / 2) + C (1 / 2) * X) := h2
    rw [h3, h4] at h6
    exact h6
  have h6 : P.coeff 0 = 1 / 2 := by
    have : P.coeff 1 = 1 - P.coeff 0 := by linarith
    rw [this] at h5
    nlinarith [sq_nonneg (P.coeff 0 - 1 / 2)]
  rw [hev P hdeg, h6]
  norm_num

/-- Such fits exist. -/
example : ∃ fit, Fits fit [1, 1] := by
  refine ⟨fun _ ys _ => C (ys.sum / 4) + C (ys.sum / 4) * X, fun ys hy => ?_⟩
  match ys, hy with
  | [a, b], _ =>
    have hev : ∀ Q : ℝ[X], Q.natDegree ≤ 1 → Q.eval 1 = Q.coeff 0 + Q.coeff 1 := by
      intro Q hQ
      rw [Polynomial.eval_eq_sum_range' (n := 2) (by omega)]
      simp [Finset.sum_range_succ]
    have hdeg : (C ([a, b].sum / 4) + C ([a, b].sum / 4) * X : ℝ[X]).natDegree ≤ 1 := by compute_degree
    have hres : ∀ Q : ℝ[X], residual [1, 1] [a, b] Q = (Q.eval 1 - a) ^ 2 + (Q.eval 1 - b) ^ 2 := by
      intro Q
      simp [residual]
    have hval : (C ([a, b].sum / 4) + C ([a, b].sum / 4) * X : ℝ[X]).eval 1 = (a + b) / 2 := by
      simp
      ring
    have hsn : ∀ Q : ℝ[X], scaledNorm [1, 1] 1 Q = 2 * Q.coeff 0 ^ 2 + 2 * Q.coeff 1 ^ 2 := by
      intro Q
      simp [scaledNorm, Finset.sum_range_succ]
      norm_num
    refine ⟨hdeg, fun Q hQ => ?_, fun Q hQ he => ?_⟩
    · rw [hres, hres, hval]
      nlinarith [sq_nonneg (Q.eval 1 - (a + b) / 2)]
    · rw [hres, hres, hval] at he
      have h1 : (Q.eval 1 - (a + b) / 2) ^ 2 = 0 := by nlinarith
      have h2 : Q.eval 1 = (a + b) / 2 := by
        have := pow_eq_zero_iff two_ne_zero |>.1 h1
        linarith
      rw [hev Q hQ] at h2
      show scaledNorm [1, 1] 1 _ ≤ scaledNorm [1, 1] 1 Q
      rw [hsn, hsn]
      simp
      rw [show (a + b) / 4 = (Q.coeff 0 + Q.coeff 1) / 2 by rw [h2]; ring]
      nlinarith [sq_nonneg (Q.coeff 0 - Q.coeff 1)]

end Qadence.ZNE
