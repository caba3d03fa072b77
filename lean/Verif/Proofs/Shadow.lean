import Mathlib.Data.Fintype.BigOperators
import Mathlib.Algebra.BigOperators.Field
import Mathlib.Tactic.FieldSimp
import Mathlib.Tactic.Ring
import Mathlib.Tactic.Linarith
import Verif.Spec.Shadow
import Verif.Proofs.Except

/-!
# Expectation values over random bases and outcomes
-/

namespace Qadence.Shadow

open Spec

variable {n N : ℕ}

theorem nontrivial_mem {ls : List (FixedGate × ℕ)} {p : FixedGate × ℕ} : p ∈ nontrivial ls ↔ p ∈ ls ∧ p.1 ≠ .I := by
  simp [nontrivial]

/-- Letters, qubits below `n`, one letter per qubit. -/
structure Letters (n : ℕ) (ls : List (FixedGate × ℕ)) : Prop where
  letters : ∀ p ∈ ls, p.1 = .X ∨ p.1 = .Y ∨ p.1 = .Z ∨ p.1 = .I
  inside : ∀ p ∈ ls, p.2 < n
  once : (ls.map Prod.snd).Nodup

theorem Letters.nontrivial_nodup {ls : List (FixedGate × ℕ)} (h : Letters n ls) : ((nontrivial ls).map Prod.snd).Nodup :=
  List.Nodup.sublist (List.Sublist.map _ List.filter_sublist) h.once

theorem Letters.basis {ls : List (FixedGate × ℕ)} (h : Letters n ls) {p : FixedGate × ℕ} (hp : p ∈ nontrivial ls) :
    ∃ i, basisOf p.1 = some i ∧ letterOf i = p.1 := by
  rw [nontrivial_mem] at hp
  rcases h.letters p hp.1 with e | e | e | e
  · exact ⟨0, by rw [e]; rfl, by rw [e]; rfl⟩
  · exact ⟨1, by rw [e]; rfl, by rw [e]; rfl⟩
  · exact ⟨2, by rw [e]; rfl, by rw [e]; rfl⟩
  · exact absurd e hp.2

open Classical in
/-- Probability of measuring all letters of a string, for uniformly random bases. -/
theorem measured_probability {ls : List (FixedGate × ℕ)} (h : Letters n ls) :
    ∑ c : Fin n → Fin 3, (1 / 3 : ℂ) ^ n * (if Measured ls c then 1 else 0) = (1 / 3) ^ (nontrivial ls).length := by
  set ok : Fin n → Fin 3 → Prop := fun q a => ∀ p ∈ nontrivial ls, p.2 = q → basisOf p.1 = some a with hok
  have h1 : ∀ c : Fin n → Fin 3, (1 / 3 : ℂ) ^ n * (if Measured ls c then 1 else 0) =
      ∏ q, ((1 / 3 : ℂ) * if ok q (c q) then 1 else 0) := by
    intro c
    rw [Finset.prod_mul_distrib, Finset.prod_const, Finset.card_univ, Fintype.card_fin, Finset.prod_ite_zero]
    congr 1
    have : Measured ls c ↔ ∀ q ∈ Finset.univ, ok q (c q) := by
      constructor
      · intro hm q _ p hp e
        obtain ⟨hlt, hb⟩ := hm p hp
        rw [hb]
        congr
      · intro hm p hp
        have hlt := h.inside p (nontrivial_mem.1 hp).1
        exact ⟨hlt, hm ⟨p.2, hlt⟩ (Finset.mem_univ _) p hp rfl⟩
    simp only [this, Finset.prod_const_one]
  simp only [h1]
  rw [← Fintype.prod_sum (fun (q : Fin n) a => (1 / 3 : ℂ) * if ok q a then 1 else 0)]
  have h2 : ∀ q : Fin n, ∑ a, ((1 / 3 : ℂ) * if ok q a then 1 else 0) =
      if q.val ∈ (nontrivial ls).map Prod.snd then 1 / 3 else 1 := by
    intro q
    split
    · next hq =>
      obtain ⟨p, hp, e⟩ := List.mem_map.1 hq
      obtain ⟨i, hi, -⟩ := h.basis hp
      have : ∀ a, ok q a ↔ a = i := by
        intro a
        constructor
        · intro ha
          have := ha p hp e
          rw [hi] at this
          exact (Option.some.inj this).symm
        · rintro rfl p' hp' e'
          have : p' = p := List.inj_on_of_nodup_map h.nontrivial_nodup hp' hp (e'.trans e.symm)
          rw [this, hi]
      simp [this]
    · next hq =>
      have : ∀ a, ok q a := fun a p hp e => absurd (List.mem_map.2 ⟨p, hp, e⟩) hq
      simp [this]
  simp only [h2]
  rw [Finset.prod_ite, Finset.prod_const, Finset.prod_const_one, mul_one]
  congr 1
  have hcard : (Finset.univ.filter fun q : Fin n => q.val ∈ (nontrivial ls).map Prod.snd).map Fin.valEmbedding =
      ((nontrivial ls).map Prod.snd).toFinset := by
    ext q
    simp only [Finset.mem_map, Finset.mem_filter, Finset.mem_univ, true_and, Fin.valEmbedding_apply, List.mem_toFinset]
    constructor
    · rintro ⟨a, ha, rfl⟩; exact ha
    · intro hq
      obtain ⟨p, hp, rfl⟩ := List.mem_map.1 hq
      exact ⟨⟨p.2, h.inside p (nontrivial_mem.1 hp).1⟩, hq, rfl⟩
  rw [← Finset.card_map Fin.valEmbedding, hcard, List.toFinset_card_of_nodup h.nontrivial_nodup, List.length_map]

/-- Mean of a function of one of several independent outcomes. -/
theorem mean_of_one {Ω : Type} [Fintype Ω] (D : Fin N → Ω → ℂ) (hD : ∀ i, ∑ x, D i x = 1) (i : Fin N) (f : Ω → ℂ) :
    ∑ o : Fin N → Ω, (∏ j, D j (o j)) * f (o i) = ∑ x, D i x * f x := by
  have h1 : ∀ o : Fin N → Ω, (∏ j, D j (o j)) * f (o i) = ∏ j, (D j (o j) * if j = i then f (o j) else 1) := by
    intro o
    rw [Finset.prod_mul_distrib]
    congr 1
    rw [Finset.prod_eq_single i]
    · simp
    · intro j _ hj; simp [hj]
    · simp
  simp only [h1]
  rw [← Fintype.prod_sum (fun (j : Fin N) x => D j x * if j = i then f x else 1), Finset.prod_eq_single i]
  · simp
  · intro j _ hj; simp [hj, hD]
  · simp

open Classical in
/-- Mean of the estimator of a group for given bases. -/
theorem mean_given_bases (ls : List (FixedGate × ℕ)) (D : (Fin n → Fin 3) → St n → ℂ) (hD : ∀ c, ∑ x, D c x = 1) {v : ℂ}
    (hv : ∀ c, Measured ls c → ∑ x, D c x * result ls x = v) (g : Finset (Fin N)) (b : Fin N → Fin n → Fin 3) :
    ∑ o : Fin N → St n, (∏ i, D (b i) (o i)) * (groupMean ls b o g : ℂ) = if ∃ i ∈ g, Measured ls (b i) then v else 0 := by
  set M := g.filter fun i => Measured ls (b i) with hM
  have h1 : ∀ o : Fin N → St n, (∏ i, D (b i) (o i)) * (groupMean ls b o g : ℂ) =
      (∑ i ∈ M, (∏ j, D (b j) (o j)) * (result ls (o i) : ℂ)) / M.card := by
    intro o
    unfold groupMean
    push_cast
    rw [← hM, ← Finset.mul_sum, mul_div_assoc]
  simp only [h1]
  rw [← Finset.sum_div, Finset.sum_comm]
  have h2 : ∀ i ∈ M, ∑ o : Fin N → St n, (∏ j, D (b j) (o j)) * (result ls (o i) : ℂ) = v := by
    intro i hi
    rw [mean_of_one (fun j => D (b j)) (fun j => hD _) i (fun x => (result ls x : ℂ))]
    exact hv _ (Finset.mem_filter.1 hi).2
  rw [Finset.sum_congr rfl h2, Finset.sum_const, nsmul_eq_mul]
  split
  · next h =>
    obtain ⟨i, hi, hm⟩ := h
    have : M.card ≠ 0 := Finset.card_ne_zero_of_mem (Finset.mem_filter.2 ⟨hi, hm⟩)
    have : (M.card : ℂ) ≠ 0 := by exact_mod_cast this
    field_simp
  · next h =>
    have : M = ∅ := by
      apply Finset.filter_eq_empty_iff.2
      intro i hi hm
      exact h ⟨i, hi, hm⟩
    simp [this]

open Classical in
/-- Probability that the string is measured in some snapshot of a group. -/
theorem hit_probability {ls : List (FixedGate × ℕ)} (h : Letters n ls) (g : Finset (Fin N)) :
    ∑ b : Fin N → Fin n → Fin 3, (∏ _i : Fin N, (1 / 3 : ℂ) ^ n) * (if ∃ i ∈ g, Measured ls (b i) then 1 else 0) =
      1 - (1 - (1 / 3) ^ (nontrivial ls).length) ^ g.card := by
  have hone : ∑ _c : Fin n → Fin 3, (1 / 3 : ℂ) ^ n = 1 := by
    rw [Finset.sum_const, Finset.card_univ, Fintype.card_fun, Fintype.card_fin, Fintype.card_fin, nsmul_eq_mul]
    push_cast
    rw [← mul_pow]; norm_num
  have h1 : ∀ b : Fin N → Fin n → Fin 3, (∏ _i : Fin N, (1 / 3 : ℂ) ^ n) * (if ∃ i ∈ g, Measured ls (b i) then 1 else 0) =
      (∏ _i : Fin N, (1 / 3 : ℂ) ^ n) - ∏ i, ((1 / 3 : ℂ) ^ n * if i ∈ g ∧ Measured ls (b i) then 0 else 1) := by
    intro b
    rw [Finset.prod_mul_distrib]
    split
    · next hm =>
      obtain ⟨i, hi, hm⟩ := hm
      rw [Finset.prod_eq_zero (i := i) (f := fun i => if i ∈ g ∧ Measured ls (b i) then (0 : ℂ) else 1) (Finset.mem_univ i)
        (by simp [hi, hm])]
      ring
    · next hm =>
      rw [Finset.prod_eq_one (f := fun i => if i ∈ g ∧ Measured ls (b i) then (0 : ℂ) else 1)]
      · ring
      · intro i _
        rw [if_neg]
        rintro ⟨hi, hm'⟩
        exact hm ⟨i, hi, hm'⟩
  simp only [h1]
  rw [Finset.sum_sub_distrib, ← Fintype.prod_sum (fun (_ : Fin N) (_ : Fin n → Fin 3) => (1 / 3 : ℂ) ^ n),
    ← Fintype.prod_sum (fun (i : Fin N) (c : Fin n → Fin 3) => (1 / 3 : ℂ) ^ n * if i ∈ g ∧ Measured ls c then 0 else 1)]
  have h2 : ∀ i : Fin N, ∑ c : Fin n → Fin 3, ((1 / 3 : ℂ) ^ n * if i ∈ g ∧ Measured ls c then 0 else 1) =
      if i ∈ g then 1 - (1 / 3) ^ (nontrivial ls).length else 1 := by
    intro i
    split
    · next hi =>
      rw [← measured_probability h]
      conv_rhs => rw [← hone]
      rw [← Finset.sum_sub_distrib]
      apply Finset.sum_congr rfl
      intro c _
      by_cases hc : Measured ls c <;> simp [hi, hc]
    · next hi => simp [hi, hone]
  rw [Finset.prod_congr rfl fun i _ => h2 i, hone, Finset.prod_const_one, Finset.prod_ite, Finset.prod_const, Finset.prod_const_one,
    mul_one, Finset.filter_mem_eq_inter, Finset.univ_inter]

/-- Mean of the estimator of a group. -/
theorem mean_of_group {ls : List (FixedGate × ℕ)} (h : Letters n ls) (D : (Fin n → Fin 3) → St n → ℂ) (hD : ∀ c, ∑ x, D c x = 1)
    {v : ℂ} (hv : ∀ c, Measured ls c → ∑ x, D c x * result ls x = v) (g : Finset (Fin N)) :
    ∑ b : Fin N → Fin n → Fin 3, ∑ o : Fin N → St n, (∏ i, ((1 / 3 : ℂ) ^ n * D (b i) (o i))) * (groupMean ls b o g : ℂ) =
      (1 - (1 - (1 / 3) ^ (nontrivial ls).length) ^ g.card) * v := by
  classical
  have h1 : ∀ b : Fin N → Fin n → Fin 3,
      ∑ o : Fin N → St n, (∏ i, ((1 / 3 : ℂ) ^ n * D (b i) (o i))) * (groupMean ls b o g : ℂ) =
        (∏ _i : Fin N, (1 / 3 : ℂ) ^ n) * (if ∃ i ∈ g, Measured ls (b i) then 1 else 0) * v := by
    intro b
    simp only [Finset.prod_mul_distrib, mul_assoc]
    rw [← Finset.mul_sum, mean_given_bases ls D hD hv]
    congr 1
    split <;> simp
  simp only [h1]
  rw [← Finset.sum_mul, hit_probability h]

end Qadence.Shadow
