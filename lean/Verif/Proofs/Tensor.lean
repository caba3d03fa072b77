import Mathlib.Algebra.BigOperators.Ring.Finset
import Mathlib.Topology.Algebra.Module.FiniteDimension
import Mathlib.Analysis.Normed.Algebra.MatrixExponential
import Mathlib.Tactic.IntervalCases
import Verif.Model.Tensor
import Verif.Spec.Tensor
import Verif.Proofs.GateSem
import Verif.Proofs.Except

/-! # Matrices of operators -/

namespace Qadence

open Spec

variable {n : ℕ}

/-! ## Indices -/

theorem index_foldl (l : List Bool) (a : ℕ) :
    l.foldl (fun acc b => 2 * acc + b.toNat) a = a * 2 ^ l.length + l.foldl (fun acc b => 2 * acc + b.toNat) 0 := by
  induction l generalizing a with
  | nil => simp
  | cons b l ih =>
    rw [List.foldl_cons, List.foldl_cons, ih, ih (2 * 0 + b.toNat)]
    simp only [List.length_cons, pow_succ]
    ring

theorem index_append (a b : List ℕ) (u : ℕ → Bool) : index (a ++ b) u = index a u * 2 ^ b.length + index b u := by
  rw [index, List.map_append, List.foldl_append, index_foldl, List.length_map]
  rfl

theorem index_nil (u : ℕ → Bool) : index [] u = 0 := rfl

theorem index_singleton (q : ℕ) (u : ℕ → Bool) : index [q] u = (u q).toNat := by simp [index]

theorem index_cons (q : ℕ) (l : List ℕ) (u : ℕ → Bool) : index (q :: l) u = (u q).toNat * 2 ^ l.length + index l u := by
  rw [show q :: l = [q] ++ l from rfl, index_append, index_singleton]

theorem index_lt (os : List ℕ) (u : ℕ → Bool) : index os u < 2 ^ os.length := by
  induction os with
  | nil => simp [index_nil]
  | cons q os ih =>
    rw [index_cons, List.length_cons, pow_succ]
    have : (u q).toNat ≤ 1 := Bool.toNat_le _
    nlinarith

theorem index_congr {os : List ℕ} {u v : ℕ → Bool} (h : ∀ q ∈ os, u q = v q) : index os u = index os v := by
  unfold index
  rw [List.map_congr_left h]

theorem index_inj {os : List ℕ} {u v : ℕ → Bool} (h : index os u = index os v) : ∀ q ∈ os, u q = v q := by
  induction os with
  | nil => simp
  | cons q os ih =>
    rw [index_cons, index_cons] at h
    have h1 := index_lt os u
    have h2 := index_lt os v
    have e1 : (u q).toNat = (v q).toNat := by
      have a := congrArg (· / 2 ^ os.length) h
      simp only [Nat.mul_comm _ (2 ^ os.length), Nat.mul_add_div (Nat.two_pow_pos _), Nat.div_eq_of_lt h1,
        Nat.div_eq_of_lt h2, add_zero] at a
      exact a
    have e2 : index os u = index os v := by rw [e1] at h; omega
    intro r hr
    rcases List.mem_cons.1 hr with rfl | hr
    · cases hu : u r <;> cases hv : v r <;> simp_all
    · exact ih e2 r hr

theorem index_surj (os : List ℕ) (hn : os.Nodup) (i : ℕ) (hi : i < 2 ^ os.length) (w : ℕ → Bool) :
    ∃ u : ℕ → Bool, index os u = i ∧ ∀ q, q ∉ os → u q = w q := by
  induction os generalizing i with
  | nil =>
    refine ⟨w, ?_, fun _ _ => rfl⟩
    simp at hi
    rw [hi, index_nil]
  | cons q os ih =>
    obtain ⟨hq, hn⟩ := List.nodup_cons.1 hn
    rw [List.length_cons, pow_succ] at hi
    obtain ⟨u, hu, hw⟩ := ih hn (i % 2 ^ os.length) (Nat.mod_lt _ (Nat.two_pow_pos _))
    refine ⟨Function.update u q (decide (i / 2 ^ os.length = 1)), ?_, ?_⟩
    · rw [index_cons, Function.update_self]
      have e : index os (Function.update u q (decide (i / 2 ^ os.length = 1))) = index os u :=
        index_congr fun r hr => Function.update_of_ne (fun e : r = q => hq (e ▸ hr)) _ _
      rw [e, hu]
      have h2 : i / 2 ^ os.length < 2 := Nat.div_lt_of_lt_mul hi
      have h3 : (decide (i / 2 ^ os.length = 1)).toNat = i / 2 ^ os.length := by
        generalize i / 2 ^ os.length = d at h2
        interval_cases d <;> simp
      rw [h3, Nat.mul_comm]
      exact Nat.div_add_mod _ _
    · intro r hr
      simp only [List.mem_cons, not_or] at hr
      rw [Function.update_of_ne hr.1]
      exact hw r hr.2

/-! ## Operators from matrices -/

/-- The operator with a given matrix. -/
noncomputable def lift (os : List ℕ) (T : ℕ → ℕ → ℂ) : Oper n :=
  Matrix.of fun x y => if ∀ j : Fin n, (j : ℕ) ∉ os → x j = y j then T (index os (bit x)) (index os (bit y)) else 0

theorem isMatrixOf_iff (os : List ℕ) (T : ℕ → ℕ → ℂ) (M : Oper n) : IsMatrixOf os T M ↔ M = lift os T := by
  constructor
  · intro h
    funext x y
    exact h x y
  · rintro rfl x y
    rfl

theorem lift_apply (os : List ℕ) (T : ℕ → ℕ → ℂ) (x y : St n) :
    lift os T x y = if ∀ j : Fin n, (j : ℕ) ∉ os → x j = y j then T (index os (bit x)) (index os (bit y)) else 0 := rfl

theorem lift_congr {os : List ℕ} {T T' : ℕ → ℕ → ℂ}
    (h : ∀ i j, i < 2 ^ os.length → j < 2 ^ os.length → T i j = T' i j) : (lift os T : Oper n) = lift os T' := by
  funext x y
  rw [lift_apply, lift_apply, h _ _ (index_lt _ _) (index_lt _ _)]

/-- States which agree outside of `os` and have the same index are equal. -/
theorem eq_of_index {os : List ℕ} {x y : St n} (h : ∀ j : Fin n, (j : ℕ) ∉ os → x j = y j)
    (hi : index os (bit x) = index os (bit y)) : x = y := by
  funext j
  by_cases hj : (j : ℕ) ∈ os
  · have := index_inj hi _ hj
    rwa [bit_val, bit_val] at this
  · exact h j hj

theorem exists_state (os : List ℕ) (hn : os.Nodup) (i : ℕ) (hi : i < 2 ^ os.length) (hos : ∀ q ∈ os, q < n) (w : St n) :
    ∃ x : St n, index os (bit x) = i ∧ ∀ j : Fin n, (j : ℕ) ∉ os → x j = w j := by
  obtain ⟨u, hu, hw⟩ := index_surj os hn i hi (bit w)
  refine ⟨fun j => u j, ?_, fun j hj => ?_⟩
  · rw [← hu]
    exact index_congr fun q hq => by simp [bit, hos q hq]
  · exact (hw _ hj).trans (bit_val _ _)

theorem lift_one (os : List ℕ) : (lift os fun i j => if i = j then 1 else 0) = (1 : Oper n) := by
  funext x y
  rw [lift_apply, Matrix.one_apply]
  by_cases h : x = y
  · subst h; simp
  · rw [if_neg h]
    split
    · next h1 => rw [if_neg fun e => h (eq_of_index h1 e)]
    · rfl

theorem lift_zero (os : List ℕ) : (lift os fun _ _ => 0) = (0 : Oper n) := by
  funext x y
  rw [lift_apply]
  simp

theorem lift_add (os : List ℕ) (A B : ℕ → ℕ → ℂ) :
    (lift os fun i j => A i j + B i j) = (lift os A + lift os B : Oper n) := by
  funext x y
  rw [Matrix.add_apply, lift_apply, lift_apply, lift_apply]
  split <;> simp

theorem lift_smul (os : List ℕ) (c : ℂ) (A : ℕ → ℕ → ℂ) :
    (lift os fun i j => c * A i j) = (c • lift os A : Oper n) := by
  funext x y
  rw [Matrix.smul_apply, lift_apply, lift_apply]
  split <;> simp

theorem lift_mul (os : List ℕ) (hn : os.Nodup) (hos : ∀ q ∈ os, q < n) (A B : ℕ → ℕ → ℂ) :
    (lift os fun i j => ∑ k ∈ Finset.range (2 ^ os.length), A i k * B k j) = (lift os A * lift os B : Oper n) := by
  classical
  funext x y
  rw [Matrix.mul_apply, lift_apply]
  have key : ∑ z, (lift os A : Oper n) x z * (lift os B : Oper n) z y =
      ∑ z ∈ Finset.univ.filter (fun z : St n => ∀ j : Fin n, (j : ℕ) ∉ os → x j = z j),
        A (index os (bit x)) (index os (bit z)) * (lift os B : Oper n) z y := by
    rw [Finset.sum_filter]
    apply Finset.sum_congr rfl
    intro z _
    rw [lift_apply]
    split <;> simp
  rw [key]
  split
  · next h =>
    symm
    apply Finset.sum_nbij (fun z => index os (bit z))
    · intro z _
      exact Finset.mem_range.2 (index_lt _ _)
    · intro z hz z' hz' e
      simp only [Finset.coe_filter, Finset.mem_univ, true_and, Set.mem_setOf_eq] at hz hz'
      exact eq_of_index (fun j hj => (hz j hj).symm.trans (hz' j hj)) e
    · intro i hi
      simp only [Finset.coe_range, Set.mem_Iio] at hi
      obtain ⟨z, hz, hz'⟩ := exists_state os hn i hi hos x
      refine ⟨z, ?_, hz⟩
      simp only [Finset.coe_filter, Finset.mem_univ, true_and, Set.mem_setOf_eq]
      exact fun j hj => (hz' j hj).symm
    · intro z hz
      simp only [Finset.mem_filter, Finset.mem_univ, true_and] at hz
      rw [lift_apply, if_pos fun j hj => (hz j hj).symm.trans (h j hj)]
  · next h =>
    symm
    apply Finset.sum_eq_zero
    intro z hz
    simp only [Finset.mem_filter, Finset.mem_univ, true_and] at hz
    rw [lift_apply, if_neg, mul_zero]
    intro h'
    exact h fun j hj => (hz j hj).trans (h' j hj)

/-- `lift` as a homomorphism of algebras. -/
noncomputable def liftHom (os : List ℕ) (hn : os.Nodup) (hos : ∀ q ∈ os, q < n) :
    Matrix (Fin (2 ^ os.length)) (Fin (2 ^ os.length)) ℂ →ₐ[ℂ] Oper n :=
  AlgHom.ofLinearMap
    { toFun := fun T => lift os fun i j => if h : i < 2 ^ os.length ∧ j < 2 ^ os.length then T ⟨i, h.1⟩ ⟨j, h.2⟩ else 0
      map_add' := by
        intro A B
        rw [← lift_add]
        apply lift_congr
        intro i j hi hj
        simp [hi, hj]
      map_smul' := by
        intro c A
        rw [RingHom.id_apply, ← lift_smul]
        apply lift_congr
        intro i j hi hj
        simp [hi, hj] }
    (by
      simp only [LinearMap.coe_mk, AddHom.coe_mk]
      rw [← lift_one os]
      apply lift_congr
      intro i j hi hj
      simp [hi, hj, Matrix.one_apply])
    (by
      intro A B
      simp only [LinearMap.coe_mk, AddHom.coe_mk]
      rw [← lift_mul os hn hos]
      apply lift_congr
      intro i j hi hj
      simp only [hi, hj, and_self, dite_true, Matrix.mul_apply, true_and, and_true]
      rw [Finset.sum_range]
      apply Finset.sum_congr rfl
      intro k _
      simp)

theorem lift_exp (os : List ℕ) (hn : os.Nodup) (hos : ∀ q ∈ os, q < n) (T : TMat) (hT : T.dim = 2 ^ os.length) :
    (lift os T.exp.e : Oper n) = NormedSpace.exp (lift os T.e) := by
  obtain ⟨d, e⟩ := T
  simp only at hT
  subst hT
  have hc : Continuous (liftHom (n := n) os hn hos) :=
    LinearMap.continuous_of_finiteDimensional (liftHom (n := n) os hn hos).toLinearMap
  letI : NormedRing (Matrix (Fin (2 ^ os.length)) (Fin (2 ^ os.length)) ℂ) := Matrix.linftyOpNormedRing
  letI : NormedAlgebra ℚ (Matrix (Fin (2 ^ os.length)) (Fin (2 ^ os.length)) ℂ) := Matrix.linftyOpNormedAlgebra
  letI : NormedAlgebra ℂ (Matrix (Fin (2 ^ os.length)) (Fin (2 ^ os.length)) ℂ) := Matrix.linftyOpNormedAlgebra
  haveI : CompleteSpace (Matrix (Fin (2 ^ os.length)) (Fin (2 ^ os.length)) ℂ) := FiniteDimensional.complete ℂ _
  letI : NormedRing (Oper n) := Matrix.linftyOpNormedRing
  have h := NormedSpace.map_exp (liftHom (n := n) os hn hos) hc (TMat.toMatrix ⟨2 ^ os.length, e⟩)
  have hl : ∀ A, liftHom (n := n) os hn hos A =
      lift os fun i j => if h : i < 2 ^ os.length ∧ j < 2 ^ os.length then A ⟨i, h.1⟩ ⟨j, h.2⟩ else 0 := fun _ => rfl
  rw [hl, hl] at h
  have h1 : (lift os fun i j => if h : i < 2 ^ os.length ∧ j < 2 ^ os.length then
      TMat.toMatrix ⟨2 ^ os.length, e⟩ ⟨i, h.1⟩ ⟨j, h.2⟩ else 0) = (lift os e : Oper n) := by
    apply lift_congr
    intro i j hi hj
    simp [hi, hj, TMat.toMatrix]
  rw [h1] at h
  exact h

end Qadence
