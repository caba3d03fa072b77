import Verif.Spec.States
import Verif.Proofs.TensorSem
import Verif.Proofs.Embed1

/-!
# States and one-qubit operators
-/

namespace Qadence.Spec

open Matrix

variable {n : ℕ}

/-- What a one-qubit operator does to a state. -/
theorem embed1_mulVec {q : ℕ} (hq : q < n) (U : Matrix Bool Bool ℂ) (φ : St n → ℂ) (x : St n) :
    (embed1 q U *ᵥ φ) x = ∑ b, U (bit x q) b * φ (Function.update x ⟨q, hq⟩ b) := by
  have hinj : Function.Injective fun b : Bool => Function.update x ⟨q, hq⟩ b := by
    intro a b h
    have := congrFun h ⟨q, hq⟩
    simpa using this
  rw [mulVec, dotProduct]
  have : ∑ b, U (bit x q) b * φ (Function.update x ⟨q, hq⟩ b) =
      ∑ y ∈ Finset.univ.map ⟨_, hinj⟩, embed1 q U x y * φ y := by
    rw [Finset.sum_map]
    refine Finset.sum_congr rfl fun b _ => ?_
    simp only [Function.Embedding.coeFn_mk, embed1, bit_update]
    rw [if_pos]
    intro j hj
    rw [Function.update_of_ne]
    rintro rfl
    exact hj rfl
  rw [this]
  symm
  apply Finset.sum_subset (Finset.subset_univ _)
  intro y _ hy
  rw [embed1, if_neg, zero_mul]
  intro h
  apply hy
  simp only [Finset.mem_map, Finset.mem_univ, Function.Embedding.coeFn_mk, true_and]
  refine ⟨y ⟨q, hq⟩, ?_⟩
  funext j
  by_cases hj : j = ⟨q, hq⟩
  · subst hj; simp
  · rw [Function.update_of_ne hj]
    exact h j fun e => hj (Fin.ext e.symm)

/-- Product states. -/
noncomputable def prodState (f : ℕ → Bool → ℂ) : St n → ℂ := fun x => ∏ i : Fin n, f i (x i)

theorem embed1_prodState {q : ℕ} (hq : q < n) (U : Matrix Bool Bool ℂ) (f : ℕ → Bool → ℂ) :
    (embed1 q U *ᵥ prodState f : St n → ℂ) = prodState (Function.update f q (U *ᵥ f q)) := by
  funext x
  rw [embed1_mulVec hq, prodState]
  have h1 : ∀ b, prodState f (Function.update x ⟨q, hq⟩ b) =
      f q b * ∏ i ∈ Finset.univ.erase (⟨q, hq⟩ : Fin n), f i (x i) := by
    intro b
    rw [prodState, ← Finset.mul_prod_erase _ _ (Finset.mem_univ (⟨q, hq⟩ : Fin n))]
    simp only [Function.update_self]
    congr 1
    refine Finset.prod_congr rfl fun i hi => ?_
    rw [Function.update_of_ne (Finset.ne_of_mem_erase hi)]
  simp only [h1, ← mul_assoc, ← Finset.sum_mul]
  rw [← Finset.mul_prod_erase _ _ (Finset.mem_univ (⟨q, hq⟩ : Fin n))]
  congr 1
  · simp only [Function.update_self, mulVec, dotProduct, bit, hq, dif_pos]
  · refine Finset.prod_congr rfl fun i hi => ?_
    rw [Function.update_of_ne]
    intro e
    exact Finset.ne_of_mem_erase hi (Fin.ext e)

/-- A layer of one-qubit operators on different qubits. -/
theorem layer_prodState {qs : List ℕ} (hnd : qs.Nodup) (hq : ∀ q ∈ qs, q < n) (U : ℕ → Matrix Bool Bool ℂ) (f : ℕ → Bool → ℂ) :
    (opProd (qs.map fun q => embed1 q (U q)) *ᵥ prodState f : St n → ℂ) =
      prodState fun i => if i ∈ qs then U i *ᵥ f i else f i := by
  induction qs generalizing f with
  | nil => simp [opProd]
  | cons q qs ih =>
    have hnd' := List.nodup_cons.1 hnd
    rw [List.map_cons, opProd, ← mulVec_mulVec, embed1_prodState (hq q (by simp)),
      ih hnd'.2 (fun p hp => hq p (by simp [hp]))]
    congr 1
    funext i
    by_cases hi : i = q
    · subst hi; simp [hnd'.1]
    · by_cases h : i ∈ qs <;> simp [hi, h]

theorem ket_eq_prodState (s : ℕ → Bool) : (ket fun j : Fin n => s j) = prodState fun i b => if b = s i then 1 else 0 := by
  funext x
  rw [ket, prodState]
  by_cases h : x = fun j : Fin n => s j
  · subst h; simp
  · rw [if_neg h]
    obtain ⟨j, hj⟩ := Function.ne_iff.1 h
    exact (Finset.prod_eq_zero (Finset.mem_univ j) (by simp [hj])).symm

theorem mapOp_ket (f : St n → St n) (y : St n) : mapOp f *ᵥ ket y = ket (f y) := by
  funext x
  rw [mulVec, dotProduct, Finset.sum_eq_single y]
  · simp [mapOp, ket]
  · intro z _ hz; simp [ket, hz]
  · simp

theorem unitVector_ket (y : St n) : UnitVector (ket y) := by
  unfold UnitVector
  rw [Finset.sum_eq_single y]
  · simp [ket]
  · intro z _ hz; simp [ket, hz]
  · simp

end Qadence.Spec
