import Mathlib.Tactic.Ring
import Mathlib.Tactic.Linarith
import Mathlib.Data.Fintype.BigOperators
import Mathlib.Algebra.BigOperators.Group.List.Basic
import Verif.Spec.BlockSem

/-!
# Lemmas about operators and their supports
-/

namespace Qadence.Spec

open Matrix

variable {n : ℕ}

@[simp] theorem flipBit_flipBit (j : Fin n) (x : St n) : flipBit j (flipBit j x) = x := by
  funext k
  unfold flipBit
  by_cases h : k = j
  · subst h; simp
  · simp [h]

theorem flipBit_same (j : Fin n) (x : St n) : flipBit j x j = !(x j) := by simp [flipBit]

theorem flipBit_ne {j k : Fin n} (h : k ≠ j) (x : St n) : flipBit j x k = x k := by simp [flipBit, h]

/-- Flipping a bit as a permutation of the basis states. -/
def flipEquiv (j : Fin n) : St n ≃ St n := ⟨flipBit j, flipBit j, flipBit_flipBit j, flipBit_flipBit j⟩

theorem flipBit_inj (j : Fin n) {x y : St n} : flipBit j x = flipBit j y ↔ x = y :=
  (flipEquiv j).injective.eq_iff

theorem TrivialOn.one (j : Fin n) : TrivialOn j (1 : Oper n) := by
  constructor
  · intro x y h
    rw [Matrix.one_apply_ne]
    rintro rfl; exact h rfl
  · intro x y
    simp [Matrix.one_apply, flipBit_inj]

theorem TrivialOn.zero (j : Fin n) : TrivialOn j (0 : Oper n) := by
  constructor <;> simp

theorem TrivialOn.add {j : Fin n} {A B : Oper n} (hA : TrivialOn j A) (hB : TrivialOn j B) :
    TrivialOn j (A + B) := by
  constructor
  · intro x y h; simp [hA.1 x y h, hB.1 x y h]
  · intro x y; simp [hA.2, hB.2]

theorem TrivialOn.sub {j : Fin n} {A B : Oper n} (hA : TrivialOn j A) (hB : TrivialOn j B) :
    TrivialOn j (A - B) := by
  constructor
  · intro x y h; simp [hA.1 x y h, hB.1 x y h]
  · intro x y; simp [hA.2, hB.2]

theorem TrivialOn.smul {j : Fin n} {A : Oper n} (c : ℂ) (hA : TrivialOn j A) :
    TrivialOn j (c • A) := by
  constructor
  · intro x y h; simp [hA.1 x y h]
  · intro x y; simp [hA.2]

theorem TrivialOn.mul {j : Fin n} {A B : Oper n} (hA : TrivialOn j A) (hB : TrivialOn j B) :
    TrivialOn j (A * B) := by
  constructor
  · intro x y h
    rw [Matrix.mul_apply]
    apply Finset.sum_eq_zero
    intro z _
    by_cases h1 : x j = z j
    · rw [hB.1 z y (by rw [← h1]; exact h), mul_zero]
    · rw [hA.1 x z h1, zero_mul]
  · intro x y
    rw [Matrix.mul_apply, Matrix.mul_apply, ← Equiv.sum_comp (flipEquiv j)]
    apply Finset.sum_congr rfl
    intro z _
    show A (flipBit j x) (flipBit j z) * B (flipBit j z) (flipBit j y) = _
    rw [hA.2, hB.2]

theorem TrivialOn.conjTranspose {j : Fin n} {A : Oper n} (hA : TrivialOn j A) :
    TrivialOn j Aᴴ := by
  constructor
  · intro x y h; simp [Matrix.conjTranspose_apply, hA.1 y x (Ne.symm h)]
  · intro x y; simp [Matrix.conjTranspose_apply, hA.2]

theorem ActsOn.mono {S T : Set ℕ} {A : Oper n} (h : ActsOn S A) (hST : S ⊆ T) : ActsOn T A :=
  fun j hj => h j fun hs => hj (hST hs)

theorem ActsOn.one (S : Set ℕ) : ActsOn S (1 : Oper n) := fun j _ => TrivialOn.one j

theorem ActsOn.zero (S : Set ℕ) : ActsOn S (0 : Oper n) := fun j _ => TrivialOn.zero j

theorem ActsOn.add {S : Set ℕ} {A B : Oper n} (hA : ActsOn S A) (hB : ActsOn S B) : ActsOn S (A + B) :=
  fun j hj => (hA j hj).add (hB j hj)

theorem ActsOn.sub {S : Set ℕ} {A B : Oper n} (hA : ActsOn S A) (hB : ActsOn S B) : ActsOn S (A - B) :=
  fun j hj => (hA j hj).sub (hB j hj)

theorem ActsOn.smul {S : Set ℕ} {A : Oper n} (c : ℂ) (hA : ActsOn S A) : ActsOn S (c • A) :=
  fun j hj => (hA j hj).smul c

theorem ActsOn.mul {S : Set ℕ} {A B : Oper n} (hA : ActsOn S A) (hB : ActsOn S B) : ActsOn S (A * B) :=
  fun j hj => (hA j hj).mul (hB j hj)

theorem ActsOn.conjTranspose {S : Set ℕ} {A : Oper n} (hA : ActsOn S A) : ActsOn S Aᴴ :=
  fun j hj => (hA j hj).conjTranspose

/-- Entries only depend on the bits of the support. -/
theorem ActsOn.apply_congr {S : Set ℕ} {A : Oper n} (hA : ActsOn S A) {x y x' y' : St n}
    (hS : ∀ j : Fin n, (j : ℕ) ∈ S → x j = x' j ∧ y j = y' j)
    (h1 : ∀ j : Fin n, (j : ℕ) ∉ S → x j = y j) (h2 : ∀ j : Fin n, (j : ℕ) ∉ S → x' j = y' j) :
    A x y = A x' y' := by
  classical
  -- induction over the number of qubits on which `x` and `x'` differ
  generalize hd : (Finset.univ.filter fun j : Fin n => x j ≠ x' j).card = d
  induction d generalizing x y with
  | zero =>
    have hx : x = x' := by
      funext j
      by_contra hne
      have : j ∈ Finset.univ.filter fun j : Fin n => x j ≠ x' j := by simp [hne]
      rw [Finset.card_eq_zero.1 hd] at this
      simp at this
    have hy : y = y' := by
      funext j
      by_cases hj : (j : ℕ) ∈ S
      · exact (hS j hj).2
      · rw [← h1 j hj, ← h2 j hj, hx]
    rw [hx, hy]
  | succ d ih =>
    have hne : (Finset.univ.filter fun j : Fin n => x j ≠ x' j).Nonempty := by
      rw [← Finset.card_pos]; omega
    obtain ⟨j, hj⟩ := hne
    have hjx : x j ≠ x' j := by simpa using hj
    have hjS : (j : ℕ) ∉ S := fun hs => hjx (hS j hs).1
    rw [← (hA j hjS).2 x y]
    apply ih
    · intro k hk
      have hkj : k ≠ j := by rintro rfl; exact hjS hk
      rw [flipBit_ne hkj, flipBit_ne hkj]
      exact hS k hk
    · intro k hk
      by_cases hkj : k = j
      · subst hkj; rw [flipBit_same, flipBit_same, h1 k hk]
      · rw [flipBit_ne hkj, flipBit_ne hkj]; exact h1 k hk
    · have : (Finset.univ.filter fun k : Fin n => flipBit j x k ≠ x' k) =
          (Finset.univ.filter fun k : Fin n => x k ≠ x' k).erase j := by
        ext k
        simp only [Finset.mem_filter, Finset.mem_univ, true_and, Finset.mem_erase]
        by_cases hkj : k = j
        · subst hkj
          rw [flipBit_same]
          simp
          cases h1 : x k <;> cases h2 : x' k <;> simp_all
        · rw [flipBit_ne hkj]; simp [hkj]
      rw [this, Finset.card_erase_of_mem hj, hd]
      rfl

/-- Entries vanish between states which differ outside the support. -/
theorem ActsOn.apply_eq_zero {S : Set ℕ} {A : Oper n} (hA : ActsOn S A) {x y : St n} {j : Fin n}
    (hj : (j : ℕ) ∉ S) (hne : x j ≠ y j) : A x y = 0 := (hA j hj).1 x y hne

open Classical in
/-- Product of operators on disjoint supports: the entries factorise. -/
theorem ActsOn.mul_apply_of_disjoint {S T : Set ℕ} {A B : Oper n} (hA : ActsOn S A) (hB : ActsOn T B)
    (hST : Disjoint S T) (x y : St n) :
    (A * B) x y = A x (fun j => if (j : ℕ) ∈ S then y j else x j) *
      B (fun j => if (j : ℕ) ∈ S then y j else x j) y := by
  rw [Matrix.mul_apply]
  apply Finset.sum_eq_single
  · intro z _ hz
    by_contra hne
    apply hz
    funext j
    split
    · next hj =>
      have hjT : (j : ℕ) ∉ T := Set.disjoint_left.1 hST hj
      by_contra h
      exact hne (by rw [hB.apply_eq_zero hjT h, mul_zero])
    · next hj =>
      by_contra h
      exact hne (by rw [hA.apply_eq_zero hj (Ne.symm h), zero_mul])
  · intro h; exact absurd (Finset.mem_univ _) h

/-- Operators on disjoint supports commute. -/
theorem ActsOn.commute_of_disjoint {S T : Set ℕ} {A B : Oper n} (hA : ActsOn S A) (hB : ActsOn T B)
    (hST : Disjoint S T) : A * B = B * A := by
  classical
  ext x y
  rw [hA.mul_apply_of_disjoint hB hST, hB.mul_apply_of_disjoint hA hST.symm]
  by_cases hxy : ∀ j : Fin n, (j : ℕ) ∉ S → (j : ℕ) ∉ T → x j = y j
  · rw [mul_comm]
    congr 1
    · apply hB.apply_congr
      · intro j hj
        have hjS : (j : ℕ) ∉ S := Set.disjoint_right.1 hST hj
        simp [hjS, hj]
      · intro j hj
        by_cases hjS : (j : ℕ) ∈ S
        · simp [hjS]
        · simp [hjS, hxy j hjS hj]
      · intro j hj; simp [hj]
    · apply hA.apply_congr
      · intro j hj
        have hjT : (j : ℕ) ∉ T := Set.disjoint_left.1 hST hj
        simp [hjT, hj]
      · intro j hj; simp [hj]
      · intro j hj
        by_cases hjT : (j : ℕ) ∈ T
        · simp [hjT]
        · simp [hjT, hxy j hj hjT]
  · push Not at hxy
    obtain ⟨j, hjS, hjT, hne⟩ := hxy
    rw [hB.apply_eq_zero (x := fun j => if (j : ℕ) ∈ S then y j else x j) hjT (by simp [hjS, hne]),
      hA.apply_eq_zero (x := fun j => if (j : ℕ) ∈ T then y j else x j) hjS (by simp [hjT, hne])]
    simp

/-! ## Embedded matrices -/

theorem bit_flipBit_ne {j : Fin n} {q : ℕ} (h : q ≠ j) (x : St n) : bit (flipBit j x) q = bit x q := by
  unfold bit
  split
  · next hq =>
    apply flipBit_ne
    intro e
    exact h (congrArg Fin.val e)
  · rfl

theorem bit_of_lt {q : ℕ} (h : q < n) (x : St n) : bit x q = x ⟨q, h⟩ := by simp [bit, h]

@[simp] theorem bit_val (j : Fin n) (x : St n) : bit x (j : ℕ) = x j := by simp [bit]

theorem embed_actsOn {k : ℕ} (f : Fin k → ℕ) (U : Matrix (Fin k → Bool) (Fin k → Bool) ℂ) :
    ActsOn (Set.range f) (embed f U : Oper n) := by
  intro j hj
  have hf : ∀ i, f i ≠ j := fun i e => hj ⟨i, e⟩
  constructor
  · intro x y h
    unfold embed
    rw [if_neg]
    intro hall
    exact h (hall j hf)
  · intro x y
    unfold embed
    have e1 : (fun i => bit (flipBit j x) (f i)) = fun i => bit x (f i) :=
      funext fun i => bit_flipBit_ne (hf i) x
    have e2 : (fun i => bit (flipBit j y) (f i)) = fun i => bit y (f i) :=
      funext fun i => bit_flipBit_ne (hf i) y
    rw [e1, e2]
    congr 1
    apply propext
    constructor
    · intro h k hk
      by_cases hkj : k = j
      · subst hkj
        have := h k hk
        rw [flipBit_same, flipBit_same] at this
        simpa using this
      · have := h k hk
        rwa [flipBit_ne hkj, flipBit_ne hkj] at this
    · intro h k hk
      by_cases hkj : k = j
      · subst hkj
        rw [flipBit_same, flipBit_same, h k hk]
      · rw [flipBit_ne hkj, flipBit_ne hkj]; exact h k hk

theorem embed1_eq_embed (q : ℕ) (U : Matrix Bool Bool ℂ) :
    (embed1 q U : Oper n) = embed (fun _ : Fin 1 => q) (fun a b => U (a 0) (b 0)) := by
  ext x y
  unfold embed1 embed
  congr 1
  apply propext
  exact ⟨fun h j hj => h j (hj 0), fun h j hj => h j (fun _ => hj)⟩

theorem embed1_actsOn (q : ℕ) (U : Matrix Bool Bool ℂ) : ActsOn {q} (embed1 q U : Oper n) := by
  rw [embed1_eq_embed]
  apply (embed_actsOn _ _).mono
  rintro _ ⟨_, rfl⟩
  rfl

theorem controlled_actsOn {S : Set ℕ} {M : Oper n} (cs : List ℕ) (hM : ActsOn S M) :
    ActsOn ({q | q ∈ cs} ∪ S) (controlled cs M) := by
  intro j hj
  have hc : (j : ℕ) ∉ cs := fun h => hj (Or.inl h)
  have hS : (j : ℕ) ∉ S := fun h => hj (Or.inr h)
  constructor
  · intro x y h
    unfold controlled
    have hne : x ≠ y := by rintro rfl; exact h rfl
    rw [hM.apply_eq_zero hS h]
    simp [hne]
  · intro x y
    unfold controlled
    rw [(hM j hS).2]
    simp only [flipBit_inj]
    congr 1
    apply propext
    constructor
    · intro h c hcm
      have := h c hcm
      rwa [bit_flipBit_ne (by rintro rfl; exact hc hcm)] at this
    · intro h c hcm
      rw [bit_flipBit_ne (by rintro rfl; exact hc hcm)]
      exact h c hcm

theorem swapOp_actsOn (a b : ℕ) : ActsOn {a, b} (swapOp a b : Oper n) := by
  intro j hj
  have ha : (j : ℕ) ≠ a := fun h => hj (by simp [h])
  have hb : (j : ℕ) ≠ b := fun h => hj (by simp [h])
  constructor
  · intro x y h
    unfold swapOp
    rw [if_neg]
    intro hall
    have := hall j
    simp only [ha, hb, if_false] at this
    exact h this
  · intro x y
    unfold swapOp
    congr 1
    apply propext
    apply forall_congr'
    intro k
    rw [bit_flipBit_ne (Ne.symm hb), bit_flipBit_ne (Ne.symm ha)]
    by_cases hkj : k = j
    · subst hkj
      simp only [ha, hb, if_false, flipBit_same]
      simp
    · rw [flipBit_ne hkj, flipBit_ne hkj]

/-! ## Products of lists -/

theorem opProd_append (l m : List (Oper n)) : opProd (l ++ m) = opProd m * opProd l := by
  induction l with
  | nil => simp [opProd]
  | cons a l ih => simp [opProd, ih, mul_assoc]

theorem opProd_singleton (A : Oper n) : opProd [A] = A := by simp [opProd]

theorem opProd_eq_reverse_prod (l : List (Oper n)) : opProd l = l.reverse.prod := by
  induction l with
  | nil => rfl
  | cons a l ih => simp [opProd, ih]

theorem opProd_foldl (l : List (Oper n)) (A : Oper n) :
    l.foldl (fun acc M => M * acc) A = opProd l * A := by
  induction l generalizing A with
  | nil => simp [opProd]
  | cons a l ih => simp [opProd, ih, mul_assoc]

theorem ActsOn.opProd {S : Set ℕ} {l : List (Oper n)} (h : ∀ A ∈ l, ActsOn S A) :
    ActsOn S (opProd l) := by
  induction l with
  | nil => exact ActsOn.one S
  | cons a l ih =>
    exact (ih fun A hA => h A (by simp [hA])).mul (h a (by simp))

theorem ActsOn.listSum {S : Set ℕ} {l : List (Oper n)} (h : ∀ A ∈ l, ActsOn S A) :
    ActsOn S l.sum := by
  induction l with
  | nil => exact ActsOn.zero S
  | cons a l ih =>
    rw [List.sum_cons]
    exact (h a (by simp)).add (ih fun A hA => h A (by simp [hA]))

theorem opProd_smul (l : List (Oper n)) (c : ℂ) (A : Oper n) :
    opProd ((c • A) :: l) = c • opProd (A :: l) := by
  simp [opProd]

end Qadence.Spec
