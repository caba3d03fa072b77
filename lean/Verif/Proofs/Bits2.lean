import Mathlib.Algebra.BigOperators.Intervals
import Mathlib.Data.List.Perm.Basic
import Verif.Spec.Bits
import Verif.Proofs.Bits

/-! More lemmas for bitstrings: connection with the specification, permutations. -/

namespace Qadence

open Finset Spec

theorem bitstringValue_big (s : Bits) : bitstringValue .big s = bitVal s := by
  induction s with
  | nil => rfl
  | cons b s ih =>
    rw [bitVal_cons, ← ih]
    unfold bitstringValue
    rw [List.length_cons, Finset.sum_range_succ']
    simp only [List.getD_cons_succ, List.getD_cons_zero]
    rw [add_comm]
    congr 1
    · cases b <;> simp
    · apply Finset.sum_congr rfl
      intro i hi
      have : s.length + 1 - 1 - (i + 1) = s.length - 1 - i := by omega
      rw [this]

theorem bitstringValue_little (s : Bits) : bitstringValue .little s = bitVal s.reverse := by
  induction s with
  | nil => rfl
  | cons b s ih =>
    rw [List.reverse_cons, bitVal_append, ← ih]
    unfold bitstringValue
    rw [List.length_cons, Finset.sum_range_succ', List.length_singleton, Finset.sum_mul]
    congr 1
    · apply Finset.sum_congr rfl
      intro i hi
      simp only [List.getD_cons_succ]
      split <;> simp [pow_succ]
    · cases b <;> simp [bitVal]

/-- The index permutation. -/
def sigma (n i : Nat) : Nat := bitVal (format0b n i).reverse

theorem sigma_lt {n i : Nat} (h : i < 2 ^ n) : sigma n i < 2 ^ n := by
  unfold sigma
  rcases Nat.eq_zero_or_pos n with rfl | hn
  · have : i = 0 := by simpa using h
    subst this
    simp [format0b, binDigits, binDigitsAux, bitVal]
  · have := bitVal_lt (format0b n i).reverse
    rwa [List.length_reverse, format0b_length hn h] at this

theorem sigma_bitVal {s : Bits} (h : s ≠ []) : sigma s.length (bitVal s) = bitVal s.reverse := by
  unfold sigma; rw [format0b_bitVal h]

theorem sigma_sigma {n i : Nat} (h : i < 2 ^ n) : sigma n (sigma n i) = i := by
  rcases Nat.eq_zero_or_pos n with rfl | hn
  · have h0 : i = 0 := by simpa using h
    have := sigma_lt (n := 0) (i := sigma 0 i) (sigma_lt h)
    have h1 : sigma 0 (sigma 0 i) = 0 := by simpa using this
    rw [h1, h0]
  · have hl := format0b_length hn h
    have h1 : sigma n i = bitVal (format0b n i).reverse := rfl
    have h2 : (format0b n i).reverse ≠ [] := by simpa using format0b_ne_nil n i
    have := sigma_bitVal h2
    rw [List.length_reverse, hl] at this
    rw [h1, this, List.reverse_reverse, bitVal_format0b]

theorem invertRow_eq {α : Type _} {n : Nat} {row : List α} (h : row.length = 2 ^ n) :
    ∃ out : List α, invertRow n row = .ok out ∧ out.length = 2 ^ n ∧
      ∀ i, i < 2 ^ n → out[i]? = row[sigma n i]? := by
  have h1 : (List.range (2 ^ n)).mapM (permuteInd n) = .ok ((List.range (2 ^ n)).map (sigma n)) :=
    mapM_ok _ (fun a _ => permuteInd_eq n a)
  have hne : ∀ i ∈ (List.range (2 ^ n)).map (sigma n), i < row.length := by
    intro i hi
    obtain ⟨j, hj, rfl⟩ := List.mem_map.1 hi
    rw [h]
    exact sigma_lt (List.mem_range.1 hj)
  have hpos : 0 < row.length := by rw [h]; positivity
  let g : Nat → α := fun i => if hi : i < row.length then row[i] else row[0]
  have h2 : ((List.range (2 ^ n)).map (sigma n)).mapM (fun i => match row[i]? with
      | some a => Except.ok a
      | none => Except.error PyErr.indexError) =
      .ok (((List.range (2 ^ n)).map (sigma n)).map g) := by
    apply mapM_ok
    intro i hi
    have := hne i hi
    simp [g, this]
  refine ⟨((List.range (2 ^ n)).map (sigma n)).map g, ?_, ?_, ?_⟩
  · unfold invertRow
    rw [h1]
    exact h2
  · simp
  · intro i hi
    have := sigma_lt hi
    rw [← h] at this
    simp [hi, g, this]

/-- The permuted list of positions is a permutation of all positions. -/
theorem sigma_perm (n : Nat) : ((List.range (2 ^ n)).map (sigma n)).Perm (List.range (2 ^ n)) := by
  have hnd : ((List.range (2 ^ n)).map (sigma n)).Nodup := by
    rw [List.nodup_map_iff_inj_on List.nodup_range]
    intro x hx y hy hxy
    rw [← sigma_sigma (List.mem_range.1 hx), hxy, sigma_sigma (List.mem_range.1 hy)]
  apply (List.perm_ext_iff_of_nodup hnd List.nodup_range).2
  intro a
  constructor
  · intro ha
    obtain ⟨j, hj, rfl⟩ := List.mem_map.1 ha
    exact List.mem_range.2 (sigma_lt (List.mem_range.1 hj))
  · intro ha
    exact List.mem_map.2 ⟨sigma n a, List.mem_range.2 (sigma_lt (List.mem_range.1 ha)),
      sigma_sigma (List.mem_range.1 ha)⟩

theorem list_eq_of_getElem? {α : Type _} {l m : List α} {N : Nat} (hl : l.length = N)
    (hm : m.length = N) (h : ∀ i, i < N → l[i]? = m[i]?) : l = m := by
  apply List.ext_getElem?
  intro i
  by_cases hi : i < N
  · exact h i hi
  · rw [List.getElem?_eq_none (by omega), List.getElem?_eq_none (by omega)]

theorem zipWith_eq_map_range {α β γ : Type _} (f : α → β → γ) {l : List α} {m : List β} {N : Nat}
    (hl : l.length = N) (hm : m.length = N) (d : γ) :
    List.zipWith f l m = (List.range N).map (fun i => match l[i]?, m[i]? with
      | some a, some b => f a b
      | _, _ => d) := by
  apply list_eq_of_getElem? (N := N)
  · simp [hl, hm]
  · simp
  · intro i hi
    have h1 : i < l.length := by omega
    have h2 : i < m.length := by omega
    simp [hi, h1, h2, List.getElem?_zipWith]

theorem sum_invert {α β M : Type _} [AddCommMonoid M] (f : α → β → M) {n : Nat}
    {l l' : List α} {m m' : List β} (hl : l.length = 2 ^ n) (hm : m.length = 2 ^ n)
    (hl' : l'.length = 2 ^ n) (hm' : m'.length = 2 ^ n)
    (h1 : ∀ i, i < 2 ^ n → l'[i]? = l[sigma n i]?) (h2 : ∀ i, i < 2 ^ n → m'[i]? = m[sigma n i]?) :
    (List.zipWith f l' m').sum = (List.zipWith f l m).sum := by
  rw [zipWith_eq_map_range f hl hm 0, zipWith_eq_map_range f hl' hm' 0]
  have : (List.range (2 ^ n)).map (fun i => match l'[i]?, m'[i]? with
      | some a, some b => f a b
      | _, _ => (0 : M)) =
      ((List.range (2 ^ n)).map (sigma n)).map (fun i => match l[i]?, m[i]? with
      | some a, some b => f a b
      | _, _ => (0 : M)) := by
    rw [List.map_map]
    apply List.map_congr_left
    intro i hi
    have hi := List.mem_range.1 hi
    simp [h1 i hi, h2 i hi]
  rw [this]
  exact ((sigma_perm n).map _).sum_eq

theorem intToBasisN_ok {k n : Nat} (h : k < 2 ^ n) (e : Endian) :
    intToBasisN k n e = .ok (match e with
      | .big => format0b n k
      | .little => (format0b n k).reverse) := by
  unfold intToBasisN
  rw [if_pos (by omega)]
  cases e <;> rfl

theorem basisToInt_ok {s : Bits} (h : s ≠ []) (e : Endian) :
    basisToInt s e = .ok (bitstringValue e s) := by
  cases e
  · rw [bitstringValue_big]; exact pyInt2_of_ne_nil h
  · rw [bitstringValue_little]; exact pyInt2_of_ne_nil (by simpa using h)

theorem sum_count_range (xs : List ℕ) (N : ℕ) (h : ∀ x ∈ xs, x < N) :
    ((List.range N).map (fun k => xs.count k)).sum = xs.length := by
  induction xs with
  | nil => simp
  | cons x xs ih =>
    have h1 : ((List.range N).map (fun k => (x :: xs).count k)).sum =
        ((List.range N).map (fun k => xs.count k)).sum +
          ((List.range N).map (fun k => if k = x then 1 else 0)).sum := by
      rw [← List.sum_map_add]
      congr 1
      apply List.map_congr_left
      intro k _
      rw [List.count_cons]
      by_cases hk : x = k
      · subst hk; simp
      · have : ¬ k = x := fun e => hk e.symm
        simp [hk, this]
    have h2 : ((List.range N).map (fun k => if k = x then 1 else 0)).sum = 1 := by
      have hx := h x (by simp)
      clear h1 ih h
      induction N with
      | zero => omega
      | succ N ih =>
        rw [List.range_succ, List.map_append, List.sum_append]
        by_cases hN : x = N
        · subst hN
          have : (List.map (fun k => if k = x then 1 else 0) (List.range x)).sum = 0 := by
            rw [List.sum_eq_zero]
            intro y hy
            obtain ⟨k, hk, rfl⟩ := List.mem_map.1 hy
            have := List.mem_range.1 hk
            rw [if_neg (by omega)]
          simp [this]
        · rw [ih (by omega)]
          have : ¬ N = x := fun e => hN e.symm
          simp [this]
    rw [h1, h2, ih (fun y hy => h y (by simp [hy]))]
    simp

theorem sum_filter_pos (l : List ℕ) (f : ℕ → ℕ) :
    ((l.filter (fun k => 0 < f k)).map f).sum = (l.map f).sum := by
  induction l with
  | nil => rfl
  | cons a l ih =>
    by_cases h : 0 < f a
    · simp [h, ih]
    · have : f a = 0 := by omega
      simp [this, ih]

theorem countOf_map_inj {κ : Type _} [DecidableEq κ] (L : List ℕ) (hL : L.Nodup) (g : ℕ → κ)
    (f : ℕ → ℕ) (a : ℕ) (hinj : ∀ k ∈ L, g k = g a → k = a) :
    countOf (L.map (fun k => (g k, f k))) (g a) = if a ∈ L then f a else 0 := by
  induction L with
  | nil => rfl
  | cons b L ih =>
    have ih := ih (List.nodup_cons.1 hL).2 (fun k hk => hinj k (by simp [hk]))
    unfold countOf at *
    by_cases hb : b = a
    · subst hb
      have hnot : b ∉ L := (List.nodup_cons.1 hL).1
      rw [if_neg hnot] at ih
      simp [ih]
    · have h1 : ¬ g b = g a := fun e => hb (hinj b (by simp) e)
      have h2 : ¬ a = b := fun e => hb e.symm
      simp only [List.map_cons, List.filter_cons, h1, decide_false, Bool.false_eq_true, if_false,
        List.mem_cons, h2, false_or]
      exact ih

theorem bincount_items (xs : List ℕ) : ∃ N, (∀ x ∈ xs, x < N) ∧ (∀ k < N, ∃ x ∈ xs, k ≤ x) ∧
    ((List.range (bincount xs).length).zip (bincount xs)) =
      (List.range N).map (fun k => (k, xs.count k)) := by
  cases h : xs.max? with
  | none =>
    have : xs = [] := List.max?_eq_none_iff.1 h
    subst this
    exact ⟨0, by simp, by simp, rfl⟩
  | some m =>
    have hm := List.max?_eq_some_iff.1 h
    refine ⟨m + 1, fun x hx => ?_, fun k hk => ⟨m, hm.1, by omega⟩, ?_⟩
    · have := hm.2 x hx
      omega
    · simp only [bincount, h, List.length_map, List.length_range]
      generalize List.range (m + 1) = l
      induction l with
      | nil => rfl
      | cons a l ih => simp [ih]

end Qadence
