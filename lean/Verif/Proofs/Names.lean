import Mathlib.Tactic
import Std.Data.String.ToInt

/-!
# Names built from prefixes and numbers
-/

namespace Qadence.Names

/-- Splitting at the last occurrence of a character is unique. -/
theorem split_last {α : Type} (c : α) (l l' d d' : List α) (h : l ++ c :: d = l' ++ c :: d') (hd : c ∉ d)
    (hd' : c ∉ d') : l = l' ∧ d = d' := by
  induction l generalizing l' with
  | nil =>
    cases l' with
    | nil => simpa using h
    | cons a l' =>
      simp only [List.nil_append, List.cons_append, List.cons.injEq] at h
      exact absurd (h.2 ▸ (by simp : c ∈ l' ++ c :: d')) hd
  | cons a l ih =>
    cases l' with
    | nil =>
      simp only [List.nil_append, List.cons_append, List.cons.injEq] at h
      exact absurd (h.2 ▸ (by simp : c ∈ l ++ c :: d)) hd'
    | cons b l' =>
      simp only [List.cons_append, List.cons.injEq] at h
      obtain ⟨h1, h2⟩ := ih l' h.2
      exact ⟨by rw [h.1, h1], h2⟩

theorem toList_toString (k : ℕ) : (toString k).toList = Nat.toDigits 10 k := Nat.toList_repr

theorem underscore_not_mem (k : ℕ) : '_' ∉ (toString k).toList := by
  rw [toList_toString]
  exact Nat.underscore_not_in_toDigits

theorem toString_inj {k k' : ℕ} (h : toString k = toString k') : k = k' := Nat.repr_injective h

theorem underscore_toList : ("_" : String).toList = ['_'] := rfl

/-- Names `prefix_suffix` with suffixes free of underscores determine prefix and suffix. -/
theorem suffix_inj {p p' s s' : String} (hs : '_' ∉ s.toList) (hs' : '_' ∉ s'.toList)
    (h : p ++ "_" ++ s = p' ++ "_" ++ s') : p = p' ∧ s = s' := by
  have h := congrArg String.toList h
  simp only [String.toList_append, underscore_toList, List.append_assoc, List.singleton_append] at h
  obtain ⟨h1, h2⟩ := split_last '_' _ _ _ _ h hs hs'
  exact ⟨String.toList_injective h1, String.toList_injective h2⟩

/-- Numbered names determine prefix and number. -/
theorem numbered_inj {p p' : String} {k k' : ℕ} (h : p ++ "_" ++ toString k = p' ++ "_" ++ toString k') :
    p = p' ∧ k = k' := by
  obtain ⟨h1, h2⟩ := suffix_inj (underscore_not_mem k) (underscore_not_mem k') h
  exact ⟨h1, toString_inj h2⟩

/-- Two numbers written one after the other: underscore free, and unique if the first numbers have the same number of
digits. -/
theorem pair_underscore (i j : ℕ) : '_' ∉ (toString i ++ toString j).toList := by
  rw [String.toList_append, List.mem_append]
  rintro (h | h)
  · exact underscore_not_mem i h
  · exact underscore_not_mem j h

theorem pair_inj {i j i' j' : ℕ} (h : toString i ++ toString j = toString i' ++ toString j')
    (hl : (Nat.toDigits 10 i).length = (Nat.toDigits 10 i').length) : i = i' ∧ j = j' := by
  have h := congrArg String.toList h
  simp only [String.toList_append, toList_toString] at h
  obtain ⟨h1, h2⟩ := List.append_inj h hl
  have inj : ∀ a b : ℕ, Nat.toDigits 10 a = Nat.toDigits 10 b → a = b := by
    intro a b e
    rw [← toList_toString, ← toList_toString] at e
    exact toString_inj (String.toList_injective e)
  exact ⟨inj _ _ h1, inj _ _ h2⟩

theorem pair_length {i j i' j' : ℕ} (h : toString i ++ toString j = toString i' ++ toString j') :
    (Nat.toDigits 10 i).length + (Nat.toDigits 10 j).length =
      (Nat.toDigits 10 i').length + (Nat.toDigits 10 j').length := by
  have h := congrArg (fun s => s.toList.length) h
  simpa [String.toList_append, toList_toString] using h

theorem digits_pos (i : ℕ) : 0 < (Nat.toDigits 10 i).length := Nat.length_toDigits_pos

theorem digits_mono {i j : ℕ} (h : i ≤ j) : (Nat.toDigits 10 i).length ≤ (Nat.toDigits 10 j).length := by
  rw [Nat.length_toDigits_le_iff (by norm_num) (digits_pos j)]
  have := (Nat.length_toDigits_le_iff (b := 10) (n := j) (by norm_num) (digits_pos j)).1 le_rfl
  omega

theorem digits_le {i k : ℕ} (hk : 0 < k) (h : i < 10 ^ k) : (Nat.toDigits 10 i).length ≤ k :=
  (Nat.length_toDigits_le_iff (by norm_num) hk).2 h

/-- Ordered pairs of numbers below 100 written one after the other are unique. -/
theorem pair_inj_of_lt {i j i' j' : ℕ} (h : toString i ++ toString j = toString i' ++ toString j')
    (hij : i < j) (hij' : i' < j') (hj : j < 100) (hj' : j' < 100) : i = i' ∧ j = j' := by
  refine pair_inj h ?_
  have := pair_length h
  have := digits_pos i
  have := digits_pos i'
  have := digits_mono hij.le
  have := digits_mono hij'.le
  have := digits_le (k := 2) (by norm_num) hj
  have := digits_le (k := 2) (by norm_num) hj'
  omega

end Qadence.Names
