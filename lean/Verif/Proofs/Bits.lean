import Mathlib.Tactic.Ring
import Mathlib.Tactic.Linarith
import Mathlib.Tactic.Positivity
import Mathlib.Data.Nat.Log
import Verif.Model.Bits
import Verif.Proofs.PyDict

/-! Helper lemmas for bitstrings. -/

namespace Qadence

/-- The numeral read by the left fold. -/
def bitVal (s : Bits) : Nat := s.foldl (fun a b => 2 * a + b.toNat) 0

theorem foldl_bits (s : Bits) (a : Nat) :
    s.foldl (fun a b => 2 * a + b.toNat) a = a * 2 ^ s.length + bitVal s := by
  unfold bitVal
  induction s generalizing a with
  | nil => simp
  | cons b s ih =>
    simp only [List.foldl_cons, List.length_cons, mul_zero, Nat.zero_add]
    rw [ih, ih (b.toNat)]
    ring

theorem bitVal_nil : bitVal [] = 0 := rfl

theorem bitVal_cons (b : Bool) (s : Bits) : bitVal (b :: s) = b.toNat * 2 ^ s.length + bitVal s := by
  have := foldl_bits s (b.toNat)
  simpa [bitVal] using this

theorem bitVal_append (s t : Bits) : bitVal (s ++ t) = bitVal s * 2 ^ t.length + bitVal t := by
  have := foldl_bits t (bitVal s)
  rw [← this]
  simp [bitVal]

theorem bitVal_replicate_false (n : Nat) : bitVal (List.replicate n false) = 0 := by
  induction n with
  | zero => rfl
  | succ n ih => simp [List.replicate_succ, bitVal_cons, ih]

theorem bitVal_lt (s : Bits) : bitVal s < 2 ^ s.length := by
  induction s with
  | nil => simp [bitVal]
  | cons b s ih =>
    rw [bitVal_cons, List.length_cons, pow_succ]
    cases b <;> simp <;> omega

theorem bitVal_inj {s t : Bits} (hl : s.length = t.length) (h : bitVal s = bitVal t) : s = t := by
  induction s generalizing t with
  | nil => cases t with
    | nil => rfl
    | cons => simp at hl
  | cons a s ih =>
    cases t with
    | nil => simp at hl
    | cons b t =>
      simp only [List.length_cons, Nat.add_right_cancel_iff] at hl
      rw [bitVal_cons, bitVal_cons, hl] at h
      have h1 := bitVal_lt s
      have h2 := bitVal_lt t
      rw [hl] at h1
      have hab : a = b := by
        cases a <;> cases b <;> simp at h ⊢ <;> omega
      subst hab
      rw [ih hl (by omega)]

theorem pyInt2_of_ne_nil {s : Bits} (h : s ≠ []) : pyInt2 s = .ok (bitVal s) := by
  cases s with
  | nil => exact absurd rfl h
  | cons b s => rfl

theorem binDigitsAux_fuel {f g k : Nat} (hf : k ≤ f) (hg : k ≤ g) :
    binDigitsAux f k = binDigitsAux g k := by
  induction f generalizing g k with
  | zero =>
    have : k = 0 := by omega
    subst this
    cases g <;> simp [binDigitsAux]
  | succ f ih =>
    cases g with
    | zero =>
      have : k = 0 := by omega
      subst this
      simp [binDigitsAux]
    | succ g =>
      simp only [binDigitsAux]
      split
      · rfl
      · rw [ih (g := g)] <;> omega

/-- The defining equation of the binary digits. -/
theorem binDigits_eq (k : Nat) :
    binDigits k = if k < 2 then [k == 1] else binDigits (k / 2) ++ [k % 2 == 1] := by
  unfold binDigits
  cases k with
  | zero => rfl
  | succ k =>
    rw [binDigitsAux]
    split
    · rfl
    · rw [binDigitsAux_fuel (g := (k + 1) / 2)] <;> omega

theorem bitVal_binDigits (k : Nat) : bitVal (binDigits k) = k := by
  induction k using Nat.strong_induction_on with
  | _ k ih =>
    rw [binDigits_eq]
    split
    · next h =>
      have : k = 0 ∨ k = 1 := by omega
      rcases this with rfl | rfl <;> rfl
    · next h =>
      rw [bitVal_append, ih (k / 2) (by omega)]
      have hk : k % 2 = 0 ∨ k % 2 = 1 := by omega
      rcases hk with hk | hk <;> simp [hk, bitVal] <;> omega

theorem binDigits_length_pos (k : Nat) : 0 < (binDigits k).length := by
  rw [binDigits_eq]; split <;> simp

theorem binDigits_length_le {k n : Nat} (hn : 1 ≤ n) (h : k < 2 ^ n) : (binDigits k).length ≤ n := by
  induction n generalizing k with
  | zero => omega
  | succ n ih =>
    rw [binDigits_eq]
    split
    · simp
    · next h2 =>
      rw [List.length_append, List.length_singleton]
      rcases Nat.eq_zero_or_pos n with rfl | hn'
      · simp at h; omega
      · have := ih (k := k / 2) hn' (by rw [pow_succ] at h; omega)
        omega

theorem format0b_length {k n : Nat} (hn : 1 ≤ n) (h : k < 2 ^ n) : (format0b n k).length = n := by
  have := binDigits_length_le hn h
  simp [format0b]; omega

theorem format0b_ne_nil (n k : Nat) : format0b n k ≠ [] := by
  intro h
  have := congrArg List.length h
  have h2 := binDigits_length_pos k
  simp [format0b] at this
  simp [this.2] at h2

theorem bitVal_format0b (n k : Nat) : bitVal (format0b n k) = k := by
  simp [format0b, bitVal_append, bitVal_replicate_false, bitVal_binDigits]

theorem format0b_bitVal {s : Bits} (h : s ≠ []) : format0b s.length (bitVal s) = s := by
  have hpos : 1 ≤ s.length := by
    cases s with
    | nil => exact absurd rfl h
    | cons => simp
  exact bitVal_inj (format0b_length hpos (bitVal_lt s)) (bitVal_format0b _ _)

theorem permuteInd_eq (n num : Nat) :
    permuteInd n num = .ok (bitVal (format0b n num).reverse) := by
  unfold permuteInd
  exact pyInt2_of_ne_nil (by simpa using format0b_ne_nil n num)

theorem rowToInt_eq (row : Bits) : rowToInt row = bitVal row := by
  unfold rowToInt
  induction row with
  | nil => rfl
  | cons b s ih =>
    rw [bitVal_cons, ← ih, List.length_cons, List.range_succ, List.reverse_append]
    simp

/-! ### default width -/

theorem log_ratio_bounds {k : Nat} (hk : 1 ≤ k) :
    (Nat.log 2 k : ℝ) ≤ Real.log ((k : ℝ) + 0.6) / Real.log 2 ∧
      Real.log ((k : ℝ) + 0.6) / Real.log 2 < (Nat.log 2 k : ℝ) + 1 := by
  have hlog2 : 0 < Real.log 2 := Real.log_pos (by norm_num)
  have hk0 : k ≠ 0 := by omega
  have h1 : 2 ^ Nat.log 2 k ≤ k := Nat.pow_log_le_self 2 hk0
  have h2 : k + 1 ≤ 2 ^ (Nat.log 2 k + 1) := Nat.lt_pow_succ_log_self (by norm_num) k
  have h1' : (2 : ℝ) ^ Nat.log 2 k ≤ (k : ℝ) := by exact_mod_cast h1
  have h2' : (k : ℝ) + 1 ≤ (2 : ℝ) ^ (Nat.log 2 k + 1) := by exact_mod_cast h2
  constructor
  · rw [le_div_iff₀ hlog2, ← Real.log_pow]
    exact Real.log_le_log (by positivity) (by linarith)
  · rw [div_lt_iff₀ hlog2]
    have : ((Nat.log 2 k : ℝ) + 1) * Real.log 2 = Real.log ((2 : ℝ) ^ (Nat.log 2 k + 1)) := by
      rw [Real.log_pow]; push_cast; ring
    rw [this]
    exact Real.log_lt_log (by positivity) (by linarith)

theorem pyTrunc_log {k : Nat} :
    pyTrunc (Real.log ((k : ℝ) + 0.6) / Real.log 2) = (Nat.log 2 k : ℤ) := by
  have hlog2 : 0 < Real.log 2 := Real.log_pos (by norm_num)
  rcases Nat.eq_zero_or_pos k with rfl | hk
  · have hneg : Real.log (((0 : ℕ) : ℝ) + 0.6) / Real.log 2 < 0 := by
      apply div_neg_of_neg_of_pos _ hlog2
      apply Real.log_neg <;> norm_num
    have hgt : (-1 : ℝ) < Real.log (((0 : ℕ) : ℝ) + 0.6) / Real.log 2 := by
      rw [lt_div_iff₀ hlog2]
      have : (-1 : ℝ) * Real.log 2 = Real.log (2⁻¹) := by rw [Real.log_inv]; ring
      rw [this]
      apply Real.log_lt_log <;> norm_num
    unfold pyTrunc
    rw [if_neg (not_le.2 hneg)]
    simp only [Nat.log_zero_right, Nat.cast_zero]
    rw [Int.ceil_eq_iff]
    constructor
    · simpa using hgt
    · simpa using hneg.le
  · obtain ⟨h1, h2⟩ := log_ratio_bounds hk
    unfold pyTrunc
    have h0 : (0 : ℝ) ≤ Real.log ((k : ℝ) + 0.6) / Real.log 2 := le_trans (by positivity) h1
    rw [if_pos h0, Int.floor_eq_iff]
    exact ⟨by exact_mod_cast h1, by exact_mod_cast h2⟩

/-- The default width before `toNat`, i.e. `toNat` loses nothing. -/
theorem defaultWidth_cast (k : Nat) :
    (defaultWidth k : ℤ) = pyTrunc (Real.log ((k : ℝ) + 0.6) / Real.log 2) + 1 := by
  unfold defaultWidth
  rw [pyTrunc_log]
  omega

theorem defaultWidth_eq (k : Nat) : defaultWidth k = Nat.log 2 k + 1 := by
  have := defaultWidth_cast k
  rw [pyTrunc_log] at this
  omega

theorem binDigits_length (k : Nat) : (binDigits k).length = Nat.log 2 k + 1 := by
  induction k using Nat.strong_induction_on with
  | _ k ih =>
    rw [binDigits_eq]
    split
    · next h =>
      have : k = 0 ∨ k = 1 := by omega
      rcases this with rfl | rfl <;> simp
    · next h =>
      rw [List.length_append, ih (k / 2) (by omega), List.length_singleton,
        Nat.log_of_one_lt_of_le (by norm_num : 1 < 2) (by omega : 2 ≤ k)]

end Qadence
