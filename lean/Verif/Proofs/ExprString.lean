import Verif.Spec.ExprString
import Mathlib.Tactic

/-!
# The grammar accepts the specified language
-/

namespace Qadence.Serial

open Spec

/-! ## Characters -/

theorem isWs_iff (c : Char) : isWs c = true ↔ c = ' ' ∨ c = '\t' ∨ c = '\n' ∨ c = '\r' := by simp [isWs, or_assoc]
theorem isLower_iff (c : Char) : isLower c = true ↔ LowerC c := by simp [isLower, LowerC]
theorem isLetter_iff (c : Char) : isLetter c = true ↔ LetterC c := by simp [isLetter, LetterC, LowerC]
theorem isDigit_iff (c : Char) : isDigit c = true ↔ DigitC c := by simp [isDigit, DigitC]
theorem isIdChar_iff (c : Char) : isIdChar c = true ↔ LetterC c ∨ DigitC c ∨ c = '_' := by
  simp [isIdChar, isLetter_iff, isDigit_iff, or_assoc]
theorem isStrChar_iff (c : Char) : isStrChar c = true ↔ LetterC c ∨ DigitC c ∨ c = '_' ∨ c = '.' := by
  simp [isStrChar, isLetter_iff, isDigit_iff, or_assoc]

theorem lower_letter {c : Char} (h : LowerC c) : LetterC c := .inl h

theorem char_le (a b : Char) : a ≤ b ↔ a.toNat ≤ b.toNat := Iff.rfl

theorem letter_nat {c : Char} (h : LetterC c) : (97 ≤ c.toNat ∧ c.toNat ≤ 122) ∨ (65 ≤ c.toNat ∧ c.toNat ≤ 90) := h

theorem digit_nat {c : Char} (h : DigitC c) : 48 ≤ c.toNat ∧ c.toNat ≤ 57 := h

theorem letter_not_ws {c : Char} (h : LetterC c) : isWs c = false := by
  rw [← Bool.not_eq_true, isWs_iff]
  have := letter_nat h
  rintro (rfl | rfl | rfl | rfl) <;> revert this <;> decide

theorem digit_not_ws {c : Char} (h : DigitC c) : isWs c = false := by
  rw [← Bool.not_eq_true, isWs_iff]
  have := digit_nat h
  rintro (rfl | rfl | rfl | rfl) <;> revert this <;> decide

theorem letter_not_digit {c : Char} (h : LetterC c) : isDigit c = false := by
  rw [← Bool.not_eq_true, isDigit_iff]
  intro h'
  have := letter_nat h
  have := digit_nat h'
  omega

theorem mem_takeWhile {p : Char → Bool} {c : Char} {s : List Char} (h : c ∈ s.takeWhile p) : p c = true :=
  List.all_eq_true.1 List.all_takeWhile c h

/-! ## Whitespace -/

/-- The text does not begin with whitespace. -/
def NoWs (s : List Char) : Prop := ∀ c cs, s = c :: cs → isWs c = false

theorem skipWs_append {w s : List Char} (hw : Blank w) (hs : NoWs s) : skipWs (w ++ s) = s := by
  induction w with
  | nil =>
    rw [List.nil_append, skipWs]
    cases s with
    | nil => rfl
    | cons c cs => rw [List.dropWhile_cons_of_neg]; rw [hs c cs rfl]; simp
  | cons c w ih =>
    rw [List.cons_append, skipWs, List.dropWhile_cons_of_pos ((isWs_iff c).2 (hw c (by simp)))]
    exact ih fun d hd => hw d (by simp [hd])

theorem skipWs_spec (s : List Char) : ∃ w, Blank w ∧ s = w ++ skipWs s ∧ NoWs (skipWs s) := by
  refine ⟨s.takeWhile isWs, ?_, (List.takeWhile_append_dropWhile ..).symm, ?_⟩
  · intro c hc
    exact (isWs_iff c).1 (mem_takeWhile hc)
  · intro c cs h
    have := List.head?_dropWhile_not isWs s
    rw [skipWs] at h
    rw [h] at this
    simpa using this

theorem noWs_cons {c : Char} {s : List Char} (h : isWs c = false) : NoWs (c :: s) := by
  rintro d ds h'
  cases h'
  exact h

/-! ## Terminals -/

theorem lit_some {l s r : List Char} (h : lit l s = some r) : ∃ w, Blank w ∧ s = w ++ l ++ r := by
  rw [lit] at h
  split at h
  · rename_i hp
    obtain ⟨w, hw, hs, -⟩ := skipWs_spec s
    rw [List.isPrefixOf_iff_prefix] at hp
    obtain ⟨t, ht⟩ := hp
    cases h
    refine ⟨w, hw, ?_⟩
    rw [List.append_assoc, ← ht, List.drop_left, ht]
    exact hs
  · cases h

theorem lit_append {l w : List Char} (r : List Char) (hw : Blank w) (hl : NoWs l) (hl' : l ≠ []) : lit l (w ++ l ++ r) = some r := by
  have hs : skipWs (w ++ l ++ r) = l ++ r := by
    rw [List.append_assoc]
    refine skipWs_append hw ?_
    intro c cs h
    cases l with
    | nil => exact absurd rfl hl'
    | cons d ds => cases h; exact hl c ds rfl
  rw [lit, hs, if_pos, List.drop_left]
  rw [List.isPrefixOf_iff_prefix]
  exact ⟨r, rfl⟩

/-- The literal `c` is not found if the first symbol is another one. -/
theorem lit_other {c d : Char} {w : List Char} (r : List Char) (hw : Blank w) (hd : isWs d = false) (h : c ≠ d) : lit [c] (w ++ d :: r) = none := by
  rw [lit, skipWs_append hw (noWs_cons hd), if_neg]
  simp [h]

theorem lit_end {c : Char} {w : List Char} (hw : Blank w) : lit [c] w = none := by
  rw [lit]
  have : skipWs w = [] := by simpa using skipWs_append (s := []) hw (by rintro c cs ⟨⟩)
  rw [this]
  rfl

theorem takeWhile_all {p : Char → Bool} {s r : List Char} (hs : ∀ c ∈ s, p c = true) (hr : ∀ c cs, r = c :: cs → p c = false) :
    (s ++ r).takeWhile p = s ∧ (s ++ r).dropWhile p = r := by
  induction s with
  | nil =>
    cases r with
    | nil => simp
    | cons c cs => simp [hr c cs rfl]
  | cons c s ih =>
    have := ih fun d hd => hs d (by simp [hd])
    simp [hs c (by simp), this]

theorem pId_some {s h r : List Char} (hp : pId s = some (h, r)) : ∃ w, Blank w ∧ s = w ++ h ++ r ∧ Name h := by
  obtain ⟨w, hw, hs, -⟩ := skipWs_spec s
  rw [pId] at hp
  split at hp
  · rename_i c cs hc
    split at hp
    · rename_i hl
      cases hp
      refine ⟨w, hw, ?_, c, _, rfl, (isLetter_iff c).1 hl, ?_⟩
      · rw [List.append_assoc, List.cons_append, List.takeWhile_append_dropWhile, ← hc]
        exact hs
      · intro d hd
        exact (isIdChar_iff d).1 (mem_takeWhile hd)
    · cases hp
  · cases hp

theorem pId_append {w h r : List Char} (hw : Blank w) (hh : Name h) (hr : ∀ c cs, r = c :: cs → isIdChar c = false) :
    pId (w ++ h ++ r) = some (h, r) := by
  obtain ⟨c, cs, rfl, hc, hcs⟩ := hh
  have h1 : skipWs (w ++ (c :: cs) ++ r) = c :: (cs ++ r) := by
    rw [List.append_assoc]
    exact skipWs_append hw (noWs_cons (letter_not_ws hc))
  have h2 := takeWhile_all (p := isIdChar) (fun d hd => (isIdChar_iff d).2 (hcs d hd)) hr
  rw [pId, h1]
  simp only [(isLetter_iff c).2 hc, if_true, h2.1, h2.2]

theorem pParam_some {s h r : List Char} (hp : pParam s = some (h, r)) : ∃ w, Blank w ∧ s = w ++ h ++ r ∧ Keyword h := by
  obtain ⟨w, hw, hs, -⟩ := skipWs_spec s
  rw [pParam] at hp
  split at hp
  · rename_i c cs hc
    split at hp
    · rename_i hl
      cases hp
      refine ⟨w, hw, ?_, c, _, rfl, (isLower_iff c).1 hl, ?_⟩
      · rw [List.append_assoc, List.cons_append, List.takeWhile_append_dropWhile, ← hc]
        exact hs
      · intro d hd
        exact (isLetter_iff d).1 (mem_takeWhile hd)
    · cases hp
  · cases hp

theorem pParam_append {w h r : List Char} (hw : Blank w) (hh : Keyword h) (hr : ∀ c cs, r = c :: cs → isLetter c = false) :
    pParam (w ++ h ++ r) = some (h, r) := by
  obtain ⟨c, cs, rfl, hc, hcs⟩ := hh
  have h1 : skipWs (w ++ (c :: cs) ++ r) = c :: (cs ++ r) := by
    rw [List.append_assoc]
    exact skipWs_append hw (noWs_cons (letter_not_ws (.inl hc)))
  have h2 := takeWhile_all (p := isLetter) (fun d hd => (isLetter_iff d).2 (hcs d hd)) hr
  rw [pParam, h1]
  simp only [(isLower_iff c).2 hc, if_true, h2.1, h2.2]

/-- The text does not begin with a digit. -/
def NoDigit (s : List Char) : Prop := ∀ c cs, s = c :: cs → isDigit c = false

/-- An integer without sign. -/
def NatText (m : List Char) : Prop := m = ['0'] ∨ ∃ c cs, m = c :: cs ∧ DigitC c ∧ c ≠ '0' ∧ ∀ d ∈ cs, DigitC d

theorem pNat_some {s t r : List Char} (h : pNat s = some (t, r)) : s = t ++ r ∧ NatText t := by
  unfold pNat at h
  split at h
  · cases h; exact ⟨rfl, .inl rfl⟩
  · rename_i c cs hc
    split at h
    · rename_i hd
      cases h
      refine ⟨by rw [List.cons_append, List.takeWhile_append_dropWhile], .inr ⟨c, _, rfl, (isDigit_iff c).1 hd, ?_, ?_⟩⟩
      · intro h0; exact hc h0
      · intro d hd; exact (isDigit_iff d).1 (mem_takeWhile hd)
    · cases h
  · cases h

theorem pNat_append {t r : List Char} (ht : NatText t) (hr : NoDigit r) : pNat (t ++ r) = some (t, r) := by
  rcases ht with rfl | ⟨c, cs, rfl, hc, h0, hcs⟩
  · rfl
  · have h2 := takeWhile_all (p := isDigit) (fun d hd => (isDigit_iff d).2 (hcs d hd)) hr
    rw [List.cons_append]
    unfold pNat
    split
    · rename_i h; exact absurd (List.cons.inj h).1 h0
    · rename_i h; cases h; simp only [(isDigit_iff c).2 hc, if_true, h2.1, h2.2]
    · rename_i h; cases h

theorem pInt_some {s t r : List Char} (h : pInt s = some (t, r)) : ∃ w, Blank w ∧ s = w ++ t ++ r ∧ IntText t := by
  obtain ⟨w, hw, hs, -⟩ := skipWs_spec s
  unfold pInt at h
  split at h
  · rename_i cs hc
    rw [Option.map_eq_some_iff] at h
    obtain ⟨⟨m, r'⟩, hm, he⟩ := h
    cases he
    obtain ⟨e, hn⟩ := pNat_some hm
    refine ⟨w, hw, ?_, ['-'], m, rfl, .inr rfl, hn⟩
    rw [hs, hc, e]
    simp
  · obtain ⟨e, hn⟩ := pNat_some h
    refine ⟨w, hw, ?_, [], t, rfl, .inl rfl, hn⟩
    rw [List.append_assoc, ← e]
    exact hs

theorem natText_ne_minus {m : List Char} (h : NatText m) : ∃ c cs, m = c :: cs ∧ DigitC c := by
  rcases h with rfl | ⟨c, cs, rfl, hc, -⟩
  · exact ⟨'0', [], rfl, by unfold DigitC; decide⟩
  · exact ⟨c, cs, rfl, hc⟩

theorem digit_ne_minus {c : Char} (h : DigitC c) : c ≠ '-' := by
  rintro rfl
  revert h
  unfold DigitC
  decide

theorem pInt_append {w t r : List Char} (hw : Blank w) (ht : IntText t) (hr : NoDigit r) : pInt (w ++ t ++ r) = some (t, r) := by
  obtain ⟨σ, m, rfl, hσ, hm⟩ := ht
  have hm : NatText m := hm
  obtain ⟨c, cs, hc, hd⟩ := natText_ne_minus hm
  rcases hσ with rfl | rfl
  · have h1 : skipWs (w ++ ([] ++ m) ++ r) = m ++ r := by
      rw [List.nil_append, List.append_assoc]
      refine skipWs_append hw ?_
      rw [hc]
      exact noWs_cons (digit_not_ws hd)
    unfold pInt
    rw [h1]
    split
    · rename_i h
      rw [hc] at h
      exact absurd (List.cons.inj h).1 (digit_ne_minus hd)
    · rw [pNat_append hm hr]; rfl
  · have h1 : skipWs (w ++ (['-'] ++ m) ++ r) = '-' :: (m ++ r) := by
      rw [List.append_assoc]
      exact skipWs_append hw (noWs_cons (by decide))
    unfold pInt
    rw [h1]
    show (pNat (m ++ r)).map _ = _
    rw [pNat_append hm hr]
    rfl

/-- No integer where the first symbol is neither a digit nor a minus sign. -/
theorem pInt_none {c : Char} {w s : List Char} (hw : Blank w) (hc : isWs c = false) (hd : isDigit c = false) (hm : c ≠ '-') :
    pInt (w ++ c :: s) = none := by
  unfold pInt
  rw [skipWs_append hw (noWs_cons hc)]
  split
  · rename_i h; exact absurd (List.cons.inj h).1 hm
  · unfold pNat
    split
    · rename_i h; cases h; exact absurd hd (by decide)
    · rename_i h; cases h; rw [hd]; rfl
    · rfl

theorem pQuoted_some {s t r : List Char} (h : pQuoted s = some (t, r)) :
    ∃ w, Blank w ∧ s = w ++ '\'' :: t ++ '\'' :: r ∧ '\'' ∉ t := by
  obtain ⟨w, hw, hs, -⟩ := skipWs_spec s
  unfold pQuoted at h
  split at h
  · rename_i cs hc
    split at h
    · rename_i d rest hd
      cases h
      have hq : d = '\'' := by
        have := List.head?_dropWhile_not (· != '\'') cs
        rw [hd] at this
        simpa using this
      subst hq
      refine ⟨w, hw, ?_, ?_⟩
      · rw [hs, hc, ← hd]
        simp
      · intro hm
        have := mem_takeWhile hm
        simp at this
    · cases h
  · cases h

theorem pQuoted_append {w t : List Char} (r : List Char) (hw : Blank w) (ht : '\'' ∉ t) : pQuoted (w ++ '\'' :: t ++ '\'' :: r) = some (t, r) := by
  have h1 : skipWs (w ++ '\'' :: t ++ '\'' :: r) = '\'' :: (t ++ '\'' :: r) := by
    rw [List.append_assoc]
    exact skipWs_append hw (noWs_cons (by decide))
  have h2 := takeWhile_all (p := (· != '\'')) (s := t) (r := '\'' :: r) (fun d hd => by simpa using fun h : d = '\'' => ht (h ▸ hd))
    (fun c cs h => by cases h; simp)
  unfold pQuoted
  rw [h1]
  simp only [h2.1, h2.2]

theorem pQuoted_none {c : Char} {w s : List Char} (hw : Blank w) (hc : isWs c = false) (hm : c ≠ '\'') : pQuoted (w ++ c :: s) = none := by
  unfold pQuoted
  rw [skipWs_append hw (noWs_cons hc)]
  split
  · rename_i h; exact absurd (List.cons.inj h).1 hm
  · rfl

theorem isFloatText_iff (s : List Char) : isFloatText s = true ↔ FloatText s := by
  have key : ∀ t : List Char, ((t == ['0'] || (match t.dropWhile isDigit with
      | '.' :: cs => cs.all isDigit
      | _ => false)) = true) ↔ (t = ['0'] ∨ ∃ a b, t = a ++ '.' :: b ∧ (∀ d ∈ a, DigitC d) ∧ ∀ d ∈ b, DigitC d) := by
    intro t
    rw [Bool.or_eq_true, beq_iff_eq]
    refine or_congr Iff.rfl ⟨fun h => ?_, ?_⟩
    · split at h
      · rename_i cs hc
        refine ⟨t.takeWhile isDigit, cs, ?_, ?_, ?_⟩
        · rw [← hc, List.takeWhile_append_dropWhile]
        · intro d hd; exact (isDigit_iff d).1 (mem_takeWhile hd)
        · intro d hd; exact (isDigit_iff d).1 (List.all_eq_true.1 h d hd)
      · cases h
    · rintro ⟨a, b, rfl, ha, hb⟩
      have h2 := takeWhile_all (p := isDigit) (s := a) (r := '.' :: b) (fun d hd => (isDigit_iff d).2 (ha d hd))
        (fun c cs h => by cases h; decide)
      rw [h2.2]
      exact List.all_eq_true.2 fun d hd => (isDigit_iff d).2 (hb d hd)
  have nominus : ∀ t, (t = ['0'] ∨ ∃ a b, t = a ++ '.' :: b ∧ (∀ d ∈ a, DigitC d) ∧ ∀ d ∈ b, DigitC d) → ∀ cs, t ≠ '-' :: cs := by
    rintro t (rfl | ⟨a, b, rfl, ha, -⟩) cs h
    · cases h
    · cases a with
      | nil => cases h
      | cons d ds => exact digit_ne_minus (ha d (by simp)) (List.cons.inj h).1
  unfold isFloatText FloatText
  split
  · rename_i cs
    refine (key cs).trans ?_
    constructor
    · intro h; exact ⟨['-'], cs, rfl, .inr rfl, h⟩
    · rintro ⟨σ, m, he, hσ, h⟩
      rcases hσ with rfl | rfl
      · exact absurd he.symm (nominus m h cs)
      · cases he; exact h
  · rename_i hne
    refine (key s).trans ?_
    constructor
    · intro h; exact ⟨[], s, rfl, .inl rfl, h⟩
    · rintro ⟨σ, m, he, hσ, h⟩
      rcases hσ with rfl | rfl
      · rw [he]; exact h
      · exact absurd he (hne m)

theorem wordText_iff (s : List Char) : (s ≠ [] ∧ s.all isStrChar = true) ↔ WordText s := by
  simp [WordText, isStrChar_iff]

theorem wordText_quote {s : List Char} (h : WordText s) : '\'' ∉ s := by
  intro hm
  have := h.2 _ hm
  revert this
  unfold LetterC LowerC DigitC
  decide

theorem floatText_quote {s : List Char} (h : FloatText s) : '\'' ∉ s := by
  have hd : ¬ DigitC '\'' := by unfold DigitC; decide
  obtain ⟨σ, m, rfl, hσ, h⟩ := h
  intro hm
  rw [List.mem_append] at hm
  rcases hm with hm | hm
  · rcases hσ with rfl | rfl <;> simp at hm
  · rcases h with rfl | ⟨a, b, rfl, ha, hb⟩
    · simp at hm
    · simp only [List.mem_append, List.mem_cons] at hm
      rcases hm with hm | hm | hm
      · exact hd (ha _ hm)
      · cases hm
      · exact hd (hb _ hm)

theorem pFloatStr_some {s t r : List Char} (h : pFloatStr s = some (t, r)) :
    ∃ w, Blank w ∧ s = w ++ '\'' :: t ++ '\'' :: r ∧ FloatText t := by
  unfold pFloatStr at h
  split at h
  · rename_i t' r' hq
    split at h
    · rename_i hf
      cases h
      obtain ⟨w, hw, hs, -⟩ := pQuoted_some hq
      exact ⟨w, hw, hs, (isFloatText_iff t).1 hf⟩
    · cases h
  · cases h

theorem pStr_some {s t r : List Char} (h : pStr s = some (t, r)) :
    ∃ w, Blank w ∧ s = w ++ '\'' :: t ++ '\'' :: r ∧ WordText t := by
  unfold pStr at h
  split at h
  · rename_i t' r' hq
    split at h
    · rename_i hf
      cases h
      obtain ⟨w, hw, hs, -⟩ := pQuoted_some hq
      exact ⟨w, hw, hs, (wordText_iff t).1 hf⟩
    · cases h
  · cases h

theorem pStr_append {w t : List Char} (r : List Char) (hw : Blank w) (ht : WordText t) : pStr (w ++ '\'' :: t ++ '\'' :: r) = some (t, r) := by
  unfold pStr
  rw [pQuoted_append r hw (wordText_quote ht)]
  simp only
  rw [if_pos ((wordText_iff t).2 ht)]

/-! ## Values -/

theorem pPairValue_some {k s r : List Char} {t : PTree} (h : pPairValue k s = some (t, r)) (w₁ w₂ : List Char) (hk : Keyword k)
    (h₁ : Blank w₁) (h₂ : Blank w₂) : ∃ u, s = u ++ r ∧ Written t (w₁ ++ k ++ w₂ ++ '=' :: u) := by
  unfold pPairValue at h
  split at h
  · rename_i x y hi
    cases h
    obtain ⟨w, hw, hs, ht⟩ := pInt_some hi
    refine ⟨w ++ x, hs, ?_⟩
    have := Written.kwInt w₁ w₂ w hk h₁ h₂ hw ht
    simpa using this
  · split at h
    · rename_i y hi
      cases h
      obtain ⟨w, hw, hs⟩ := lit_some hi
      refine ⟨w ++ "True".toList, hs, ?_⟩
      have := Written.kwTrue w₁ w₂ w hk h₁ h₂ hw
      simpa using this
    · split at h
      · rename_i y hi
        cases h
        obtain ⟨w, hw, hs⟩ := lit_some hi
        refine ⟨w ++ "False".toList, hs, ?_⟩
        have := Written.kwFalse w₁ w₂ w hk h₁ h₂ hw
        simpa using this
      · rw [Option.map_eq_some_iff] at h
        obtain ⟨⟨x, y⟩, hi, he⟩ := h
        cases he
        obtain ⟨w, hw, hs, ht⟩ := pStr_some hi
        refine ⟨w ++ '\'' :: x ++ ['\''], by simpa using hs, ?_⟩
        have := Written.kwStr w₁ w₂ w hk h₁ h₂ hw ht
        simpa using this

theorem pPair_some {s r : List Char} {t : PTree} (h : pPair s = some (t, r)) : ∃ u, s = u ++ r ∧ Written t u := by
  unfold pPair at h
  split at h
  · rename_i k s' hk
    obtain ⟨w₁, hw₁, hs₁, hk⟩ := pParam_some hk
    split at h
    · rename_i s'' hl
      obtain ⟨w₂, hw₂, hs₂⟩ := lit_some hl
      obtain ⟨u, hu, ht⟩ := pPairValue_some h w₁ w₂ hk hw₁ hw₂
      refine ⟨_, ?_, ht⟩
      rw [hs₁, hs₂, hu]
      simp
    · cases h
  · cases h

theorem pValue_some {s r : List Char} {t : PTree} (h : pValue s = some (t, r)) : ∃ u, s = u ++ r ∧ Written t u := by
  unfold pValue at h
  split at h
  · rename_i x y hi
    cases h
    obtain ⟨w, hw, hs, ht⟩ := pInt_some hi
    exact ⟨_, hs, .int w hw ht⟩
  · split at h
    · rename_i x y hi
      cases h
      obtain ⟨w, hw, hs, ht⟩ := pFloatStr_some hi
      exact ⟨_, by simpa using hs, .str w hw (.inl ht)⟩
    · split at h
      · rename_i x y hi
        cases h
        obtain ⟨w, hw, hs, ht⟩ := pStr_some hi
        exact ⟨_, by simpa using hs, .str w hw (.inr ht)⟩
      · exact pPair_some h

/-! ## Soundness -/

/-- The tree is a call. -/
def IsCall : PTree → Prop
  | .call _ _ => True
  | _ => False

theorem parse_sound (f : ℕ) :
    (∀ s t r, pExpr f s = some (t, r) → ∃ u, s = u ++ r ∧ Written t u ∧ IsCall t) ∧
    (∀ s t r, pArg f s = some (t, r) → ∃ u, s = u ++ r ∧ Written t u) ∧
    (∀ s, ∃ v, s = v ++ (pArgs f s).2 ∧ WrittenTail (pArgs f s).1 v) := by
  induction f with
  | zero =>
    refine ⟨fun s t r h => ?_, fun s t r h => ?_, fun s => ⟨[], ?_, ?_⟩⟩
    · rw [pExpr] at h; cases h
    · rw [pArg] at h; cases h
    · rw [pArgs]; rfl
    · rw [pArgs]; exact .nil
  | succ f ih =>
    obtain ⟨ihE, ihA, ihL⟩ := ih
    refine ⟨fun s t r h => ?_, fun s t r h => ?_, fun s => ?_⟩
    · rw [pExpr] at h
      split at h
      · rename_i hd s₁ hid
        obtain ⟨w₁, hw₁, hs₁, hn⟩ := pId_some hid
        split at h
        · rename_i s₂ hl
          obtain ⟨w₂, hw₂, hs₂⟩ := lit_some hl
          split at h
          · rename_i a s₃ ha
            obtain ⟨u, hu, hwr⟩ := ihA _ _ _ ha
            obtain ⟨v, hv, htl⟩ := ihL s₃
            simp only at h
            split at h
            · rename_i s₄ hl'
              cases h
              obtain ⟨w₃, hw₃, hs₃⟩ := lit_some hl'
              refine ⟨_, ?_, .call w₁ w₂ w₃ hn hw₁ hw₂ hw₃ hwr htl, trivial⟩
              rw [hs₁, hs₂, hu]
              conv_lhs => rw [hv, hs₃]
              simp
            · cases h
          · cases h
        · cases h
      · cases h
    · rw [pArg] at h
      split at h
      · rename_i x hx
        cases h
        exact pValue_some hx
      · obtain ⟨u, hu, hw, -⟩ := ihE _ _ _ h
        exact ⟨u, hu, hw⟩
    · rw [pArgs]
      split
      · rename_i s₁ hl
        obtain ⟨w, hw, hs⟩ := lit_some hl
        split
        · rename_i a s₂ ha
          obtain ⟨u, hu, hwr⟩ := ihA _ _ _ ha
          obtain ⟨v, hv, htl⟩ := ihL s₂
          refine ⟨_, ?_, .cons w hw hwr htl⟩
          rw [hs, hu]
          conv_lhs => rw [hv]
          simp
        · exact ⟨[], rfl, .nil⟩
      · exact ⟨[], rfl, .nil⟩

/-! ## Completeness -/

theorem keyword_head {k : List Char} (hk : Keyword k) : ∃ c cs, k = c :: cs ∧ LetterC c := by
  obtain ⟨c, cs, rfl, hc, -⟩ := hk
  exact ⟨c, cs, rfl, .inl hc⟩

theorem letter_ne {c : Char} (h : LetterC c) : c ≠ '-' ∧ c ≠ '\'' ∧ c ≠ '=' := by
  have := letter_nat h
  refine ⟨?_, ?_, ?_⟩ <;> rintro rfl <;> revert this <;> decide

/-- Where a name begins there is no integer and no quoted text. -/
theorem value_letter {c : Char} {w s : List Char} (hw : Blank w) (hc : LetterC c) : pValue (w ++ c :: s) = pPair (w ++ c :: s) := by
  have hq := pQuoted_none (s := s) hw (letter_not_ws hc) (letter_ne hc).2.1
  unfold pValue
  rw [pInt_none hw (letter_not_ws hc) (letter_not_digit hc) (letter_ne hc).1]
  unfold pFloatStr pStr
  rw [hq]

theorem blank_append_noLetter {w s : List Char} {c : Char} (hw : Blank w) (hc : isLetter c = false) :
    ∀ d ds, w ++ c :: s = d :: ds → isLetter d = false := by
  intro d ds h
  cases w with
  | nil => cases h; exact hc
  | cons x w =>
    cases h
    rcases hw d (by simp) with rfl | rfl | rfl | rfl <;> decide

theorem blank_append_noId {w s : List Char} {c : Char} (hw : Blank w) (hc : isIdChar c = false) :
    ∀ d ds, w ++ c :: s = d :: ds → isIdChar d = false := by
  intro d ds h
  cases w with
  | nil => cases h; exact hc
  | cons x w =>
    cases h
    rcases hw d (by simp) with rfl | rfl | rfl | rfl <;> decide

theorem blank_append_noDigit {w s : List Char} {c : Char} (hw : Blank w) (hc : isDigit c = false) : NoDigit (w ++ c :: s) := by
  intro d ds h
  cases w with
  | nil => cases h; exact hc
  | cons x w =>
    cases h
    rcases hw d (by simp) with rfl | rfl | rfl | rfl <;> decide

theorem pPair_append {w₁ w₂ k s : List Char} (hk : Keyword k) (h₁ : Blank w₁) (h₂ : Blank w₂) :
    pPair (w₁ ++ k ++ w₂ ++ '=' :: s) = pPairValue k s := by
  have e : w₁ ++ k ++ w₂ ++ '=' :: s = w₁ ++ k ++ (w₂ ++ '=' :: s) := by simp
  have e' : w₂ ++ '=' :: s = w₂ ++ ['='] ++ s := by simp
  unfold pPair
  rw [e, pParam_append h₁ hk (blank_append_noLetter h₂ (by decide))]
  simp only
  rw [e', lit_append s h₂ (noWs_cons (by decide)) (by simp)]

/-- A name which is not followed by an equality sign does not begin a pair. -/
theorem pPair_name {w₁ h rest : List Char} (hh : Name h) (h₁ : Blank w₁) (hr : ∀ c cs, rest = c :: cs → isLetter c = false)
    (hl : lit ['='] rest = none) : pPair (w₁ ++ h ++ rest) = none := by
  obtain ⟨c, cs, rfl, hc, hcs⟩ := hh
  have e : w₁ ++ (c :: cs) ++ rest = w₁ ++ c :: (cs ++ rest) := by simp
  have key : lit ['='] ((cs ++ rest).dropWhile isLetter) = none := by
    clear e
    induction cs with
    | nil =>
      rw [List.nil_append]
      have : rest.dropWhile isLetter = rest := by
        have := (takeWhile_all (p := isLetter) (s := []) (r := rest) (by simp) hr).2
        simpa using this
      rw [this]
      exact hl
    | cons d ds ih =>
      rw [List.cons_append]
      by_cases hd : isLetter d = true
      · rw [List.dropWhile_cons_of_pos hd]
        exact ih fun x hx => hcs x (by simp [hx])
      · rw [List.dropWhile_cons_of_neg hd]
        have hd' := hcs d (by simp)
        have hws : isWs d = false := by
          rcases hd' with h | h | rfl
          · exact letter_not_ws h
          · exact digit_not_ws h
          · decide
        have hne : '=' ≠ d := by
          rintro rfl
          revert hd'
          unfold LetterC LowerC DigitC
          decide
        exact lit_other (w := []) _ (by simp [Blank]) hws hne
  unfold pPair pParam
  rw [e, skipWs_append h₁ (noWs_cons (letter_not_ws hc))]
  simp only
  split
  · rename_i k s' hk
    split at hk
    · cases hk
      rw [key]
    · cases hk
  · rfl

/-- A name in front of a bracket does not begin a pair. -/
theorem pPair_call {w₁ w₂ h s : List Char} (hh : Name h) (h₁ : Blank w₁) (h₂ : Blank w₂) : pPair (w₁ ++ h ++ w₂ ++ '(' :: s) = none := by
  rw [List.append_assoc]
  exact pPair_name hh h₁ (blank_append_noLetter h₂ (by decide)) (lit_other s h₂ (by decide) (by decide))

theorem lit_word_none {c d : Char} {l w s : List Char} (hw : Blank w) (hd : isWs d = false) (h : c ≠ d) : lit (c :: l) (w ++ d :: s) = none := by
  rw [lit, skipWs_append hw (noWs_cons hd), if_neg]
  simp [h]

theorem noWs_true : NoWs "True".toList := noWs_cons (c := 'T') (s := "rue".toList) (by decide)
theorem noWs_false : NoWs "False".toList := noWs_cons (c := 'F') (s := "alse".toList) (by decide)

theorem pPairValue_true {k w r : List Char} (hw : Blank w) : pPairValue k (w ++ "True".toList ++ r) = some (.kwBool k true, r) := by
  unfold pPairValue
  have e : w ++ "True".toList ++ r = w ++ 'T' :: ("rue".toList ++ r) := by simp
  rw [e, pInt_none hw (by decide) (by decide) (by decide), ← e, lit_append r hw noWs_true (by simp)]

theorem pPairValue_false {k w r : List Char} (hw : Blank w) : pPairValue k (w ++ "False".toList ++ r) = some (.kwBool k false, r) := by
  unfold pPairValue
  have e : w ++ "False".toList ++ r = w ++ 'F' :: ("alse".toList ++ r) := by simp
  have e' : "True".toList = 'T' :: "rue".toList := rfl
  rw [e, pInt_none hw (by decide) (by decide) (by decide), e', lit_word_none hw (by decide) (by decide), ← e,
    lit_append r hw noWs_false (by simp)]

theorem pPairValue_str {k w t r : List Char} (hw : Blank w) (ht : WordText t) :
    pPairValue k (w ++ '\'' :: t ++ '\'' :: r) = some (.kwStr k t, r) := by
  unfold pPairValue
  have e : w ++ '\'' :: t ++ '\'' :: r = w ++ '\'' :: (t ++ '\'' :: r) := by simp
  have e' : "True".toList = 'T' :: "rue".toList := rfl
  have e'' : "False".toList = 'F' :: "alse".toList := rfl
  rw [e, pInt_none hw (by decide) (by decide) (by decide), e', lit_word_none hw (by decide) (by decide), e'',
    lit_word_none hw (by decide) (by decide), ← e, pStr_append r hw ht]
  rfl

/-- A written literal is found by `value`. -/
theorem pValue_append {t : PTree} {u : List Char} (h : Written t u) (hc : ¬ IsCall t) (r : List Char) (hr : NoDigit r) :
    pValue (u ++ r) = some (t, r) := by
  cases h with
  | call => exact absurd trivial hc
  | int w hw ht => unfold pValue; rw [pInt_append hw ht hr]
  | @str t w hw ht =>
    have e : w ++ '\'' :: t ++ ['\''] ++ r = w ++ '\'' :: t ++ '\'' :: r := by simp
    have e' : w ++ '\'' :: t ++ '\'' :: r = w ++ '\'' :: (t ++ '\'' :: r) := by simp
    unfold pValue
    rw [e, e', pInt_none hw (by decide) (by decide) (by decide), ← e']
    simp only
    by_cases hf : isFloatText t = true
    · unfold pFloatStr
      rw [pQuoted_append r hw (floatText_quote ((isFloatText_iff t).1 hf))]
      simp only [hf, if_true]
    · have hw' : WordText t := ht.resolve_left fun h => hf ((isFloatText_iff t).2 h)
      unfold pFloatStr
      rw [pQuoted_append r hw (wordText_quote hw'), pStr_append r hw hw']
      simp only [hf]
      rfl
  | @kwInt k t w₁ w₂ w₃ hk h₁ h₂ h₃ ht =>
    have e : w₁ ++ k ++ w₂ ++ '=' :: w₃ ++ t ++ r = w₁ ++ k ++ w₂ ++ '=' :: (w₃ ++ t ++ r) := by simp
    rw [e]
    obtain ⟨c, cs, hkc, hc⟩ := keyword_head hk
    have e₂ : w₁ ++ k ++ w₂ ++ '=' :: (w₃ ++ t ++ r) = w₁ ++ c :: (cs ++ w₂ ++ '=' :: (w₃ ++ t ++ r)) := by rw [hkc]; simp
    rw [e₂, value_letter h₁ hc, ← e₂, pPair_append hk h₁ h₂]
    unfold pPairValue
    rw [pInt_append h₃ ht hr]
  | @kwTrue k w₁ w₂ w₃ hk h₁ h₂ h₃ =>
    have e : w₁ ++ k ++ w₂ ++ '=' :: w₃ ++ "True".toList ++ r = w₁ ++ k ++ w₂ ++ '=' :: (w₃ ++ "True".toList ++ r) := by simp
    rw [e]
    obtain ⟨c, cs, hkc, hc⟩ := keyword_head hk
    have e₂ : w₁ ++ k ++ w₂ ++ '=' :: (w₃ ++ "True".toList ++ r) = w₁ ++ c :: (cs ++ w₂ ++ '=' :: (w₃ ++ "True".toList ++ r)) := by
      rw [hkc]; simp
    rw [e₂, value_letter h₁ hc, ← e₂, pPair_append hk h₁ h₂, pPairValue_true h₃]
  | @kwFalse k w₁ w₂ w₃ hk h₁ h₂ h₃ =>
    have e : w₁ ++ k ++ w₂ ++ '=' :: w₃ ++ "False".toList ++ r = w₁ ++ k ++ w₂ ++ '=' :: (w₃ ++ "False".toList ++ r) := by simp
    rw [e]
    obtain ⟨c, cs, hkc, hc⟩ := keyword_head hk
    have e₂ : w₁ ++ k ++ w₂ ++ '=' :: (w₃ ++ "False".toList ++ r) = w₁ ++ c :: (cs ++ w₂ ++ '=' :: (w₃ ++ "False".toList ++ r)) := by
      rw [hkc]; simp
    rw [e₂, value_letter h₁ hc, ← e₂, pPair_append hk h₁ h₂, pPairValue_false h₃]
  | @kwStr k t w₁ w₂ w₃ hk h₁ h₂ h₃ ht =>
    have e : w₁ ++ k ++ w₂ ++ '=' :: w₃ ++ '\'' :: t ++ ['\''] ++ r = w₁ ++ k ++ w₂ ++ '=' :: (w₃ ++ '\'' :: t ++ '\'' :: r) := by simp
    rw [e]
    obtain ⟨c, cs, hkc, hc⟩ := keyword_head hk
    have e₂ : w₁ ++ k ++ w₂ ++ '=' :: (w₃ ++ '\'' :: t ++ '\'' :: r) = w₁ ++ c :: (cs ++ w₂ ++ '=' :: (w₃ ++ '\'' :: t ++ '\'' :: r)) := by
      rw [hkc]; simp
    rw [e₂, value_letter h₁ hc, ← e₂, pPair_append hk h₁ h₂, pPairValue_str h₃ ht]

/-- What may follow the arguments of a call: whitespace and a closing bracket. -/
def Closes (s : List Char) : Prop := ∃ w r, Blank w ∧ s = w ++ ')' :: r

theorem closes_noDigit {s : List Char} (h : Closes s) : NoDigit s := by
  obtain ⟨w, r, hw, rfl⟩ := h
  exact blank_append_noDigit hw (by decide)

theorem tail_noDigit {as : List PTree} {v r : List Char} (h : WrittenTail as v) (hr : NoDigit r) : NoDigit (v ++ r) := by
  cases h with
  | nil => exact hr
  | cons w hw h₁ h₂ =>
    rw [List.append_assoc, List.append_assoc, List.cons_append]
    exact blank_append_noDigit hw (by decide)

theorem parse_complete (f : ℕ) :
    (∀ t u r, Written t u → IsCall t → 2 * u.length + 1 ≤ f → pExpr f (u ++ r) = some (t, r)) ∧
    (∀ t u r, Written t u → NoDigit r → 2 * u.length + 2 ≤ f → pArg f (u ++ r) = some (t, r)) ∧
    (∀ as v r, WrittenTail as v → Closes r → 2 * v.length + 1 ≤ f → pArgs f (v ++ r) = (as, r)) := by
  induction f with
  | zero => exact ⟨fun _ _ _ _ _ h => by omega, fun _ _ _ _ _ h => by omega, fun _ _ _ _ _ h => by omega⟩
  | succ f ih =>
    obtain ⟨ihE, ihA, ihL⟩ := ih
    refine ⟨fun t u r h hc hf => ?_, fun t u r h hr hf => ?_, fun as v r h hr hf => ?_⟩
    · cases h with
      | @call h u v a as w₁ w₂ w₃ hn h₁ h₂ h₃ ha htl =>
        have hlen : 2 * (u.length + v.length) + 5 ≤ f + 1 := by simp at hf; omega
        have hcl : Closes (w₃ ++ ')' :: r) := ⟨w₃, r, h₃, rfl⟩
        have e : w₁ ++ h ++ w₂ ++ '(' :: u ++ v ++ w₃ ++ [')'] ++ r = w₁ ++ h ++ (w₂ ++ '(' :: (u ++ (v ++ (w₃ ++ ')' :: r)))) := by simp
        have e₂ : w₂ ++ '(' :: (u ++ (v ++ (w₃ ++ ')' :: r))) = w₂ ++ ['('] ++ (u ++ (v ++ (w₃ ++ ')' :: r))) := by simp
        have e₃ : w₃ ++ ')' :: r = w₃ ++ [')'] ++ r := by simp
        rw [pExpr, e, pId_append h₁ hn (blank_append_noId h₂ (by decide))]
        simp only
        rw [e₂, lit_append _ h₂ (noWs_cons (by decide)) (by simp)]
        simp only
        rw [ihA a u _ ha (tail_noDigit htl (closes_noDigit hcl)) (by omega)]
        simp only
        rw [ihL as v _ htl hcl (by omega)]
        simp only
        rw [e₃, lit_append _ h₃ (noWs_cons (by decide)) (by simp)]
      | _ => exact hc.elim
    · rw [pArg]
      by_cases hc : IsCall t
      · have hE := ihE t u r h hc (by omega)
        have hv : pValue (u ++ r) = none := by
          cases h with
          | @call h u v a as w₁ w₂ w₃ hn h₁ h₂ h₃ ha htl =>
            obtain ⟨c, cs, hh, hc, -⟩ := id hn
            have e : w₁ ++ h ++ w₂ ++ '(' :: u ++ v ++ w₃ ++ [')'] ++ r = w₁ ++ h ++ w₂ ++ '(' :: (u ++ (v ++ (w₃ ++ ')' :: r))) := by simp
            have e₂ : w₁ ++ h ++ w₂ ++ '(' :: (u ++ (v ++ (w₃ ++ ')' :: r))) = w₁ ++ c :: (cs ++ w₂ ++ '(' :: (u ++ (v ++ (w₃ ++ ')' :: r)))) := by
              rw [hh]; simp
            rw [e, e₂, value_letter h₁ hc, ← e₂]
            exact pPair_call hn h₁ h₂
          | _ => exact hc.elim
        rw [hv]
        exact hE
      · rw [pValue_append h hc r hr]
    · rw [pArgs]
      cases h with
      | nil =>
        obtain ⟨w, r, hw, rfl⟩ := hr
        rw [List.nil_append, lit_other r hw (by decide) (by decide)]
      | @cons a as u v w hw ha htl =>
        have hlen : 2 * (u.length + v.length) + 3 ≤ f + 1 := by simp at hf; omega
        have e : w ++ ',' :: u ++ v ++ r = w ++ [','] ++ (u ++ (v ++ r)) := by simp
        rw [e, lit_append _ hw (noWs_cons (by decide)) (by simp)]
        simp only
        rw [ihA a u _ ha (tail_noDigit htl (closes_noDigit hr)) (by omega)]
        simp only
        rw [ihL as v r htl hr (by omega)]

/-- With enough fuel the result does not depend on the fuel. -/
theorem pExpr_fuel (s : List Char) (f : ℕ) (hf : 2 * s.length + 1 ≤ f) : pExpr f s = pExpr (2 * s.length + 1) s := by
  have key : ∀ f g, 2 * s.length + 1 ≤ g → ∀ x, pExpr f s = some x → pExpr g s = some x := by
    rintro f g hg ⟨t, r⟩ h
    obtain ⟨u, hs, hw, hc⟩ := (parse_sound f).1 s t r h
    have hl : u.length ≤ s.length := by rw [hs]; simp
    rw [hs]
    exact (parse_complete g).1 t u r hw hc (by omega)
  cases h : pExpr f s with
  | some x => exact (key f _ le_rfl x h).symm
  | none =>
    cases h' : pExpr (2 * s.length + 1) s with
    | some x => rw [key _ f hf x h'] at h; cases h
    | none => rfl

/-- The strings accepted by the grammar. -/
theorem program_iff (s : List Char) (t : PTree) : program s = some t ↔ ∃ u w, s = u ++ w ∧ Written t u ∧ IsCall t ∧ Blank w := by
  rw [program]
  constructor
  · intro h
    split at h
    · rename_i t' rest hp
      split at h
      · rename_i hr
        cases h
        obtain ⟨u, hs, hw, hc⟩ := (parse_sound _).1 s t rest hp
        obtain ⟨w, hb, he, -⟩ := skipWs_spec rest
        rw [hr, List.append_nil] at he
        exact ⟨u, rest, hs, hw, hc, he ▸ hb⟩
      · cases h
    · cases h
  · rintro ⟨u, w, rfl, hw, hc, hb⟩
    rw [(parse_complete _).1 t u w hw hc (by simp; omega)]
    simp only
    rw [if_pos]
    simpa using skipWs_append (s := []) hb (by rintro c cs ⟨⟩)

end Qadence.Serial
