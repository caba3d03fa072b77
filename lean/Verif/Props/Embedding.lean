import Mathlib.Tactic
import Std.Data.String.ToInt
import Verif.Model.Embedding
import Verif.Proofs.Except
import Verif.Proofs.PyDict
import Verif.Spec.Operator

/-!
# Parameters and their embedding (C36, C37, C38)
-/

namespace Qadence

/-! ## C38: names of constants -/

namespace Spec

/-- The number denoted by a constant. -/
noncomputable def numValue : Num → ℂ
  | .int n => n
  | .float m e => (m : ℂ) / 2 ^ e
  | .complex m e m' e' => (m : ℂ) / 2 ^ e + ((m' : ℂ) / 2 ^ e') * Complex.I

end Spec

/-- The number is `m / 2^e`. -/
def Spec.OnGrid (e : ℕ) (m : ℤ) : Num → Prop
  | .int n => m = n * 2 ^ e
  | .float m₀ e₀ => e₀ ≤ e ∧ m = m₀ * 2 ^ (e - e₀)
  | .complex _ _ _ _ => False

theorem coprime_hashModulus (k : ℕ) : Nat.Coprime (2 ^ k) hashModulus :=
  Nat.Coprime.pow_left k (by unfold hashModulus; norm_num)

/-- The absolute value of the hash before -1 is replaced. -/
theorem natAbs_hash_inj (a b k : ℕ) (ha : a < hashModulus) (hb : b < hashModulus)
    (h : a * 2 ^ k % hashModulus = b * 2 ^ k % hashModulus) : a = b := by
  have h1 : a * 2 ^ k ≡ b * 2 ^ k [MOD hashModulus] := h
  have h2 := Nat.ModEq.cancel_right_of_coprime (coprime_hashModulus k).symm h1
  exact Nat.ModEq.eq_of_lt_of_lt h2 ha hb

/-- `h` is minus or plus the residue. -/
def hashRaw (m : ℤ) (e : ℕ) : ℤ :=
  if m < 0 then - ((m.natAbs * 2 ^ (61 - e % 61) % hashModulus : ℕ) : ℤ)
  else ((m.natAbs * 2 ^ (61 - e % 61) % hashModulus : ℕ) : ℤ)

theorem hashDyadic_eq (m : ℤ) (e : ℕ) : hashDyadic m e = hashFix (hashRaw m e) := rfl

theorem hashRaw_shift (m : ℤ) (e e' : ℕ) (h : e ≤ e') (h' : e' < 61) :
    hashRaw (m * 2 ^ (e' - e)) e' = hashRaw m e := by
  have h1 : (m * 2 ^ (e' - e)).natAbs * 2 ^ (61 - e' % 61) = m.natAbs * 2 ^ (61 - e % 61) := by
    rw [Int.natAbs_mul, Int.natAbs_pow, show Int.natAbs 2 = 2 from rfl, Nat.mod_eq_of_lt h',
      Nat.mod_eq_of_lt (show e < 61 by omega), mul_assoc, ← pow_add, show e' - e + (61 - e') = 61 - e by omega]
  have h2 : (m * 2 ^ (e' - e) < 0) ↔ m < 0 := by
    have : (0 : ℤ) < 2 ^ (e' - e) := by positivity
    constructor
    · intro h; by_contra hn; push Not at hn; have := mul_nonneg hn this.le; omega
    · intro h; exact mul_neg_of_neg_of_pos h this
  unfold hashRaw
  rw [h1]
  simp only [h2]

theorem hash_grid (e : ℕ) (m : ℤ) (x : Num) (he : e < 61) (h : Spec.OnGrid e m x) :
    x.hash = hashFix (hashRaw m e) ∧ Spec.numValue x = (m : ℂ) / 2 ^ e := by
  have hpow : ∀ k : ℕ, (2 : ℂ) ^ k ≠ 0 := fun k => pow_ne_zero _ (by norm_num)
  cases x with
  | int n =>
    simp only [Spec.OnGrid] at h
    subst h
    refine ⟨?_, ?_⟩
    · have := hashRaw_shift n 0 e (by omega) he
      rw [Nat.sub_zero] at this
      rw [this]; rfl
    · simp [Spec.numValue, hpow]
  | float m₀ e₀ =>
    obtain ⟨h1, h2⟩ := h
    subst h2
    refine ⟨by rw [hashRaw_shift m₀ e₀ e h1 he]; rfl, ?_⟩
    simp only [Spec.numValue]
    rw [div_eq_div_iff (hpow _) (hpow _)]
    push_cast
    rw [mul_assoc, ← pow_add, show e - e₀ + e₀ = e by omega]
  | complex => exact h.elim

theorem hashRaw_inj (m m' : ℤ) (e : ℕ) (hm : m.natAbs < hashModulus) (hm' : m'.natAbs < hashModulus)
    (h : hashRaw m e = hashRaw m' e) : m = m' := by
  have key := natAbs_hash_inj m.natAbs m'.natAbs (61 - e % 61) hm hm'
  have zero : ∀ m : ℤ, m.natAbs < hashModulus → m.natAbs * 2 ^ (61 - e % 61) % hashModulus = 0 → m = 0 := by
    intro m hm h0
    have := natAbs_hash_inj m.natAbs 0 (61 - e % 61) hm (by unfold hashModulus; norm_num) (by simpa using h0)
    omega
  unfold hashRaw at h
  by_cases hn : m < 0 <;> by_cases hn' : m' < 0 <;> simp only [hn, hn', if_true, if_false] at h
  · have := key (by omega); omega
  · have h1 : m.natAbs * 2 ^ (61 - e % 61) % hashModulus = 0 := by omega
    have h2 : m'.natAbs * 2 ^ (61 - e % 61) % hashModulus = 0 := by omega
    rw [zero m hm h1, zero m' hm' h2]
  · have h1 : m.natAbs * 2 ^ (61 - e % 61) % hashModulus = 0 := by omega
    have h2 : m'.natAbs * 2 ^ (61 - e % 61) % hashModulus = 0 := by omega
    rw [zero m hm h1, zero m' hm' h2]
  · have := key (by omega); omega

theorem hashRaw_eq_neg (m : ℤ) (e j : ℕ) (he : e + j ≤ 60) (hm : m.natAbs < hashModulus) (hj : j ≤ 1)
    (h : hashRaw m e = -(2 ^ j : ℤ)) : m = -(2 ^ (e + j) : ℤ) := by
  have hp : (0 : ℤ) < 2 ^ j := by positivity
  have hneg : m < 0 := by
    by_contra hn
    unfold hashRaw at h
    rw [if_neg hn] at h
    omega
  unfold hashRaw at h
  rw [if_pos hneg] at h
  have h1 : m.natAbs * 2 ^ (61 - e % 61) % hashModulus = 2 ^ j := by
    have : ((m.natAbs * 2 ^ (61 - e % 61) % hashModulus : ℕ) : ℤ) = ((2 ^ j : ℕ) : ℤ) := by
      push_cast at h ⊢; omega
    exact_mod_cast this
  have hlt : 2 ^ (e + j) < hashModulus := by
    calc 2 ^ (e + j) ≤ 2 ^ 60 := Nat.pow_le_pow_right (by norm_num) he
      _ < hashModulus := by unfold hashModulus; norm_num
  have h2 : 2 ^ (e + j) * 2 ^ (61 - e % 61) % hashModulus = 2 ^ j := by
    rw [Nat.mod_eq_of_lt (show e < 61 by omega), ← pow_add, show e + j + (61 - e) = 61 + j by omega, pow_add]
    unfold hashModulus
    interval_cases j <;> norm_num
  have := natAbs_hash_inj _ _ _ hm hlt (h1.trans h2.symm)
  have h3 : (m.natAbs : ℤ) = 2 ^ (e + j) := by rw [this]; push_cast; rfl
  omega

/-- C38, what holds. Two different real constants `m / 2^e` and `m' / 2^e` with `e < 60` and numerators below
`2^61 - 1` get different names, except for -1 and -2. With `e = 58` this covers all floats between `2^-6` and 7 in
absolute value, with `e = 0` all integers below `2^61 - 1`. Missing from the claim: the pair (-1, -2), constants of very
different magnitude, complex constants; see the counterexamples. -/
theorem C38_distinct_names_partial {T : Type} (W : ParamWorld T) (a b : Expr) (m m' : ℤ) (e : ℕ) (he : e < 60)
    (ha : a.isNumber = true) (hb : b.isNumber = true)
    (hna : Spec.OnGrid e m (W.numeric a)) (hnb : Spec.OnGrid e m' (W.numeric b))
    (hm : m.natAbs < 2 ^ 61 - 1) (hm' : m'.natAbs < 2 ^ 61 - 1)
    (hne : Spec.numValue (W.numeric a) ≠ Spec.numValue (W.numeric b))
    (h12 : ¬ (Spec.numValue (W.numeric a) = -1 ∧ Spec.numValue (W.numeric b) = -2))
    (h21 : ¬ (Spec.numValue (W.numeric a) = -2 ∧ Spec.numValue (W.numeric b) = -1)) :
    stringify W a ≠ stringify W b := by
  obtain ⟨ga, va⟩ := hash_grid e m _ (by omega) hna
  obtain ⟨gb, vb⟩ := hash_grid e m' _ (by omega) hnb
  rw [va, vb] at hne h12 h21
  have hmm : m ≠ m' := fun h => hne (by rw [h])
  have hpow : (2 : ℂ) ^ e ≠ 0 := pow_ne_zero _ (by norm_num)
  intro h
  unfold stringify at h
  rw [if_pos ha, if_pos hb, ga, gb] at h
  have h' : hashFix (hashRaw m e) = hashFix (hashRaw m' e) := by
    have h := congrArg String.toList h
    simp only [String.toList_append, List.append_cancel_left_eq, Int.toString_eq_repr] at h
    exact Int.repr_injective (String.toList_injective h)
  have hinj := hashRaw_inj m m' e hm hm'
  have p1 : ∀ m : ℤ, m.natAbs < 2 ^ 61 - 1 → hashRaw m e = -1 → (m : ℂ) / 2 ^ e = -1 := by
    intro m hm h
    have := hashRaw_eq_neg m e 0 (by omega) hm (by norm_num) (by simpa using h)
    rw [this]; push_cast; rw [Nat.add_zero, neg_div, div_self hpow]
  have p2 : ∀ m : ℤ, m.natAbs < 2 ^ 61 - 1 → hashRaw m e = -2 → (m : ℂ) / 2 ^ e = -2 := by
    intro m hm h
    have := hashRaw_eq_neg m e 1 (by omega) hm (by norm_num) (by simpa using h)
    rw [this]; push_cast; rw [pow_succ, neg_div, mul_div_right_comm, div_self hpow, one_mul]
  unfold hashFix at h'
  by_cases c1 : hashRaw m e = -1 <;> by_cases c2 : hashRaw m' e = -1 <;>
    simp only [c1, c2, if_true, if_false] at h'
  · exact hmm (hinj (c1.trans c2.symm))
  · exact h12 ⟨p1 m hm c1, p2 m' hm' h'.symm⟩
  · exact h21 ⟨p2 m hm h', p1 m' hm' c2⟩
  · exact hmm (hinj h')

/-- A simple world: numbers are printed by their hash, expressions by their variables. -/
def demoWorld : ParamWorld Num where
  str := fun e => "+".intercalate e.freeSymbols
  numeric := fun e => match e with
    | .num re im => if im = 0 then (if re.den = 1 then .int re.num else .float re.num (re.den.log2))
        else .complex re.num re.den.log2 im.num im.den.log2
    | _ => .int 0
  trainable := fun x => x = "w"
  value := fun _ => .float 1 1
  isTime := fun x => x = "t"
  tensor := id
  one := .int 1
  apply := fun e d => match e with
    | .var x => (match PyDict.get? d x with | some v => .ok v | none => .error .keyError)
    | _ => .error .notImplementedError
  uniq := List.dedup
  uniqS := List.dedup

example : stringify demoWorld (.num (1/2) 0) ≠ stringify demoWorld (.num (-3/4) 0) := by
  have h1 : demoWorld.numeric (.num (1/2) 0) = .float 1 1 := by decide +kernel
  have h2 : demoWorld.numeric (.num (-3/4) 0) = .float (-3) 2 := by decide +kernel
  refine C38_distinct_names_partial demoWorld _ _ (1 * 2 ^ (58 - 1)) (-3 * 2 ^ (58 - 2)) 58 (by norm_num) rfl rfl
    ?_ ?_ (by norm_num) (by norm_num) ?_ ?_ ?_ <;> simp only [h1, h2]
  · exact ⟨by norm_num, rfl⟩
  · exact ⟨by norm_num, rfl⟩
  all_goals norm_num [Spec.numValue]

/-- C38 is false: the constants -1 and -2 have the same name, because Python's hash of -1 is -2. -/
theorem C38_counterexample_minus_one_minus_two {T : Type} (W : ParamWorld T) (a b : Expr) (ha : a.isNumber = true)
    (hb : b.isNumber = true) (hna : W.numeric a = .int (-1)) (hnb : W.numeric b = .int (-2)) :
    stringify W a = stringify W b := by
  unfold stringify
  rw [if_pos ha, if_pos hb, hna, hnb]
  have : (Num.int (-1)).hash = (Num.int (-2)).hash := by decide +kernel
  rw [this]

/-- C38 is false for floats: 1 and `2^-61` have the same name. -/
theorem C38_counterexample_small_float {T : Type} (W : ParamWorld T) (a b : Expr) (ha : a.isNumber = true)
    (hb : b.isNumber = true) (hna : W.numeric a = .int 1) (hnb : W.numeric b = .float 1 61) :
    stringify W a = stringify W b := by
  unfold stringify
  rw [if_pos ha, if_pos hb, hna, hnb]
  have : (Num.int 1).hash = (Num.float 1 61).hash := by decide +kernel
  rw [this]

/-- C38 is false for complex constants: `1j` and 1000003 have the same name. -/
theorem C38_counterexample_complex {T : Type} (W : ParamWorld T) (a b : Expr) (ha : a.isNumber = true)
    (hb : b.isNumber = true) (hna : W.numeric a = .int 1000003) (hnb : W.numeric b = .complex 0 0 1 0) :
    stringify W a = stringify W b := by
  unfold stringify
  rw [if_pos ha, if_pos hb, hna, hnb]
  have : (Num.int 1000003).hash = (Num.complex 0 0 1 0).hash := by decide +kernel
  rw [this]

/-! ## C36: every gate parameter is collected -/

namespace Spec

/-- The block contains a gate parameter with this id and this expression. -/
inductive Slot : PBlock → Uuid → Expr → Prop
  | scaleHere (u : Uuid) (e : Expr) (b : PBlock) : Slot (.scale u e b) u e
  | scaleIn {u : Uuid} {e : Expr} {b : PBlock} {v : Uuid} {f : Expr} : Slot b v f → Slot (.scale u e b) v f
  | parametric {ps : ParamDict} {u : Uuid} {e : Expr} : (u, e) ∈ ps → Slot (.parametric ps) u e
  | evoGen {gen : PBlock} {ps : ParamDict} {u : Uuid} {e : Expr} : Slot gen u e → Slot (.timeEvo gen ps) u e
  | evoHere {gen : PBlock} {ps : ParamDict} {u : Uuid} {e : Expr} : (u, e) ∈ ps → Slot (.timeEvo gen ps) u e
  | comp {bs : List PBlock} {b : PBlock} {u : Uuid} {e : Expr} : b ∈ bs → Slot b u e → Slot (.comp bs) u e

/-- Ids are unique: an id belongs to one expression. -/
def UniqueIds (b : PBlock) : Prop := ∀ u e e', Slot b u e → Slot b u e' → e = e'

end Spec

open Spec

theorem slot_comp {bs : List PBlock} {u : Uuid} {e : Expr} :
    Slot (.comp bs) u e ↔ ∃ b ∈ bs, Slot b u e :=
  ⟨fun h => by cases h with | comp hb h => exact ⟨_, hb, h⟩, fun ⟨_, hb, h⟩ => .comp hb h⟩

theorem slot_scale {u v : Uuid} {e f : Expr} {b : PBlock} :
    Slot (.scale u e b) v f ↔ (v = u ∧ f = e) ∨ Slot b v f := by
  constructor
  · intro h
    cases h with
    | scaleHere => exact .inl ⟨rfl, rfl⟩
    | scaleIn h => exact .inr h
  · rintro (⟨rfl, rfl⟩ | h)
    · exact .scaleHere _ _ _
    · exact .scaleIn h

theorem slot_parametric {ps : ParamDict} {u : Uuid} {e : Expr} : Slot (.parametric ps) u e ↔ (u, e) ∈ ps :=
  ⟨fun h => by cases h with | parametric h => exact h, .parametric⟩

theorem slot_timeEvo {gen : PBlock} {ps : ParamDict} {u : Uuid} {e : Expr} :
    Slot (.timeEvo gen ps) u e ↔ (u, e) ∈ ps ∨ Slot gen u e := by
  constructor
  · intro h
    cases h with
    | evoGen h => exact .inr h
    | evoHere h => exact .inl h
  · rintro (h | h)
    · exact .evoHere h
    · exact .evoGen h

theorem slot_plain {u : Uuid} {e : Expr} : ¬ Slot .plain u e := fun h => by cases h

theorem get?_foldl_keys (ks : List Uuid) (ps : ParamDict) (d : PyDict Uuid ParamDict) (u : Uuid) :
    PyDict.get? (ks.foldl (fun d u => PyDict.set d u ps) d) u = if u ∈ ks then some ps else PyDict.get? d u := by
  induction ks generalizing d with
  | nil => simp
  | cons k ks ih =>
    rw [List.foldl_cons, ih, PyDict.get?_set]
    by_cases h : u ∈ ks <;> by_cases h' : k = u <;> simp [h, h', Ne.symm, eq_comm (a := u)]

theorem WF_foldl_keys (ks : List Uuid) (ps : ParamDict) (d : PyDict Uuid ParamDict) (h : PyDict.WF d) :
    PyDict.WF (ks.foldl (fun d u => PyDict.set d u ps) d) := by
  induction ks generalizing d with
  | nil => exact h
  | cons k ks ih => exact ih _ (PyDict.WF_set _ _ _ h)

/-- What `uuid_to_block` does to the dictionary. -/
structure Collected (P : Uuid → Expr → Prop) (d D : PyDict Uuid ParamDict) : Prop where
  found : ∀ u e, P u e → ∃ ps e', PyDict.get? D u = some ps ∧ PyDict.get? ps u = some e' ∧ P u e'
  rest : ∀ u, (∀ e, ¬ P u e) → PyDict.get? D u = PyDict.get? d u
  wf : PyDict.WF d → PyDict.WF D

theorem get?_of_mem_keys {ps : ParamDict} {u : Uuid} (h : u ∈ PyDict.keys ps) :
    ∃ e, PyDict.get? ps u = some e ∧ (u, e) ∈ ps := by
  have h' := PyDict.get?_isSome_iff.2 h
  obtain ⟨e, he⟩ := Option.isSome_iff_exists.1 h'
  exact ⟨e, he, PyDict.mem_of_get? he⟩

mutual
theorem uuidToBlock_collected : ∀ (b : PBlock) (d : PyDict Uuid ParamDict),
    Collected (Slot b) d (uuidToBlock b d)
  | .plain, d => by
    simp only [uuidToBlock]
    exact ⟨fun u e h => (slot_plain h).elim, fun _ _ => rfl, id⟩
  | .scale u e b, d => by
    simp only [uuidToBlock]
    have ih := uuidToBlock_collected b (PyDict.set d u [(u, e)])
    refine ⟨?_, ?_, fun h => ih.wf (PyDict.WF_set _ _ _ h)⟩
    · intro v f h
      by_cases hb : ∃ f, Slot b v f
      · obtain ⟨f, hf⟩ := hb
        obtain ⟨ps, e', h1, h2, h3⟩ := ih.found v f hf
        exact ⟨ps, e', h1, h2, slot_scale.2 (.inr h3)⟩
      · push Not at hb
        rcases slot_scale.1 h with ⟨rfl, rfl⟩ | h
        · exact ⟨[(v, f)], f, by rw [ih.rest v hb, PyDict.get?_set, if_pos rfl], by simp [PyDict.get?],
            .scaleHere _ _ _⟩
        · exact absurd h (hb f)
    · intro v hv
      rw [ih.rest v fun f hf => hv f (.scaleIn hf), PyDict.get?_set, if_neg]
      rintro rfl
      exact hv e (.scaleHere _ _ _)
  | .parametric ps, d => by
    simp only [uuidToBlock]
    refine ⟨?_, ?_, fun h => WF_foldl_keys _ _ _ h⟩
    · intro u e h
      have hk : u ∈ PyDict.keys ps := List.mem_map.2 ⟨_, slot_parametric.1 h, rfl⟩
      obtain ⟨e', h1, h2⟩ := get?_of_mem_keys hk
      exact ⟨ps, e', by rw [get?_foldl_keys, if_pos hk], h1, .parametric h2⟩
    · intro u hu
      rw [get?_foldl_keys, if_neg]
      intro hk
      obtain ⟨e', _, h2⟩ := get?_of_mem_keys hk
      exact hu e' (.parametric h2)
  | .timeEvo gen ps, d => by
    simp only [uuidToBlock]
    have ih := uuidToBlock_collected gen d
    refine ⟨?_, ?_, fun h => WF_foldl_keys _ _ _ (ih.wf h)⟩
    · intro u e h
      by_cases hk : u ∈ PyDict.keys ps
      · obtain ⟨e', h1, h2⟩ := get?_of_mem_keys hk
        exact ⟨ps, e', by rw [get?_foldl_keys, if_pos hk], h1, .evoHere h2⟩
      · rcases slot_timeEvo.1 h with h | h
        · exact absurd (List.mem_map.2 ⟨_, h, rfl⟩) hk
        · obtain ⟨qs, e', h1, h2, h3⟩ := ih.found u e h
          exact ⟨qs, e', by rw [get?_foldl_keys, if_neg hk, h1], h2, .evoGen h3⟩
    · intro u hu
      rw [get?_foldl_keys, if_neg]
      · exact ih.rest u fun e he => hu e (.evoGen he)
      · intro hk
        obtain ⟨e', _, h2⟩ := get?_of_mem_keys hk
        exact hu e' (.evoHere h2)
  | .comp bs, d => by
    simp only [uuidToBlock]
    have ih := uuidToBlockList_collected bs d
    exact ⟨fun u e h => by
        obtain ⟨ps, e', h1, h2, h3⟩ := ih.found u e (slot_comp.1 h)
        exact ⟨ps, e', h1, h2, slot_comp.2 h3⟩,
      fun u hu => ih.rest u fun e he => hu e (slot_comp.2 he), ih.wf⟩
theorem uuidToBlockList_collected : ∀ (bs : List PBlock) (d : PyDict Uuid ParamDict),
    Collected (fun u e => ∃ b ∈ bs, Slot b u e) d (uuidToBlockList bs d)
  | [], d => by
    simp only [uuidToBlockList]
    exact ⟨fun u e h => by simp at h, fun _ _ => rfl, id⟩
  | b :: bs, d => by
    simp only [uuidToBlockList]
    have ih1 := uuidToBlock_collected b d
    have ih2 := uuidToBlockList_collected bs (uuidToBlock b d)
    refine ⟨?_, ?_, fun h => ih2.wf (ih1.wf h)⟩
    · rintro u e ⟨c, hc, hs⟩
      by_cases hb : ∃ f, ∃ c ∈ bs, Slot c u f
      · obtain ⟨f, hf⟩ := hb
        obtain ⟨ps, e', h1, h2, c', hc', h3⟩ := ih2.found u f hf
        exact ⟨ps, e', h1, h2, c', by simp [hc'], h3⟩
      · push Not at hb
        have hcb : c = b := by
          rcases List.mem_cons.1 hc with h | h
          · exact h
          · exact absurd hs (hb e c h)
        subst hcb
        obtain ⟨ps, e', h1, h2, h3⟩ := ih1.found u e hs
        refine ⟨ps, e', ?_, h2, c, by simp, h3⟩
        rw [ih2.rest u fun f ⟨c, hc, hf⟩ => hb f c hc hf, h1]
    · intro u hu
      rw [ih2.rest u fun f ⟨c, hc, hf⟩ => hu f ⟨c, by simp [hc], hf⟩,
        ih1.rest u fun f hf => hu f ⟨b, by simp, hf⟩]
end

/-- C36, part 1: `uuid_to_expression` finds exactly the gate parameters of the block, wherever they are: in composites,
under scales and inside the generators of evolutions. -/
theorem C36_all_parameters_collected (b : PBlock) (hu : UniqueIds b) :
    ∃ D, uuidToExpression b = .ok D ∧ PyDict.WF D ∧ ∀ u e, PyDict.get? D u = some e ↔ Slot b u e := by
  have hc := uuidToBlock_collected b []
  have hwf : PyDict.WF (uuidToBlock b []) := hc.wf (by simp [PyDict.WF])
  have hval : ∀ kv ∈ uuidToBlock b [], ∃ e, PyDict.get? kv.2 kv.1 = some e ∧ Slot b kv.1 e := by
    rintro ⟨u, ps⟩ hm
    have hg := PyDict.get?_eq_some_of_mem hwf hm
    by_cases hs : ∃ e, Slot b u e
    · obtain ⟨e, he⟩ := hs
      obtain ⟨ps', e', h1, h2, h3⟩ := hc.found u e he
      rw [hg] at h1
      injection h1 with h1
      subst h1
      exact ⟨e', h2, h3⟩
    · push Not at hs
      have := hc.rest u hs
      rw [hg] at this
      simp [PyDict.get?] at this
  let g : Uuid × ParamDict → Uuid × Expr := fun kv => (kv.1, (PyDict.get? kv.2 kv.1).getD .pi)
  have hmap : (uuidToBlock b []).mapM (fun kv => lookupUuid kv.1 kv.2) = .ok ((uuidToBlock b []).map g) := by
    refine mapM_ok_map fun kv hkv => ?_
    obtain ⟨e, he, _⟩ := hval kv hkv
    simp only [lookupUuid, g, he, Option.getD_some]
  have hnd : PyDict.WF ((uuidToBlock b []).map g) := by
    unfold PyDict.WF at hwf ⊢
    rw [List.map_map]
    exact hwf
  refine ⟨(uuidToBlock b []).map g, ?_, hnd, ?_⟩
  · unfold uuidToExpression
    rw [hmap, ok_bind, PyDict.ofItems_of_nodup _ hnd]
    rfl
  · intro u e
    constructor
    · intro h
      obtain ⟨⟨u', ps⟩, hm, heq⟩ := List.mem_map.1 (PyDict.mem_of_get? h)
      obtain ⟨e', he', hs⟩ := hval _ hm
      simp only [g, Prod.mk.injEq] at heq
      obtain ⟨rfl, rfl⟩ := heq
      rw [he'] 
      exact hs
    · intro h
      obtain ⟨ps, e', h1, h2, h3⟩ := hc.found u e h
      have := hu u e e' h h3
      subst this
      refine PyDict.get?_eq_some_of_mem hnd (List.mem_map.2 ⟨(u, ps), PyDict.mem_of_get? h1, ?_⟩)
      simp only [g, h2, Option.getD_some]

/-- A kron of a rotation with a parameter, a scaled gate with a constant and an evolution with parametrised generator. -/
def demoPBlock : PBlock :=
  .comp [.parametric [(1, .var "x")], .plain, .scale 2 (.num (1/2) 0) (.parametric [(3, .var "w")]),
    .timeEvo (.scale 4 (.var "x") .plain) [(5, .var "t"), (6, .var "x")]]

example : uuidToExpression demoPBlock =
    .ok [(1, .var "x"), (2, .num (1/2) 0), (3, .var "w"), (4, .var "x"), (5, .var "t"), (6, .var "x")] := by
  decide +kernel

theorem demoPBlock_slot (u : Uuid) (e : Expr) (h : Slot demoPBlock u e) :
    (u, e) ∈ [(1, Expr.var "x"), (2, .num (1/2) 0), (3, .var "w"), (4, .var "x"), (5, .var "t"), (6, .var "x")] := by
  simp only [demoPBlock, slot_comp, List.mem_cons, List.not_mem_nil, or_false, exists_eq_or_imp, exists_eq_left,
    slot_parametric, slot_scale, slot_timeEvo, slot_plain, or_false] at h
  simp only [List.mem_cons, List.not_mem_nil, or_false, Prod.mk.injEq] at h ⊢
  tauto

theorem demoPBlock_unique : UniqueIds demoPBlock := by
  intro u e e' h h'
  have h := demoPBlock_slot u e h
  have h' := demoPBlock_slot u e' h'
  simp only [List.mem_cons, List.not_mem_nil, or_false, Prod.mk.injEq] at h h'
  rcases h with ⟨rfl, rfl⟩ | ⟨rfl, rfl⟩ | ⟨rfl, rfl⟩ | ⟨rfl, rfl⟩ | ⟨rfl, rfl⟩ | ⟨rfl, rfl⟩ <;> simp at h' <;>
    simp [h']

/-! ## C36: the values -/

namespace Spec

/-- `list(set(...))` keeps the elements and drops repetitions. -/
structure SetLists {T : Type} (W : ParamWorld T) : Prop where
  mem : ∀ l e, e ∈ W.uniq l ↔ e ∈ l
  nodup : ∀ l, (W.uniq l).Nodup
  memS : ∀ l x, x ∈ W.uniqS l ↔ x ∈ l
  nodupS : ∀ l, (W.uniqS l).Nodup

/-- The value of a parameter: supplied values win over stored ones, time parameters default to one. -/
def Assigned {T : Type} (W : ParamWorld T) (params inputs : PyDict String T) (x : String) (v : T) : Prop :=
  PyDict.get? inputs x = some v ∨ (PyDict.get? inputs x = none ∧ PyDict.get? params x = some v) ∨
    (PyDict.get? inputs x = none ∧ PyDict.get? params x = none ∧ W.isTime x = true ∧ v = W.one)

end Spec

theorem symbolValue_ok {T : Type} (W : ParamWorld T) (params inputs : PyDict String T) (x : String) (v : T) :
    symbolValue W params inputs x = .ok v ↔ Assigned W params inputs x v := by
  unfold symbolValue Assigned
  cases h1 : PyDict.get? inputs x with
  | some w => simp
  | none =>
    cases h2 : PyDict.get? params x with
    | some w => simp
    | none =>
      by_cases h3 : W.isTime x = true
      · simp [h3, eq_comm]
      · simp [h3]

/-- The dictionary handed to the function of an expression holds the values of the free symbols. -/
theorem embedExpr_ok {T : Type} (W : ParamWorld T) (hW : SetLists W) (params inputs : PyDict String T) (e : Expr)
    (v : T) (h : embedExpr W params inputs e = .ok v) :
    ∃ d, W.apply e d = .ok v ∧ (∀ x ∈ e.freeSymbols, ∃ w, PyDict.get? d x = some w ∧ Assigned W params inputs x w) ∧
      ∀ x w, PyDict.get? d x = some w → Assigned W params inputs x w := by
  unfold embedExpr at h
  obtain ⟨values, hv, h⟩ := bind_ok h
  obtain ⟨m1, m2⟩ := mapM_ok_mem hv
  have hitem : ∀ x w, (x, w) ∈ values → Assigned W params inputs x w := by
    intro x w hm
    obtain ⟨y, _, hf⟩ := m2 _ hm
    obtain ⟨z, hz, hf⟩ := bind_ok hf
    have := pure_ok hf
    simp only [Prod.mk.injEq] at this
    obtain ⟨rfl, rfl⟩ := this
    exact (symbolValue_ok W params inputs y z).1 hz
  have hfun : ∀ x w w', Assigned W params inputs x w → Assigned W params inputs x w' → w' = w := by
    intro x w w' h h'
    have h := (symbolValue_ok W params inputs x w).2 h
    have h' := (symbolValue_ok W params inputs x w').2 h'
    rw [h] at h'
    injection h' with h'
    exact h'.symm
  have hget : ∀ x w, (x, w) ∈ values → PyDict.get? (PyDict.ofItems values) x = some w := fun x w hm =>
    PyDict.get?_ofItems_of_consistent values x w hm fun w' hw' => hfun x w w' (hitem x w hm) (hitem x w' hw')
  refine ⟨PyDict.ofItems values, h, ?_, ?_⟩
  · intro x hx
    obtain ⟨⟨y, w⟩, hm, hf⟩ := m1 x ((hW.memS _ _).2 hx)
    obtain ⟨z, hz, hf⟩ := bind_ok hf
    have := pure_ok hf
    simp only [Prod.mk.injEq] at this
    obtain ⟨rfl, rfl⟩ := this
    exact ⟨z, hget x z hm, hitem x z hm⟩
  · intro x w hw
    rcases PyDict.mem_of_get?_merge [] values x w hw with h | h
    · exact hitem x w h
    · simp [PyDict.get?] at h

/-- The entry of an expression in `embedded_params`. -/
def Entry {T : Type} (W : ParamWorld T) (params inputs : PyDict String T) (e : Expr) : Except PyErr T :=
  if e.isNumber then constantValue W params e else embedExpr W params inputs e

theorem embeddedParams_ok {T : Type} (W : ParamWorld T) (hW : SetLists W) (b : PBlock) (hu : UniqueIds b)
    (params inputs : PyDict String T) (emb : PyDict EKey T) (h : embeddedParams W b params inputs = .ok emb) :
    PyDict.WF emb ∧ (∀ u e, Slot b u e → ∃ v, PyDict.get? emb (.expr e) = some v ∧ Entry W params inputs e = .ok v) ∧
      ∀ k v, (k, v) ∈ emb → ∃ u e, Slot b u e ∧ k = .expr e ∧ Entry W params inputs e = .ok v := by
  obtain ⟨D, hD, hwf, hmem⟩ := C36_all_parameters_collected b hu
  unfold embeddedParams expressions at h
  rw [hD] at h
  simp only [ok_bind, pure_eq_ok] at h
  obtain ⟨a, ha, h⟩ := bind_ok h
  obtain ⟨c, hc, h⟩ := bind_ok h
  have h := pure_ok h
  subst h
  obtain ⟨a1, a2⟩ := mapM_ok_mem ha
  obtain ⟨c1, c2⟩ := mapM_ok_mem hc
  have hslot : ∀ e, e ∈ W.uniq (PyDict.values D) ↔ ∃ u, Slot b u e := by
    intro e
    rw [hW.mem]
    constructor
    · intro he
      obtain ⟨⟨u, e'⟩, hm, rfl⟩ := List.mem_map.1 he
      exact ⟨u, (hmem u e').1 (PyDict.get?_eq_some_of_mem hwf hm)⟩
    · rintro ⟨u, hs⟩
      exact List.mem_map.2 ⟨(u, e), PyDict.mem_of_get? ((hmem u e).2 hs), rfl⟩
  have aitem : ∀ k v, (k, v) ∈ a → ∃ e, (∃ u, Slot b u e) ∧ e.isNumber = false ∧ k = .expr e ∧
      embedExpr W params inputs e = .ok v := by
    intro k v hm
    obtain ⟨e, he, hf⟩ := a2 _ hm
    obtain ⟨w, hw, hf⟩ := bind_ok hf
    have := pure_ok hf
    simp only [Prod.mk.injEq] at this
    obtain ⟨rfl, rfl⟩ := this
    rw [List.mem_filter] at he
    exact ⟨e, (hslot e).1 he.1, by simpa using he.2, rfl, hw⟩
  have citem : ∀ k v, (k, v) ∈ c → ∃ e, (∃ u, Slot b u e) ∧ e.isNumber = true ∧ k = .expr e ∧
      constantValue W params e = .ok v := by
    intro k v hm
    obtain ⟨e, he, hf⟩ := c2 _ hm
    obtain ⟨w, hw, hf⟩ := bind_ok hf
    have := pure_ok hf
    simp only [Prod.mk.injEq] at this
    obtain ⟨rfl, rfl⟩ := this
    rw [List.mem_filter] at he
    exact ⟨e, (hslot e).1 he.1, he.2, rfl, hw⟩
  have hmwf : PyDict.WF (PyDict.merge (PyDict.ofItems a) c) := PyDict.WF_merge _ _ (PyDict.WF_ofItems _)
  refine ⟨hmwf, ?_, ?_⟩
  · intro u e hs
    by_cases hn : e.isNumber = true
    · obtain ⟨⟨k, v⟩, hm, hf⟩ := c1 e (List.mem_filter.2 ⟨(hslot e).2 ⟨u, hs⟩, hn⟩)
      obtain ⟨w, hw, hf⟩ := bind_ok hf
      have := pure_ok hf
      simp only [Prod.mk.injEq] at this
      obtain ⟨rfl, rfl⟩ := this
      refine ⟨w, PyDict.get?_merge_of_consistent _ _ _ _ hm ?_, by rw [Entry, if_pos hn, hw]⟩
      intro w' hw'
      obtain ⟨e', _, _, he', hv'⟩ := citem _ _ hw'
      injection he' with he'
      subst he'
      rw [hw] at hv'
      injection hv' with hv'
      exact hv'.symm
    · obtain ⟨⟨k, v⟩, hm, hf⟩ := a1 e (List.mem_filter.2 ⟨(hslot e).2 ⟨u, hs⟩, by simpa using hn⟩)
      obtain ⟨w, hw, hf⟩ := bind_ok hf
      have := pure_ok hf
      simp only [Prod.mk.injEq] at this
      obtain ⟨rfl, rfl⟩ := this
      refine ⟨w, ?_, by rw [Entry, if_neg hn, hw]⟩
      rw [PyDict.get?_merge_of_not_mem]
      · refine PyDict.get?_ofItems_of_consistent a _ _ hm ?_
        intro w' hw'
        obtain ⟨e', _, _, he', hv'⟩ := aitem _ _ hw'
        injection he' with he'
        subst he'
        rw [hw] at hv'
        injection hv' with hv'
        exact hv'.symm
      · intro hk
        obtain ⟨⟨k, v⟩, hm', heq⟩ := List.mem_map.1 hk
        obtain ⟨e', _, hn', he', _⟩ := citem _ _ hm'
        simp only at heq
        rw [he'] at heq
        injection heq with heq
        rw [heq] at hn'
        exact hn hn'
  · intro k v hm
    have hg := PyDict.get?_eq_some_of_mem hmwf hm
    rcases PyDict.mem_of_get?_merge _ _ _ _ hg with h | h
    · obtain ⟨e, ⟨u, hs⟩, hn, hk, hv⟩ := citem _ _ h
      exact ⟨u, e, hs, hk, by rw [Entry, if_pos hn, hv]⟩
    · rcases PyDict.mem_of_get?_merge [] a _ _ h with h | h
      · obtain ⟨e, ⟨u, hs⟩, hn, hk, hv⟩ := aitem _ _ h
        exact ⟨u, e, hs, hk, by rw [Entry, if_neg (by simp [hn]), hv]⟩
      · simp [PyDict.get?] at h

theorem gateParams_ok {T : Type} (W : ParamWorld T) (hW : SetLists W) (b : PBlock) (hu : UniqueIds b)
    (params : PyDict String T) (inputs : Inputs T) (out : PyDict Uuid T) (h : gateParams W b params inputs = .ok out)
    (u : Uuid) (e : Expr) (hs : Slot b u e) :
    ∃ v, PyDict.get? out u = some v ∧ Entry W params inputs.merged e = .ok v := by
  obtain ⟨D, hD, hwf, hmem⟩ := C36_all_parameters_collected b hu
  unfold gateParams at h
  obtain ⟨emb, hemb, h⟩ := bind_ok h
  rw [hD] at h
  rw [ok_bind] at h
  obtain ⟨items, hi, h⟩ := bind_ok h
  have h := pure_ok h
  subst h
  obtain ⟨_, e2, _⟩ := embeddedParams_ok W hW b hu _ _ _ hemb
  obtain ⟨i1, i2⟩ := mapM_ok_mem hi
  have hval : ∀ u' e' k w, embeddedValue emb u' e' = .ok (k, w) → Slot b u' e' →
      k = u' ∧ Entry W params inputs.merged e' = .ok w := by
    intro u' e' k w hv hs'
    obtain ⟨v, hv1, hv2⟩ := e2 u' e' hs'
    rw [embeddedValue, hv1] at hv
    injection hv with hv
    simp only [Prod.mk.injEq] at hv
    exact ⟨hv.1.symm, by rw [hv2, hv.2]⟩
  obtain ⟨⟨k, v⟩, hm, hf⟩ := i1 (u, e) (PyDict.mem_of_get? ((hmem u e).2 hs))
  obtain ⟨rfl, hv⟩ := hval _ _ _ _ hf hs
  refine ⟨v, PyDict.get?_ofItems_of_consistent items _ _ hm ?_, hv⟩
  intro w hw
  obtain ⟨⟨u', e'⟩, hm', hf'⟩ := i2 _ hw
  have hs' := (hmem u' e').1 (PyDict.get?_eq_some_of_mem hwf hm')
  obtain ⟨rfl, hv'⟩ := hval _ _ _ _ hf' hs'
  have := hu _ _ _ hs hs'
  subst this
  rw [hv] at hv'
  injection hv' with hv'
  exact hv'.symm

/-- C36, part 2 (gate level): whenever the embedding succeeds, every gate parameter with a non-constant expression
gets the result of evaluating its expression on the values of its symbols, where values in `inputs` win over values in
`params`. -/
theorem C36_gate_value {T : Type} (W : ParamWorld T) (hW : SetLists W) (b : PBlock) (hu : UniqueIds b)
    (params : PyDict String T) (inputs : Inputs T) (out : PyDict Uuid T) (h : gateParams W b params inputs = .ok out)
    (u : Uuid) (e : Expr) (hs : Slot b u e) (hn : e.isNumber = false) :
    ∃ v d, PyDict.get? out u = some v ∧ W.apply e d = .ok v ∧
      (∀ x ∈ e.freeSymbols, ∃ w, PyDict.get? d x = some w ∧ Assigned W params inputs.merged x w) ∧
      ∀ x w, PyDict.get? d x = some w → Assigned W params inputs.merged x w := by
  obtain ⟨v, hv, he⟩ := gateParams_ok W hW b hu params inputs out h u e hs
  rw [Entry, if_neg (by simp [hn])] at he
  obtain ⟨d, h1, h2, h3⟩ := embedExpr_ok W hW _ _ _ _ he
  exact ⟨v, d, hv, h1, h2, h3⟩

/-- C36, part 3: gates with the same expression get the same value. -/
theorem C36_same_expression_same_value {T : Type} (W : ParamWorld T) (hW : SetLists W) (b : PBlock)
    (hu : UniqueIds b) (params : PyDict String T) (inputs : Inputs T) (out : PyDict Uuid T)
    (h : gateParams W b params inputs = .ok out) (u u' : Uuid) (e : Expr) (hs : Slot b u e) (hs' : Slot b u' e) :
    PyDict.get? out u = PyDict.get? out u' := by
  obtain ⟨v, hv, he⟩ := gateParams_ok W hW b hu params inputs out h u e hs
  obtain ⟨v', hv', he'⟩ := gateParams_ok W hW b hu params inputs out h u' e hs'
  rw [he] at he'
  injection he' with he'
  rw [hv, hv', he']

/-- C36, part 4: the embedding succeeds if every symbol has a value, every constant is stored and the functions of the
expressions succeed. -/
theorem C36_gate_total {T : Type} (W : ParamWorld T) (hW : SetLists W) (b : PBlock) (hu : UniqueIds b)
    (params : PyDict String T) (inputs : Inputs T)
    (hsym : ∀ u e, Slot b u e → e.isNumber = false → ∀ x ∈ e.freeSymbols, ∃ v, Assigned W params inputs.merged x v)
    (hfn : ∀ u e d, Slot b u e → e.isNumber = false →
      (∀ x ∈ e.freeSymbols, ∃ w, PyDict.get? d x = some w ∧ Assigned W params inputs.merged x w) →
      (∀ x w, PyDict.get? d x = some w → Assigned W params inputs.merged x w) → ∃ v, W.apply e d = .ok v)
    (hconst : ∀ u e, Slot b u e → e.isNumber = true → (PyDict.get? params (stringify W e)).isSome) :
    ∃ out, gateParams W b params inputs = .ok out := by
  obtain ⟨D, hD, hwf, hmem⟩ := C36_all_parameters_collected b hu
  have hslot : ∀ e, e ∈ W.uniq (PyDict.values D) → ∃ u, Slot b u e := by
    intro e he
    rw [hW.mem] at he
    obtain ⟨⟨u, e'⟩, hm, rfl⟩ := List.mem_map.1 he
    exact ⟨u, (hmem u e').1 (PyDict.get?_eq_some_of_mem hwf hm)⟩
  have hA : ∃ a, ((W.uniq (PyDict.values D)).filter (fun e => !e.isNumber)).mapM
      (fun e => do return (EKey.expr e, ← embedExpr W params inputs.merged e)) = .ok a := by
    refine mapM_ok_of_forall fun e he => ?_
    rw [List.mem_filter] at he
    obtain ⟨u, hs⟩ := hslot e he.1
    have hn : e.isNumber = false := by simpa using he.2
    obtain ⟨vals, hvals⟩ : ∃ vals, (W.uniqS e.freeSymbols).mapM
        (fun x => do return (x, ← symbolValue W params inputs.merged x)) = .ok vals := by
      refine mapM_ok_of_forall fun x hx => ?_
      obtain ⟨v, hv⟩ := hsym u e hs hn x ((hW.memS _ _).1 hx)
      exact ⟨(x, v), by rw [(symbolValue_ok _ _ _ _ _).2 hv]; rfl⟩
    have hE : embedExpr W params inputs.merged e = W.apply e (PyDict.ofItems vals) := by
      unfold embedExpr; rw [hvals]; rfl
    obtain ⟨m1, m2⟩ := mapM_ok_mem hvals
    have hitem : ∀ x w, (x, w) ∈ vals → Assigned W params inputs.merged x w := by
      intro x w hm
      obtain ⟨y, _, hf⟩ := m2 _ hm
      obtain ⟨z, hz, hf⟩ := bind_ok hf
      have := pure_ok hf
      simp only [Prod.mk.injEq] at this
      obtain ⟨rfl, rfl⟩ := this
      exact (symbolValue_ok W params inputs.merged y z).1 hz
    obtain ⟨v, hv⟩ := hfn u e (PyDict.ofItems vals) hs hn
      (by
        intro x hx
        obtain ⟨⟨y, w⟩, hm, hf⟩ := m1 x ((hW.memS _ _).2 hx)
        obtain ⟨z, hz, hf⟩ := bind_ok hf
        have := pure_ok hf
        simp only [Prod.mk.injEq] at this
        obtain ⟨rfl, rfl⟩ := this
        refine ⟨z, PyDict.get?_ofItems_of_consistent vals _ _ hm ?_, hitem _ _ hm⟩
        intro w' hw'
        have h1 := (symbolValue_ok W params inputs.merged x w').2 (hitem _ _ hw')
        rw [hz] at h1
        injection h1 with h1
        exact h1.symm)
      (by
        intro x w hw
        rcases PyDict.mem_of_get?_merge [] vals x w hw with h | h
        · exact hitem x w h
        · simp [PyDict.get?] at h)
    exact ⟨(.expr e, v), by rw [hE, hv]; rfl⟩
  have hC : ∃ c, ((W.uniq (PyDict.values D)).filter (fun e => e.isNumber)).mapM
      (fun e => do return (EKey.expr e, ← constantValue W params e)) = .ok c := by
    refine mapM_ok_of_forall fun e he => ?_
    rw [List.mem_filter] at he
    obtain ⟨u, hs⟩ := hslot e he.1
    obtain ⟨v, hv⟩ := Option.isSome_iff_exists.1 (hconst u e hs he.2)
    exact ⟨(.expr e, v), by simp only [constantValue, hv]; rfl⟩
  obtain ⟨a, ha⟩ := hA
  obtain ⟨c, hc⟩ := hC
  have hemb : embeddedParams W b params inputs.merged = .ok (PyDict.merge (PyDict.ofItems a) c) := by
    unfold embeddedParams expressions
    rw [hD]
    simp only [ok_bind, pure_eq_ok] at ha hc ⊢
    rw [ha, ok_bind, hc, ok_bind]
  obtain ⟨_, e2, _⟩ := embeddedParams_ok W hW b hu _ _ _ hemb
  obtain ⟨items, hi⟩ : ∃ items, D.mapM (fun ue => embeddedValue (PyDict.merge (PyDict.ofItems a) c) ue.1 ue.2) =
      .ok items := by
    refine mapM_ok_of_forall fun ue hue => ?_
    obtain ⟨v, hv, _⟩ := e2 ue.1 ue.2 ((hmem _ _).1 (PyDict.get?_eq_some_of_mem hwf hue))
    exact ⟨(ue.1, v), by rw [embeddedValue, hv]⟩
  refine ⟨PyDict.ofItems items, ?_⟩
  unfold gateParams
  rw [hemb, ok_bind, hD, ok_bind, hi]
  rfl

/-! ### Values on batches -/

namespace Spec

/-- Element `i` of a tensor with a batch dimension; tensors of length one are the same for all elements. -/
def pick {V : Type} [Inhabited V] (l : List V) (i : ℕ) : V := if l.length = 1 then l.getD 0 default else l.getD i default

/-- Exact complex arithmetic. -/
noncomputable def complexOps (fn : String → ℂ → ℂ) : NumOps ℂ where
  num := fun re im => ⟨re, im⟩
  pi := Real.pi
  add := (· + ·)
  mul := (· * ·)
  pow := (· ^ ·)
  inv := (·⁻¹)
  conj := starRingEnd ℂ
  fn := fn

/-- A tensor which can take part in a computation with batch size `n`. -/
def BatchOf {V : Type} (n : ℕ) (l : List V) : Prop := l.length = 1 ∨ l.length = n

end Spec

theorem broadcast_spec {V : Type} [Inhabited V] (f : V → V → V) (n : ℕ) (a b : List V) (ha : BatchOf n a)
    (hb : BatchOf n b) :
    ∃ c, broadcast f a b = .ok c ∧ BatchOf n c ∧ ∀ i < n, pick c i = f (pick a i) (pick b i) := by
  have one : ∀ l : List V, l.length = 1 → ∃ x, l = [x] := fun l h => List.length_eq_one_iff.1 h
  have getD_map : ∀ (g : V → V) (l : List V) (i : ℕ), i < l.length → (l.map g).getD i default = g (l.getD i default) := by
    intro g l i hi
    simp [List.getD, hi]
  by_cases h1 : a.length = 1
  · obtain ⟨x, rfl⟩ := one a h1
    refine ⟨b.map (f x), by simp [broadcast], by simpa [BatchOf] using hb, ?_⟩
    intro i hi
    unfold pick
    by_cases h2 : b.length = 1
    · obtain ⟨y, rfl⟩ := one b h2; simp
    · have : b.length = n := hb.resolve_left h2
      simp only [List.length_map, h2, if_false, List.length_singleton, if_true]
      rw [getD_map _ _ _ (by omega)]; simp
  · have han : a.length = n := ha.resolve_left h1
    by_cases h2 : b.length = 1
    · obtain ⟨y, rfl⟩ := one b h2
      refine ⟨a.map (fun x => f x y), ?_, by simp [BatchOf, han], ?_⟩
      · match a, h1 with
        | [], _ => rfl
        | _ :: _ :: _, _ => rfl
      · intro i hi
        unfold pick
        simp only [List.length_map, h1, if_false, List.length_singleton, if_true]
        rw [getD_map _ _ _ (by omega)]; simp
    · have hbn : b.length = n := hb.resolve_left h2
      refine ⟨List.zipWith f a b, ?_, by simp [BatchOf, han, hbn], ?_⟩
      · match a, b, h1, h2 with
        | [], [], _, _ => rfl
        | [], _ :: _ :: _, _, _ => simp [broadcast]; simp at han hbn; omega
        | _ :: _ :: _, [], _, _ => simp [broadcast]; simp at han hbn; omega
        | _ :: _ :: _, _ :: _ :: _, _, _ => simp only [broadcast, han, hbn, if_true]
      · intro i hi
        have hl : (List.zipWith f a b).length ≠ 1 := by rw [List.length_zipWith]; omega
        have hia : i < a.length := by omega
        have hib : i < b.length := by omega
        unfold pick
        simp only [hl, h1, h2, if_false]
        simp [List.getD, hia, hib]

theorem map_spec {V : Type} [Inhabited V] (f : V → V) (n : ℕ) (a : List V) (ha : BatchOf n a) :
    BatchOf n (a.map f) ∧ ∀ i < n, pick (a.map f) i = f (pick a i) := by
  refine ⟨by simpa [BatchOf] using ha, ?_⟩
  intro i hi
  unfold pick
  by_cases h1 : a.length = 1
  · obtain ⟨x, rfl⟩ := List.length_eq_one_iff.1 h1; simp
  · have : i < a.length := by rw [ha.resolve_left h1]; exact hi
    simp only [List.length_map, h1, if_false]
    simp [List.getD, this]

/-- Evaluation of an expression on tensors is elementwise evaluation. -/
theorem evalBatch_spec (fn : String → ℂ → ℂ) (n : ℕ) (d : PyDict String (List ℂ)) (val : String → List ℂ)
    (e : Expr) (hd : ∀ x ∈ e.freeSymbols, PyDict.get? d x = some (val x) ∧ BatchOf n (val x)) :
    ∃ v, evalBatch (complexOps fn) d e = .ok v ∧ BatchOf n v ∧
      ∀ i < n, pick v i = eval ⟨fun x => pick (val x) i, fn⟩ e := by
  induction e with
  | num re im => exact ⟨_, rfl, .inl rfl, fun i _ => by simp [pick, complexOps, eval]⟩
  | pi => exact ⟨_, rfl, .inl rfl, fun i _ => by simp [pick, complexOps, eval]⟩
  | var x =>
    obtain ⟨h1, h2⟩ := hd x (by simp [Expr.freeSymbols])
    exact ⟨val x, by simp only [evalBatch, h1], h2, fun i _ => by simp [eval]⟩
  | add a b iha ihb =>
    obtain ⟨va, a1, a2, a3⟩ := iha fun x hx => hd x (by simp [Expr.freeSymbols, hx])
    obtain ⟨vb, b1, b2, b3⟩ := ihb fun x hx => hd x (by simp [Expr.freeSymbols, hx])
    obtain ⟨vc, c1, c2, c3⟩ := broadcast_spec (complexOps fn).add n va vb a2 b2
    refine ⟨vc, by simp only [evalBatch, a1, b1, ok_bind, c1], c2, fun i hi => ?_⟩
    rw [c3 i hi, a3 i hi, b3 i hi]; rfl
  | mul a b iha ihb =>
    obtain ⟨va, a1, a2, a3⟩ := iha fun x hx => hd x (by simp [Expr.freeSymbols, hx])
    obtain ⟨vb, b1, b2, b3⟩ := ihb fun x hx => hd x (by simp [Expr.freeSymbols, hx])
    obtain ⟨vc, c1, c2, c3⟩ := broadcast_spec (complexOps fn).mul n va vb a2 b2
    refine ⟨vc, by simp only [evalBatch, a1, b1, ok_bind, c1], c2, fun i hi => ?_⟩
    rw [c3 i hi, a3 i hi, b3 i hi]; rfl
  | pow a k iha =>
    obtain ⟨va, a1, a2, a3⟩ := iha fun x hx => hd x (by simpa [Expr.freeSymbols] using hx)
    obtain ⟨c2, c3⟩ := map_spec (fun v => (complexOps fn).pow v k) n va a2
    exact ⟨_, by simp only [evalBatch, a1, ok_bind]; rfl, c2, fun i hi => by rw [c3 i hi, a3 i hi]; rfl⟩
  | inv a iha =>
    obtain ⟨va, a1, a2, a3⟩ := iha fun x hx => hd x (by simpa [Expr.freeSymbols] using hx)
    obtain ⟨c2, c3⟩ := map_spec (complexOps fn).inv n va a2
    exact ⟨_, by simp only [evalBatch, a1, ok_bind]; rfl, c2, fun i hi => by rw [c3 i hi, a3 i hi]; rfl⟩
  | conj a iha =>
    obtain ⟨va, a1, a2, a3⟩ := iha fun x hx => hd x (by simpa [Expr.freeSymbols] using hx)
    obtain ⟨c2, c3⟩ := map_spec (complexOps fn).conj n va a2
    exact ⟨_, by simp only [evalBatch, a1, ok_bind]; rfl, c2, fun i hi => by rw [c3 i hi, a3 i hi]; rfl⟩
  | fn f a iha =>
    obtain ⟨va, a1, a2, a3⟩ := iha fun x hx => hd x (by simpa [Expr.freeSymbols] using hx)
    obtain ⟨c2, c3⟩ := map_spec ((complexOps fn).fn f) n va a2
    exact ⟨_, by simp only [evalBatch, a1, ok_bind]; rfl, c2, fun i hi => by rw [c3 i hi, a3 i hi]; rfl⟩

/-- C36, part 5: with exact arithmetic on batches of size `n`, each gate parameter with a non-constant expression gets,
for every batch element `i`, the value of its expression under the values of the parameters for that element. -/
theorem C36_gate_value_batch (W : ParamWorld (List ℂ)) (hW : SetLists W) (fn : String → ℂ → ℂ)
    (happ : ∀ e d, W.apply e d = evalBatch (complexOps fn) d e) (b : PBlock) (hu : UniqueIds b)
    (params : PyDict String (List ℂ)) (inputs : Inputs (List ℂ)) (n : ℕ) (val : String → List ℂ)
    (hval : ∀ u e, Slot b u e → ∀ x ∈ e.freeSymbols, Assigned W params inputs.merged x (val x) ∧ BatchOf n (val x))
    (out : PyDict Uuid (List ℂ)) (h : gateParams W b params inputs = .ok out) (u : Uuid) (e : Expr)
    (hs : Slot b u e) (hn : e.isNumber = false) :
    ∃ v, PyDict.get? out u = some v ∧ BatchOf n v ∧ ∀ i < n, pick v i = eval ⟨fun x => pick (val x) i, fn⟩ e := by
  obtain ⟨v, d, h1, h2, h3, _⟩ := C36_gate_value W hW b hu params inputs out h u e hs hn
  rw [happ] at h2
  obtain ⟨v', e1, e2, e3⟩ := evalBatch_spec fn n d val e (by
    intro x hx
    obtain ⟨w, hw, ha⟩ := h3 x hx
    obtain ⟨ha', hb⟩ := hval u e hs x hx
    have e1 := (symbolValue_ok W params inputs.merged x w).2 ha
    rw [(symbolValue_ok W params inputs.merged x _).2 ha'] at e1
    injection e1 with e1
    exact ⟨by rw [hw, e1], hb⟩)
  rw [e1] at h2
  injection h2 with h2
  subst h2
  exact ⟨v', h1, e2, e3⟩

/-! ### Constants -/

/-- C36, part 6: if the constants are stored as `embedding` sets them up and no two constants of the block with different
values share a name (which is not guaranteed, see C38), each gate with a constant parameter gets the number. -/
theorem C36_constants_partial {T : Type} (W : ParamWorld T) (hW : SetLists W) (b : PBlock) (hu : UniqueIds b)
    (p₀ params : PyDict String T) (inputs : Inputs T) (out : PyDict Uuid T) (hp : initialParams W b = .ok p₀)
    (hkeep : ∀ u e, Slot b u e → e.isNumber = true →
      PyDict.get? params (stringify W e) = PyDict.get? p₀ (stringify W e))
    (halias : ∀ u e u' e', Slot b u e → Slot b u' e' → e.isNumber = true → e'.isNumber = true →
      stringify W e = stringify W e' → W.numeric e = W.numeric e')
    (h : gateParams W b params inputs = .ok out) (u : Uuid) (e : Expr) (hs : Slot b u e) (hn : e.isNumber = true) :
    PyDict.get? out u = some (W.tensor (W.numeric e)) := by
  obtain ⟨D, hD, hwf, hmem⟩ := C36_all_parameters_collected b hu
  have hslot : ∀ e, e ∈ W.uniq (PyDict.values D) ↔ ∃ u, Slot b u e := by
    intro e
    rw [hW.mem]
    constructor
    · intro he
      obtain ⟨⟨u, e'⟩, hm, rfl⟩ := List.mem_map.1 he
      exact ⟨u, (hmem u e').1 (PyDict.get?_eq_some_of_mem hwf hm)⟩
    · rintro ⟨u, hs⟩
      exact List.mem_map.2 ⟨(u, e), PyDict.mem_of_get? ((hmem u e).2 hs), rfl⟩
  have hg : PyDict.get? p₀ (stringify W e) = some (W.tensor (W.numeric e)) := by
    unfold initialParams expressions parameterSymbols at hp
    rw [hD] at hp
    simp only [ok_bind, pure_eq_ok] at hp
    injection hp with hp
    subst hp
    refine PyDict.get?_merge_of_consistent _ _ _ _
      (List.mem_map.2 ⟨e, List.mem_filter.2 ⟨(hslot e).2 ⟨u, hs⟩, hn⟩, rfl⟩) ?_
    intro w hw
    obtain ⟨e', he', heq⟩ := List.mem_map.1 hw
    simp only [Prod.mk.injEq] at heq
    rw [List.mem_filter] at he'
    obtain ⟨u', hs'⟩ := (hslot e').1 he'.1
    rw [← heq.2, halias u' e' u e hs' hs he'.2 hn heq.1]
  obtain ⟨v, hv, he⟩ := gateParams_ok W hW b hu params inputs out h u e hs
  rw [Entry, if_pos hn, constantValue, hkeep u e hs hn, hg] at he
  injection he with he
  rw [hv, he]

theorem demoWorld_setLists : SetLists demoWorld :=
  ⟨fun _ _ => List.mem_dedup, List.nodup_dedup, fun _ _ => List.mem_dedup, List.nodup_dedup⟩

example : initialParams demoWorld demoPBlock = .ok [("w", .float 1 1), ("fix_1152921504606846976", .float 1 1)] := by
  decide +kernel

example : gateParams demoWorld demoPBlock [("w", .float 1 1), ("fix_1152921504606846976", .float 1 1), ("x", .int 9)]
    (.separate [("circuit", [("x", .int 7)]), ("observables", [])]) =
    .ok [(1, .int 7), (2, .float 1 1), (3, .float 1 1), (4, .int 7), (5, .int 1), (6, .int 7)] := by
  decide +kernel

/-- C36 is false for circuits which contain the constants -1 and -2: `RX(0, -1)` followed by `RX(1, -2)` runs with the
same angle twice. -/
theorem C36_counterexample_alias :
    ∃ (b : PBlock) (p₀ : PyDict String Num) (out : PyDict Uuid Num), UniqueIds b ∧ initialParams demoWorld b = .ok p₀ ∧
      gateParams demoWorld b p₀ (.flat []) = .ok out ∧ Slot b 1 (.num (-1) 0) ∧ Slot b 2 (.num (-2) 0) ∧
      PyDict.get? out 1 = some (.int (-2)) ∧ PyDict.get? out 2 = some (.int (-2)) := by
  refine ⟨.comp [.parametric [(1, .num (-1) 0)], .parametric [(2, .num (-2) 0)]], [("fix_-2", .int (-2))],
    [(1, .int (-2)), (2, .int (-2))], ?_, by decide +kernel, by decide +kernel,
    .comp (b := .parametric [(1, .num (-1) 0)]) (by simp) (.parametric (by simp)),
    .comp (b := .parametric [(2, .num (-2) 0)]) (by simp) (.parametric (by simp)), by decide, by decide⟩
  intro u e e' h h'
  simp only [slot_comp, List.mem_cons, List.not_mem_nil, or_false, exists_eq_or_imp, exists_eq_left,
    slot_parametric, Prod.mk.injEq] at h h'
  rcases h with ⟨rfl, rfl⟩ | ⟨rfl, rfl⟩ <;> simp at h' <;> simp [h']

/-! ### Expression level -/

theorem get?_addMissing {T : Type} (emb : PyDict EKey T) (params : PyDict String T) :
    (∀ e, PyDict.get? (addMissing emb params) (.expr e) = PyDict.get? emb (.expr e)) ∧
    (∀ s, PyDict.get? (addMissing emb params) (.str s) = (PyDict.get? emb (.str s)).or (PyDict.get? params s)) ∧
    (PyDict.WF emb → PyDict.WF (addMissing emb params)) := by
  unfold addMissing
  induction params generalizing emb with
  | nil => exact ⟨fun _ => rfl, fun s => by simp [PyDict.get?], id⟩
  | cons kv params ih =>
    obtain ⟨k, v⟩ := kv
    rw [List.foldl_cons]
    by_cases hk : (PyDict.get? emb (.str k)).isSome = true
    · rw [if_pos hk]
      obtain ⟨i1, i2, i3⟩ := ih emb
      refine ⟨i1, fun s => ?_, i3⟩
      rw [i2 s]
      by_cases hks : k = s
      · subst hks
        obtain ⟨w, hw⟩ := Option.isSome_iff_exists.1 hk
        simp [hw]
      · simp [PyDict.get?, hks]
    · rw [if_neg hk]
      obtain ⟨i1, i2, i3⟩ := ih (PyDict.set emb (.str k) v)
      refine ⟨fun e => by rw [i1 e, PyDict.get?_set]; simp, fun s => ?_, fun h => i3 (PyDict.WF_set _ _ _ h)⟩
      rw [i2 s, PyDict.get?_set]
      by_cases hks : k = s
      · subst hks
        have : PyDict.get? emb (.str k) = none := by simpa using hk
        simp [this, PyDict.get?]
      · simp [PyDict.get?, hks]

theorem get?_map_str {T : Type} (d : PyDict String T) :
    (∀ s, PyDict.get? (d.map (fun kv => (EKey.str kv.1, kv.2))) (.str s) = PyDict.get? d s) ∧
    (∀ e, PyDict.get? (d.map (fun kv => (EKey.str kv.1, kv.2))) (.expr e) = none) ∧
    (PyDict.WF d → PyDict.WF (d.map (fun kv => (EKey.str kv.1, kv.2)))) := by
  refine ⟨fun s => ?_, fun e => ?_, fun h => ?_⟩
  · induction d with
    | nil => rfl
    | cons kv d ih => simp only [List.map_cons, PyDict.get?, EKey.str.injEq]; rw [ih]
  · induction d with
    | nil => rfl
    | cons kv d ih => simp only [List.map_cons, PyDict.get?]; simpa using ih
  · unfold PyDict.WF at h ⊢
    rw [List.map_map]
    have : (d.map (Prod.fst ∘ fun kv : String × T => (EKey.str kv.1, kv.2))) = (d.map Prod.fst).map EKey.str := by
      rw [List.map_map]; rfl
    rw [this]
    exact h.map fun a b hab => by injection hab

/-- The entries of the dictionary before its keys are turned into names. -/
theorem exprParams_entries {T : Type} (W : ParamWorld T) (hW : SetLists W) (b : PBlock) (hu : UniqueIds b)
    (params : PyDict String T) (inputs : Inputs T) (hin : PyDict.WF inputs.merged) (out : PyDict String T)
    (h : exprParams W b params inputs = .ok out) :
    ∃ E : PyDict EKey T, out = PyDict.ofItems (E.map (fun kv => (kv.1.name W, kv.2))) ∧
      (∀ u e, Slot b u e → ∃ v, (EKey.expr e, v) ∈ E ∧ Entry W params inputs.merged e = .ok v) ∧
      (∀ s v, (PyDict.get? inputs.merged s).or (PyDict.get? params s) = some v → (EKey.str s, v) ∈ E) ∧
      ∀ k v, (k, v) ∈ E → (∃ u e, Slot b u e ∧ k = .expr e ∧ Entry W params inputs.merged e = .ok v) ∨
        ∃ s, k = .str s ∧ (PyDict.get? inputs.merged s).or (PyDict.get? params s) = some v := by
  unfold exprParams at h
  obtain ⟨emb, hemb, h⟩ := bind_ok h
  have h := pure_ok h
  obtain ⟨e1, e2, e3⟩ := embeddedParams_ok W hW b hu _ _ _ hemb
  obtain ⟨m1, m2, m3⟩ := get?_map_str inputs.merged
  set I := inputs.merged.map (fun kv => (EKey.str kv.1, kv.2)) with hI
  obtain ⟨a1, a2, a3⟩ := get?_addMissing (PyDict.merge emb I) params
  have hwf : PyDict.WF (addMissing (PyDict.merge emb I) params) := a3 (PyDict.WF_merge _ _ e1)
  have hnostr : ∀ s, PyDict.get? emb (.str s) = none := by
    intro s
    cases hg : PyDict.get? emb (.str s) with
    | none => rfl
    | some v =>
      obtain ⟨_, _, _, hk, _⟩ := e3 _ _ (PyDict.mem_of_get? hg)
      cases hk
  have gexpr : ∀ e, PyDict.get? (addMissing (PyDict.merge emb I) params) (.expr e) = PyDict.get? emb (.expr e) := by
    intro e
    rw [a1, PyDict.get?_merge _ _ (m3 hin), m2]; rfl
  have gstr : ∀ s, PyDict.get? (addMissing (PyDict.merge emb I) params) (.str s) =
      (PyDict.get? inputs.merged s).or (PyDict.get? params s) := by
    intro s
    rw [a2, PyDict.get?_merge _ _ (m3 hin), m1, hnostr, Option.or_none]
  refine ⟨_, h.symm, ?_, ?_, ?_⟩
  · intro u e hs
    obtain ⟨v, hv, hE⟩ := e2 u e hs
    exact ⟨v, PyDict.mem_of_get? (by rw [gexpr, hv]), hE⟩
  · intro s v hv
    exact PyDict.mem_of_get? (by rw [gstr, hv])
  · intro k v hm
    have hg := PyDict.get?_eq_some_of_mem hwf hm
    cases k with
    | expr e =>
      rw [gexpr] at hg
      obtain ⟨u, e', hs, hk, hE⟩ := e3 _ _ (PyDict.mem_of_get? hg)
      exact .inl ⟨u, e', hs, hk, hE⟩
    | str s =>
      rw [gstr] at hg
      exact .inr ⟨s, rfl, hg⟩

/-- The entry of a lone parameter is its value. -/
theorem entry_var {T : Type} (W : ParamWorld T) (hW : SetLists W)
    (hvar : ∀ x d v, W.apply (.var x) d = .ok v → PyDict.get? d x = some v) (params inputs : PyDict String T)
    (x : String) (v w : T) (h : Entry W params inputs (.var x) = .ok v)
    (hw : (PyDict.get? inputs x).or (PyDict.get? params x) = some w) : v = w := by
  rw [Entry, if_neg (by simp [Expr.isNumber])] at h
  obtain ⟨d, h1, _, h3⟩ := embedExpr_ok W hW _ _ _ _ h
  have h4 := h3 x v (hvar x d v h1)
  unfold Assigned at h4
  cases hi : PyDict.get? inputs x with
  | some z => simp [hi] at h4 hw; rw [← h4, hw]
  | none =>
    cases hp : PyDict.get? params x with
    | some z => simp [hi, hp] at h4 hw; rw [← h4, hw]
    | none => simp [hi, hp] at hw

/-- C36, part 7 (expression level): the value stored under the name of an expression is the value which the gates with
this expression get at gate level, provided that names do not clash: different expressions of the block have different
names, and no value is supplied or stored under the name of an expression, except for lone parameters and stored
constants. -/
theorem C36_expression_level_partial {T : Type} (W : ParamWorld T) (hW : SetLists W) (b : PBlock) (hu : UniqueIds b)
    (hvar : ∀ x d v, W.apply (.var x) d = .ok v → PyDict.get? d x = some v)
    (params : PyDict String T) (inputs : Inputs T) (hin : PyDict.WF inputs.merged) (out : PyDict String T)
    (hnames : ∀ u e u' e', Slot b u e → Slot b u' e' → stringify W e = stringify W e' → e = e')
    (hclashI : ∀ u e, Slot b u e → (PyDict.get? inputs.merged (stringify W e)).isSome → e = .var (stringify W e))
    (hclashP : ∀ u e, Slot b u e → (PyDict.get? params (stringify W e)).isSome →
      e.isNumber = true ∨ e = .var (stringify W e))
    (h : exprParams W b params inputs = .ok out) (g : PyDict Uuid T) (hg : gateParams W b params inputs = .ok g)
    (u : Uuid) (e : Expr) (hs : Slot b u e) :
    PyDict.get? out (stringify W e) = PyDict.get? g u ∧ (PyDict.get? g u).isSome := by
  obtain ⟨v, hv, hE⟩ := gateParams_ok W hW b hu params inputs g hg u e hs
  obtain ⟨E, rfl, E1, _, E3⟩ := exprParams_entries W hW b hu params inputs hin out h
  refine ⟨?_, by simp [hv]⟩
  rw [hv]
  obtain ⟨v', hm, hE'⟩ := E1 u e hs
  rw [hE] at hE'
  injection hE' with hE'
  subst hE'
  refine PyDict.get?_ofItems_of_consistent _ _ _ (List.mem_map.2 ⟨_, hm, rfl⟩) ?_
  intro w hw
  obtain ⟨⟨k, w'⟩, hkw, heq⟩ := List.mem_map.1 hw
  simp only [Prod.mk.injEq] at heq
  obtain ⟨heq, rfl⟩ := heq
  rcases E3 k w' hkw with ⟨u', e', hs', rfl, hEe⟩ | ⟨s, rfl, hsv⟩
  · have := hnames u' e' u e hs' hs heq
    subst this
    rw [hE] at hEe
    injection hEe with hEe
    exact hEe.symm
  · simp only [EKey.name] at heq
    subst heq
    by_cases hvx : e = .var (stringify W e)
    · rw [hvx] at hE
      exact (entry_var W hW hvar _ _ _ _ _ hE hsv).symm
    · have hnone : PyDict.get? inputs.merged (stringify W e) = none := by
        cases hc : PyDict.get? inputs.merged (stringify W e) with
        | none => rfl
        | some z => exact absurd (hclashI u e hs (by simp [hc])) hvx
      rw [hnone, Option.none_or] at hsv
      have hnum := (hclashP u e hs (by simp [hsv])).resolve_right hvx
      rw [Entry, if_pos hnum, constantValue, hsv] at hE
      injection hE

/-- C36, part 8 (expression level): a value supplied in `inputs`, and failing that a value stored in `params`, is passed
on under its own name, provided that the name is not the name of some other expression of the block. -/
theorem C36_inputs_win_partial {T : Type} (W : ParamWorld T) (hW : SetLists W) (b : PBlock) (hu : UniqueIds b)
    (hvar : ∀ x d v, W.apply (.var x) d = .ok v → PyDict.get? d x = some v)
    (params : PyDict String T) (inputs : Inputs T) (hin : PyDict.WF inputs.merged) (out : PyDict String T)
    (h : exprParams W b params inputs = .ok out) (x : String)
    (hx : ∀ u e, Slot b u e → stringify W e = x → e = .var x) (v : T)
    (hv : (PyDict.get? inputs.merged x).or (PyDict.get? params x) = some v) :
    PyDict.get? out x = some v := by
  obtain ⟨E, rfl, _, E2, E3⟩ := exprParams_entries W hW b hu params inputs hin out h
  refine PyDict.get?_ofItems_of_consistent _ _ _ (List.mem_map.2 ⟨_, E2 x v hv, rfl⟩) ?_
  intro w hw
  obtain ⟨⟨k, w'⟩, hkw, heq⟩ := List.mem_map.1 hw
  simp only [Prod.mk.injEq] at heq
  obtain ⟨heq, rfl⟩ := heq
  rcases E3 k w' hkw with ⟨u', e', hs', rfl, hEe⟩ | ⟨s, rfl, hsv⟩
  · have := hx u' e' hs' heq
    subst this
    exact entry_var W hW hvar _ _ _ _ _ hEe hv
  · simp only [EKey.name] at heq
    subst heq
    rw [hv] at hsv
    injection hsv with hsv
    exact hsv.symm

example : exprParams demoWorld demoPBlock [("w", .float 1 1), ("fix_1152921504606846976", .float 1 1), ("x", .int 9)]
    (.flat [("x", .int 7), ("y", .int 8)]) =
    .ok [("w", .float 1 1), ("t", .int 1), ("x", .int 7), ("fix_1152921504606846976", .float 1 1), ("y", .int 8)] := by
  decide +kernel

/-- Printing of lone parameters: dots are replaced by underscores. -/
def dotWorld : ParamWorld Num :=
  { demoWorld with str := fun e => match e with
      | .var x => String.ofList (x.toList.map fun c => if c = '.' then '_' else c)
      | _ => "" }

/-- Dots in names are replaced by underscores, so that the parameters `a.b` and `a_b` get the same name at expression
level and both gates run with the same value, although they are given different ones. -/
theorem C36_counterexample_names :
    ∃ (b : PBlock) (out : PyDict String Num) (g : PyDict Uuid Num),
      Slot b 1 (.var "a.b") ∧ Slot b 2 (.var "a_b") ∧
      exprParams dotWorld b [] (.flat [("a.b", .int 1), ("a_b", .int 2)]) = .ok out ∧
      gateParams dotWorld b [] (.flat [("a.b", .int 1), ("a_b", .int 2)]) = .ok g ∧
      PyDict.get? g 1 = some (.int 1) ∧ PyDict.get? out (stringify dotWorld (.var "a.b")) = some (.int 2) := by
  refine ⟨.comp [.parametric [(1, .var "a.b")], .parametric [(2, .var "a_b")]],
    [("a_b", .int 2), ("a.b", .int 1)], [(1, .int 1), (2, .int 2)],
    .comp (b := .parametric [(1, .var "a.b")]) (by simp) (.parametric (by simp)),
    .comp (b := .parametric [(2, .var "a_b")]) (by simp) (.parametric (by simp)),
    by decide +kernel, by decide +kernel, by decide +kernel, by decide +kernel⟩

/-! ## C37: splitting of batches -/

namespace Spec

/-- The values of a parameter for batch element `i`. -/
def batchValues {V : Type} (i : ℕ) : PVal V → List V
  | .vec l => (if l.length = 1 then l[0]? else l[i]?).toList
  | .mat rows => (if rows.length = 1 then rows[0]? else rows[i]?).getD []
  | .scalar v => [v]
  | .other => []

/-- The values in an entry of a split dictionary. -/
def elemValues {V : Type} : PElem V → List V
  | .scalar v => [v]
  | .row l => l

/-- The length of the batch dimension. -/
def batchLength {V : Type} : PVal V → ℕ
  | .vec l => l.length
  | .mat rows => rows.length
  | _ => 1

/-- Tensors with a batch dimension. -/
def Batched {V : Type} : PVal V → Prop
  | .vec _ => True
  | .mat _ => True
  | _ => False

end Spec

theorem size0_batched {V : Type} (p : PVal V) (h : Batched p) : p.size0 = .ok (batchLength p) := by
  cases p with
  | vec l => rfl
  | mat rows => rfl
  | scalar v => exact h.elim
  | other => exact h.elim

theorem foldl_max_ge (s : ℕ) (ss : List ℕ) : s ≤ ss.foldl max s ∧ (∀ x ∈ ss, x ≤ ss.foldl max s) ∧
    (ss.foldl max s = s ∨ ss.foldl max s ∈ ss) := by
  induction ss generalizing s with
  | nil => simp
  | cons a ss ih =>
    obtain ⟨h1, h2, h3⟩ := ih (max s a)
    rw [List.foldl_cons]
    refine ⟨by omega, ?_, ?_⟩
    · intro x hx
      rcases List.mem_cons.1 hx with rfl | hx
      · omega
      · exact h2 x hx
    · rcases h3 with h3 | h3
      · rcases le_total s a with h | h
        · right; rw [h3, max_eq_right h]; simp
        · left; rw [h3, max_eq_left h]
      · right; simp [h3]

theorem maxSize_unique (l : List ℕ) (m : ℕ) (hm : m ∈ l) (hle : ∀ x ∈ l, x ≤ m) : maxSize l = .ok m := by
  cases l with
  | nil => simp at hm
  | cons s ss =>
    obtain ⟨h1, h2, h3⟩ := foldl_max_ge s ss
    simp only [maxSize]
    congr 1
    have : m ≤ ss.foldl max s := by
      rcases List.mem_cons.1 hm with rfl | hm
      · exact h1
      · exact h2 m hm
    have : ss.foldl max s ≤ m := by
      rcases h3 with h3 | h3
      · rw [h3]; exact hle s (by simp)
      · exact hle _ (by simp [h3])
    omega

/-- Item `i` of a batched tensor after the broadcast. -/
def broadcastItem {V : Type} (m i : ℕ) : PVal V → PElem V
  | .vec l => if l.length = m then (match l[i]? with | some v => .scalar v | none => .row []) else .row l
  | .mat rows => .row ((if rows.length = m then rows[i]? else rows[0]?).getD [])
  | _ => .row []

theorem item_spec {V : Type} (p : PVal V) (m i : ℕ) (hi : i < m) (hp : Batched p)
    (hl : batchLength p = 1 ∨ batchLength p = m) :
    (if batchLength p = m then p else p.repeat1 m).item i = .ok (broadcastItem m i p) ∧
      elemValues (broadcastItem m i p) = batchValues i p := by
  cases p with
  | vec l =>
    simp only [batchLength] at hl ⊢
    by_cases h : l.length = m
    · have hil : i < l.length := by omega
      simp only [h, if_true, PVal.item, broadcastItem, List.getElem?_eq_getElem hil]
      refine ⟨trivial, ?_⟩
      simp only [elemValues, batchValues]
      by_cases h1 : l.length = 1
      · obtain ⟨x, rfl⟩ := List.length_eq_one_iff.1 h1
        have : i = 0 := by simp at hil; omega
        subst this; rfl
      · simp [h1, hil]
    · have h1 := hl.resolve_right h
      obtain ⟨x, rfl⟩ := List.length_eq_one_iff.1 h1
      simp only [List.length_singleton] at h
      simp only [List.length_singleton, h, if_false, PVal.repeat1, PVal.item, broadcastItem]
      simp [List.getElem?_replicate, hi, elemValues, batchValues]
  | mat rows =>
    simp only [batchLength] at hl ⊢
    by_cases h : rows.length = m
    · have hil : i < rows.length := by omega
      simp only [h, if_true, PVal.item, broadcastItem, List.getElem?_eq_getElem hil]
      refine ⟨rfl, ?_⟩
      simp only [elemValues, batchValues]
      by_cases h1 : rows.length = 1
      · obtain ⟨x, rfl⟩ := List.length_eq_one_iff.1 h1
        have : i = 0 := by simp at hil; omega
        subst this; rfl
      · simp [h1, hil]
    · have h1 := hl.resolve_right h
      obtain ⟨x, rfl⟩ := List.length_eq_one_iff.1 h1
      simp only [List.length_singleton] at h
      have hf : (List.replicate m [x]).flatten = List.replicate m x := by simp
      simp only [List.length_singleton, h, if_false, PVal.repeat1, PVal.item, broadcastItem, hf]
      simp [List.getElem?_replicate, hi, elemValues, batchValues]
  | scalar v => exact hp.elim
  | other => exact hp.elim

/-- C37: for a dictionary of batched tensors (other entries are dropped) whose lengths are one or the batch size `m`, the
result has one dictionary per batch element. Every dictionary has the keys of the tensors in their order, the entry of
element `i` holds the values of element `i`, and entries of length one are repeated. -/
theorem C37_split {V : Type} (d : PyDict String (PVal V)) (m : ℕ)
    (hb : ∀ kv ∈ d, kv.2.isTensor = true → Batched kv.2 ∧ (batchLength kv.2 = 1 ∨ batchLength kv.2 = m))
    (hm : ∃ kv ∈ d, kv.2.isTensor = true ∧ batchLength kv.2 = m) (hpos : 1 ≤ m) :
    ∃ L, toListOfDicts d = .ok L ∧ L.length = m ∧ inferBatchsize d = m ∧
      ∀ i < m, ∃ D, L[i]? = some D ∧
        List.Forall₂ (fun kv (ke : String × PElem V) => ke.1 = kv.1 ∧ elemValues ke.2 = batchValues i kv.2)
          (d.filter (fun kv => kv.2.isTensor)) D := by
  obtain ⟨kv₀, hkv₀, ht₀, hl₀⟩ := hm
  set ts := d.filter (fun kv => kv.2.isTensor) with hts
  have hbt : ∀ kv ∈ ts, Batched kv.2 ∧ (batchLength kv.2 = 1 ∨ batchLength kv.2 = m) := by
    intro kv hkv
    rw [hts, List.mem_filter] at hkv
    exact hb kv hkv.1 hkv.2
  have h0 : kv₀ ∈ ts := List.mem_filter.2 ⟨hkv₀, ht₀⟩
  have hsizes : ts.mapM (fun kv => kv.2.size0) = .ok (ts.map fun kv => batchLength kv.2) :=
    mapM_ok_map fun kv hkv => size0_batched _ (hbt kv hkv).1
  have hmax : maxSize (ts.map fun kv => batchLength kv.2) = .ok m := by
    refine maxSize_unique _ _ (List.mem_map.2 ⟨kv₀, h0, hl₀⟩) ?_
    intro x hx
    obtain ⟨kv, hkv, rfl⟩ := List.mem_map.1 hx
    rcases (hbt kv hkv).2 with h | h <;> omega
  have hbat : ts.mapM (fun kv => do
      let s ← kv.2.size0
      return (kv.1, if s = m then kv.2 else kv.2.repeat1 m)) =
      .ok (ts.map fun kv => (kv.1, if batchLength kv.2 = m then kv.2 else kv.2.repeat1 m)) :=
    mapM_ok_map fun kv hkv => by rw [size0_batched _ (hbt kv hkv).1]; rfl
  have hrow : ∀ i < m, (ts.map fun kv => (kv.1, if batchLength kv.2 = m then kv.2 else kv.2.repeat1 m)).mapM
      (fun kv => do return (kv.1, ← kv.2.item i)) = .ok (ts.map fun kv => (kv.1, broadcastItem m i kv.2)) := by
    intro i hi
    have : ts.map (fun kv => (kv.1, broadcastItem m i kv.2)) =
        (ts.map fun kv => (kv.1, if batchLength kv.2 = m then kv.2 else kv.2.repeat1 m)).map
          (fun kv => (kv.1, match kv.2.item i with | .ok e => e | .error _ => .row [])) := by
      rw [List.map_map]
      refine List.map_congr_left fun kv hkv => ?_
      simp only [Function.comp]
      rw [(item_spec kv.2 m i hi (hbt kv hkv).1 (hbt kv hkv).2).1]
    rw [this]
    refine mapM_ok_map fun kv hkv => ?_
    obtain ⟨kv', hkv', rfl⟩ := List.mem_map.1 hkv
    simp only
    rw [(item_spec kv'.2 m i hi (hbt kv' hkv').1 (hbt kv' hkv').2).1]
    rfl
  have hL : toListOfDicts d = .ok ((List.range m).map fun i => ts.map fun kv => (kv.1, broadcastItem m i kv.2)) := by
    cases hd : d with
    | nil => rw [hd] at hkv₀; simp at hkv₀
    | cons a d' =>
      unfold toListOfDicts
      simp only
      rw [← hd, ← hts, hsizes, ok_bind, hmax, ok_bind, hbat, ok_bind]
      exact mapM_ok_map fun i hi => hrow i (List.mem_range.1 hi)
  refine ⟨_, hL, by simp, ?_, ?_⟩
  · cases hd : d with
    | nil => rw [hd] at hkv₀; simp at hkv₀
    | cons a d' =>
      unfold inferBatchsize
      simp only
      rw [← hd, ← hts, hsizes]
      simp only [hmax]
  · intro i hi
    refine ⟨ts.map fun kv => (kv.1, broadcastItem m i kv.2), by simp [hi], ?_⟩
    rw [List.forall₂_map_right_iff]
    exact List.forall₂_same.2 fun kv hkv => ⟨rfl, (item_spec kv.2 m i hi (hbt kv hkv).1 (hbt kv hkv).2).2⟩

/-- C37: without parameters there is one empty dictionary. -/
theorem C37_split_empty {V : Type} : toListOfDicts ([] : PyDict String (PVal V)) = .ok [[]] := rfl

example : toListOfDicts [("a", .vec [1, 2, 3]), ("o", .other), ("b", .vec [(7 : ℕ)])] =
    .ok [[("a", .scalar 1), ("b", .row [7])], [("a", .scalar 2), ("b", .row [7])], [("a", .scalar 3), ("b", .row [7])]] := by
  decide +kernel

/-- The hypothesis on the lengths in `C37_split` is needed: lengths which do not fit are not rejected, every element
gets all values of the shorter entry. -/
theorem C37_mismatched_lengths_accepted :
    toListOfDicts [("a", .vec [1, 2, 3]), ("b", .vec [(7 : ℕ), 8])] =
      .ok [[("a", .scalar 1), ("b", .row [7, 8])], [("a", .scalar 2), ("b", .row [7, 8])],
        [("a", .scalar 3), ("b", .row [7, 8])]] := by
  decide +kernel

end Qadence
