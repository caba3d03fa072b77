import Mathlib.Tactic
import Mathlib.Data.List.TakeWhile
import Verif.Model.Checkpoint

/-!
# C52: the latest checkpoint
-/

namespace Qadence

/-! ## The loop -/

theorem latestLoop_spec (device : FName) (fs : List FName) (m : ℤ) (r : Option FName) (hm : -1 ≤ m) :
    let s := latestLoop device fs (m, r)
    m ≤ s.1 ∧ (∀ f ∈ fs, ∀ i, fileIndex device f = some i → (i : ℤ) ≤ s.1) ∧
      ((s = (m, r) ∧ ∀ f ∈ fs, ∀ i, fileIndex device f = some i → (i : ℤ) ≤ m) ∨
        ∃ f ∈ fs, ∃ i, fileIndex device f = some i ∧ s = ((i : ℤ), some f) ∧ m < i) := by
  induction fs generalizing m r with
  | nil => exact ⟨le_rfl, by simp, Or.inl ⟨rfl, by simp⟩⟩
  | cons f fs ih =>
    intro s
    cases hi : fileIndex device f with
    | none =>
      have hs : s = latestLoop device fs (m, r) := by simp only [s, latestLoop, hi]
      obtain ⟨h1, h2, h3⟩ := ih m r hm
      rw [← hs] at h1 h2 h3
      refine ⟨h1, ?_, ?_⟩
      · intro g hg i hgi
        rcases List.mem_cons.1 hg with rfl | hg
        · rw [hi] at hgi; cases hgi
        · exact h2 g hg i hgi
      · rcases h3 with ⟨h3, h4⟩ | ⟨g, hg, i, h3⟩
        · left
          refine ⟨h3, fun g hg i hgi => ?_⟩
          rcases List.mem_cons.1 hg with rfl | hg
          · rw [hi] at hgi; cases hgi
          · exact h4 g hg i hgi
        · exact Or.inr ⟨g, List.mem_cons_of_mem _ hg, i, h3⟩
    | some k =>
      by_cases hk : (k : ℤ) > m
      · have hs : s = latestLoop device fs ((k : ℤ), some f) := by simp only [s, latestLoop, hi, if_pos hk]
        obtain ⟨h1, h2, h3⟩ := ih k (some f) (by omega)
        rw [← hs] at h1 h2 h3
        refine ⟨by omega, ?_, ?_⟩
        · intro g hg i hgi
          rcases List.mem_cons.1 hg with rfl | hg
          · rw [hi] at hgi; cases hgi; exact h1
          · exact h2 g hg i hgi
        · right
          rcases h3 with ⟨h3, -⟩ | ⟨g, hg, i, h3, h4, h5⟩
          · exact ⟨f, by simp, k, hi, h3, hk⟩
          · exact ⟨g, List.mem_cons_of_mem _ hg, i, h3, h4, by omega⟩
      · have hs : s = latestLoop device fs (m, r) := by simp only [s, latestLoop, hi, if_neg hk]
        obtain ⟨h1, h2, h3⟩ := ih m r hm
        rw [← hs] at h1 h2 h3
        refine ⟨h1, ?_, ?_⟩
        · intro g hg i hgi
          rcases List.mem_cons.1 hg with rfl | hg
          · rw [hi] at hgi; cases hgi; omega
          · exact h2 g hg i hgi
        · rcases h3 with ⟨h3, h4⟩ | ⟨g, hg, i, h3⟩
          · left
            refine ⟨h3, fun g hg i hgi => ?_⟩
            rcases List.mem_cons.1 hg with rfl | hg
            · rw [hi] at hgi; cases hgi; omega
            · exact h4 g hg i hgi
          · exact Or.inr ⟨g, List.mem_cons_of_mem _ hg, i, h3⟩

/-- **C52** among at least two candidates, the result is a candidate of the highest index, and nothing is returned only if no
candidate has an index. -/
theorem C52_highest (files : List FName) (kind device : FName) (h : (candidates files kind).length ≠ 1) :
    match latestCheckpoint files kind device with
    | none => ∀ f ∈ candidates files kind, fileIndex (device.takeWhile (· ≠ ':')) f = none
    | some f => f ∈ candidates files kind ∧ ∃ i, fileIndex (device.takeWhile (· ≠ ':')) f = some i ∧
        ∀ g ∈ candidates files kind, ∀ j, fileIndex (device.takeWhile (· ≠ ':')) g = some j → j ≤ i := by
  have heq : latestCheckpoint files kind device =
      (latestLoop (device.takeWhile (· ≠ ':')) (candidates files kind) (-1, none)).2 := by
    simp only [latestCheckpoint]
    split
    · next f hf => rw [hf] at h; simp at h
    · rfl
  rw [heq]
  generalize device.takeWhile (· ≠ ':') = d
  generalize candidates files kind = fs at h
  obtain ⟨-, h2, h3⟩ := latestLoop_spec d fs (-1) none le_rfl
  rcases h3 with ⟨h3, h4⟩ | ⟨f, hf, i, h3, h4, -⟩
  · rw [h3]
    intro f hf
    cases hi : fileIndex d f with
    | none => rfl
    | some i =>
      have := h4 f hf i hi
      omega
  · rw [h4] at h2 ⊢
    refine ⟨hf, i, h3, fun g hg j hj => ?_⟩
    have : (j : ℤ) ≤ (i : ℤ) := h2 g hg j hj
    exact_mod_cast this

/-- **C52** without candidates nothing is returned; and whatever is returned is a file of the directory with the kind in its
name. -/
theorem C52_member (files : List FName) (kind device : FName) :
    (candidates files kind = [] → latestCheckpoint files kind device = none) ∧
    ∀ f, latestCheckpoint files kind device = some f → f ∈ files ∧ kind <:+: f := by
  refine ⟨fun h => ?_, fun f hf => ?_⟩
  · simp only [latestCheckpoint, h, latestLoop]
  · have hc : f ∈ candidates files kind := by
      by_cases h : (candidates files kind).length = 1
      · obtain ⟨g, hg⟩ := List.length_eq_one_iff.1 h
        simp only [latestCheckpoint, hg, Option.some.injEq] at hf
        rw [hg, hf]
        simp
      · have := C52_highest files kind device h
        rw [hf] at this
        exact this.1
    unfold candidates at hc
    rw [List.mem_filter] at hc
    exact ⟨hc.1, by simpa using (of_decide_eq_true hc.2).2⟩

/-! ## Names which are written are read back -/

theorem stripSuffix_append (a suf : FName) : stripSuffix suf (a ++ suf) = some a := by
  unfold stripSuffix
  rw [if_pos (List.suffix_append a suf)]
  simp

theorem isDigit_pad3 (n : ℕ) : ∀ c ∈ pad3 n, c.isDigit = true := by
  intro c hc
  rcases List.mem_append.1 hc with h | h
  · rw [List.eq_of_mem_replicate h]; rfl
  · exact Nat.isDigit_of_mem_toDigits (by norm_num) (by norm_num) h

theorem pad3_ne_nil (n : ℕ) : pad3 n ≠ [] := by
  intro h
  exact Nat.toDigits_ne_nil (List.append_eq_nil_iff.1 h).2

theorem ofDigitChars_zeros (k : ℕ) (l : FName) : Nat.ofDigitChars 10 (List.replicate k '0' ++ l) 0 = Nat.ofDigitChars 10 l 0 := by
  induction k with
  | zero => rfl
  | succ k ih =>
    rw [List.replicate_succ, List.cons_append]
    unfold Nat.ofDigitChars at ih ⊢
    rw [List.foldl_cons]
    exact ih

theorem value_pad3 (n : ℕ) : Nat.ofDigitChars 10 (pad3 n) 0 = n := by
  rw [pad3, ofDigitChars_zeros, Nat.ofDigitChars_ten_toDigits]

theorem takeWhile_digits {a b : FName} (ha : ∀ c ∈ a, c.isDigit = true) (hb : ∀ c ∈ b.head?, c.isDigit = false) :
    (a ++ b).takeWhile Char.isDigit = a ∧ (a ++ b).dropWhile Char.isDigit = b := by
  induction a with
  | nil =>
    cases b with
    | nil => simp
    | cons c b =>
      have := hb c (by simp)
      simp [this]
  | cons x a ih =>
    have hx := ha x (by simp)
    obtain ⟨h1, h2⟩ := ih fun c hc => ha c (by simp [hc])
    simp [hx, h1, h2]

/-- The index of `<prefix>_<digits>`. -/
theorem trailingIndex_append (pre ds : FName) (hd : ∀ c ∈ ds, c.isDigit = true) (hn : ds ≠ []) :
    trailingIndex (pre ++ '_' :: ds) = some (Nat.ofDigitChars 10 ds 0) := by
  have hrev : (pre ++ '_' :: ds).reverse = ds.reverse ++ '_' :: pre.reverse := by simp
  obtain ⟨h1, h2⟩ := takeWhile_digits (a := ds.reverse) (b := '_' :: pre.reverse) (by simpa using hd) (by
    intro c hc
    simp only [List.head?_cons, Option.mem_def, Option.some.injEq] at hc
    subst hc
    rfl)
  unfold trailingIndex
  rw [hrev, h2]
  simp only [h1, List.reverse_eq_nil_iff, hn, if_false, List.reverse_reverse]

/-- A string whose last character is not a digit has no index. -/
theorem trailingIndex_none (pre : FName) (c : Char) (hc : c.isDigit = false) : trailingIndex (pre ++ [c]) = none := by
  unfold trailingIndex
  simp only [List.reverse_append, List.reverse_cons, List.reverse_nil, List.nil_append, List.cons_append,
    List.takeWhile_cons, hc, Bool.false_eq_true, if_false, if_true]
  split <;> rfl

/-- Simple names of devices: not empty, ending with a letter. -/
def PlainDevice (d : FName) : Prop := ∃ pre c, d = pre ++ [c] ∧ Char.isDigit c = false

theorem ckptName_eq (kind cls : FName) (it : CkptIter) (d : FName) : ckptName kind cls it d =
    (kind ++ '_' :: (cls ++ '_' :: ("ckpt".toList ++ '_' :: it.str))) ++
      '_' :: ("device".toList ++ '_' :: (d ++ '.' :: "pt".toList)) := by
  simp [ckptName]

theorem ckptName_eq' (kind cls : FName) (it : CkptIter) (d : FName) : ckptName kind cls it d =
    ((kind ++ '_' :: (cls ++ '_' :: ("ckpt".toList ++ '_' :: it.str))) ++
      '_' :: ("device".toList ++ '_' :: d)) ++ ".pt".toList := by
  simp [ckptName]

theorem fileIndex_ckptName (kind cls : FName) (it : CkptIter) (d : FName) (hd : PlainDevice d) :
    fileIndex d (ckptName kind cls it d) = (match it with | .num n => some n | .best => none) := by
  have hlegacy : legacyIndex (ckptName kind cls it d) = none := by
    obtain ⟨pre, c, rfl, hc⟩ := hd
    rw [ckptName_eq', legacyIndex, stripSuffix_append, Option.bind_some]
    have := trailingIndex_none ((kind ++ '_' :: (cls ++ '_' :: ("ckpt".toList ++ '_' :: it.str))) ++
      '_' :: ("device".toList ++ '_' :: pre)) c hc
    simpa using this
  rw [fileIndex, hlegacy]
  simp only
  rw [ckptName_eq, matchIndex, stripSuffix_append, Option.bind_some]
  cases it with
  | num n =>
    have := trailingIndex_append (kind ++ '_' :: (cls ++ '_' :: "ckpt".toList)) (pad3 n) (isDigit_pad3 n) (pad3_ne_nil n)
    rw [value_pad3] at this
    simpa [CkptIter.str] using this
  | best =>
    have := trailingIndex_none (kind ++ '_' :: (cls ++ '_' :: ("ckpt".toList ++ '_' :: "bes".toList))) 't' rfl
    simpa [CkptIter.str] using this

/-- A word without the character `c` which occurs in `a ++ c :: b` occurs in `a` or in `b`. -/
theorem infix_split {w a b : FName} {c : Char} (hw : c ∉ w) (h : w <:+: a ++ c :: b) : w <:+: a ∨ w <:+: b := by
  obtain ⟨s, t, hst⟩ := h
  rw [List.append_assoc] at hst
  rcases List.append_eq_append_iff.1 hst with ⟨u, hu1, hu2⟩ | ⟨u, hu1, hu2⟩
  · -- a = s ++ u, w ++ t = u ++ c :: b
    rcases List.append_eq_append_iff.1 hu2 with ⟨v, hv1, hv2⟩ | ⟨v, hv1, hv2⟩
    · left
      exact ⟨s, v, by rw [List.append_assoc, ← hv1, hu1]⟩
    · cases v with
      | nil =>
        left
        rw [List.append_nil] at hv1
        exact ⟨s, [], by rw [List.append_nil, hv1, hu1]⟩
      | cons x v =>
        rw [List.cons_append, List.cons.injEq] at hv2
        exact absurd (by rw [hv1, hv2.1]; simp) hw
  · cases u with
    | nil =>
      rw [List.nil_append] at hu2
      cases w with
      | nil => exact Or.inr ⟨[], b, rfl⟩
      | cons x w =>
        rw [List.cons_append, List.cons.injEq] at hu2
        exact absurd (by rw [hu2.1]; simp) hw
    | cons x u =>
      rw [List.cons_append, List.cons.injEq] at hu2
      exact Or.inr ⟨u, t, by rw [List.append_assoc]; exact hu2.2.symm⟩

theorem not_infix_of_mem {w a : FName} {c : Char} (hc : c ∈ w) (ha : c ∉ a) : ¬ w <:+: a :=
  fun h => ha (h.subset hc)

/-- A kind does not occur in the name of a checkpoint of the other kind. -/
theorem not_infix_ckptName {w kind cls d : FName} {it : CkptIter} {c : Char} (h0 : '_' ∉ w) (h1 : '.' ∉ w)
    (hk : ¬ w <:+: kind) (hcls : ¬ w <:+: cls) (hd : ¬ w <:+: d) (hc : c ∈ w) (hc1 : c ∉ "ckpt".toList)
    (hc2 : c.isDigit = false) (hc3 : c ∉ "best".toList) (hdev : ¬ w <:+: "device".toList) (hpt : ¬ w <:+: "pt".toList) :
    ¬ w <:+: ckptName kind cls it d := by
  intro h
  unfold ckptName at h
  rcases infix_split h0 h with h | h
  · exact hk h
  rcases infix_split h0 h with h | h
  · exact hcls h
  rcases infix_split h0 h with h | h
  · exact not_infix_of_mem hc hc1 h
  rcases infix_split h0 h with h | h
  · have := h.subset hc
    cases it with
    | num n => exact absurd (isDigit_pad3 n c this) (by simp [hc2])
    | best => exact hc3 this
  rcases infix_split h0 h with h | h
  · exact hdev h
  rcases infix_split h1 h with h | h
  · exact hd h
  · exact hpt h

/-- **C52** (partial: one class, one device) a directory with the checkpoints written by a training run, in any order: the
checkpoint of the highest iteration is found for the model and for the optimizer, if the name of the optimizer class
does not contain "model" and the name of the model class does not contain "opt". What is missing: the remaining names,
see the counterexamples. -/
theorem C52_training_run_partial (cls ocls d : FName) (its : List CkptIter) (files : List FName) (top : ℕ)
    (hfiles : ∀ f, f ∈ files ↔ ∃ it ∈ its, f = ckptName "model".toList cls it d ∨ f = ckptName "opt".toList ocls it d)
    (htop : CkptIter.num top ∈ its) (hmax : ∀ n, CkptIter.num n ∈ its → n ≤ top)
    (hd : PlainDevice d) (hcolon : ':' ∉ d)
    (hcls : ¬ "opt".toList <:+: cls) (hocls : ¬ "model".toList <:+: ocls)
    (hdm : ¬ "model".toList <:+: d) (hdo : ¬ "opt".toList <:+: d) :
    latestCheckpoint files "model".toList d = some (ckptName "model".toList cls (.num top) d) ∧
    latestCheckpoint files "opt".toList d = some (ckptName "opt".toList ocls (.num top) d) := by
  have hdev : d.takeWhile (· ≠ ':') = d := by
    rw [List.takeWhile_eq_self_iff]
    intro x hx
    simp only [ne_eq, decide_eq_true_eq]
    rintro rfl
    exact hcolon hx
  have hpt : ∀ kind cls it, ".pt".toList <:+ ckptName kind cls it d := by
    intro kind cls it
    rw [ckptName_eq']
    exact List.suffix_append _ _
  have hpre : ∀ kind cls it, kind <:+: ckptName kind cls it d := by
    intro kind cls it
    exact (List.prefix_append _ _).isInfix
  -- the common argument
  have main : ∀ kind c, ckptName kind c (.num top) d ∈ files →
      (∀ f ∈ files, kind <:+: f → ∃ it ∈ its, f = ckptName kind c it d) →
      latestCheckpoint files kind d = some (ckptName kind c (.num top) d) := by
    intro kind c hmem hkind
    have hcand : ckptName kind c (.num top) d ∈ candidates files kind := by
      unfold candidates
      rw [List.mem_filter]
      exact ⟨hmem, decide_eq_true ⟨hpt _ _ _, hpre _ _ _⟩⟩
    have hcand' : ∀ f ∈ candidates files kind, ∃ it ∈ its, f = ckptName kind c it d := by
      intro f hf
      unfold candidates at hf
      rw [List.mem_filter] at hf
      exact hkind f hf.1 (of_decide_eq_true hf.2).2
    by_cases h1 : (candidates files kind).length = 1
    · obtain ⟨g, hg⟩ := List.length_eq_one_iff.1 h1
      simp only [latestCheckpoint, hg]
      rw [hg, List.mem_singleton] at hcand
      rw [hcand]
    · have h2 := C52_highest files kind d h1
      rw [hdev] at h2
      have htopi := fileIndex_ckptName kind c (.num top) d hd
      cases hl : latestCheckpoint files kind d with
      | none =>
        rw [hl] at h2
        have := h2 _ hcand
        rw [htopi] at this
        cases this
      | some f =>
        rw [hl] at h2
        obtain ⟨hf, i, hi, hle⟩ := h2
        obtain ⟨it, hit, rfl⟩ := hcand' f hf
        rw [fileIndex_ckptName kind c it d hd] at hi
        cases it with
        | best => cases hi
        | num n =>
          simp only [Option.some.injEq] at hi
          subst hi
          have h3 := hle _ hcand top htopi
          have h4 := hmax n hit
          rw [le_antisymm h3 h4]
  constructor
  · refine main _ _ ((hfiles _).2 ⟨_, htop, Or.inl rfl⟩) fun f hf hk => ?_
    obtain ⟨it, hit, h | h⟩ := (hfiles f).1 hf
    · exact ⟨it, hit, h⟩
    · rw [h] at hk
      exact absurd hk (not_infix_ckptName (c := 'm') (by decide) (by decide) (by decide) hocls hdm (by decide) (by decide)
        rfl (by decide) (by decide) (by decide))
  · refine main _ _ ((hfiles _).2 ⟨_, htop, Or.inr rfl⟩) fun f hf hk => ?_
    obtain ⟨it, hit, h | h⟩ := (hfiles f).1 hf
    · rw [h] at hk
      exact absurd hk (not_infix_ckptName (c := 'o') (by decide) (by decide) (by decide) hcls hdo (by decide) (by decide)
        rfl (by decide) (by decide) (by decide))
    · exact ⟨it, hit, h⟩

/-- The kind is searched anywhere in the name: the optimizer checkpoint requested from this directory is a model
checkpoint, as the name of the model class contains "opt". -/
theorem C52_counterexample_kind :
    latestCheckpoint [ckptName "model".toList "Adopted".toList (.num 7) "cpu".toList,
      ckptName "opt".toList "Adam".toList (.num 5) "cpu".toList] "opt".toList "cpu".toList =
      some (ckptName "model".toList "Adopted".toList (.num 7) "cpu".toList) := by
  decide +kernel

/-- A single candidate is returned even if it was written for another device. -/
theorem C52_counterexample_device :
    latestCheckpoint [ckptName "model".toList "QNN".toList (.num 7) "cuda".toList] "model".toList "cpu".toList =
      some (ckptName "model".toList "QNN".toList (.num 7) "cuda".toList) := by
  decide +kernel

/-- A directory meeting the hypotheses of the theorem: iterations 9, 100 and "best". -/
example : latestCheckpoint [ckptName "model".toList "QNN".toList (.num 9) "cpu".toList,
    ckptName "opt".toList "Adam".toList (.num 9) "cpu".toList,
    ckptName "model".toList "QNN".toList .best "cpu".toList,
    ckptName "opt".toList "Adam".toList .best "cpu".toList,
    ckptName "opt".toList "Adam".toList (.num 100) "cpu".toList,
    ckptName "model".toList "QNN".toList (.num 100) "cpu".toList] "model".toList "cpu".toList =
    some "model_QNN_ckpt_100_device_cpu.pt".toList := by
  have h := (C52_training_run_partial "QNN".toList "Adam".toList "cpu".toList [.num 9, .best, .num 100] (top := 100)
    (files := [ckptName "model".toList "QNN".toList (.num 9) "cpu".toList,
    ckptName "opt".toList "Adam".toList (.num 9) "cpu".toList,
    ckptName "model".toList "QNN".toList .best "cpu".toList,
    ckptName "opt".toList "Adam".toList .best "cpu".toList,
    ckptName "opt".toList "Adam".toList (.num 100) "cpu".toList,
    ckptName "model".toList "QNN".toList (.num 100) "cpu".toList]) (by intro f; simp; tauto) (by simp) (by simp)
    ⟨"cp".toList, 'u', by decide, rfl⟩ (by decide) (by decide) (by decide) (by decide) (by decide)).1
  rw [h]
  decide +kernel

end Qadence
