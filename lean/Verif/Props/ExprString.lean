import Verif.Proofs.ExprRound

/-!
# C70: expressions survive serialisation, and only expressions are evaluated
-/

namespace Qadence.Serial

open Spec

/-! ## The grammar -/

/-- **C70** (language). The grammar accepts exactly the written forms of nested calls with literal arguments, and it finds the
tree of calls. -/
theorem C70_language (s : List Char) (t : PTree) : program s = some t ↔ ∃ u w, s = u ++ w ∧ Written t u ∧ IsCall t ∧ Blank w :=
  program_iff s t

/-- A string has at most one tree. -/
theorem C70_unambiguous (t t' : PTree) (u : List Char) (h : Written t u) (h' : Written t' u) (hc : IsCall t) (hc' : IsCall t') : t = t' := by
  have h1 := (program_iff u t).2 ⟨u, [], by simp, h, hc, blank_nil⟩
  have h2 := (program_iff u t').2 ⟨u, [], by simp, h', hc', blank_nil⟩
  rw [h1] at h2
  exact Option.some.inj h2

/-- The characters of the language. -/
def Allowed (c : Char) : Prop :=
  LetterC c ∨ DigitC c ∨ c = '_' ∨ c = '.' ∨ c = '\'' ∨ c = '(' ∨ c = ')' ∨ c = ',' ∨ c = '=' ∨ c = '-' ∨
    c = ' ' ∨ c = '\t' ∨ c = '\n' ∨ c = '\r'

theorem allowed_blank {w : List Char} (h : Blank w) : ∀ c ∈ w, Allowed c := fun c hc => by
  have := h c hc
  unfold Allowed
  tauto

theorem allowed_name {w : List Char} (h : Name w) : ∀ c ∈ w, Allowed c := by
  obtain ⟨d, ds, rfl, hd, hds⟩ := h
  intro c hc
  unfold Allowed
  rcases List.mem_cons.1 hc with rfl | hc
  · exact .inl hd
  · have := hds c hc; tauto

theorem allowed_keyword {w : List Char} (h : Keyword w) : ∀ c ∈ w, Allowed c := by
  obtain ⟨d, ds, rfl, hd, hds⟩ := h
  intro c hc
  unfold Allowed
  rcases List.mem_cons.1 hc with rfl | hc
  · exact .inl (.inl hd)
  · exact .inl (hds c hc)

theorem allowed_sign {w : List Char} (h : Sign w) : ∀ c ∈ w, Allowed c := by
  intro c hc
  unfold Allowed
  rcases h with rfl | rfl
  · cases hc
  · rw [List.mem_singleton] at hc; tauto

theorem allowed_int {w : List Char} (h : IntText w) : ∀ c ∈ w, Allowed c := by
  obtain ⟨σ, m, rfl, hσ, hm⟩ := h
  intro c hc
  rcases List.mem_append.1 hc with hc | hc
  · exact allowed_sign hσ c hc
  · refine .inr (.inl ?_)
    rcases hm with rfl | ⟨d, ds, rfl, hd, -, hds⟩
    · rw [List.mem_singleton] at hc; subst hc; unfold DigitC; decide
    · rcases List.mem_cons.1 hc with rfl | hc
      · exact hd
      · exact hds c hc

theorem allowed_word {w : List Char} (h : WordText w) : ∀ c ∈ w, Allowed c := fun c hc => by
  have := h.2 c hc
  unfold Allowed
  tauto

theorem allowed_float {w : List Char} (h : FloatText w) : ∀ c ∈ w, Allowed c := by
  obtain ⟨σ, m, rfl, hσ, hm⟩ := h
  intro c hc
  rcases List.mem_append.1 hc with hc | hc
  · exact allowed_sign hσ c hc
  · unfold Allowed
    rcases hm with rfl | ⟨a, b, rfl, ha, hb⟩
    · rw [List.mem_singleton] at hc; subst hc; unfold DigitC; exact .inr (.inl (by decide))
    · rcases List.mem_append.1 hc with hc | hc
      · exact .inr (.inl (ha c hc))
      · rcases List.mem_cons.1 hc with rfl | hc
        · tauto
        · exact .inr (.inl (hb c hc))

theorem allowed_symbol : Allowed '(' ∧ Allowed ')' ∧ Allowed ',' ∧ Allowed '=' ∧ Allowed '\'' := by
  unfold Allowed; simp

theorem allowed_append {a b : List Char} (ha : ∀ c ∈ a, Allowed c) (hb : ∀ c ∈ b, Allowed c) : ∀ c ∈ a ++ b, Allowed c := fun c hc =>
  (List.mem_append.1 hc).elim (ha c) (hb c)

theorem allowed_cons {x : Char} {b : List Char} (hx : Allowed x) (hb : ∀ c ∈ b, Allowed c) : ∀ c ∈ x :: b, Allowed c := fun c hc =>
  (List.mem_cons.1 hc).elim (fun h => h ▸ hx) (hb c)

theorem allowed_nil : ∀ c ∈ ([] : List Char), Allowed c := fun c hc => by cases hc

mutual
theorem allowed_written {t : PTree} {u : List Char} (h : Written t u) : ∀ c ∈ u, Allowed c := by
  obtain ⟨p1, p2, p3, p4, p5⟩ := allowed_symbol
  cases h with
  | call w₁ w₂ w₃ hn h₁ h₂ h₃ ha ht =>
    exact allowed_append (allowed_append (allowed_append (allowed_append (allowed_append (allowed_append (allowed_blank h₁) (allowed_name hn))
      (allowed_blank h₂)) (allowed_cons p1 (allowed_written ha))) (allowed_writtenTail ht)) (allowed_blank h₃)) (allowed_cons p2 allowed_nil)
  | int w hw ht => exact allowed_append (allowed_blank hw) (allowed_int ht)
  | str w hw ht =>
    exact allowed_append (allowed_append (allowed_blank hw) (allowed_cons p5 (ht.elim allowed_float allowed_word)))
      (allowed_cons p5 allowed_nil)
  | kwInt w₁ w₂ w₃ hk h₁ h₂ h₃ ht =>
    exact allowed_append (allowed_append (allowed_append (allowed_append (allowed_blank h₁) (allowed_keyword hk)) (allowed_blank h₂))
      (allowed_cons p4 (allowed_blank h₃))) (allowed_int ht)
  | kwTrue w₁ w₂ w₃ hk h₁ h₂ h₃ =>
    refine allowed_append (allowed_append (allowed_append (allowed_append (allowed_blank h₁) (allowed_keyword hk)) (allowed_blank h₂))
      (allowed_cons p4 (allowed_blank h₃))) ?_
    exact allowed_name ⟨'T', "rue".toList, rfl, by unfold LetterC LowerC; decide, by unfold LetterC LowerC DigitC; decide⟩
  | kwFalse w₁ w₂ w₃ hk h₁ h₂ h₃ =>
    refine allowed_append (allowed_append (allowed_append (allowed_append (allowed_blank h₁) (allowed_keyword hk)) (allowed_blank h₂))
      (allowed_cons p4 (allowed_blank h₃))) ?_
    exact allowed_name ⟨'F', "alse".toList, rfl, by unfold LetterC LowerC; decide, by unfold LetterC LowerC DigitC; decide⟩
  | kwStr w₁ w₂ w₃ hk h₁ h₂ h₃ ht =>
    exact allowed_append (allowed_append (allowed_append (allowed_append (allowed_append (allowed_blank h₁) (allowed_keyword hk)) (allowed_blank h₂))
      (allowed_cons p4 (allowed_blank h₃))) (allowed_cons p5 (allowed_word ht))) (allowed_cons p5 allowed_nil)
theorem allowed_writtenTail {as : List PTree} {u : List Char} (h : WrittenTail as u) : ∀ c ∈ u, Allowed c := by
  cases h with
  | nil => exact allowed_nil
  | cons w hw ha ht =>
    exact allowed_append (allowed_append (allowed_blank hw) (allowed_cons allowed_symbol.2.2.1 (allowed_written ha))) (allowed_writtenTail ht)
end

/-- **C70** (no operators). A string which is evaluated has no character besides letters, digits, `_ . ' ( ) , = -` and
whitespace: no operator except a minus sign, no index, no lambda, no second statement. -/
theorem C70_characters (s : List Char) (h : parseExprFn s = true) : ∀ c ∈ s, Allowed c := by
  rw [parseExprFn, Option.isSome_iff_exists] at h
  obtain ⟨t, ht⟩ := h
  obtain ⟨u, w, rfl, hw, -, hb⟩ := (program_iff s t).1 ht
  exact allowed_append (allowed_written hw) (allowed_blank hb)

/-- The bound on the depth of the recursion in the model of the grammar has no effect. -/
theorem C70_fuel (s : List Char) (f : ℕ) (hf : 2 * s.length + 1 ≤ f) : pExpr f s = pExpr (2 * s.length + 1) s := pExpr_fuel s f hf

/-- The two strings named in the documentation are rejected (qadence/serialization.py:89-91). -/
example : parseExprFn "2*3".toList = false ∧ parseExprFn "__import__('os').system('ls -la')".toList = false := by decide +kernel

/-- The expression named in the documentation is accepted. -/
example : parseExprFn "Float('-0.33261030434342942', precision=53)".toList = true := by decide +kernel

/-- The grammar accepts calls of arbitrary functions, also of those of python which are not part of expressions. -/
theorem C70_counterexample_builtin : parseExprFn "exit(0)".toList = true ∧ parseExprFn "open('circuit.json', 'w')".toList = true ∧
    parseExprFn "eval('x')".toList = true := by decide +kernel

/-! ## Round trip -/

/-- **C70** (partial): an expression built from parameters, integers, fractions, decimal numbers and functions is read back as it
was written, with the values of its parameters. The names have to be accepted by the grammar, and parameters with the same name
must have the same value. The order of the set of parameters does not matter.

What is missing: constants, names with other characters, floats written with an exponent, the parameter of time. The grammar
rejects them, see the counterexamples. -/
theorem C70_round_trip_partial (ord : List Par → List Par) (hord : ∀ l x, x ∈ ord l ↔ x ∈ l) (e : SExpr) (hp : Printable e)
    (h1 : OneValue e) : deserialize (serialize ord e) = .ok e := round_trip ord hord e hp h1

/-- Different expressions are written differently. -/
theorem C70_injective (e e' : SExpr) (h : Printable e) (h' : Printable e') (hs : srepr e = srepr e') : unset e = unset e' := by
  have h1 := program_srepr e h
  have h2 := program_srepr e' h'
  rw [hs, h2] at h1
  have h3 := evalTree_treeOf e h
  rw [← Option.some.inj h1, evalTree_treeOf e' h'] at h3
  exact (Except.ok.inj h3).symm

/-- **C70** (constants). An expression in which a constant such as `pi` or `I` occurs is never read back: the grammar rejects
what `srepr` writes. -/
theorem C70_constants_rejected (ord : List Par → List Par) (e : SExpr) (h : PrintableC e) (hn : ¬ Printable e) :
    deserialize (serialize ord e) = .error .valueError := by
  have hp : program (srepr e) = none := by
    have := (reject e h hn (2 * (srepr e).length + 2) [] (.inl rfl) (by omega)).1
    rw [List.append_nil] at this
    rw [program, this]
  show (match program (srepr e) with
    | some t => _
    | none => _) = _
  rw [hp]

/-! ### Cases -/

/-- The parameter `theta`, trainable, with value 0.3. -/
def theta : Par := ⟨"theta".toList, [("trainable".toList, true)], 3 / 10⟩

/-- `-theta/2 + sin(1.5)`. -/
def demo : SExpr :=
  .node "Add".toList [.node "Mul".toList [.rat (-1) 2, .par theta], .node "sin".toList [.float "1.5".toList 53]]

theorem printable_demo : Printable demo := by
  have hn : ∀ c cs, LetterC c → (∀ d ∈ cs, LetterC d) → Name (c :: cs) := fun c cs hc h => ⟨c, cs, rfl, hc, fun d hd => .inl (h d hd)⟩
  have h1 : Name "Add".toList := hn _ _ (by unfold LetterC LowerC; decide) (by unfold LetterC LowerC; decide)
  have h2 : Name "Mul".toList := hn _ _ (by unfold LetterC LowerC; decide) (by unfold LetterC LowerC; decide)
  have h3 : Name "sin".toList := hn _ _ (by unfold LetterC LowerC; decide) (by unfold LetterC LowerC; decide)
  have h4 : WordText "theta".toList := ⟨by decide, by unfold LetterC LowerC DigitC; decide⟩
  have h5 : Keyword "trainable".toList := ⟨'t', "rainable".toList, rfl, by unfold LowerC; decide, by unfold LetterC LowerC; decide⟩
  have h6 : FloatText "1.5".toList := ⟨[], _, rfl, .inl rfl, .inr ⟨['1'], ['5'], rfl, by unfold DigitC; decide, by unfold DigitC; decide⟩⟩
  simp only [demo, Printable, PrintableAll]
  refine ⟨h1, by decide, by simp, ⟨h2, by decide, by simp, trivial, ⟨h4, ?_⟩, trivial⟩, ⟨h3, by decide, by simp, .inl h6, trivial⟩, trivial⟩
  intro a ha
  rw [theta, List.mem_singleton] at ha
  rw [ha]
  exact h5

theorem oneValue_demo : OneValue demo := by
  have : ∀ p, ParIn p demo → p = theta := by
    intro p hp
    have := (mem_freePars p demo).2 hp
    have e : freePars demo = [theta] := by simp [demo, freePars, freeParsList]
    rw [e, List.mem_singleton] at this
    exact this
  intro p q hp hq _
  rw [this p hp, this q hq]

/-- The hypotheses of the round trip are met by `-theta/2 + sin(1.5)`. -/
example : deserialize (serialize id demo) = .ok demo :=
  C70_round_trip_partial id (fun _ _ => Iff.rfl) demo printable_demo oneValue_demo

/-- Its written form. -/
example : srepr demo =
    "Add(Mul(Rational(-1, 2), Parameter('theta', trainable=True)), sin(Float('1.5', precision=53)))".toList := by
  decide +kernel

/-- `2*pi`. -/
def twoPi : SExpr := .node "Mul".toList [.int 2, .const "pi".toList]

/-- The angle `2*pi` is not read back, although it is a usual one. -/
theorem C70_counterexample_pi (ord : List Par → List Par) : deserialize (serialize ord twoPi) = .error .valueError := by
  have hn : ∀ c cs, LetterC c → (∀ d ∈ cs, LetterC d) → Name (c :: cs) := fun c cs hc h => ⟨c, cs, rfl, hc, fun d hd => .inl (h d hd)⟩
  have h1 : Name "Mul".toList := hn _ _ (by unfold LetterC LowerC; decide) (by unfold LetterC LowerC; decide)
  have h2 : Name "pi".toList := hn _ _ (by unfold LetterC LowerC; decide) (by unfold LetterC LowerC; decide)
  refine C70_constants_rejected ord twoPi ?_ ?_
  · rw [twoPi, PrintableC, PrintableAllC, PrintableAllC, PrintableAllC, PrintableC, PrintableC]
    exact ⟨h1, by decide, List.cons_ne_nil _ _, trivial, h2, trivial⟩
  · rw [twoPi, Printable, PrintableAll, PrintableAll, PrintableAll, Printable, Printable]
    exact fun h => h.2.2.2.2.1

/-- What the grammar rejects is not read back. -/
theorem deserialize_rejected (ord : List Par → List Par) (e : SExpr) (h : program (srepr e) = none) :
    deserialize (serialize ord e) = .error .valueError := by
  show (match program (srepr e) with
    | some t => _
    | none => _) = _
  rw [h]

/-- What the grammar accepts is evaluated. -/
theorem deserialize_written (ord : List Par → List Par) (e : SExpr) (h : Printable e) :
    deserialize (serialize ord e) = setValues (serialize ord e).symbols (unset e) := by
  show (match program (srepr e) with
    | some t => _
    | none => _) = _
  rw [program_srepr e h]
  simp only
  rw [evalTree_treeOf e h, ok_bind]

theorem srepr_value (p : Par) (v : ℚ) : srepr (.par { p with value := v }) = srepr (.par p) := by
  rw [srepr_par, srepr_par]
  rfl

/-- A number with an exponent, as written for values below `1e-4`, is rejected. -/
theorem C70_counterexample_exponent (ord : List Par → List Par) :
    deserialize (serialize ord (.float "1.0e-6".toList 53)) = .error .valueError :=
  deserialize_rejected ord _ (Option.isNone_iff_eq_none.1 (by decide +kernel))

/-- The parameter of time has the assumption `is_time`, which is no keyword of the grammar. -/
theorem C70_counterexample_time (ord : List Par → List Par) (v : ℚ) :
    deserialize (serialize ord (.par ⟨"t".toList, [("trainable".toList, false), ("is_time".toList, true)], v⟩)) = .error .valueError := by
  refine deserialize_rejected ord _ ?_
  have : program (srepr (.par ⟨"t".toList, [("trainable".toList, false), ("is_time".toList, true)], 0⟩)) = none :=
    Option.isNone_iff_eq_none.1 (by decide +kernel)
  exact (congrArg program (srepr_value ⟨"t".toList, [("trainable".toList, false), ("is_time".toList, true)], 0⟩ v)).trans this

/-- A name with a hyphen, or with a blank, is rejected. -/
theorem C70_counterexample_name (ord : List Par → List Par) (v : ℚ) :
    deserialize (serialize ord (.par ⟨"phi-1".toList, [("trainable".toList, true)], v⟩)) = .error .valueError ∧
    deserialize (serialize ord (.par ⟨"phi 1".toList, [("trainable".toList, true)], v⟩)) = .error .valueError := by
  have h1 : program (srepr (.par ⟨"phi-1".toList, [("trainable".toList, true)], 0⟩)) = none :=
    Option.isNone_iff_eq_none.1 (by decide +kernel)
  have h2 : program (srepr (.par ⟨"phi 1".toList, [("trainable".toList, true)], 0⟩)) = none :=
    Option.isNone_iff_eq_none.1 (by decide +kernel)
  exact ⟨deserialize_rejected ord _ ((congrArg program (srepr_value ⟨"phi-1".toList, [("trainable".toList, true)], 0⟩ v)).trans h1),
    deserialize_rejected ord _ ((congrArg program (srepr_value ⟨"phi 1".toList, [("trainable".toList, true)], 0⟩ v)).trans h2)⟩

/-- `x*x'` with two parameters named `x`, one trainable with value 1, one not trainable with value 2. -/
def twice (v w : ℚ) : SExpr :=
  .node "Mul".toList [.par ⟨"x".toList, [("trainable".toList, true)], v⟩, .par ⟨"x".toList, [("trainable".toList, false)], w⟩]

/-- Two parameters of the same name with different values are read back with the same value. -/
theorem C70_counterexample_same_name : deserialize (serialize id (twice 1 2)) = .ok (twice 2 2) := by
  have hp : ∀ v w, Printable (twice v w) := by
    intro v w
    have h1 : Name "Mul".toList := ⟨'M', "ul".toList, rfl, by unfold LetterC LowerC; decide, by unfold LetterC LowerC DigitC; decide⟩
    have h4 : WordText "x".toList := ⟨by decide, by unfold LetterC LowerC DigitC; decide⟩
    have h5 : Keyword "trainable".toList := ⟨'t', "rainable".toList, rfl, by unfold LowerC; decide, by unfold LetterC LowerC; decide⟩
    rw [twice, Printable, PrintableAll, PrintableAll, PrintableAll, Printable, Printable]
    refine ⟨h1, by decide, List.cons_ne_nil _ _, ⟨h4, ?_⟩, ⟨h4, ?_⟩, trivial⟩
    all_goals
      intro a ha
      rw [List.mem_singleton] at ha
      rw [ha]
      exact h5
  have hg : ∀ p, ParIn p (twice 2 2) → (serialize id (twice 1 2)).symbols.get? p.name = some p.value := by
    intro p hpo
    have hm := (mem_freePars p _).2 hpo
    rw [twice, freePars, freeParsList, freeParsList, freeParsList, freePars, freePars] at hm
    have hn : p.name = "x".toList ∧ p.value = 2 := by
      rcases List.mem_append.1 hm with hm | hm
      · rw [List.mem_singleton] at hm; rw [hm]; exact ⟨rfl, rfl⟩
      · rw [List.append_nil, List.mem_singleton] at hm; rw [hm]; exact ⟨rfl, rfl⟩
    rw [hn.1, hn.2]
    decide +kernel
  rw [deserialize_written id (twice 1 2) (hp 1 2)]
  have e : unset (twice 1 2) = unset (twice 2 2) := by
    simp only [twice, unset, unsetAll]
  rw [e]
  exact setValues_unset _ _ hg

end Qadence.Serial
