import Verif.Proofs.ExprString
import Verif.Proofs.PyDict
import Verif.Proofs.Except

/-!
# The written form of an expression is read back
-/

namespace Qadence.Serial

open Spec

/-! ## Numbers -/

theorem digit_spec {n : ℕ} (h : n < 10) : (digit n).toNat = 48 + n := by
  interval_cases n <;> rfl

theorem digit_digit {n : ℕ} (h : n < 10) : DigitC (digit n) := by
  interval_cases n <;> (unfold DigitC; decide)

theorem digit_ne_zero {n : ℕ} (h : n < 10) (h0 : n ≠ 0) : digit n ≠ '0' := by
  interval_cases n
  · exact absurd rfl h0
  all_goals decide

theorem showNat_lt {n : ℕ} (h : n < 10) : showNat n = [digit n] := by rw [showNat, showDigits, if_pos h]

/-- There are not more digits than asked for. -/
theorem showDigits_enough (f g n : ℕ) (hf : n < f) (hg : n < g) : showDigits f n = showDigits g n := by
  induction f generalizing g n with
  | zero => omega
  | succ f ih =>
    cases g with
    | zero => omega
    | succ g =>
      rw [showDigits, showDigits]
      by_cases h : n < 10
      · rw [if_pos h, if_pos h]
      · rw [if_neg h, if_neg h, ih g (n / 10) (by omega) (by omega)]

theorem showNat_ge {n : ℕ} (h : ¬ n < 10) : showNat n = showNat (n / 10) ++ [digit (n % 10)] := by
  rw [showNat, showDigits, if_neg h, showNat, showDigits_enough n (n / 10 + 1) _ (by omega) (by omega)]

theorem readNat_append (a : List Char) (c : Char) : readNat (a ++ [c]) = 10 * readNat a + (c.toNat - 48) := by
  rw [readNat, List.foldl_append]; rfl

theorem readNat_showNat (n : ℕ) : readNat (showNat n) = n := by
  induction n using Nat.strong_induction_on with
  | _ n ih =>
    by_cases h : n < 10
    · rw [showNat_lt h]
      show 10 * 0 + ((digit n).toNat - 48) = n
      rw [digit_spec h]; omega
    · rw [showNat_ge h, readNat_append, ih _ (by omega), digit_spec (by omega)]
      omega

theorem showNat_digits (n : ℕ) (h : n ≠ 0) : ∃ c cs, showNat n = c :: cs ∧ DigitC c ∧ c ≠ '0' ∧ ∀ d ∈ cs, DigitC d := by
  induction n using Nat.strong_induction_on with
  | _ n ih =>
    by_cases h' : n < 10
    · exact ⟨digit n, [], showNat_lt h', digit_digit h', digit_ne_zero h' h, by simp⟩
    · obtain ⟨c, cs, e, h1, h2, h3⟩ := ih (n / 10) (by omega) (by omega)
      refine ⟨c, cs ++ [digit (n % 10)], by rw [showNat_ge h', e]; rfl, h1, h2, ?_⟩
      intro d hd
      rw [List.mem_append, List.mem_singleton] at hd
      rcases hd with hd | rfl
      · exact h3 d hd
      · exact digit_digit (by omega)

theorem showNat_text (n : ℕ) : NatText (showNat n) := by
  by_cases h : n = 0
  · subst h; exact .inl (by rw [showNat_lt (by omega)]; rfl)
  · exact .inr (showNat_digits n h)

theorem showNat_intText (n : ℕ) : IntText (showNat n) := ⟨[], _, rfl, .inl rfl, showNat_text n⟩

theorem showInt_text (n : ℤ) : IntText (showInt n) := by
  cases n with
  | ofNat n => exact showNat_intText n
  | negSucc n => exact ⟨['-'], _, rfl, .inr rfl, showNat_text _⟩

theorem readInt_showInt (n : ℤ) : readInt (showInt n) = n := by
  cases n with
  | ofNat n =>
    show readInt (showNat n) = _
    obtain ⟨c, cs, e, hc⟩ := natText_ne_minus (showNat_text n)
    unfold readInt
    split
    · rename_i h
      rw [e] at h
      exact absurd (List.cons.inj h).1 (digit_ne_minus hc)
    · rw [readNat_showNat]; rfl
  | negSucc n =>
    show -(readNat (showNat (n + 1)) : ℤ) = _
    rw [readNat_showNat]
    rfl

/-! ## The tree of a written expression -/

mutual
/-- The tree found by the grammar. -/
def treeOf : SExpr → PTree
  | .par p => .call "Parameter".toList (.str p.name :: p.asm.map fun a => .kwBool a.1 a.2)
  | .int n => .call "Integer".toList [.int (showInt n)]
  | .rat p q => .call "Rational".toList [.int (showInt p), .int (showInt q)]
  | .float d p => .call "Float".toList [.str d, .kwInt "precision".toList (showNat p)]
  | .const c => .str c
  | .node h as => .call h (treesOf as)
def treesOf : List SExpr → List PTree
  | [] => []
  | a :: as => treeOf a :: treesOf as
end

theorem name_parameter : Name "Parameter".toList := ⟨'P', "arameter".toList, rfl, by unfold LetterC LowerC; decide, by
  unfold LetterC LowerC DigitC; decide⟩
theorem name_integer : Name "Integer".toList := ⟨'I', "nteger".toList, rfl, by unfold LetterC LowerC; decide, by
  unfold LetterC LowerC DigitC; decide⟩
theorem name_rational : Name "Rational".toList := ⟨'R', "ational".toList, rfl, by unfold LetterC LowerC; decide, by
  unfold LetterC LowerC DigitC; decide⟩
theorem name_float : Name "Float".toList := ⟨'F', "loat".toList, rfl, by unfold LetterC LowerC; decide, by
  unfold LetterC LowerC DigitC; decide⟩
theorem keyword_precision : Keyword "precision".toList := ⟨'p', "recision".toList, rfl, by unfold LowerC; decide, by
  unfold LetterC LowerC; decide⟩

theorem blank_nil : Blank [] := by simp [Blank]
theorem blank_space : Blank [' '] := by simp [Blank]

/-- A space may be put before anything. -/
theorem written_space {t : PTree} {u : List Char} (h : Written t u) : Written t (' ' :: u) := by
  have hb : ∀ {w : List Char}, Blank w → Blank (' ' :: w) := by
    intro w hw c hc
    rcases List.mem_cons.1 hc with rfl | hc
    · exact .inl rfl
    · exact hw c hc
  cases h with
  | call w₁ w₂ w₃ hn h₁ h₂ h₃ ha ht => exact .call (' ' :: w₁) w₂ w₃ hn (hb h₁) h₂ h₃ ha ht
  | int w hw ht => exact .int (' ' :: w) (hb hw) ht
  | str w hw ht => exact .str (' ' :: w) (hb hw) ht
  | kwInt w₁ w₂ w₃ hk h₁ h₂ h₃ ht => exact .kwInt (' ' :: w₁) w₂ w₃ hk (hb h₁) h₂ h₃ ht
  | kwTrue w₁ w₂ w₃ hk h₁ h₂ h₃ => exact .kwTrue (' ' :: w₁) w₂ w₃ hk (hb h₁) h₂ h₃
  | kwFalse w₁ w₂ w₃ hk h₁ h₂ h₃ => exact .kwFalse (' ' :: w₁) w₂ w₃ hk (hb h₁) h₂ h₃
  | kwStr w₁ w₂ w₃ hk h₁ h₂ h₃ ht => exact .kwStr (' ' :: w₁) w₂ w₃ hk (hb h₁) h₂ h₃ ht

/-- A call without superfluous whitespace. -/
theorem written_call {h u v : List Char} {a : PTree} {as : List PTree} (hn : Name h) (ha : Written a u) (ht : WrittenTail as v) :
    Written (.call h (a :: as)) (h ++ '(' :: (u ++ v) ++ [')']) := by
  have := Written.call [] [] [] hn blank_nil blank_nil blank_nil ha ht
  simpa using this

theorem tail_cons {u v : List Char} {a : PTree} {as : List PTree} (ha : Written a u) (ht : WrittenTail as v) :
    WrittenTail (a :: as) (comma ++ u ++ v) := by
  have := WrittenTail.cons [] blank_nil (written_space ha) ht
  simpa [comma] using this

theorem written_str {t : List Char} (h : FloatText t ∨ WordText t) : Written (.str t) ('\'' :: t ++ ['\'']) := by
  simpa using Written.str [] blank_nil h

theorem written_int {t : List Char} (h : IntText t) : Written (.int t) t := by
  simpa using Written.int [] blank_nil h

theorem written_bool {k : List Char} (hk : Keyword k) (b : Bool) : Written (.kwBool k b) (k ++ '=' :: showBool b) := by
  cases b
  · simpa [showBool] using Written.kwFalse [] [] [] hk blank_nil blank_nil blank_nil
  · simpa [showBool] using Written.kwTrue [] [] [] hk blank_nil blank_nil blank_nil

theorem written_asm (as : List (List Char × Bool)) (h : ∀ a ∈ as, Keyword a.1) :
    WrittenTail (as.map fun a => PTree.kwBool a.1 a.2) (showAsm as) := by
  induction as with
  | nil => exact .nil
  | cons a as ih =>
    have := tail_cons (written_bool (h a (by simp)) a.2) (ih fun b hb => h b (by simp [hb]))
    rw [showAsm]
    simpa [comma] using this

theorem text_par : "Parameter('".toList = "Parameter".toList ++ ['(', '\''] := by decide
theorem text_int : "Integer(".toList = "Integer".toList ++ ['('] := by decide
theorem text_rat : "Rational(".toList = "Rational".toList ++ ['('] := by decide
theorem text_comma : ", ".toList = comma := by decide
theorem text_float : "Float('".toList = "Float".toList ++ ['(', '\''] := by decide
theorem text_prec : "', precision=".toList = '\'' :: comma ++ "precision".toList ++ ['='] := by decide

theorem showPar_eq (p : Par) : showPar p = "Parameter".toList ++ '(' :: (('\'' :: p.name ++ ['\'']) ++ showAsm p.asm) ++ [')'] := by
  unfold showPar
  rw [text_par]
  simp only [List.append_assoc, List.cons_append, List.nil_append]
theorem showInteger_eq (n : ℤ) : showInteger n = "Integer".toList ++ '(' :: (showInt n ++ []) ++ [')'] := by
  unfold showInteger
  rw [text_int]
  simp only [List.append_assoc, List.cons_append, List.nil_append]
theorem showRational_eq (p q : ℤ) : showRational p q = "Rational".toList ++ '(' :: (showInt p ++ (comma ++ showInt q ++ [])) ++ [')'] := by
  unfold showRational
  rw [text_rat, text_comma]
  simp only [List.append_assoc, List.cons_append, List.nil_append]
theorem showFloat_eq (d : List Char) (p : ℕ) : showFloat d p = "Float".toList ++ '(' :: (('\'' :: d ++ ['\'']) ++
    (comma ++ ("precision".toList ++ '=' :: showNat p) ++ [])) ++ [')'] := by
  unfold showFloat
  rw [text_float, text_prec]
  simp only [List.append_assoc, List.cons_append, List.nil_append]
theorem srepr_par (p : Par) : srepr (.par p) = showPar p := by simp only [srepr]
theorem srepr_int (n : ℤ) : srepr (.int n) = showInteger n := by simp only [srepr]
theorem srepr_rat (p q : ℤ) : srepr (.rat p q) = showRational p q := by simp only [srepr]
theorem srepr_float (d : List Char) (p : ℕ) : srepr (.float d p) = showFloat d p := by simp only [srepr]
theorem srepr_node (h : List Char) (a : SExpr) (as : List SExpr) :
    srepr (.node h (a :: as)) = h ++ '(' :: (srepr a ++ sreprTail as) ++ [')'] := by
  rw [srepr, sreprs]

mutual
/-- What `srepr` writes is in the language. -/
theorem written_srepr (e : SExpr) (h : Printable e) : Written (treeOf e) (srepr e) := by
  cases e with
  | par p =>
    rw [srepr_par, showPar_eq, treeOf]
    exact written_call name_parameter (written_str (.inr h.1)) (written_asm _ h.2)
  | int n =>
    rw [srepr_int, showInteger_eq, treeOf]
    exact written_call name_integer (written_int (showInt_text n)) .nil
  | rat p q =>
    rw [srepr_rat, showRational_eq, treeOf]
    exact written_call name_rational (written_int (showInt_text p)) (tail_cons (written_int (showInt_text q)) .nil)
  | float d p =>
    rw [srepr_float, showFloat_eq, treeOf]
    have hk : Written (.kwInt "precision".toList (showNat p)) ("precision".toList ++ '=' :: showNat p) := by
      simpa using Written.kwInt [] [] [] keyword_precision blank_nil blank_nil blank_nil (showNat_intText p)
    exact written_call name_float (written_str h) (tail_cons hk .nil)
  | const c => exact h.elim
  | node hd as =>
    rw [Printable] at h
    obtain ⟨hn, -, hne, hp⟩ := h
    cases as with
    | nil => exact absurd rfl hne
    | cons a as =>
      rw [PrintableAll] at hp
      rw [srepr_node, treeOf, treesOf]
      exact written_call hn (written_srepr a hp.1) (written_tail as hp.2)
theorem written_tail (as : List SExpr) (h : PrintableAll as) : WrittenTail (treesOf as) (sreprTail as) := by
  cases as with
  | nil => exact .nil
  | cons a as =>
    rw [PrintableAll] at h
    rw [treesOf, sreprTail]
    exact tail_cons (written_srepr a h.1) (written_tail as h.2)
end

theorem treeOf_isCall (e : SExpr) (h : Printable e) : IsCall (treeOf e) := by
  cases e with
  | const c => exact h.elim
  | _ => rw [treeOf]; trivial

theorem program_srepr (e : SExpr) (h : Printable e) : program (srepr e) = some (treeOf e) :=
  (program_iff _ _).2 ⟨_, [], by simp, written_srepr e h, treeOf_isCall e h, blank_nil⟩

/-! ## Evaluation -/

theorem evalAsm_map (as : List (List Char × Bool)) : evalAsm (as.map fun a => PTree.kwBool a.1 a.2) = .ok as := by
  induction as with
  | nil => rfl
  | cons a as ih =>
    rw [List.map_cons, evalAsm, ih]
    rfl

mutual
/-- The expression with the values of the parameters not yet set. -/
def unset : SExpr → SExpr
  | .par p => .par { p with value := 0 }
  | .node h as => .node h (unsetAll as)
  | .int n => .int n
  | .rat p q => .rat p q
  | .float d p => .float d p
  | .const c => .const c
def unsetAll : List SExpr → List SExpr
  | [] => []
  | a :: as => unset a :: unsetAll as
end

mutual
theorem evalTree_treeOf (e : SExpr) (h : Printable e) : evalTree (treeOf e) = .ok (unset e) := by
  cases e with
  | par p =>
    rw [treeOf, evalTree, if_pos rfl, evalParameter, evalAsm_map, unset]
    rfl
  | int n => rw [treeOf, evalTree, if_neg (by decide), if_pos rfl, evalInteger, readInt_showInt, unset]
  | rat p q =>
    rw [treeOf, evalTree, if_neg (by decide), if_neg (by decide), if_pos rfl, evalRational, readInt_showInt, readInt_showInt, unset]
  | float d p =>
    rw [treeOf, evalTree, if_neg (by decide), if_neg (by decide), if_neg (by decide), if_pos rfl, evalFloat, if_pos rfl,
      readNat_showNat, unset]
  | const c => exact h.elim
  | node hd as =>
    rw [Printable] at h
    obtain ⟨-, hr, -, hp⟩ := h
    simp only [reserved, List.mem_cons, List.not_mem_nil, or_false, not_or] at hr
    rw [treeOf, evalTree, if_neg hr.1, if_neg hr.2.1, if_neg hr.2.2.1, if_neg hr.2.2.2, evalTrees_treesOf as hp, unset]
    rfl
theorem evalTrees_treesOf (as : List SExpr) (h : PrintableAll as) : evalTrees (treesOf as) = .ok (unsetAll as) := by
  cases as with
  | nil => rw [treesOf, evalTrees, unsetAll]
  | cons a as =>
    rw [PrintableAll] at h
    rw [treesOf, evalTrees, evalTree_treeOf a h.1, evalTrees_treesOf as h.2, unsetAll]
    rfl
end

mutual
theorem mem_freePars (p : Par) (e : SExpr) : p ∈ freePars e ↔ ParIn p e := by
  cases e with
  | par q =>
    rw [freePars, List.mem_singleton]
    exact ⟨fun h => h ▸ .here, fun h => by cases h; rfl⟩
  | node hd as =>
    rw [freePars, mem_freeParsList p as]
    exact ⟨fun h => .node h, fun h => by cases h; assumption⟩
  | int n => exact ⟨fun h => by simp [freePars] at h, fun h => by cases h⟩
  | rat p q => exact ⟨fun h => by simp [freePars] at h, fun h => by cases h⟩
  | float d p => exact ⟨fun h => by simp [freePars] at h, fun h => by cases h⟩
  | const c => exact ⟨fun h => by simp [freePars] at h, fun h => by cases h⟩
theorem mem_freeParsList (p : Par) (as : List SExpr) : p ∈ freeParsList as ↔ ParInAny p as := by
  cases as with
  | nil =>
    exact ⟨fun h => by simp [freeParsList] at h, fun h => by cases h⟩
  | cons a as =>
    rw [freeParsList, List.mem_append, mem_freePars p a, mem_freeParsList p as]
    exact ⟨fun h => h.elim .head .tail, fun h => by cases h with
      | head h => exact .inl h
      | tail h => exact .inr h⟩
end

mutual
theorem setValues_unset (vals : PyDict (List Char) ℚ) (e : SExpr) (h : ∀ p, ParIn p e → vals.get? p.name = some p.value) :
    setValues vals (unset e) = .ok e := by
  cases e with
  | par p => rw [unset, setValues, h p .here]
  | node hd as =>
    rw [unset, setValues, setValuesList_unset vals as fun p hp => h p (.node hp)]
    rfl
  | int n => rw [unset, setValues]
  | rat p q => rw [unset, setValues]
  | float d p => rw [unset, setValues]
  | const c => rw [unset, setValues]
theorem setValuesList_unset (vals : PyDict (List Char) ℚ) (as : List SExpr)
    (h : ∀ p, ParInAny p as → vals.get? p.name = some p.value) : setValuesList vals (unsetAll as) = .ok as := by
  cases as with
  | nil => rw [unsetAll, setValuesList]
  | cons a as =>
    rw [unsetAll, setValuesList, setValues_unset vals a fun p hp => h p (.head hp),
      setValuesList_unset vals as fun p hp => h p (.tail hp)]
    rfl
end

theorem round_trip (ord : List Par → List Par) (hord : ∀ l x, x ∈ ord l ↔ x ∈ l) (e : SExpr) (hp : Printable e) (h1 : OneValue e) :
    deserialize (serialize ord e) = .ok e := by
  show (match program (srepr e) with
    | some t => _
    | none => _) = _
  rw [program_srepr e hp]
  simp only
  rw [evalTree_treeOf e hp, ok_bind]
  refine setValues_unset _ e fun p hpo => ?_
  refine PyDict.get?_ofItems_of_consistent _ _ _ (List.mem_map.2 ⟨p, (hord _ _).2 ((mem_freePars p e).2 hpo), rfl⟩) ?_
  intro w hw
  obtain ⟨q, hq, he⟩ := List.mem_map.1 hw
  have hqo := (mem_freePars q e).1 ((hord _ _).1 hq)
  rw [Prod.mk.injEq] at he
  rw [← he.2]
  exact h1 q p hqo hpo he.1

/-! ## Constants -/

/-- What follows an argument: nothing, a comma or a closing bracket. -/
def Follow (r : List Char) : Prop := r = [] ∨ (∃ r', r = ',' :: r') ∨ ∃ r', r = ')' :: r'

theorem follow_head {r : List Char} (h : Follow r) : ∀ c cs, r = c :: cs → c = ',' ∨ c = ')' := by
  rintro c cs rfl
  rcases h with h | ⟨r', h⟩ | ⟨r', h⟩
  · cases h
  · cases h; exact .inl rfl
  · cases h; exact .inr rfl

theorem follow_lit {r : List Char} (h : Follow r) {c : Char} (h₁ : c ≠ ',') (h₂ : c ≠ ')') : lit [c] r = none := by
  rcases h with rfl | ⟨r', rfl⟩ | ⟨r', rfl⟩
  · exact lit_end blank_nil
  · exact lit_other (w := []) r' blank_nil (by decide) h₁
  · exact lit_other (w := []) r' blank_nil (by decide) h₂

theorem follow_noDigit {r : List Char} (h : Follow r) : NoDigit r := by
  intro c cs e
  rcases follow_head h c cs e with rfl | rfl <;> decide

theorem follow_tail (as : List SExpr) {r : List Char} (h : Follow r) : Follow (sreprTail as ++ r) := by
  cases as with
  | nil => rw [sreprTail, List.nil_append]; exact h
  | cons a as =>
    rw [sreprTail]
    exact .inr (.inl ⟨_, rfl⟩)

/-- A name alone is not an argument. -/
theorem pArg_name {c r : List Char} (hc : Name c) (hr : Follow r) (f : ℕ) : pExpr f (c ++ r) = none ∧ pArg f (c ++ r) = none := by
  have hE : ∀ f, pExpr f (c ++ r) = none := by
    intro f
    cases f with
    | zero => rw [pExpr]
    | succ f =>
      have hid : pId (c ++ r) = some (c, r) := by
        have := pId_append (w := []) (r := r) blank_nil hc fun d ds e => by rcases follow_head hr d ds e with rfl | rfl <;> decide
        simpa using this
      rw [pExpr, hid]
      simp only
      rw [follow_lit hr (by decide) (by decide)]
  refine ⟨hE f, ?_⟩
  cases f with
  | zero => rw [pArg]
  | succ f =>
    have hv : pValue (c ++ r) = none := by
      have hp : pPair (c ++ r) = none := by
        have := pPair_name (w₁ := []) (rest := r) hc blank_nil
          (fun d ds e => by rcases follow_head hr d ds e with rfl | rfl <;> decide) (follow_lit hr (by decide) (by decide))
        simpa using this
      obtain ⟨d, ds, rfl, hd, -⟩ := hc
      have := value_letter (w := []) (s := ds ++ r) blank_nil hd
      rw [List.nil_append] at this
      rw [List.cons_append] at hp ⊢
      rw [this, hp]
    rw [pArg, hv, hE f]

theorem skipWs_space (s : List Char) : skipWs (' ' :: s) = skipWs s := rfl

/-- A space in front of an argument changes nothing. -/
theorem pExpr_space (f : ℕ) (s : List Char) : pExpr f (' ' :: s) = pExpr f s := by
  cases f with
  | zero => rw [pExpr, pExpr]
  | succ f =>
    have : pId (' ' :: s) = pId s := by unfold pId; rw [skipWs_space]
    rw [pExpr, pExpr, this]

theorem pArg_space (f : ℕ) (s : List Char) : pArg f (' ' :: s) = pArg f s := by
  cases f with
  | zero => rw [pArg, pArg]
  | succ f =>
    have : pValue (' ' :: s) = pValue s := by
      unfold pValue pFloatStr pStr pPair pInt pQuoted pParam
      rw [skipWs_space]
    rw [pArg, pArg, this, pExpr_space]

mutual
theorem reject (e : SExpr) (h : PrintableC e) (hn : ¬ Printable e) (f : ℕ) (r : List Char) (hr : Follow r)
    (hf : 2 * (srepr e).length + 1 ≤ f) : pExpr f (srepr e ++ r) = none ∧ pArg f (srepr e ++ r) = none := by
  cases e with
  | par p => exact absurd h hn
  | int n => exact absurd h hn
  | rat p q => exact absurd h hn
  | float d p => exact absurd h hn
  | const c =>
    have : srepr (.const c) = c := by simp only [srepr]
    rw [this]
    exact pArg_name h hr f
  | node hd as =>
    rw [PrintableC] at h
    rw [Printable] at hn
    obtain ⟨hname, hres, hne, hall⟩ := h
    have hn' : ¬ PrintableAll as := fun h => hn ⟨hname, hres, hne, h⟩
    cases as with
    | nil => exact absurd rfl hne
    | cons a as =>
      rw [PrintableAllC] at hall
      rw [PrintableAll] at hn'
      rw [srepr_node] at hf ⊢
      have hlen : 2 * ((srepr a).length + (sreprTail as).length) + 5 ≤ f := by simp at hf; omega
      have e₁ : hd ++ '(' :: (srepr a ++ sreprTail as) ++ [')'] ++ r = hd ++ '(' :: (srepr a ++ (sreprTail as ++ ')' :: r)) := by simp
      rw [e₁]
      have hE : ∀ f, 2 * ((srepr a).length + (sreprTail as).length) + 4 ≤ f →
          pExpr f (hd ++ '(' :: (srepr a ++ (sreprTail as ++ ')' :: r))) = none := by
        intro f hf
        cases f with
        | zero => omega
        | succ f =>
          have hid : pId (hd ++ '(' :: (srepr a ++ (sreprTail as ++ ')' :: r))) = some (hd, '(' :: (srepr a ++ (sreprTail as ++ ')' :: r))) := by
            have := pId_append (w := []) (r := '(' :: (srepr a ++ (sreprTail as ++ ')' :: r))) blank_nil hname fun d ds e => by
              cases e; decide
            simpa using this
          have hl : lit ['('] ('(' :: (srepr a ++ (sreprTail as ++ ')' :: r))) = some (srepr a ++ (sreprTail as ++ ')' :: r)) :=
            lit_append (l := ['(']) (w := []) _ blank_nil (noWs_cons (by decide)) (by simp)
          rw [pExpr, hid]
          simp only
          rw [hl]
          simp only
          by_cases ha : Printable a
          · have ht : ¬ PrintableAll as := fun h => hn' ⟨ha, h⟩
            have hA := (parse_complete f).2.1 (treeOf a) (srepr a) (sreprTail as ++ ')' :: r) (written_srepr a ha)
              (follow_noDigit (follow_tail as (.inr (.inr ⟨r, rfl⟩)))) (by omega)
            rw [hA]
            simp only
            rw [rejectTail as hall.2 ht f r (by omega)]
          · rw [(reject a hall.1 ha f (sreprTail as ++ ')' :: r) (follow_tail as (.inr (.inr ⟨r, rfl⟩))) (by omega)).2]
      refine ⟨hE f (by omega), ?_⟩
      cases f with
      | zero => omega
      | succ f =>
        have hv : pValue (hd ++ '(' :: (srepr a ++ (sreprTail as ++ ')' :: r))) = none := by
          have hp : pPair (hd ++ '(' :: (srepr a ++ (sreprTail as ++ ')' :: r))) = none := by
            have := pPair_call (w₁ := []) (w₂ := []) (s := srepr a ++ (sreprTail as ++ ')' :: r)) hname blank_nil blank_nil
            simpa using this
          obtain ⟨d, ds, rfl, hd, -⟩ := hname
          have := value_letter (w := []) (s := ds ++ '(' :: (srepr a ++ (sreprTail as ++ ')' :: r))) blank_nil hd
          rw [List.nil_append] at this
          rw [List.cons_append] at hp ⊢
          rw [this, hp]
        rw [pArg, hv]
        exact hE f (by omega)
theorem rejectTail (as : List SExpr) (h : PrintableAllC as) (hn : ¬ PrintableAll as) (f : ℕ) (r : List Char)
    (hf : 2 * (sreprTail as).length + 1 ≤ f) : lit [')'] (pArgs f (sreprTail as ++ ')' :: r)).2 = none := by
  cases as with
  | nil => exact absurd trivial hn
  | cons a as =>
    rw [PrintableAllC] at h
    rw [PrintableAll] at hn
    rw [sreprTail] at hf ⊢
    have hlen : 2 * ((srepr a).length + (sreprTail as).length) + 5 ≤ f := by simp [comma] at hf; omega
    have e₁ : comma ++ srepr a ++ sreprTail as ++ ')' :: r = ',' :: ' ' :: (srepr a ++ (sreprTail as ++ ')' :: r)) := by simp [comma]
    have hl : lit [','] (',' :: ' ' :: (srepr a ++ (sreprTail as ++ ')' :: r))) = some (' ' :: (srepr a ++ (sreprTail as ++ ')' :: r))) :=
      lit_append (l := [',']) (w := []) _ blank_nil (noWs_cons (by decide)) (by simp)
    rw [e₁]
    cases f with
    | zero => omega
    | succ f =>
      rw [pArgs, hl]
      simp only
      by_cases ha : Printable a
      · have ht : ¬ PrintableAll as := fun h => hn ⟨ha, h⟩
        have hA := (parse_complete f).2.1 (treeOf a) (' ' :: srepr a) (sreprTail as ++ ')' :: r) (written_space (written_srepr a ha))
          (follow_noDigit (follow_tail as (.inr (.inr ⟨r, rfl⟩)))) (by simp; omega)
        rw [List.cons_append] at hA
        rw [hA]
        exact rejectTail as h.2 ht f r (by omega)
      · have hA : pArg f (' ' :: (srepr a ++ (sreprTail as ++ ')' :: r))) = none := by
          rw [pArg_space]
          exact (reject a h.1 ha f (sreprTail as ++ ')' :: r) (follow_tail as (.inr (.inr ⟨r, rfl⟩))) (by omega)).2
        rw [hA]
        exact lit_other (w := []) _ blank_nil (by decide) (by decide)
end

end Qadence.Serial
