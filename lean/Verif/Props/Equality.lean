import Verif.Proofs.Equality
import Verif.Proofs.GateSem
import Verif.Props.Padding
import Verif.Props.DecomposeCases

/-!
# C20: equality of blocks
-/

namespace Qadence

open Spec

variable {n : ℕ}

/-! ## Expressions -/

/-- Expressions which are equal in both directions are identical. -/
theorem expr_pyEq_symm_eq (a : Expr) : ∀ b, a.pyEq b = true → b.pyEq a = true → a = b := by
  induction a with
  | num x y => intro b h _; cases b <;> simp_all [Expr.pyEq]
  | pi => intro b h _; cases b <;> simp_all [Expr.pyEq]
  | var x => intro b h h'; cases b <;> simp_all [Expr.pyEq]
  | add a b iha ihb => intro c h h'; cases c <;> simp_all [Expr.pyEq]; exact ⟨iha _ h.1 h'.1, ihb _ h.2 h'.2⟩
  | mul a b iha ihb => intro c h h'; cases c <;> simp_all [Expr.pyEq]; exact ⟨iha _ h.1 h'.1, ihb _ h.2 h'.2⟩
  | pow a k ih => intro c h h'; cases c <;> simp_all [Expr.pyEq]; exact ih _ h.1 h'
  | inv a ih => intro c h h'; cases c <;> simp_all [Expr.pyEq]; exact ih _ h h'
  | conj a ih => intro c h h'; cases c <;> simp_all [Expr.pyEq]; exact ih _ h h'
  | fn f a ih => intro c h h'; cases c <;> simp_all [Expr.pyEq]; exact ih _ h.2 h'

theorem expr_pyEq_refl (a : Expr) : a.pyEq a = true := by
  induction a <;> simp_all [Expr.pyEq]

theorem number_symbols {a : Expr} (h : a.isNumber = true) : a.freeSymbols = [] := by
  induction a <;> simp_all [Expr.isNumber, Expr.freeSymbols]

/-- A number or a parameter. -/
def PlainExpr (e : Expr) : Prop := e.isNumber = true ∨ ∃ x, e = .var x

theorem number_pyEq (a : Expr) : ∀ b, a.isNumber = true → a.pyEq b = true → a = b := by
  induction a with
  | num x y => intro b h h'; cases b <;> simp_all [Expr.pyEq]
  | pi => intro b h h'; cases b <;> simp_all [Expr.pyEq]
  | var x => intro b h h'; simp [Expr.isNumber] at h
  | add a b iha ihb => intro c h h'; cases c <;> simp_all [Expr.pyEq, Expr.isNumber]; exact ⟨iha _ h'.1, ihb _ h'.2⟩
  | mul a b iha ihb => intro c h h'; cases c <;> simp_all [Expr.pyEq, Expr.isNumber]; exact ⟨iha _ h'.1, ihb _ h'.2⟩
  | pow a k ih => intro c h h'; cases c <;> simp_all [Expr.pyEq, Expr.isNumber]; exact ih _ h'.1
  | inv a ih => intro c h h'; cases c <;> simp_all [Expr.pyEq, Expr.isNumber]; exact ih _ h'
  | conj a ih => intro c h h'; cases c <;> simp_all [Expr.pyEq, Expr.isNumber]; exact ih _ h'
  | fn f a ih => intro c h h'; cases c <;> simp_all [Expr.pyEq, Expr.isNumber]; exact ih _ h'.2

/-- Numbers and parameters are compared correctly. -/
theorem plain_pyEq {a b : Expr} (ha : PlainExpr a) (hb : PlainExpr b) : a.pyEq b = b.pyEq a := by
  have key : ∀ {a b : Expr}, PlainExpr a → PlainExpr b → a.pyEq b = true → b.pyEq a = true := by
    intro a b ha hb h
    rcases ha with ha | ⟨x, rfl⟩
    · rw [number_pyEq a b ha h]; exact expr_pyEq_refl b
    · rcases hb with hb | ⟨y, rfl⟩
      · have := number_symbols hb
        cases b <;> simp_all [Expr.pyEq, Expr.isNumber]
      · simp_all [Expr.pyEq]
  by_cases h : a.pyEq b = true
  · rw [h, key ha hb h]
  · by_cases h' : b.pyEq a = true
    · exact absurd (key hb ha h') h
    · rw [Bool.not_eq_true] at h h'; rw [h, h']

/-! ## Gates -/

/-- Gates whose comparison takes everything into account. -/
def FullGate : Gate → Prop
  | .fixed g _ => ∀ s, g ≠ .N s
  | .rot _ _ _ => True
  | .swap _ _ => True
  | .control _ _ g => FullGate g
  | _ => False

/-- No `U` gate, also not controlled. -/
def NoU : Gate → Prop
  | .u _ _ _ _ => False
  | .control _ _ g => NoU g
  | _ => True

theorem FullGate.noU {g : Gate} (h : FullGate g) : NoU g := by
  induction g with
  | control c cs g ih => exact ih h
  | u q φ θ ω => exact absurd h (by simp [FullGate])
  | _ => trivial

/-- The expressions of a gate. -/
def gateExprs : Gate → List Expr
  | .rot _ _ θ => [θ]
  | .u _ φ θ ω => [φ, θ, ω]
  | .control _ _ g => gateExprs g
  | _ => []

/-- sympy's simplification only returns true for expressions with the same value. -/
def SimpSound (simp : Expr → Expr → Bool) : Prop := ∀ a b, simp a b = true → SameValue a b

variable {simp : Expr → Expr → Bool}

theorem derived_irrefl (c d : CtrlClass) (h : c.derived d = true) : c ≠ d ∧ d.derived c = false := by
  cases c <;> cases d <;> simp_all [CtrlClass.derived]

theorem sameType_comm (a b : Gate) : a.sameType b = b.sameType a := by
  cases a with
  | fixed g q =>
    cases b with
    | fixed g' q' => cases g <;> cases g' <;> simp [Gate.sameType, eq_comm]
    | _ => cases g <;> simp [Gate.sameType]
  | rot g q θ =>
    cases b with
    | fixed g' q' => cases g' <;> simp [Gate.sameType]
    | rot g' q' θ' => exact BEq.comm
    | _ => simp [Gate.sameType]
  | control c cs g =>
    cases b with
    | fixed g' q' => cases g' <;> simp [Gate.sameType]
    | control c' cs' g' => exact BEq.comm
    | _ => simp [Gate.sameType]
  | _ =>
    cases b with
    | fixed g' q' => cases g' <;> simp [Gate.sameType]
    | _ => simp [Gate.sameType]

theorem subType_not {a b : Gate} (h : a.subType b = true) : b.sameType a = false ∧ b.subType a = false := by
  cases a with
  | fixed g q =>
    cases b with
    | proj ket bra qs => cases g <;> simp_all [Gate.subType, Gate.sameType]
    | _ => cases g <;> simp [Gate.subType] at h
  | control c cs g =>
    cases b with
    | control c' cs' g' =>
      obtain ⟨h1, h2⟩ := derived_irrefl c c' h
      refine ⟨?_, h2⟩
      simp only [Gate.sameType, beq_eq_false_iff_ne]
      exact h1.symm
    | _ => simp [Gate.subType] at h
  | _ => simp [Gate.subType] at h

/-- Python's rule about subclasses makes the comparison of gates of different types return `False`. -/
theorem gateEq_eq (a b : Gate) : gateEq simp a b = if a.sameType b then gateDunderEq simp a b else .ok false := by
  have hsymm := sameType_comm a b
  rw [gateEq]
  by_cases h : b.subType a = true
  · rw [if_pos h]
    obtain ⟨h1, h2⟩ := subType_not h
    unfold gateDunderEq
    rw [h1, h2]
    simp
  · rw [if_neg h]
    by_cases hs : a.sameType b = true
    · rw [if_pos hs]
    · rw [if_neg hs]
      unfold gateDunderEq
      rw [if_neg]
      rw [← hsymm]
      simp_all

theorem gateEq_sound (hs : SimpSound simp) (a : Gate) : ∀ b, FullGate a → (∀ e ∈ gateExprs a, ∀ e' ∈ gateExprs b, e.pyEq e' = e'.pyEq e) →
    gateEq simp a b = .ok true → SameGate SameValue a b := by
  have hv : ∀ e e', e.pyEq e' = e'.pyEq e → Expr.equals simp e e' = true → SameValue e e' := by
    intro e e' h1 h2
    rw [Expr.equals, Bool.or_eq_true] at h2
    rcases h2 with h2 | h2
    · rw [expr_pyEq_symm_eq e e' h2 (h1 ▸ h2)]; exact fun _ => rfl
    · exact hs _ _ h2
  induction a with
  | fixed g q =>
    intro b hf _ h
    rw [gateEq_eq] at h
    cases b with
    | fixed g' q' =>
      have hg : g = g' ∧ q = q' := by
        cases g <;> cases g' <;> simp_all [FullGate, Gate.sameType, gateDunderEq, Gate.supp, Gate.subType]
      rw [hg.1, hg.2]
      exact .fixed _ _
    | _ => cases g <;> simp [Gate.sameType] at h
  | rot g q θ =>
    intro b hf he h
    rw [gateEq_eq] at h
    cases b with
    | rot g' q' θ' =>
      by_cases hg : g = g' ∧ q = q'
      · obtain ⟨rfl, rfl⟩ := hg
        simp only [Gate.sameType, beq_self_eq_true, if_true, gateDunderEq, Bool.true_or, Gate.supp] at h
        injection h with h
        exact .rot _ _ (hv _ _ (he θ (by simp [gateExprs]) θ' (by simp [gateExprs])) h)
      · exfalso
        by_cases h1 : g = g'
        · subst h1
          have : q ≠ q' := fun e => hg ⟨rfl, e⟩
          simp [Gate.sameType, gateDunderEq, Gate.supp, this] at h
        · simp [Gate.sameType, h1] at h
    | _ => simp [Gate.sameType] at h
  | u q φ θ ω => intro b hf; exact absurd hf (by simp [FullGate])
  | swap q₁ q₂ =>
    intro b hf he h
    rw [gateEq_eq] at h
    cases b with
    | swap q₁' q₂' =>
      by_cases hg : q₁ = q₁' ∧ q₂ = q₂'
      · rw [hg.1, hg.2]; exact .swap _ _
      · simp [Gate.sameType, gateDunderEq, Gate.supp, hg] at h
    | _ => simp [Gate.sameType] at h
  | proj ket bra qs => intro b hf; exact absurd hf (by simp [FullGate])
  | matrix rows qs => intro b hf; exact absurd hf (by simp [FullGate])
  | control c cs g ih =>
    intro b hf he h
    rw [gateEq_eq] at h
    cases b with
    | control c' cs' g' =>
      by_cases hc : c = c' ∧ cs ++ g.supp = cs' ++ g'.supp
      · obtain ⟨rfl, hsupp⟩ := hc
        simp only [Gate.sameType, beq_self_eq_true, if_true, gateDunderEq, Bool.true_or, Gate.supp, hsupp] at h
        have hg := ih g' hf he h
        have hsg : g.supp = g'.supp := by
          clear ih h he hf hsupp
          induction hg with
          | control c cs _ ih => simp [Gate.supp, ih]
          | _ => rfl
        rw [hsg] at hsupp
        rw [List.append_cancel_right hsupp]
        exact .control _ _ hg
      · exfalso
        by_cases h1 : c = c'
        · subst h1
          have : ¬ cs ++ g.supp = cs' ++ g'.supp := fun e => hc ⟨rfl, e⟩
          simp [Gate.sameType, gateDunderEq, Gate.supp, this] at h
        · simp [Gate.sameType, h1] at h
    | _ => simp [Gate.sameType] at h

theorem gateEq_total (a : Gate) : ∀ b, NoU a → ∃ r, gateEq simp a b = .ok r := by
  induction a with
  | fixed g q =>
    intro b hf
    rw [gateEq_eq]
    cases b with
    | fixed g' q' =>
      by_cases h : (Gate.fixed g q).sameType (.fixed g' q') = true
      · rw [if_pos h]
        unfold gateDunderEq
        split
        · split
          · exact ⟨true, rfl⟩
          · exact ⟨false, rfl⟩
        · exact ⟨false, rfl⟩
      · exact ⟨false, if_neg h⟩
    | _ => cases g <;> exact ⟨false, by simp [Gate.sameType]⟩
  | rot g q θ =>
    intro b hf
    rw [gateEq_eq]
    cases b with
    | rot g' q' θ' =>
      by_cases h : (Gate.rot g q θ).sameType (.rot g' q' θ') = true
      · rw [if_pos h]
        unfold gateDunderEq
        split
        · split
          · exact ⟨_, rfl⟩
          · exact ⟨false, rfl⟩
        · exact ⟨false, rfl⟩
      · exact ⟨false, if_neg h⟩
    | _ => exact ⟨false, by simp [Gate.sameType]⟩
  | u q φ θ ω => intro b hf; exact absurd hf (by simp [NoU])
  | swap q₁ q₂ =>
    intro b hf
    rw [gateEq_eq]
    cases b with
    | swap q₁' q₂' =>
      rw [show (Gate.swap q₁ q₂).sameType (.swap q₁' q₂') = true from rfl, if_pos rfl]
      unfold gateDunderEq
      split
      · split
        · exact ⟨_, rfl⟩
        · exact ⟨false, rfl⟩
      · exact ⟨false, rfl⟩
    | _ => exact ⟨false, by simp [Gate.sameType]⟩
  | proj ket bra qs =>
    intro b hf
    rw [gateEq_eq]
    cases b with
    | proj ket' bra' qs' =>
      rw [show (Gate.proj ket bra qs).sameType (.proj ket' bra' qs') = true from rfl, if_pos rfl]
      unfold gateDunderEq
      split
      · split
        · exact ⟨_, rfl⟩
        · exact ⟨false, rfl⟩
      · exact ⟨false, rfl⟩
    | _ => exact ⟨false, by simp [Gate.sameType]⟩
  | matrix rows qs =>
    intro b hf
    rw [gateEq_eq]
    cases b with
    | matrix rows' qs' =>
      rw [show (Gate.matrix rows qs).sameType (.matrix rows' qs') = true from rfl, if_pos rfl]
      unfold gateDunderEq
      split
      · split
        · exact ⟨_, rfl⟩
        · exact ⟨false, rfl⟩
      · exact ⟨false, rfl⟩
    | _ => exact ⟨false, by simp [Gate.sameType]⟩
  | control c cs g ih =>
    intro b hf
    rw [gateEq_eq]
    cases b with
    | control c' cs' g' =>
      by_cases h : (Gate.control c cs g).sameType (.control c' cs' g') = true
      · rw [if_pos h]
        unfold gateDunderEq
        split
        · split
          · exact ih g' hf
          · exact ⟨false, rfl⟩
        · exact ⟨false, rfl⟩
      · exact ⟨false, if_neg h⟩
    | _ => exact ⟨false, by simp [Gate.sameType]⟩

theorem gateEq_refl (a : Gate) (hf : NoU a) : gateEq simp a a = .ok true := by
  induction a with
  | fixed g q => rw [gateEq_eq]; unfold gateDunderEq; cases g <;> simp [Gate.sameType]
  | rot g q θ => rw [gateEq_eq]; unfold gateDunderEq; simp [Gate.sameType, Expr.equals, expr_pyEq_refl]
  | u q φ θ ω => exact absurd hf (by simp [NoU])
  | swap q₁ q₂ => rw [gateEq_eq]; unfold gateDunderEq; simp [Gate.sameType]
  | proj ket bra qs => rw [gateEq_eq]; unfold gateDunderEq; simp [Gate.sameType]
  | matrix rows qs => rw [gateEq_eq]; unfold gateDunderEq; simp [Gate.sameType]
  | control c cs g ih => rw [gateEq_eq]; unfold gateDunderEq; simp [Gate.sameType, ih hf]

theorem sameGate_eq {g g' : Gate} (h : SameGate Eq g g') : g = g' := by
  induction h with
  | rot g q h => rw [h]
  | u q h1 h2 h3 => rw [h1, h2, h3]
  | control c cs _ ih => rw [ih]
  | _ => rfl

/-- Angles with the same value are found to be equal. -/
theorem gateEq_complete {g g' : Gate} (h : SameGate SameValue g g') (hf : NoU g)
    (hc : ∀ e ∈ gateExprs g, ∀ e' ∈ gateExprs g', SameValue e e' → Expr.equals simp e e' = true) : gateEq simp g g' = .ok true := by
  induction h with
  | fixed g q => exact gateEq_refl _ hf
  | rot g q h => rw [gateEq_eq]; unfold gateDunderEq; simp [Gate.sameType, Gate.supp, hc _ (by simp [gateExprs]) _ (by simp [gateExprs]) h]
  | u q _ _ _ => exact absurd hf (by simp [NoU])
  | swap a b => exact gateEq_refl _ hf
  | proj ket bra qs => exact gateEq_refl _ hf
  | matrix rows qs => exact gateEq_refl _ hf
  | @control c cs g g' h ih =>
    have hsg : g.supp = g'.supp := by
      clear ih hc hf
      induction h with
      | control c cs _ ih => simp [Gate.supp, ih]
      | _ => rfl
    rw [gateEq_eq]
    unfold gateDunderEq
    simp [Gate.sameType, Gate.supp, hsg, ih hf hc]

/-! ## Primitive blocks -/

/-- Gates whose comparison takes everything into account; evolutions are compared without their generators. -/
def FullPrim : Prim → Prop
  | .gate g _ => FullGate g
  | .hamEvo _ _ => False

/-- Primitive blocks which can be compared. -/
def NoUPrim : Prim → Prop
  | .gate g _ => NoU g
  | .hamEvo _ _ => True

/-- Expressions of a primitive block. -/
def primExprs : Prim → List Expr
  | .gate g _ => gateExprs g
  | .hamEvo _ t => [t]

/-- `e` is the angle of a gate or a scale factor in `a`. -/
def ExprIn (e : Expr) (a : Block Prim) : Prop :=
  (∃ l t, Occurs (.leaf l t) a ∧ e ∈ primExprs l) ∨ ∃ b t, Occurs (.scale b e t) a

variable {ord : List ℕ → List ℕ}

theorem samePrim_symm (l l' : Prim) (h : SamePrim SameValue l l') : SamePrim SameValue l' l := by
  cases h with
  | gate ν ν' h =>
    refine .gate _ _ ?_
    induction h with
    | fixed g q => exact .fixed _ _
    | rot g q h => exact .rot _ _ fun ρ => (h ρ).symm
    | u q h1 h2 h3 => exact .u _ (fun ρ => (h1 ρ).symm) (fun ρ => (h2 ρ).symm) fun ρ => (h3 ρ).symm
    | swap a b => exact .swap _ _
    | proj ket bra qs => exact .proj _ _ _
    | matrix rows qs => exact .matrix _ _
    | control c cs _ ih => exact .control _ _ ih
  | hamEvo gen h => exact .hamEvo _ fun ρ => (h ρ).symm

theorem samePrim_trans (l l' l'' : Prim) (h : SamePrim SameValue l l') (h' : SamePrim SameValue l' l'') : SamePrim SameValue l l'' := by
  cases h with
  | gate ν ν' h =>
    cases h' with
    | gate _ ν'' h' =>
      refine .gate _ _ ?_
      rename_i g g' g''
      clear ν ν' ν''
      induction h generalizing g'' with
      | fixed g q => exact h'
      | rot g q h => cases h' with | rot _ _ h' => exact .rot _ _ fun ρ => (h ρ).trans (h' ρ)
      | u q h1 h2 h3 => cases h' with | u _ e1 e2 e3 => exact .u _ (fun ρ => (h1 ρ).trans (e1 ρ)) (fun ρ => (h2 ρ).trans (e2 ρ)) fun ρ => (h3 ρ).trans (e3 ρ)
      | swap a b => exact h'
      | proj ket bra qs => exact h'
      | matrix rows qs => exact h'
      | control c cs _ ih => cases h' with | control _ _ h' => exact .control _ _ (ih h')
  | hamEvo gen h => cases h' with | hamEvo _ h' => exact .hamEvo _ fun ρ => (h ρ).trans (h' ρ)

theorem samePrim_refl (l : Prim) : SamePrim SameValue l l := by
  cases l with
  | gate g ν =>
    refine .gate _ _ ?_
    induction g with
    | fixed g q => exact .fixed _ _
    | rot g q h => exact .rot _ _ fun ρ => rfl
    | u q _ _ _ => exact .u _ (fun ρ => rfl) (fun ρ => rfl) fun ρ => rfl
    | swap a b => exact .swap _ _
    | proj ket bra qs => exact .proj _ _ _
    | matrix rows qs => exact .matrix _ _
    | control c cs _ ih => exact .control _ _ ih
  | hamEvo gen t => exact .hamEvo _ fun ρ => rfl

theorem sameGate_den {g g' : Gate} (h : SameGate SameValue g g') (ρ : Env) : (gateDen ρ g : Oper n) = gateDen ρ g' := by
  induction h with
  | rot g q h => rw [gateDen, gateDen, h ρ]
  | u q h1 h2 h3 => rw [gateDen, gateDen, h1 ρ, h2 ρ, h3 ρ]
  | control c cs _ ih => rw [gateDen, gateDen, ih]
  | _ => rfl

theorem samePrim_den {l l' : Prim} (h : SamePrim SameValue l l') (ρ : Env) : (primDen ρ l : Oper n) = primDen ρ l' := by
  cases h with
  | gate ν ν' h => exact sameGate_den h ρ
  | hamEvo gen h => rw [primDen, primDen, h ρ]

theorem primEq_total {l l' : Prim} (hl : NoUPrim l) : ∃ r, primEq simp ord l l' = .ok r := by
  cases l <;> cases l' <;> first | exact gateEq_total _ _ hl | exact ⟨_, rfl⟩

/-! ## Blocks -/

/-- The blocks `a` and `b` can be compared faithfully: all gates take all their arguments into account, the comparison of no two
expressions depends on their order, no kron or sum has the same part twice, and no part of a kron or sum occurs only inside a
part of another one. -/
structure Faithful (a b : Block Prim) : Prop where
  gates : ∀ l t, Occurs (.leaf l t) a ∨ Occurs (.leaf l t) b → FullPrim l
  exprs : ∀ e e', ExprIn e a ∨ ExprIn e b → ExprIn e' a ∨ ExprIn e' b → e.pyEq e' = e'.pyEq e
  distinct : ∀ k bs t, Occurs (.comp k bs t) a ∨ Occurs (.comp k bs t) b → k ≠ .chain →
    bs.Pairwise fun p q => ¬ Same (SamePrim SameValue) Eq p q
  direct : ∀ k as bs t t', Occurs (.comp k as t) a ∨ Occurs (.comp k as t) b → Occurs (.comp k bs t') a ∨ Occurs (.comp k bs t') b →
    k ≠ .chain → ∀ p ∈ as, ∀ q ∈ bs, ∀ r, Inside r q → Same (SamePrim SameValue) Eq r p → ∃ q' ∈ bs, Same (SamePrim SameValue) Eq q' p

theorem Faithful.comparable {a b : Block Prim} (h : Faithful a b) (hs : SimpSound simp) :
    Comparable (primEq simp ord) (SamePrim SameValue) Eq (fun x => Occurs x a ∨ Occurs x b) where
  occurs := fun x y hy hx => hy.imp (occurs_trans hx) (occurs_trans hx)
  leaf := fun l l' t t' h1 h2 heq => by
    have hf := h.gates l t h1
    have hf' := h.gates l' t' h2
    have hin : ∀ l t, (Occurs (.leaf l t) a ∨ Occurs (.leaf l t) b) → ∀ e ∈ primExprs l, ExprIn e a ∨ ExprIn e b := fun l t h e he =>
      h.imp (fun h => .inl ⟨l, t, h, he⟩) fun h => .inl ⟨l, t, h, he⟩
    cases l with
    | gate g ν =>
      cases l' with
      | gate g' ν' => exact .gate _ _ (gateEq_sound hs g g' hf (fun e he e' he' => h.exprs e e' (hin _ _ h1 e he) (hin _ _ h2 e' he')) heq)
      | hamEvo gen t => exact absurd hf' (by simp [FullPrim])
    | hamEvo gen t => exact absurd hf (by simp [FullPrim])
  scale := fun p p' s s' t t' h1 h2 heq => by
    have e1 : ∀ p s t, (Occurs (.scale p s t) a ∨ Occurs (.scale p s t) b) → ExprIn s a ∨ ExprIn s b := fun p s t h =>
      h.imp (fun h => .inr ⟨p, t, h⟩) fun h => .inr ⟨p, t, h⟩
    exact expr_pyEq_symm_eq _ _ heq (h.exprs s s' (e1 _ _ _ h1) (e1 _ _ _ h2) ▸ heq)
  distinct := h.distinct
  direct := h.direct

/-- **C20** (partial: `Faithful` excludes the cases of the counterexamples below): blocks which compare equal are the same up to the
order of the parts of krons and sums, and denote the same operator for all values of the parameters. -/
theorem C20_equal_partial (ho : Block.SetOrder ord) (hs : SimpSound simp) {a b : Block Prim} (hf : Faithful a b)
    (hw : WellFormed (Prim.supp ord) b) (h : blockEq simp ord a b = .ok true) :
    Same (SamePrim SameValue) Eq a b ∧ ∀ (n : ℕ) (ρ : Env), sem (primSem n ρ ord ho) ρ a = sem (primSem n ρ ord ho) ρ b := by
  have hsame := pyEq_sound samePrim_symm samePrim_trans (fun _ _ h => h.symm) (fun _ _ _ h h' => h.trans h') (hf.comparable hs) _ a b
    le_rfl (.inl .self) (.inr .self) h
  exact ⟨hsame, fun n ρ => same_sem _ ρ (fun _ _ h => samePrim_den h ρ) (fun _ _ h => by rw [h]) a b hw hsame⟩

/-- **C20**: blocks which are the same up to the order of the parts of krons and sums compare equal; only `U` gates have to be
excluded. -/
theorem C20_same_equal {a b : Block Prim} (hu : ∀ l t, Occurs (.leaf l t) a ∨ Occurs (.leaf l t) b → NoUPrim l)
    (h : Same Eq Eq a b) : blockEq simp ord a b = .ok true := by
  obtain ⟨r, h1, h2⟩ := pyEq_complete (R := Eq) (E := Eq) (leq := primEq simp ord) (fun _ _ h => h.symm) (fun _ _ h => h.symm)
    (U := fun x => Occurs x a ∨ Occurs x b) (fun x y hy hx => hy.imp (occurs_trans hx) (occurs_trans hx))
    (fun l l' t t' h1 h2 => primEq_total (hu l t h1)) (fun l l' t t' h1 h2 he => by
      subst he
      cases l with
      | gate g ν => exact gateEq_refl g (hu _ t h1)
      | hamEvo gen t => simp [primEq, Expr.equals, expr_pyEq_refl])
    (fun e e' he => by rw [he]; exact expr_pyEq_refl _) _ a b le_rfl (.inl .self) (.inr .self)
  rw [blockEq, h1, h2 h]

/-- **C20**: comparison is reflexive for blocks without `U`. -/
theorem C20_reflexive {a : Block Prim} (hu : ∀ l t, Occurs (.leaf l t) a → NoUPrim l) : blockEq simp ord a a = .ok true :=
  C20_same_equal (fun l t h => hu l t (h.elim id id)) (same_refl (fun _ => rfl) (fun _ => rfl) a)

/-- **C20**: the comparison of blocks without `U` does not raise. -/
theorem C20_no_exception {a b : Block Prim} (hu : ∀ l t, Occurs (.leaf l t) a ∨ Occurs (.leaf l t) b → NoUPrim l) :
    ∃ r, blockEq simp ord a b = .ok r := by
  obtain ⟨r, h1, -⟩ := pyEq_complete (R := fun _ _ => False) (E := fun _ _ => False) (leq := primEq simp ord) (fun _ _ h => h.elim)
    (fun _ _ h => h.elim) (U := fun x => Occurs x a ∨ Occurs x b) (fun x y hy hx => hy.imp (occurs_trans hx) (occurs_trans hx))
    (fun l l' t t' h1 h2 => primEq_total (hu l t h1)) (fun l l' t t' h1 h2 he => he.elim) (fun e e' he => he.elim) _ a b le_rfl
    (.inl .self) (.inr .self)
  exact ⟨r, h1⟩

theorem FullPrim.noU {l : Prim} (h : FullPrim l) : NoUPrim l := by
  cases l with
  | gate g ν => exact FullGate.noU h
  | hamEvo gen t => trivial

/-- **C20** (partial: `Faithful`): comparison is symmetric, if sympy shows the equality of all angles in the blocks which have the
same value. -/
theorem C20_symmetric_partial (hs : SimpSound simp) {a b : Block Prim} (hf : Faithful a b)
    (hc : ∀ e e', ExprIn e a ∨ ExprIn e b → ExprIn e' a ∨ ExprIn e' b → SameValue e e' → Expr.equals simp e e' = true) :
    blockEq simp ord a b = blockEq simp ord b a := by
  have hu : ∀ l t, Occurs (.leaf l t) a ∨ Occurs (.leaf l t) b → NoUPrim l := fun l t h => (hf.gates l t h).noU
  have key : ∀ x y : Block Prim, (Occurs x a ∨ Occurs x b) → (Occurs y a ∨ Occurs y b) →
      ∃ r, Block.pyEq (primEq simp ord) x y = .ok r ∧ (Same (SamePrim SameValue) Eq x y → r = true) := fun x y hx hy =>
    pyEq_complete (leq := primEq simp ord) samePrim_symm (fun _ _ h => h.symm)
      (U := fun x => Occurs x a ∨ Occurs x b) (fun x y hy hx => hy.imp (occurs_trans hx) (occurs_trans hx))
      (fun l l' t t' h1 h2 => primEq_total (hu l t h1)) (fun l l' t t' h1 h2 he => by
        have hin : ∀ l t, (Occurs (.leaf l t) a ∨ Occurs (.leaf l t) b) → ∀ e ∈ primExprs l, ExprIn e a ∨ ExprIn e b := fun l t h e he =>
          h.imp (fun h => .inl ⟨l, t, h, he⟩) fun h => .inl ⟨l, t, h, he⟩
        cases he with
        | gate ν ν' hg =>
          exact gateEq_complete hg (hu _ t h1) fun e he e' he' hv => hc e e' (hin _ _ h1 e he) (hin _ _ h2 e' he') hv
        | hamEvo gen _ => exact absurd (hf.gates _ _ h1) (by simp [FullPrim]))
      (fun e e' he => by rw [he]; exact expr_pyEq_refl _) _ x y le_rfl hx hy
  obtain ⟨r1, e1, s1⟩ := key a b (.inl .self) (.inr .self)
  obtain ⟨r2, e2, s2⟩ := key b a (.inr .self) (.inl .self)
  have hsound := fun (x y : Block Prim) (hx : Occurs x a ∨ Occurs x b) (hy : Occurs y a ∨ Occurs y b) =>
    pyEq_sound samePrim_symm samePrim_trans (fun _ _ h => h.symm) (fun _ _ _ h h' => h.trans h') (hf.comparable (ord := ord) hs) _ x y
      le_rfl hx hy
  rw [blockEq, blockEq, e1, e2]
  congr 1
  cases r1 with
  | true => exact (s2 (same_symm samePrim_symm (fun _ _ h => h.symm) _ _ (hsound a b (.inl .self) (.inr .self) e1))).symm
  | false =>
    cases r2 with
    | true => exact s1 (same_symm samePrim_symm (fun _ _ h => h.symm) _ _ (hsound b a (.inr .self) (.inl .self) e2))
    | false => rfl

end Qadence
