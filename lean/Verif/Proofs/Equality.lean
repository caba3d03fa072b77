import Mathlib.Tactic
import Mathlib.Data.List.Forall2
import Mathlib.Data.List.Perm.Basic
import Verif.Spec.Equality
import Verif.Model.Equality
import Verif.Proofs.BlockSem

/-!
# Lemmas about the comparison of blocks
-/

namespace Qadence

open Spec

variable {L : Type} {n : ℕ} {R : L → L → Prop} {E : Expr → Expr → Prop}

/-! ## The relation `Same` -/

theorem sameList_iff {as bs : List (Block L)} : SameList R E as bs ↔ List.Forall₂ (Same R E) as bs := by
  constructor
  · intro h
    induction as generalizing bs with
    | nil => cases h; exact .nil
    | cons a as ih => cases h with | cons h1 h2 => exact .cons h1 (ih h2)
  · intro h
    induction h with
    | nil => exact .nil
    | cons h1 _ ih => exact .cons h1 ih

theorem forall₂_map_mem {α β γ δ : Type*} {S : α → β → Prop} {T : β → α → Prop} {as : List α} {bs : List β}
    (h : ∀ a ∈ as, ∀ b, S a b → T b a) (hs : List.Forall₂ S as bs) : List.Forall₂ T bs as := by
  induction hs with
  | nil => exact .nil
  | cons h1 _ ih => exact .cons (h _ (by simp) _ h1) (ih fun a ha => h a (by simp [ha]))

theorem forall₂_trans_mem {α β γ : Type*} {S : α → β → Prop} {T : β → γ → Prop} {V : α → γ → Prop} {as : List α} {bs : List β}
    {cs : List γ} (h : ∀ a ∈ as, ∀ b c, S a b → T b c → V a c) (h1 : List.Forall₂ S as bs) (h2 : List.Forall₂ T bs cs) :
    List.Forall₂ V as cs := by
  induction h1 generalizing cs with
  | nil => cases h2; exact .nil
  | cons e1 _ ih =>
    cases h2 with
    | cons e2 e3 => exact .cons (h _ (by simp) _ _ e1 e2) (ih (fun a ha => h a (by simp [ha])) e3)

theorem same_refl (hR : ∀ l, R l l) (hE : ∀ e, E e e) (a : Block L) : Same R E a a := by
  induction a using Block.induction with
  | leaf l t => exact .leaf t t (hR l)
  | scale b s t ih => exact .scale t t ih (hE s)
  | comp k bs t ih =>
    have h : SameList R E bs bs := sameList_iff.2 (by
      clear t
      induction bs with
      | nil => exact .nil
      | cons b bs ih2 => exact .cons (ih b (by simp)) (ih2 fun c hc => ih c (by simp [hc])))
    cases k
    · exact .chain t h
    · exact .kron t h (List.Perm.refl _)
    · exact .add t h (List.Perm.refl _)

theorem same_symm (hR : ∀ l l', R l l' → R l' l) (hE : ∀ e e', E e e' → E e' e) (a : Block L) :
    ∀ b, Same R E a b → Same R E b a := by
  induction a using Block.induction with
  | leaf l t => intro b h; cases h with | leaf _ t' h => exact .leaf _ _ (hR _ _ h)
  | scale b s t ih => intro c h; cases h with | scale _ t' h1 h2 => exact .scale _ _ (ih _ h1) (hE _ _ h2)
  | comp k as t ih =>
    have key : ∀ bs cs, SameList R E as cs → cs.Perm bs → ∃ ds, SameList R E bs ds ∧ ds.Perm as := by
      intro bs cs h1 h2
      have h3 := forall₂_map_mem (γ := Unit) (δ := Unit) ih (sameList_iff.1 h1)
      obtain ⟨ds, h4, h5⟩ := List.perm_comp_forall₂ h2.symm h3
      exact ⟨ds, sameList_iff.2 h4, h5⟩
    intro b h
    cases h with
    | chain _ h => exact .chain _ (sameList_iff.2 (forall₂_map_mem (γ := Unit) (δ := Unit) ih (sameList_iff.1 h)))
    | kron _ h1 h2 => obtain ⟨ds, h3, h4⟩ := key _ _ h1 h2; exact .kron _ h3 h4
    | add _ h1 h2 => obtain ⟨ds, h3, h4⟩ := key _ _ h1 h2; exact .add _ h3 h4

theorem same_trans (hR : ∀ l l' l'', R l l' → R l' l'' → R l l'') (hE : ∀ e e' e'', E e e' → E e' e'' → E e e'') (a : Block L) :
    ∀ b c, Same R E a b → Same R E b c → Same R E a c := by
  induction a using Block.induction with
  | leaf l t => intro b c h h'; cases h with | leaf _ t' h => cases h' with | leaf _ t' h' => exact .leaf _ _ (hR _ _ _ h h')
  | scale b s t ih =>
    intro c d h h'
    cases h with | scale _ t' h1 h2 => cases h' with | scale _ t'' h3 h4 => exact .scale _ _ (ih _ _ h1 h3) (hE _ _ _ h2 h4)
  | comp k as t ih =>
    have key : ∀ bs cs ds es, SameList R E as cs → cs.Perm bs → SameList R E bs ds → ds.Perm es →
        ∃ fs, SameList R E as fs ∧ fs.Perm es := by
      intro bs cs ds es h1 h2 h3 h4
      obtain ⟨fs, h5, h6⟩ := List.perm_comp_forall₂ h2 (sameList_iff.1 h3)
      exact ⟨fs, sameList_iff.2 (forall₂_trans_mem ih (sameList_iff.1 h1) h5), h6.trans h4⟩
    intro b c h h'
    cases h with
    | chain _ h => cases h' with | chain _ h' => exact .chain _ (sameList_iff.2 (forall₂_trans_mem ih (sameList_iff.1 h) (sameList_iff.1 h')))
    | kron _ h1 h2 => cases h' with | kron _ h3 h4 => obtain ⟨fs, h5, h6⟩ := key _ _ _ _ h1 h2 h3 h4; exact .kron _ h5 h6
    | add _ h1 h2 => cases h' with | add _ h3 h4 => obtain ⟨fs, h5, h6⟩ := key _ _ _ _ h1 h2 h3 h4; exact .add _ h5 h6

theorem opProd_perm {l l' : List (Oper n)} (h : l.Perm l') (hc : l.Pairwise fun A B => A * B = B * A) : opProd l = opProd l' := by
  induction h with
  | nil => rfl
  | cons x _ ih => rw [opProd, opProd, ih (List.pairwise_cons.1 hc).2]
  | swap x y l =>
    simp only [List.pairwise_cons] at hc
    have := hc.1 x (by simp)
    rw [opProd, opProd, opProd, opProd, mul_assoc, mul_assoc, this]
  | trans h1 _ ih1 ih2 =>
    rw [ih1 hc]
    exact ih2 ((h1.pairwise_iff fun {a b} (e : a * b = b * a) => e.symm).1 hc)

/-- The same blocks denote the same operators. -/
theorem same_sem (S : LeafSem L n) (ρ : Env) (hR : ∀ l l', R l l' → S.den l = S.den l') (hE : ∀ e e', E e e' → eval ρ e = eval ρ e')
    (a : Block L) : ∀ b, WellFormed S.supp b → Same R E a b → sem S ρ a = sem S ρ b := by
  induction a using Block.induction with
  | leaf l t => intro b _ h; cases h with | leaf _ t' h => rw [sem_leaf, sem_leaf, hR _ _ h]
  | scale b s t ih =>
    intro c hw h
    cases h with | scale _ t' h1 h2 => rw [sem_scale, sem_scale, ih _ (wellFormed_scale.1 hw) h1, hE _ _ h2]
  | comp k as t ih =>
    have key : ∀ cs, (∀ c ∈ cs, WellFormed S.supp c) → SameList R E as cs → as.map (sem S ρ) = cs.map (sem S ρ) := by
      intro cs hw h
      rw [sameList_iff] at h
      clear t
      induction h with
      | nil => rfl
      | cons h1 _ ih2 =>
        rw [List.map_cons, List.map_cons, ih _ (by simp) _ (hw _ (by simp)) h1,
          ih2 (fun b hb => ih b (by simp [hb])) fun c hc => hw c (by simp [hc])]
    intro b hw h
    cases h with
    | chain _ h => rw [sem_chain, sem_chain, key _ (wellFormed_comp_parts hw) h]
    | @kron _ bs cs _ h1 h2 =>
      rw [sem_kron, sem_kron, key _ (fun c hc => wellFormed_comp_parts hw c (h2.mem_iff.1 hc)) h1]
      refine (opProd_perm (h2.symm.map _) ?_).symm
      rw [List.pairwise_map]
      exact (wellFormed_kron.1 hw).2.1.imp fun h => sem_commute_of_disjoint S ρ _ _ h
    | @add _ bs cs _ h1 h2 =>
      rw [sem_add, sem_add, key _ (fun c hc => wellFormed_comp_parts hw c (h2.mem_iff.1 hc)) h1]
      exact (h2.map _).sum_eq

/-! ## Sizes and occurrences -/

theorem part_size {b : Block L} {bs : List (Block L)} (h : b ∈ bs) (k : CKind) (t) : sizeOf b < sizeOf (Block.comp k bs t) := by
  have := List.sizeOf_lt_of_mem h
  simp only [Block.comp.sizeOf_spec]
  omega

theorem inside_size {x b : Block L} (h : Inside x b) : sizeOf x < sizeOf b := by
  induction h with
  | part k t h => exact part_size h k t
  | deep k t h _ ih => exact ih.trans (part_size h k t)

theorem occurs_trans {x y z : Block L} (h1 : Occurs x y) (h2 : Occurs y z) : Occurs x z := by
  induction h2 with
  | self => exact h1
  | scale s t _ ih => exact .scale s t ih
  | comp k t h _ ih => exact .comp k t h ih

theorem inside_occurs {x b : Block L} (h : Inside x b) : Occurs x b := by
  induction h with
  | part k t h => exact .comp k t h .self
  | deep k t h _ ih => exact .comp k t h ih

/-! ## What the comparison finds -/

variable {leq : L → L → Except PyErr Bool}

theorem isIn_found {bs : List (Block L)} {x : Block L}
    (hb : ∀ b ∈ bs, Block.inPart leq b x = .ok true → ∃ r, Inside r b ∧ Block.pyEq leq r x = .ok true)
    (h : Block.isIn leq bs x = .ok true) : ∃ q ∈ bs, Block.pyEq leq q x = .ok true ∨ ∃ r, Inside r q ∧ Block.pyEq leq r x = .ok true := by
  induction bs with
  | nil => rw [Block.isIn] at h; cases h
  | cons b bs ih =>
    rw [Block.isIn] at h
    cases h1 : Block.inPart leq b x with
    | error e => rw [h1] at h; cases h
    | ok r1 =>
      rw [h1, ok_bind] at h
      cases r1 with
      | true =>
        obtain ⟨r, h2, h3⟩ := hb b (by simp) h1
        exact ⟨b, by simp, .inr ⟨r, h2, h3⟩⟩
      | false =>
        simp only [Bool.false_eq_true, if_false] at h
        cases h2 : Block.pyEq leq b x with
        | error e => rw [h2] at h; cases h
        | ok r2 =>
          rw [h2, ok_bind] at h
          cases r2 with
          | true => exact ⟨b, by simp, .inl h2⟩
          | false =>
            simp only [Bool.false_eq_true, if_false] at h
            obtain ⟨q, hq, h3⟩ := ih (fun c hc => hb c (by simp [hc])) h
            exact ⟨q, by simp [hq], h3⟩

theorem inPart_found (x b : Block L) : Block.inPart leq b x = .ok true → ∃ r, Inside r b ∧ Block.pyEq leq r x = .ok true := by
  induction b using Block.induction with
  | leaf l t => intro h; rw [Block.inPart] at h; cases h; simp
  | scale b s t _ => intro h; rw [Block.inPart] at h; cases h; simp
  | comp k bs t ih =>
    intro h
    rw [Block.inPart] at h
    obtain ⟨q, hq, h1 | ⟨r, h1, h2⟩⟩ := isIn_found ih h
    · exact ⟨q, .part k t hq, h1⟩
    · exact ⟨r, .deep k t hq h1, h2⟩

theorem allIn_found {as bs : List (Block L)} (h : Block.allIn leq as bs = .ok true) :
    ∀ p ∈ as, ∃ q ∈ bs, Block.pyEq leq q p = .ok true ∨ ∃ r, Inside r q ∧ Block.pyEq leq r p = .ok true := by
  induction as with
  | nil => simp
  | cons a as ih =>
    rw [Block.allIn] at h
    cases h1 : Block.isIn leq bs a with
    | error e => rw [h1] at h; cases h
    | ok r1 =>
      rw [h1, ok_bind] at h
      cases h2 : Block.allIn leq as bs with
      | error e => rw [h2] at h; cases h
      | ok r2 =>
        rw [h2, ok_bind] at h
        have h3 : (r1 && r2) = true := by injection h
        rw [Bool.and_eq_true] at h3
        rw [h3.1] at h1
        rw [h3.2] at h2
        intro p hp
        rcases List.mem_cons.1 hp with rfl | hp
        · exact isIn_found (fun b _ => inPart_found _ b) h1
        · exact ih h2 p hp

theorem allEq_found {as bs : List (Block L)} (hl : as.length = bs.length) (h : Block.allEq leq as bs = .ok true) :
    List.Forall₂ (fun a b => Block.pyEq leq a b = .ok true) as bs := by
  induction as generalizing bs with
  | nil =>
    cases bs with
    | nil => exact .nil
    | cons b bs => simp at hl
  | cons a as ih =>
    cases bs with
    | nil => simp at hl
    | cons b bs =>
      rw [Block.allEq] at h
      cases h1 : Block.pyEq leq a b with
      | error e => rw [h1] at h; cases h
      | ok r1 =>
        rw [h1, ok_bind] at h
        cases h2 : Block.allEq leq as bs with
        | error e => rw [h2] at h; cases h
        | ok r2 =>
          rw [h2, ok_bind] at h
          have h3 : (r1 && r2) = true := by injection h
          rw [Bool.and_eq_true] at h3
          rw [h3.1] at h1
          rw [h3.2] at h2
          exact .cons h1 (ih (by simpa using hl) h2)

/-- If every element of `as` is related to an element of `bs` and no two elements of `as` to the same one, then the elements can be
paired. -/
theorem exists_pairing {α β : Type*} {S : α → β → Prop} {as : List α} : ∀ {bs : List β}, as.length = bs.length →
    (∀ p ∈ as, ∃ q ∈ bs, S p q) → as.Pairwise (fun p p' => ∀ q, S p q → ¬ S p' q) →
    ∃ cs, List.Forall₂ S as cs ∧ cs.Perm bs := by
  induction as with
  | nil =>
    intro bs hl _ _
    have : bs = [] := List.length_eq_zero_iff.1 hl.symm
    subst this
    exact ⟨[], .nil, List.Perm.refl _⟩
  | cons a as ih =>
    intro bs hl h hp
    obtain ⟨q, hq, hs⟩ := h a (by simp)
    obtain ⟨l, r, rfl⟩ := List.append_of_mem hq
    rw [List.pairwise_cons] at hp
    have hperm : (q :: (l ++ r)).Perm (l ++ q :: r) := List.perm_middle.symm
    obtain ⟨cs, h1, h2⟩ := ih (bs := l ++ r) (by simp at hl ⊢; omega) (by
      intro p hpm
      obtain ⟨q', hq', hs'⟩ := h p (by simp [hpm])
      rcases List.mem_cons.1 (hperm.symm.mem_iff.1 hq') with rfl | h3
      · exact absurd hs' (hp.1 p hpm _ hs)
      · exact ⟨q', h3, hs'⟩) hp.2
    exact ⟨q :: cs, .cons hs h1, (h2.cons q).trans hperm⟩

/-- What is needed of a set of blocks so that equality means sameness. -/
structure Comparable (leq : L → L → Except PyErr Bool) (R : L → L → Prop) (E : Expr → Expr → Prop) (U : Block L → Prop) : Prop where
  occurs : ∀ x y, U y → Occurs x y → U x
  leaf : ∀ l l' t t', U (.leaf l t) → U (.leaf l' t') → leq l l' = .ok true → R l l'
  scale : ∀ b b' s s' t t', U (.scale b s t) → U (.scale b' s' t') → s.pyEq s' = true → E s s'
  distinct : ∀ k bs t, U (.comp k bs t) → k ≠ .chain → bs.Pairwise fun p q => ¬ Same R E p q
  direct : ∀ k as bs t t', U (.comp k as t) → U (.comp k bs t') → k ≠ .chain → ∀ p ∈ as, ∀ q ∈ bs, ∀ r, Inside r q → Same R E r p →
    ∃ q' ∈ bs, Same R E q' p

theorem pyEq_sound (hRs : ∀ l l', R l l' → R l' l) (hRt : ∀ l l' l'', R l l' → R l' l'' → R l l'') (hEs : ∀ e e', E e e' → E e' e)
    (hEt : ∀ e e' e'', E e e' → E e' e'' → E e e'') {U : Block L → Prop} (hU : Comparable leq R E U) (N : ℕ) :
    ∀ a b : Block L, sizeOf a + sizeOf b ≤ N → U a → U b → Block.pyEq leq a b = .ok true → Same R E a b := by
  induction N with
  | zero => intro a b h; exfalso; cases a <;> simp at h
  | succ N ih =>
    have key : ∀ k as bs t t', k ≠ .chain → sizeOf (Block.comp k as t) + sizeOf (Block.comp k bs t') ≤ N + 1 → U (.comp k as t) →
        U (.comp k bs t') → as.length = bs.length → Block.allIn leq as bs = .ok true → ∃ cs, SameList R E as cs ∧ cs.Perm bs := by
      intro k as bs t t' hk hN hUa hUb hl h
      have hfound := allIn_found h
      obtain ⟨cs, h1, h2⟩ := exists_pairing (S := fun p q => Same R E q p) hl (by
        intro p hp
        obtain ⟨q, hq, h1 | ⟨r, h1, h2⟩⟩ := hfound p hp
        · exact ⟨q, hq, ih q p (by have := part_size hp k t; have := part_size hq k t'; omega) (hU.occurs _ _ hUb (.comp k t' hq .self))
            (hU.occurs _ _ hUa (.comp k t hp .self)) h1⟩
        · have hs := ih r p (by have := part_size hp k t; have := part_size hq k t'; have := inside_size h1; omega)
            (hU.occurs _ _ hUb (.comp k t' hq (inside_occurs h1))) (hU.occurs _ _ hUa (.comp k t hp .self)) h2
          exact hU.direct k as bs t t' hUa hUb hk p hp q hq r h1 hs) ((hU.distinct k as t hUa hk).imp fun {p p'} hn q h1 h2 =>
            hn (same_trans hRt hEt _ _ _ (same_symm hRs hEs _ _ h1) h2))
      exact ⟨cs, sameList_iff.2 (h1.imp fun _ _ h => same_symm hRs hEs _ _ h), h2⟩
    intro a b hN hUa hUb h
    match a, b with
    | .leaf l t, .leaf l' t' => rw [Block.pyEq] at h; exact .leaf _ _ (hU.leaf _ _ _ _ hUa hUb h)
    | .scale b s t, .scale b' s' t' =>
      rw [Block.pyEq] at h
      cases h1 : Block.pyEq leq b b' with
      | error e => rw [h1] at h; cases h
      | ok r =>
        rw [h1, ok_bind] at h
        cases r with
        | false => cases h
        | true =>
          simp only [if_true] at h
          have h2 : s.pyEq s' = true := by injection h
          refine .scale _ _ (ih b b' (by simp only [Block.scale.sizeOf_spec] at hN; omega) ?_ ?_ h1) (hU.scale _ _ _ _ _ _ hUa hUb h2)
          · exact hU.occurs _ _ hUa (.scale s t .self)
          · exact hU.occurs _ _ hUb (.scale s' t' .self)
    | .comp .chain as t, .comp .chain bs t' =>
      rw [Block.pyEq] at h
      split at h
      · rename_i hc
        obtain ⟨hl, rfl⟩ := hc
        refine .chain _ (sameList_iff.2 ?_)
        have h1 := allEq_found hl h
        rw [List.forall₂_iff_get] at h1 ⊢
        refine ⟨h1.1, fun i hi hj => ?_⟩
        have hm1 := List.get_mem as ⟨i, hi⟩
        have hm2 := List.get_mem bs ⟨i, hj⟩
        exact ih _ _ (by have := part_size hm1 .chain t; have := part_size hm2 .chain t; omega) (hU.occurs _ _ hUa (.comp _ _ hm1 .self))
          (hU.occurs _ _ hUb (.comp _ _ hm2 .self)) (h1.2 i hi hj)
      · cases h
    | .comp .kron as t, .comp .kron bs t' =>
      rw [Block.pyEq] at h
      split at h
      · rename_i hc
        obtain ⟨hl, rfl⟩ := hc
        obtain ⟨cs, h1, h2⟩ := key .kron as bs t t (by decide) hN hUa hUb hl h
        exact .kron _ h1 h2
      · cases h
    | .comp .add as t, .comp .add bs t' =>
      rw [Block.pyEq] at h
      split at h
      · rename_i hc
        obtain ⟨hl, rfl⟩ := hc
        obtain ⟨cs, h1, h2⟩ := key .add as bs t t (by decide) hN hUa hUb hl h
        exact .add _ h1 h2
      · cases h
    | .leaf .., .scale .. | .leaf .., .comp .. | .scale .., .leaf .. | .scale .., .comp .. | .comp .chain .., .leaf .. | .comp .kron .., .leaf ..
    | .comp .add .., .leaf .. | .comp .chain .., .scale .. | .comp .kron .., .scale .. | .comp .add .., .scale ..
    | .comp .chain .., .comp .kron .. | .comp .chain .., .comp .add .. | .comp .kron .., .comp .chain .. | .comp .kron .., .comp .add ..
    | .comp .add .., .comp .chain .. | .comp .add .., .comp .kron .. =>
      rw [Block.pyEq] at h
      · cases h
      all_goals simp

/-! ## Completeness -/

theorem isIn_total {bs : List (Block L)} {x : Block L} (h1 : ∀ b ∈ bs, ∃ r, Block.inPart leq b x = .ok r)
    (h2 : ∀ b ∈ bs, ∃ r, Block.pyEq leq b x = .ok r) :
    ∃ r, Block.isIn leq bs x = .ok r ∧ ((∃ b ∈ bs, Block.pyEq leq b x = .ok true) → r = true) := by
  induction bs with
  | nil => exact ⟨false, by rw [Block.isIn], by simp⟩
  | cons b bs ih =>
    obtain ⟨r1, e1⟩ := h1 b (by simp)
    obtain ⟨r2, e2⟩ := h2 b (by simp)
    obtain ⟨r3, e3, e4⟩ := ih (fun c hc => h1 c (by simp [hc])) fun c hc => h2 c (by simp [hc])
    rw [Block.isIn, e1, ok_bind]
    cases r1 with
    | true => exact ⟨true, rfl, fun _ => rfl⟩
    | false =>
      simp only [Bool.false_eq_true, if_false]
      rw [e2, ok_bind]
      cases r2 with
      | true => exact ⟨true, rfl, fun _ => rfl⟩
      | false =>
        simp only [Bool.false_eq_true, if_false]
        refine ⟨r3, e3, ?_⟩
        rintro ⟨c, hc, hc2⟩
        rcases List.mem_cons.1 hc with rfl | hc
        · rw [e2] at hc2; cases hc2
        · exact e4 ⟨c, hc, hc2⟩

theorem inPart_total (x b : Block L) : (∀ r, Inside r b → ∃ v, Block.pyEq leq r x = .ok v) → ∃ v, Block.inPart leq b x = .ok v := by
  induction b using Block.induction with
  | leaf l t => intro _; exact ⟨false, by rw [Block.inPart]; simp⟩
  | scale b s t _ => intro _; exact ⟨false, by rw [Block.inPart]; simp⟩
  | comp k bs t ih =>
    intro h
    rw [Block.inPart]
    obtain ⟨r, h1, -⟩ := isIn_total (fun b hb => ih b hb fun r hr => h r (.deep k t hb hr)) fun b hb => h b (.part k t hb)
    exact ⟨r, h1⟩

theorem allIn_total {as bs : List (Block L)} (h : ∀ p ∈ as, ∃ r, Block.isIn leq bs p = .ok r) :
    ∃ r, Block.allIn leq as bs = .ok r ∧ ((∀ p ∈ as, Block.isIn leq bs p = .ok true) → r = true) := by
  induction as with
  | nil => exact ⟨true, by rw [Block.allIn], fun _ => rfl⟩
  | cons a as ih =>
    obtain ⟨r1, e1⟩ := h a (by simp)
    obtain ⟨r2, e2, e3⟩ := ih fun p hp => h p (by simp [hp])
    refine ⟨r1 && r2, ?_, ?_⟩
    · rw [Block.allIn, e1, ok_bind, e2, ok_bind]; rfl
    · intro hh
      have := hh a (by simp)
      rw [e1] at this
      injection this with this
      rw [this, e3 fun p hp => hh p (by simp [hp])]
      rfl

theorem allEq_total {as : List (Block L)} : ∀ {bs : List (Block L)}, (∀ p ∈ as, ∀ q ∈ bs, ∃ r, Block.pyEq leq p q = .ok r) →
    ∃ r, Block.allEq leq as bs = .ok r ∧ (List.Forall₂ (fun p q => Block.pyEq leq p q = .ok true) as bs → r = true) := by
  induction as with
  | nil => intro bs _; exact ⟨true, by rw [Block.allEq]; simp, fun _ => rfl⟩
  | cons a as ih =>
    intro bs h
    cases bs with
    | nil => exact ⟨true, by rw [Block.allEq]; simp, fun _ => rfl⟩
    | cons b bs =>
      obtain ⟨r1, e1⟩ := h a (by simp) b (by simp)
      obtain ⟨r2, e2, e3⟩ := ih (bs := bs) fun p hp q hq => h p (by simp [hp]) q (by simp [hq])
      refine ⟨r1 && r2, ?_, ?_⟩
      · rw [Block.allEq, e1, ok_bind, e2, ok_bind]; rfl
      · intro hh
        cases hh with
        | cons h1 h2 =>
          rw [e1] at h1
          injection h1 with h1
          rw [h1, e3 h2]
          rfl

/-- If leaves can be compared, then blocks can be compared; the same blocks are equal. -/
theorem pyEq_complete (hRs : ∀ l l', R l l' → R l' l) (hEs : ∀ e e', E e e' → E e' e) {U : Block L → Prop}
    (hUo : ∀ x y, U y → Occurs x y → U x) (hleaf : ∀ l l' t t', U (.leaf l t) → U (.leaf l' t') → ∃ r, leq l l' = .ok r)
    (hR : ∀ l l' t t', U (.leaf l t) → U (.leaf l' t') → R l l' → leq l l' = .ok true) (hE : ∀ e e', E e e' → e.pyEq e' = true)
    (N : ℕ) : ∀ a b : Block L, sizeOf a + sizeOf b ≤ N → U a → U b →
      ∃ r, Block.pyEq leq a b = .ok r ∧ (Same R E a b → r = true) := by
  induction N with
  | zero => intro a b h; exfalso; cases a <;> simp at h
  | succ N ih =>
    have key : ∀ k as bs t t', sizeOf (Block.comp k as t) + sizeOf (Block.comp k bs t') ≤ N + 1 → U (.comp k as t) →
        U (.comp k bs t') → ∃ r, Block.allIn leq as bs = .ok r ∧ (∀ cs, SameList R E as cs → cs.Perm bs → r = true) := by
      intro k as bs t t' hN hUa hUb
      have hq : ∀ p ∈ as, ∀ q ∈ bs, ∃ r, Block.pyEq leq q p = .ok r ∧ (Same R E q p → r = true) := fun p hp q hq =>
        ih q p (by have := part_size hp k t; have := part_size hq k t'; omega) (hUo _ _ hUb (.comp k t' hq .self))
            (hUo _ _ hUa (.comp k t hp .self))
      have hin : ∀ p ∈ as, ∃ r, Block.isIn leq bs p = .ok r ∧ ((∃ b ∈ bs, Block.pyEq leq b p = .ok true) → r = true) := by
        intro p hp
        refine isIn_total (fun b hb => inPart_total p b fun r hr => ?_) fun b hb => ?_
        · obtain ⟨v, hv, -⟩ := ih r p (by have := part_size hp k t; have := part_size hb k t'; have := inside_size hr; omega)
            (hUo _ _ hUb (.comp k t' hb (inside_occurs hr))) (hUo _ _ hUa (.comp k t hp .self))
          exact ⟨v, hv⟩
        · obtain ⟨v, hv, -⟩ := hq p hp b hb
          exact ⟨v, hv⟩
      obtain ⟨r, h1, h2⟩ := allIn_total fun p hp => (hin p hp).imp fun _ h => h.1
      refine ⟨r, h1, fun cs hs hperm => h2 fun p hp => ?_⟩
      obtain ⟨v, h3, h4⟩ := hin p hp
      rw [h3, h4]
      rw [sameList_iff] at hs
      obtain ⟨i, hi, rfl⟩ := List.mem_iff_getElem.1 hp
      have hj : i < cs.length := by rw [← hs.length_eq]; exact hi
      have hsame := (List.forall₂_iff_get.1 hs).2 i hi hj
      have hm : cs[i] ∈ bs := hperm.mem_iff.1 (List.getElem_mem hj)
      obtain ⟨w, h5, h6⟩ := hq _ hp _ hm
      rw [h6 (same_symm hRs hEs _ _ hsame)] at h5
      exact ⟨_, hm, h5⟩
    intro a b hN hUa hUb
    match a, b with
    | .leaf l t, .leaf l' t' =>
      obtain ⟨r, h⟩ := hleaf l l' t t' hUa hUb
      refine ⟨r, by rw [Block.pyEq]; exact h, fun hs => ?_⟩
      cases hs with
      | leaf _ _ hs =>
        have := hR l l' t t' hUa hUb hs
        rw [h] at this
        injection this
    | .scale b s t, .scale b' s' t' =>
      obtain ⟨r, h1, h2⟩ := ih b b' (by simp only [Block.scale.sizeOf_spec] at hN; omega) (hUo _ _ hUa (.scale s t .self))
        (hUo _ _ hUb (.scale s' t' .self))
      rw [Block.pyEq, h1, ok_bind]
      cases r with
      | false => exact ⟨false, rfl, fun hs => by cases hs with | scale _ _ hs _ => exact h2 hs⟩
      | true => exact ⟨s.pyEq s', rfl, fun hs => by cases hs with | scale _ _ _ hs => exact hE _ _ hs⟩
    | .comp .chain as t, .comp .chain bs t' =>
      rw [Block.pyEq]
      by_cases hc : as.length = bs.length ∧ t = t'
      · rw [if_pos hc]
        have hp : ∀ p ∈ as, ∀ q ∈ bs, ∃ r, Block.pyEq leq p q = .ok r ∧ (Same R E p q → r = true) := fun p hp q hq =>
          ih p q (by have := part_size hp .chain t; have := part_size hq .chain t'; omega) (hUo _ _ hUa (.comp _ _ hp .self))
            (hUo _ _ hUb (.comp _ _ hq .self))
        obtain ⟨r, h1, h2⟩ := allEq_total fun p h1 q h2 => (hp p h1 q h2).imp fun _ h => h.1
        refine ⟨r, h1, fun hs => h2 ?_⟩
        cases hs with
        | chain _ hs =>
          rw [sameList_iff] at hs
          rw [List.forall₂_iff_get] at hs ⊢
          refine ⟨hs.1, fun i hi hj => ?_⟩
          obtain ⟨w, e1, e2⟩ := hp _ (List.get_mem as ⟨i, hi⟩) _ (List.get_mem bs ⟨i, hj⟩)
          rw [e1, e2 (hs.2 i hi hj)]
      · rw [if_neg hc]
        refine ⟨false, rfl, fun hs => absurd ?_ hc⟩
        cases hs with
        | chain _ hs => exact ⟨(sameList_iff.1 hs).length_eq, rfl⟩
    | .comp .kron as t, .comp .kron bs t' =>
      rw [Block.pyEq]
      by_cases hc : as.length = bs.length ∧ t = t'
      · rw [if_pos hc]
        obtain ⟨r, h1, h2⟩ := key .kron as bs t t' hN hUa hUb
        exact ⟨r, h1, fun hs => by cases hs with | kron _ h3 h4 => exact h2 _ h3 h4⟩
      · rw [if_neg hc]
        refine ⟨false, rfl, fun hs => absurd ?_ hc⟩
        cases hs with
        | kron _ h3 h4 => exact ⟨(sameList_iff.1 h3).length_eq.trans h4.length_eq, rfl⟩
    | .comp .add as t, .comp .add bs t' =>
      rw [Block.pyEq]
      by_cases hc : as.length = bs.length ∧ t = t'
      · rw [if_pos hc]
        obtain ⟨r, h1, h2⟩ := key .add as bs t t' hN hUa hUb
        exact ⟨r, h1, fun hs => by cases hs with | add _ h3 h4 => exact h2 _ h3 h4⟩
      · rw [if_neg hc]
        refine ⟨false, rfl, fun hs => absurd ?_ hc⟩
        cases hs with
        | add _ h3 h4 => exact ⟨(sameList_iff.1 h3).length_eq.trans h4.length_eq, rfl⟩
    | .leaf .., .scale .. | .leaf .., .comp .. | .scale .., .leaf .. | .scale .., .comp .. | .comp .chain .., .leaf .. | .comp .kron .., .leaf ..
    | .comp .add .., .leaf .. | .comp .chain .., .scale .. | .comp .kron .., .scale .. | .comp .add .., .scale ..
    | .comp .chain .., .comp .kron .. | .comp .chain .., .comp .add .. | .comp .kron .., .comp .chain .. | .comp .kron .., .comp .add ..
    | .comp .add .., .comp .chain .. | .comp .add .., .comp .kron .. =>
      refine ⟨false, ?_, fun hs => by cases hs⟩
      rw [Block.pyEq]
      all_goals simp

end Qadence
