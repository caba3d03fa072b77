import Verif.Model.Passes
import Verif.Proofs.BlockSem

/-!
# C09: flatten
-/

namespace Qadence

open Spec

variable {L : Type} {n : ℕ}

namespace Spec

mutual
/-- No composite block of kind `T` is a direct part of one of the same kind. -/
def NoNesting (T : CKind) : Block L → Prop
  | .leaf _ _ => True
  | .scale b _ _ => NoNesting T b
  | .comp k bs _ => (k = T → ∀ b ∈ bs, ∀ cs t, b ≠ .comp T cs t) ∧ NoNestingList T bs
/-- `NoNesting` for all elements. -/
def NoNestingList (T : CKind) : List (Block L) → Prop
  | [] => True
  | b :: bs => NoNesting T b ∧ NoNestingList T bs
end

theorem noNestingList_iff {T : CKind} {bs : List (Block L)} :
    NoNestingList T bs ↔ ∀ b ∈ bs, NoNesting T b := by
  induction bs with
  | nil => simp [NoNestingList]
  | cons b bs ih => simp [NoNestingList, ih]

theorem noNesting_comp {T k : CKind} {bs : List (Block L)} {t} :
    NoNesting T (.comp k bs t) ↔
      (k = T → ∀ b ∈ bs, ∀ cs t, b ≠ .comp T cs t) ∧ ∀ b ∈ bs, NoNesting T b := by
  rw [NoNesting, noNestingList_iff]

theorem noNesting_scale {T : CKind} {b : Block L} {s t} :
    NoNesting T (.scale b s t) ↔ NoNesting T b := by simp [NoNesting]

end Spec

namespace Block

/-- What `flatBlocks` puts in the place of one part. -/
def flatPart (T : CKind) : Block L → List (Block L)
  | .comp k cs t => if k = T then flatBlocks T cs else [flat1 T (.comp k cs t)]
  | b => [flat1 T b]

theorem flatBlocks_eq (T : CKind) (bs : List (Block L)) : flatBlocks T bs = bs.flatMap (flatPart T) := by
  induction bs with
  | nil => simp [flatBlocks]
  | cons b bs ih => cases b <;> simp [flatBlocks, flatPart, ih, flat1]

theorem flatParts_eq (T : CKind) (bs : List (Block L)) : flatParts T bs = bs.map (flat1 T) := by
  induction bs with
  | nil => simp [flatParts]
  | cons b bs ih => simp [flatParts, ih]

theorem flat1_comp (T k : CKind) (bs : List (Block L)) (t) :
    flat1 T (.comp k bs t) =
      .comp k (if k = T then bs.flatMap (flatPart T) else bs.map (flat1 T)) none := by
  rw [flat1, flatBlocks_eq, flatParts_eq]

theorem flat1_scale (T : CKind) (b : Block L) (s t) : flat1 T (.scale b s t) = .scale (flat1 T b) s t := by
  rw [flat1]

theorem flatPart_comp (T k : CKind) (cs : List (Block L)) (t) :
    flatPart T (.comp k cs t) =
      if k = T then cs.flatMap (flatPart T) else [flat1 T (.comp k cs t)] := by
  rw [flatPart, flatBlocks_eq]

theorem flatPart_of_ne {T : CKind} {b : Block L} (h : ∀ cs t, b ≠ .comp T cs t) :
    flatPart T b = [flat1 T b] := by
  cases b with
  | leaf l t => rfl
  | scale b s t => rfl
  | comp k cs t =>
    rw [flatPart_comp, if_neg]
    rintro rfl; exact h cs t rfl

/-- For a part of the flattened kind the parts of the flattened block are inlined. -/
theorem flat1_of_eq (T : CKind) (cs : List (Block L)) (t) :
    flat1 T (.comp T cs t) = .comp T (flatPart T (.comp T cs t)) none := by
  rw [flat1_comp, flatPart_comp, if_pos rfl, if_pos rfl]

theorem qubits_flatPart {supp : L → List ℕ} {T : CKind} {b : Block L}
    (ih : qubits supp (flat1 T b) = qubits supp b) (q : ℕ) :
    q ∈ qubits supp b ↔ ∃ c ∈ flatPart T b, q ∈ qubits supp c := by
  by_cases h : ∀ cs t, b ≠ .comp T cs t
  · rw [flatPart_of_ne h]; simp [ih]
  · push Not at h
    obtain ⟨cs, t, rfl⟩ := h
    rw [← ih, flat1_of_eq, mem_qubits_comp]

theorem qubits_flat1 (supp : L → List ℕ) (T : CKind) (b : Block L) :
    qubits supp (flat1 T b) = qubits supp b := by
  induction b using Block.induction with
  | leaf l t => simp [flat1, qubits]
  | scale b s t ih => simpa [flat1, qubits] using ih
  | comp k bs t ih =>
    ext q
    rw [flat1_comp, mem_qubits_comp, mem_qubits_comp]
    split
    · simp only [List.mem_flatMap]
      constructor
      · rintro ⟨c, ⟨b, hb, hc⟩, hq⟩
        exact ⟨b, hb, (qubits_flatPart (ih b hb) q).2 ⟨c, hc, hq⟩⟩
      · rintro ⟨b, hb, hq⟩
        obtain ⟨c, hc, hq⟩ := (qubits_flatPart (ih b hb) q).1 hq
        exact ⟨c, ⟨b, hb, hc⟩, hq⟩
    · simp only [List.mem_map, exists_exists_and_eq_and]
      constructor
      · rintro ⟨b, hb, hq⟩; exact ⟨b, hb, by rw [← ih b hb]; exact hq⟩
      · rintro ⟨b, hb, hq⟩; exact ⟨b, hb, by rw [ih b hb]; exact hq⟩

theorem flat1_wellFormed {supp : L → List ℕ} (T : CKind) (b : Block L) (h : WellFormed supp b) :
    WellFormed supp (flat1 T b) := by
  induction b using Block.induction with
  | leaf l t => simp [flat1, WellFormed]
  | scale b s t ih => rw [flat1_scale, wellFormed_scale]; exact ih (wellFormed_scale.1 h)
  | comp k bs t ih =>
    have hp := wellFormed_comp_parts h
    -- the inlined parts are well-formed
    have hparts : ∀ b ∈ bs, ∀ c ∈ flatPart T b, WellFormed supp c := by
      intro b hb c hc
      by_cases he : ∀ cs t, b ≠ .comp T cs t
      · rw [flatPart_of_ne he, List.mem_singleton] at hc
        rw [hc]; exact ih b hb (hp b hb)
      · push Not at he
        obtain ⟨cs, t', rfl⟩ := he
        have := ih _ hb (hp _ hb)
        rw [flat1_of_eq] at this
        exact wellFormed_comp_parts this c hc
    have hall : ∀ c ∈ (if k = T then bs.flatMap (flatPart T) else bs.map (flat1 T)),
        WellFormed supp c := by
      split
      · intro c hc
        obtain ⟨b, hb, hc⟩ := List.mem_flatMap.1 hc
        exact hparts b hb c hc
      · intro c hc
        obtain ⟨b, hb, rfl⟩ := List.mem_map.1 hc
        exact ih b hb (hp b hb)
    rw [flat1_comp]
    cases k with
    | chain => rw [wellFormed_chain]; exact hall
    | add => rw [wellFormed_add]; exact hall
    | kron =>
      obtain ⟨hne, hpw, -⟩ := wellFormed_kron.1 h
      rw [wellFormed_kron]
      refine ⟨?_, ?_, hall⟩
      · split
        · next he =>
          obtain ⟨b, bs', rfl⟩ := List.exists_cons_of_ne_nil hne
          simp only [List.flatMap_cons, ne_eq, List.append_eq_nil_iff, not_and_or]
          left
          by_cases hb : ∀ cs t, b ≠ .comp T cs t
          · rw [flatPart_of_ne hb]; simp
          · push Not at hb
            obtain ⟨cs, t', rfl⟩ := hb
            have := ih (.comp T cs t') (by simp) (hp _ (by simp))
            rw [flat1_of_eq, ← he, wellFormed_kron] at this
            subst he
            exact this.1
        · simpa using hne
      · split
        · next he =>
          rw [List.pairwise_flatMap]
          constructor
          · intro b hb
            by_cases hb' : ∀ cs t, b ≠ .comp T cs t
            · rw [flatPart_of_ne hb']; simp
            · push Not at hb'
              obtain ⟨cs, t', rfl⟩ := hb'
              have := ih _ hb (hp _ hb)
              rw [flat1_of_eq] at this
              subst he
              exact (wellFormed_kron.1 this).2.1
          · apply hpw.imp
            intro a b hab c hc d hd
            rw [Set.disjoint_left] at hab ⊢
            intro q hq hq'
            exact hab ((qubits_flatPart (qubits_flat1 supp T a) q).2 ⟨c, hc, hq⟩)
              ((qubits_flatPart (qubits_flat1 supp T b) q).2 ⟨d, hd, hq'⟩)
        · rw [List.pairwise_map]
          apply hpw.imp
          intro a b hab
          rwa [qubits_flat1, qubits_flat1]

/-- Composite operator of a list. -/
theorem sem_comp_congr (S : LeafSem L n) (ρ : Env) (k : CKind) (bs cs : List (Block L)) (t u)
    (h : bs.map (sem S ρ) = cs.map (sem S ρ)) : sem S ρ (.comp k bs t) = sem S ρ (.comp k cs u) := by
  cases k
  · rw [sem_chain, sem_chain, h]
  · rw [sem_kron, sem_kron, h]
  · rw [sem_add, sem_add, h]

/-- Inlining parts of the same kind. -/
theorem sem_comp_flatMap (S : LeafSem L n) (ρ : Env) (k : CKind) (bs : List (Block L)) (t)
    (f : Block L → List (Block L))
    (h : ∀ b ∈ bs, sem S ρ (.comp k (f b) none) = sem S ρ b) :
    sem S ρ (.comp k (bs.flatMap f) none) = sem S ρ (.comp k bs t) := by
  cases k
  all_goals
    first
    | simp only [sem_chain] at h ⊢
    | simp only [sem_kron] at h ⊢
    | simp only [sem_add] at h ⊢
    induction bs with
    | nil => simp
    | cons b bs ih =>
      have h1 := h b (by simp)
      have h2 := ih fun c hc => h c (by simp [hc])
      simp only [List.flatMap_cons, List.map_append, List.map_cons, opProd_append, List.sum_append,
        List.sum_cons, opProd, h1, h2]

theorem sem_flat1 (S : LeafSem L n) (ρ : Env) (T : CKind) (b : Block L) :
    sem S ρ (flat1 T b) = sem S ρ b := by
  induction b using Block.induction with
  | leaf l t => rw [flat1]
  | scale b s t ih => rw [flat1_scale, sem_scale, sem_scale, ih]
  | comp k bs t ih =>
    rw [flat1_comp]
    split
    · next he =>
      subst he
      apply sem_comp_flatMap
      intro b hb
      by_cases h : ∀ cs t, b ≠ .comp k cs t
      · rw [flatPart_of_ne h]
        cases k <;> simp [sem, semList, opProd, ih b hb]
      · push Not at h
        obtain ⟨cs, t', rfl⟩ := h
        rw [← flat1_of_eq k cs t']; exact ih _ hb
    · apply sem_comp_congr
      rw [List.map_map]
      exact List.map_congr_left fun b hb => ih b hb

theorem flat1_noNesting (T : CKind) (b : Block L) : NoNesting T (flat1 T b) := by
  induction b using Block.induction with
  | leaf l t => simp [flat1, NoNesting]
  | scale b s t ih => rw [flat1_scale, noNesting_scale]; exact ih
  | comp k bs t ih =>
    rw [flat1_comp, noNesting_comp]
    have hparts : ∀ b ∈ bs, ∀ c ∈ flatPart T b, NoNesting T c ∧ ∀ cs t, c ≠ .comp T cs t := by
      intro b hb c hc
      by_cases h : ∀ cs t, b ≠ .comp T cs t
      · rw [flatPart_of_ne h, List.mem_singleton] at hc
        subst hc
        refine ⟨ih b hb, ?_⟩
        cases b with
        | leaf l t => simp [flat1]
        | scale b s t => simp [flat1]
        | comp k' cs' t' =>
          rw [flat1_comp]
          intro cs t e
          simp only [Block.comp.injEq] at e
          exact h cs' t' (by rw [e.1])
      · push Not at h
        obtain ⟨cs, t', rfl⟩ := h
        have := ih _ hb
        rw [flat1_of_eq, noNesting_comp] at this
        exact ⟨this.2 c hc, this.1 rfl c hc⟩
    split
    · refine ⟨fun _ c hc => ?_, fun c hc => ?_⟩ <;> obtain ⟨b, hb, hc⟩ := List.mem_flatMap.1 hc
      · exact (hparts b hb c hc).2
      · exact (hparts b hb c hc).1
    · next hne =>
      refine ⟨fun e => absurd e hne, fun c hc => ?_⟩
      obtain ⟨b, hb, rfl⟩ := List.mem_map.1 hc
      exact ih b hb

/-- Flattening one kind does not introduce nesting of another kind. -/
theorem flat1_noNesting_other (T T' : CKind) (b : Block L) (h : NoNesting T' b) :
    NoNesting T' (flat1 T b) := by
  by_cases hT : T' = T
  · subst hT; exact flat1_noNesting T' b
  induction b using Block.induction with
  | leaf l t => simp [flat1, NoNesting]
  | scale b s t ih => rw [flat1_scale, noNesting_scale]; exact ih (noNesting_scale.1 h)
  | comp k bs t ih =>
    rw [noNesting_comp] at h
    rw [flat1_comp, noNesting_comp]
    split
    · next hk =>
      subst hk
      refine ⟨fun e => absurd e.symm hT, fun c hc => ?_⟩
      obtain ⟨b, hb, hc⟩ := List.mem_flatMap.1 hc
      by_cases he : ∀ cs t, b ≠ .comp k cs t
      · rw [flatPart_of_ne he, List.mem_singleton] at hc
        subst hc; exact ih b hb (h.2 b hb)
      · push Not at he
        obtain ⟨cs, t', rfl⟩ := he
        have := ih _ hb (h.2 _ hb)
        rw [flat1_of_eq, noNesting_comp] at this
        exact this.2 c hc
    · refine ⟨fun e c hc => ?_, fun c hc => ?_⟩ <;> obtain ⟨b, hb, rfl⟩ := List.mem_map.1 hc
      · have := h.1 e b hb
        cases b with
        | leaf l t => simp [flat1]
        | scale b s t => simp [flat1]
        | comp k' cs' t' =>
          rw [flat1_comp]
          intro cs t e
          simp only [Block.comp.injEq] at e
          exact this cs' t' (by rw [e.1])
      · exact ih b hb (h.2 b hb)

/-- All composite blocks are untagged. -/
inductive CompUntagged : Block L → Prop
  | leaf (l t) : CompUntagged (.leaf l t)
  | scale (b s t) : CompUntagged b → CompUntagged (.scale b s t)
  | comp (k bs) : (∀ b ∈ bs, CompUntagged b) → CompUntagged (.comp k bs none)

theorem flat1_untagged (T : CKind) (b : Block L) : CompUntagged (flat1 T b) := by
  induction b using Block.induction with
  | leaf l t => rw [flat1]; exact .leaf l t
  | scale b s t ih => rw [flat1_scale]; exact .scale _ _ _ ih
  | comp k bs t ih =>
    rw [flat1_comp]
    apply CompUntagged.comp
    split
    · intro c hc
      obtain ⟨b, hb, hc⟩ := List.mem_flatMap.1 hc
      by_cases he : ∀ cs t, b ≠ .comp T cs t
      · rw [flatPart_of_ne he, List.mem_singleton] at hc
        subst hc; exact ih b hb
      · push Not at he
        obtain ⟨cs, t', rfl⟩ := he
        have := ih _ hb
        rw [flat1_of_eq] at this
        cases this with
        | comp _ _ h => exact h c hc
    · intro c hc
      obtain ⟨b, hb, rfl⟩ := List.mem_map.1 hc
      exact ih b hb

theorem flat1_fix (T : CKind) (b : Block L) (h : NoNesting T b) (hu : CompUntagged b) :
    flat1 T b = b := by
  induction b using Block.induction with
  | leaf l t => rw [flat1]
  | scale b s t ih =>
    cases hu with
    | scale _ _ _ hu => rw [flat1_scale, ih (noNesting_scale.1 h) hu]
  | comp k bs t ih =>
    rw [noNesting_comp] at h
    cases hu with
    | comp _ _ hu =>
      have hid : ∀ b ∈ bs, flat1 T b = b := fun b hb => ih b hb (h.2 b hb) (hu b hb)
      rw [flat1_comp]
      congr 1
      split
      · next hk =>
        have : ∀ b ∈ bs, flatPart T b = [b] := fun b hb => by
          rw [flatPart_of_ne (h.1 hk b hb), hid b hb]
        rw [List.flatMap_congr this]; simp
      · rw [List.map_congr_left hid]; simp

theorem flatten_comp (types : List CKind) (b : Block L) (hb : ∃ k bs t, b = .comp k bs t) :
    flatten types b = types.foldl (fun b T => flat1 T b) b := by
  obtain ⟨k, bs, t, rfl⟩ := hb
  rw [flatten]

/-- The general shape of statements about `flatten`: properties established by one round persist. -/
theorem foldl_flat1_noNesting (types : List CKind) (b : Block L) (T : CKind)
    (h : T ∈ types ∨ NoNesting T b) : NoNesting T (types.foldl (fun b T => flat1 T b) b) := by
  induction types generalizing b with
  | nil => simpa using h
  | cons U types ih =>
    rw [List.foldl_cons]
    apply ih
    rcases h with h | h
    · rcases List.mem_cons.1 h with rfl | h
      · exact Or.inr (flat1_noNesting _ b)
      · exact Or.inl h
    · exact Or.inr (flat1_noNesting_other _ _ b h)

theorem foldl_flat1_untagged (types : List CKind) (b : Block L) (h : types ≠ [] ∨ CompUntagged b) :
    CompUntagged (types.foldl (fun b T => flat1 T b) b) := by
  induction types generalizing b with
  | nil => simpa using h
  | cons U types ih => rw [List.foldl_cons]; exact ih _ (Or.inr (flat1_untagged U b))

theorem foldl_flat1_fix (types : List CKind) (b : Block L) (h : ∀ T ∈ types, NoNesting T b)
    (hu : CompUntagged b) : types.foldl (fun b T => flat1 T b) b = b := by
  induction types with
  | nil => rfl
  | cons U types ih =>
    rw [List.foldl_cons, flat1_fix U b (h U (by simp)) hu]
    exact ih fun T hT => h T (by simp [hT])

theorem foldl_flat1_isComp (types : List CKind) (b : Block L) (hb : ∃ k bs t, b = .comp k bs t) :
    ∃ k bs t, types.foldl (fun b T => flat1 T b) b = .comp k bs t := by
  induction types generalizing b with
  | nil => exact hb
  | cons U types ih =>
    rw [List.foldl_cons]
    apply ih
    obtain ⟨k, bs, t, rfl⟩ := hb
    exact ⟨_, _, _, flat1_comp U k bs t⟩

end Block

open Block

/-- **C09**: flattening does not change the operator. -/
theorem C09_flatten_same_operator (S : LeafSem L n) (ρ : Env) (types : List CKind) (b : Block L) :
    sem S ρ (flatten types b) = sem S ρ b := by
  induction b using Block.induction with
  | leaf l t => rw [flatten]
  | scale b s t ih => rw [flatten, sem_scale, sem_scale, ih]
  | comp k bs t ih0 =>
    clear ih0
    rw [flatten]
    generalize Block.comp k bs t = b
    induction types generalizing b with
    | nil => rfl
    | cons T types ih => rw [List.foldl_cons, ih, sem_flat1]

/-- **C09**: the result satisfies the condition checked by the constructor of `KronBlock` (so that no exception is
raised), and has the same qubits. -/
theorem C09_flatten_wellFormed (supp : L → List ℕ) (types : List CKind) (b : Block L)
    (h : WellFormed supp b) :
    WellFormed supp (flatten types b) ∧ qubits supp (flatten types b) = qubits supp b := by
  induction b using Block.induction with
  | leaf l t => rw [flatten]; exact ⟨h, rfl⟩
  | scale b s t ih =>
    rw [flatten, wellFormed_scale, qubits_scale, qubits_scale]; exact ih (wellFormed_scale.1 h)
  | comp k bs t ih0 =>
    clear ih0
    rw [flatten]
    generalize Block.comp k bs t = b at h
    induction types generalizing b with
    | nil => exact ⟨h, rfl⟩
    | cons T types ih =>
      rw [List.foldl_cons, ← qubits_flat1 supp T b]
      exact ih _ (flat1_wellFormed T b h)

/-- **C09**: no composite block of a listed type is directly nested in one of the same type; this holds at any
depth, also below scale blocks. -/
theorem C09_flatten_no_nesting (types : List CKind) (b : Block L) (T : CKind) (hT : T ∈ types) :
    NoNesting T (flatten types b) := by
  induction b using Block.induction with
  | leaf l t => simp [flatten, NoNesting]
  | scale b s t ih => rw [flatten, noNesting_scale]; exact ih
  | comp k bs t _ => rw [flatten]; exact foldl_flat1_noNesting _ _ _ (Or.inl hT)

/-- **C09**: flattening twice is flattening once. -/
theorem C09_flatten_idempotent (types : List CKind) (b : Block L) :
    flatten types (flatten types b) = flatten types b := by
  induction b using Block.induction with
  | leaf l t => simp [flatten]
  | scale b s t ih => rw [flatten, flatten, ih]
  | comp k bs t _ =>
    have hc : ∃ k' bs' t', (Block.comp k bs t : Block L) = .comp k' bs' t' := ⟨k, bs, t, rfl⟩
    rw [flatten_comp types _ hc, flatten_comp types _ (foldl_flat1_isComp types _ hc)]
    by_cases he : types = []
    · subst he; rfl
    · apply foldl_flat1_fix
      · intro T hT; exact foldl_flat1_noNesting _ _ _ (Or.inl hT)
      · exact foldl_flat1_untagged _ _ (Or.inl he)

/-- **C09**: tags of composite blocks are lost whenever a type is listed, so that flattening an already flat tagged
block does change it. -/
theorem C09_counterexample_tags_lost : ∃ b : Block ℕ, (∀ T, NoNesting T b) ∧ b.tag = some "t" ∧
    (flatten [.chain] b).tag = none :=
  ⟨.comp .chain [.leaf 0 none] (some "t"), fun T => by cases T <;> simp [NoNesting, NoNestingList], rfl, by
    simp [flatten, flat1, Block.tag]⟩

/-- Nested chains and krons with a scale in between. -/
example : flatten [.chain, .kron]
    (.comp .chain [.comp .chain [.leaf 0 none, .comp .chain [.leaf 1 none] none] none,
      .scale (.comp .kron [.comp .kron [.leaf 2 none] none] none) (.num 2 0) none] none : Block ℕ) =
    .comp .chain [.leaf 0 none, .leaf 1 none, .scale (.comp .kron [.leaf 2 none] none) (.num 2 0) none] none := by
  simp [flatten, flat1, flatBlocks, flatParts]

end Qadence
