import Mathlib.Data.Set.Lattice
import Verif.Proofs.Operator

/-!
# Lemmas about the operators of blocks
-/

namespace Qadence

open Matrix Spec

variable {L : Type} {n : ℕ}

/-- Induction over blocks. -/
theorem Block.induction {motive : Block L → Prop}
    (leaf : ∀ l t, motive (.leaf l t))
    (scale : ∀ b s t, motive b → motive (.scale b s t))
    (comp : ∀ k bs t, (∀ b ∈ bs, motive b) → motive (.comp k bs t)) (b : Block L) : motive b :=
  Block.rec (motive_1 := motive) (motive_2 := fun bs => ∀ b ∈ bs, motive b)
    leaf (fun b s t h => scale b s t h) (fun k bs t h => comp k bs t h)
    (by simp) (fun b bs h1 h2 => by simpa using ⟨h1, h2⟩) b

namespace Spec

theorem semList_eq_map (S : LeafSem L n) (ρ : Env) (bs : List (Block L)) :
    semList S ρ bs = bs.map (sem S ρ) := by
  induction bs with
  | nil => rfl
  | cons b bs ih => simp [semList, ih]

theorem sem_leaf (S : LeafSem L n) (ρ : Env) (l : L) (t) : sem S ρ (.leaf l t) = S.den l := by
  simp [sem]

theorem sem_scale (S : LeafSem L n) (ρ : Env) (b : Block L) (s t) :
    sem S ρ (.scale b s t) = eval ρ s • sem S ρ b := by
  simp [sem]

theorem sem_chain (S : LeafSem L n) (ρ : Env) (bs : List (Block L)) (t) :
    sem S ρ (.comp .chain bs t) = opProd (bs.map (sem S ρ)) := by
  rw [sem, semList_eq_map]

theorem sem_kron (S : LeafSem L n) (ρ : Env) (bs : List (Block L)) (t) :
    sem S ρ (.comp .kron bs t) = opProd (bs.map (sem S ρ)) := by
  rw [sem, semList_eq_map]

theorem sem_add (S : LeafSem L n) (ρ : Env) (bs : List (Block L)) (t) :
    sem S ρ (.comp .add bs t) = (bs.map (sem S ρ)).sum := by
  rw [sem, semList_eq_map]

theorem mem_qubitsList {supp : L → List ℕ} {bs : List (Block L)} {q : ℕ} :
    q ∈ qubitsList supp bs ↔ ∃ b ∈ bs, q ∈ qubits supp b := by
  induction bs with
  | nil => simp [qubitsList]
  | cons b bs ih => simp [qubitsList, ih]

theorem qubits_leaf (supp : L → List ℕ) (l : L) (t) : qubits supp (.leaf l t) = {q | q ∈ supp l} := by
  simp [qubits]

theorem qubits_scale (supp : L → List ℕ) (b : Block L) (s t) :
    qubits supp (.scale b s t) = qubits supp b := by simp [qubits]

theorem mem_qubits_comp {supp : L → List ℕ} {k : CKind} {bs : List (Block L)} {t} {q : ℕ} :
    q ∈ qubits supp (.comp k bs t) ↔ ∃ b ∈ bs, q ∈ qubits supp b := by
  rw [qubits, mem_qubitsList]

theorem wellFormedList_iff {supp : L → List ℕ} {bs : List (Block L)} :
    WellFormedList supp bs ↔ ∀ b ∈ bs, WellFormed supp b := by
  induction bs with
  | nil => simp [WellFormedList]
  | cons b bs ih => simp [WellFormedList, ih]

theorem wellFormed_scale {supp : L → List ℕ} {b : Block L} {s t} :
    WellFormed supp (.scale b s t) ↔ WellFormed supp b := by simp [WellFormed]

theorem wellFormed_chain {supp : L → List ℕ} {bs : List (Block L)} {t} :
    WellFormed supp (.comp .chain bs t) ↔ ∀ b ∈ bs, WellFormed supp b := by
  simp [WellFormed, wellFormedList_iff]

theorem wellFormed_add {supp : L → List ℕ} {bs : List (Block L)} {t} :
    WellFormed supp (.comp .add bs t) ↔ ∀ b ∈ bs, WellFormed supp b := by
  simp [WellFormed, wellFormedList_iff]

theorem wellFormed_kron {supp : L → List ℕ} {bs : List (Block L)} {t} :
    WellFormed supp (.comp .kron bs t) ↔ bs ≠ [] ∧
      bs.Pairwise (fun a b => Disjoint (qubits supp a) (qubits supp b)) ∧
      ∀ b ∈ bs, WellFormed supp b := by
  simp [WellFormed, wellFormedList_iff]

theorem wellFormed_comp_parts {supp : L → List ℕ} {k : CKind} {bs : List (Block L)} {t}
    (h : WellFormed supp (.comp k bs t)) : ∀ b ∈ bs, WellFormed supp b := by
  cases k
  · exact wellFormed_chain.1 h
  · exact (wellFormed_kron.1 h).2.2
  · exact wellFormed_add.1 h

/-- A block acts only on the qubits which occur in it. -/
theorem sem_actsOn (S : LeafSem L n) (ρ : Env) (b : Block L) :
    ActsOn (qubits S.supp b) (sem S ρ b) := by
  induction b using Block.induction with
  | leaf l t => rw [sem_leaf, qubits_leaf]; exact S.acts l
  | scale b s t ih => rw [sem_scale, qubits_scale]; exact ih.smul _
  | comp k bs t ih =>
    have h : ∀ A ∈ bs.map (sem S ρ), ActsOn (qubits S.supp (.comp k bs t)) A := by
      intro A hA
      obtain ⟨b, hb, rfl⟩ := List.mem_map.1 hA
      apply (ih b hb).mono
      intro q hq
      exact mem_qubits_comp.2 ⟨b, hb, hq⟩
    cases k
    · rw [sem_chain]; exact ActsOn.opProd h
    · rw [sem_kron]; exact ActsOn.opProd h
    · rw [sem_add]; exact ActsOn.listSum h

/-- Blocks on disjoint qubits commute. -/
theorem sem_commute_of_disjoint (S : LeafSem L n) (ρ : Env) (a b : Block L)
    (h : Disjoint (qubits S.supp a) (qubits S.supp b)) :
    sem S ρ a * sem S ρ b = sem S ρ b * sem S ρ a :=
  (sem_actsOn S ρ a).commute_of_disjoint (sem_actsOn S ρ b) h

end Spec

namespace Block

/-- What a Python set guarantees about its iteration order. -/
def SetOrder (ord : List ℕ → List ℕ) : Prop := ∀ l, (ord l).Nodup ∧ ∀ q, q ∈ ord l ↔ q ∈ l

theorem qsAdd_loc (ord : List ℕ → List ℕ) (h : SetOrder ord) (a b : List ℕ) :
    ∃ l, QSupport.add ord (.loc a) (.loc b) = .loc l ∧ ∀ q, q ∈ l ↔ q ∈ a ∨ q ∈ b := by
  unfold QSupport.add
  by_cases e : QSupport.loc a = QSupport.loc b
  · rw [if_pos e]
    have e : a = b := by simpa using e
    exact ⟨a, rfl, fun q => by subst e; simp⟩
  · rw [if_neg e]
    exact ⟨_, rfl, fun q => by rw [(h _).2, List.mem_append]⟩

theorem sumSupports_spec (ord : List ℕ → List ℕ) (h : SetOrder ord) (ss : List (List ℕ)) :
    ∃ l, sumSupports ord ss = .loc l ∧ ∀ q, q ∈ l ↔ ∃ s ∈ ss, q ∈ s := by
  have key : ∀ (ss : List (List ℕ)) (a : List ℕ), ∃ l,
      ss.foldl (fun acc s => QSupport.add ord acc (.loc s)) (.loc a) = .loc l ∧
        ∀ q, q ∈ l ↔ q ∈ a ∨ ∃ s ∈ ss, q ∈ s := by
    intro ss
    induction ss with
    | nil => intro a; exact ⟨a, rfl, by simp⟩
    | cons s ss ih =>
      intro a
      obtain ⟨l, hl, hm⟩ := qsAdd_loc ord h a s
      obtain ⟨l', hl', hm'⟩ := ih l
      refine ⟨l', by rw [List.foldl_cons, hl, hl'], fun q => ?_⟩
      rw [hm', hm]
      simp [or_assoc]
  obtain ⟨l, hl, hm⟩ := key ss []
  obtain ⟨l', hl', hm'⟩ := qsAdd_loc ord h l []
  refine ⟨l', by rw [sumSupports, hl, hl'], fun q => ?_⟩
  rw [hm', hm]
  simp

theorem supports_eq_map (supp : L → List ℕ) (ord : List ℕ → List ℕ) (bs : List (Block L)) :
    supports supp ord bs = bs.map (support supp ord) := by
  induction bs with
  | nil => simp [supports]
  | cons b bs ih => simp [supports, ih]

/-- The computed support contains exactly the qubits occurring in the block. -/
theorem mem_support (supp : L → List ℕ) (ord : List ℕ → List ℕ) (h : SetOrder ord) (b : Block L)
    (q : ℕ) : q ∈ support supp ord b ↔ q ∈ qubits supp b := by
  induction b using Block.induction with
  | leaf l t => simp [support, qubits]
  | scale b s t ih => simpa [support, qubits] using ih
  | comp k bs t ih =>
    obtain ⟨l, hl, hm⟩ := sumSupports_spec ord h (bs.map (support supp ord))
    rw [support, supports_eq_map, hl, mem_qubits_comp, qsList, hm]
    simp only [List.mem_map, exists_exists_and_eq_and]
    constructor
    · rintro ⟨b, hb, hq⟩; exact ⟨b, hb, (ih b hb).1 hq⟩
    · rintro ⟨b, hb, hq⟩; exact ⟨b, hb, (ih b hb).2 hq⟩

theorem kronCheck_iff (ord : List ℕ → List ℕ) (h : SetOrder ord) (acc : List ℕ) (ss : List (List ℕ)) :
    kronCheck ord (.loc acc) ss = true ↔
      (∀ s ∈ ss, ∀ q ∈ acc, q ∉ s) ∧ ss.Pairwise (fun a b => ∀ q ∈ a, q ∉ b) := by
  induction ss generalizing acc with
  | nil => simp [kronCheck]
  | cons s ss ih =>
    obtain ⟨l, hl, hm⟩ := qsAdd_loc ord h acc s
    rw [kronCheck, hl, Bool.and_eq_true, ih]
    simp only [QSupport.isDisjoint, List.all_eq_true, Bool.not_eq_true', List.contains_eq_mem,
      decide_eq_false_iff_not, List.mem_cons, forall_eq_or_imp, List.pairwise_cons, hm]
    constructor
    · rintro ⟨h1, h2, h3⟩
      exact ⟨⟨h1, fun t ht q hq => h2 t ht q (Or.inl hq)⟩, fun t ht q hq => h2 t ht q (Or.inr hq), h3⟩
    · rintro ⟨⟨h1, h2⟩, h3, h4⟩
      refine ⟨h1, fun t ht q hq => ?_, h4⟩
      rcases hq with hq | hq
      · exact h2 t ht q hq
      · exact h3 t ht q hq

/-- `kron` succeeds exactly for non-empty lists of blocks on pairwise different qubits. -/
theorem kronOf_ok_iff (supp : L → List ℕ) (ord : List ℕ → List ℕ) (h : SetOrder ord)
    (bs : List (Block L)) (b : Block L) :
    kronOf supp ord bs = .ok b ↔ b = .comp .kron bs none ∧ bs ≠ [] ∧
      bs.Pairwise (fun a b => Disjoint (qubits supp a) (qubits supp b)) := by
  have hp : kronCheck ord (.loc []) (supports supp ord bs) = true ↔
      bs.Pairwise (fun a b => Disjoint (qubits supp a) (qubits supp b)) := by
    rw [kronCheck_iff ord h, supports_eq_map, List.pairwise_map]
    simp only [List.not_mem_nil, false_implies, implies_true, true_and]
    apply Iff.of_eq
    congr 1
    funext a b
    apply propext
    rw [Set.disjoint_left]
    constructor
    · intro hh q ha hb
      exact hh q ((mem_support supp ord h a q).2 ha) ((mem_support supp ord h b q).2 hb)
    · intro hh q ha hb
      exact hh ((mem_support supp ord h a q).1 ha) ((mem_support supp ord h b q).1 hb)
  unfold kronOf
  cases bs with
  | nil => simp
  | cons c cs =>
    simp only [List.isEmpty_cons, Bool.false_eq_true, if_false]
    by_cases hk : kronCheck ord (.loc []) (supports supp ord (c :: cs)) = true
    · rw [if_pos hk]
      have := hp.1 hk
      constructor
      · intro e
        simp only [Except.ok.injEq] at e
        exact ⟨e.symm, by simp, this⟩
      · rintro ⟨rfl, -, -⟩; rfl
    · rw [if_neg hk]
      simp only [reduceCtorEq, false_iff]
      rintro ⟨-, -, hh⟩
      exact hk (hp.2 hh)

end Block

end Qadence
