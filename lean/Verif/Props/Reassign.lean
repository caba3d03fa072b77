import Mathlib.Logic.Equiv.Fintype
import Mathlib.Analysis.SpecialFunctions.Exponential
import Verif.Model.Reassign
import Verif.Proofs.GateSem
import Verif.Proofs.Except
import Verif.Props.Padding

/-!
# C15: relabelling qubits conjugates the operator
-/

namespace Qadence

open Spec Matrix

variable {n : ℕ}

namespace Spec

/-- Rename the qubits of a gate. -/
def renameGate (f : ℕ → ℕ) : Gate → Gate
  | .fixed g q => .fixed g (f q)
  | .rot g q θ => .rot g (f q) θ
  | .u q φ θ ω => .u (f q) φ θ ω
  | .swap a b => .swap (f a) (f b)
  | .proj k b qs => .proj k b (qs.map f)
  | .matrix r qs => .matrix r (qs.map f)
  | .control c cs g => .control c (cs.map f) (renameGate f g)

mutual
/-- Apply a function to all leaves; tags, scale factors and structure stay the same. -/
def mapLeaf {L M : Type} (f : L → M) : Block L → Block M
  | .leaf l t => .leaf (f l) t
  | .scale b s t => .scale (mapLeaf f b) s t
  | .comp k bs t => .comp k (mapLeafList f bs) t
/-- The same for lists. -/
def mapLeafList {L M : Type} (f : L → M) : List (Block L) → List (Block M)
  | [] => []
  | b :: bs => mapLeaf f b :: mapLeafList f bs
end

theorem mapLeafList_eq {L M : Type} (f : L → M) (bs : List (Block L)) :
    mapLeafList f bs = bs.map (mapLeaf f) := by
  induction bs with
  | nil => rfl
  | cons b bs ih => simp [mapLeafList, ih]

/-- The operator with qubit `j` called `σ j`. -/
def relabel (σ : Equiv.Perm (Fin n)) (M : Oper n) : Oper n := fun x y => M (x ∘ σ) (y ∘ σ)

end Spec

theorem relabel_eq (σ : Equiv.Perm (Fin n)) (M : Oper n) :
    relabel σ M = M.submatrix (σ.symm.arrowCongr (Equiv.refl Bool)) (σ.symm.arrowCongr (Equiv.refl Bool)) := by
  funext x y
  rfl

theorem relabel_mul (σ : Equiv.Perm (Fin n)) (A B : Oper n) : relabel σ (A * B) = relabel σ A * relabel σ B := by
  simp only [relabel_eq]
  rw [Matrix.submatrix_mul_equiv]

theorem relabel_one (σ : Equiv.Perm (Fin n)) : relabel σ (1 : Oper n) = 1 := by
  rw [relabel_eq, Matrix.submatrix_one_equiv]

theorem relabel_opProd (σ : Equiv.Perm (Fin n)) (Ms : List (Oper n)) :
    relabel σ (opProd Ms) = opProd (Ms.map (relabel σ)) := by
  induction Ms with
  | nil => exact relabel_one σ
  | cons M Ms ih => simp only [opProd, List.map_cons, relabel_mul, ih]

theorem relabel_sum (σ : Equiv.Perm (Fin n)) (Ms : List (Oper n)) :
    relabel σ Ms.sum = (Ms.map (relabel σ)).sum := by
  induction Ms with
  | nil => rfl
  | cons M Ms ih => simp only [List.sum_cons, List.map_cons, ← ih]; rfl

/-- `σ` does what `f` does on the qubits in `S`, which belong to the register. -/
def Extends (σ : Equiv.Perm (Fin n)) (f : ℕ → ℕ) (S : Set ℕ) : Prop :=
  ∀ q ∈ S, ∃ h : q < n, f q = σ ⟨q, h⟩

theorem bit_relabel {σ : Equiv.Perm (Fin n)} {f : ℕ → ℕ} {S : Set ℕ} (h : Extends σ f S) {q : ℕ} (hq : q ∈ S)
    (x : St n) : bit x (f q) = bit (x ∘ σ) q := by
  obtain ⟨h1, h2⟩ := h q hq
  rw [h2, bit_val]
  simp [bit, h1]

theorem forall_relabel {σ : Equiv.Perm (Fin n)} {p : Fin n → Prop} : (∀ j, p j) ↔ ∀ j, p (σ j) :=
  ⟨fun h j => h _, fun h j => by simpa using h (σ.symm j)⟩

theorem embed_relabel {k : ℕ} {σ : Equiv.Perm (Fin n)} {f : ℕ → ℕ} {g : Fin k → ℕ}
    (h : Extends σ f (Set.range g)) (U : Matrix (Fin k → Bool) (Fin k → Bool) ℂ) :
    (embed (fun i => f (g i)) U : Oper n) = relabel σ (embed g U) := by
  funext x y
  simp only [relabel, embed]
  have e : (∀ j : Fin n, (∀ i, f (g i) ≠ j) → x j = y j) ↔
      ∀ j : Fin n, (∀ i, g i ≠ j) → (x ∘ σ) j = (y ∘ σ) j := by
    rw [forall_relabel (σ := σ)]
    apply forall_congr'
    intro j
    apply imp_congr_left
    apply forall_congr'
    intro i
    obtain ⟨h1, h2⟩ := h (g i) ⟨i, rfl⟩
    rw [h2, not_iff_not]
    constructor
    · intro e
      have := σ.injective (Fin.ext e)
      rw [← this]
    · intro e
      congr 2
      exact Fin.ext e
  simp only [bit_relabel h ⟨_, rfl⟩]
  by_cases hc : ∀ j : Fin n, (∀ i, g i ≠ j) → (x ∘ σ) j = (y ∘ σ) j
  · rw [if_pos hc, if_pos (e.2 hc)]
  · rw [if_neg hc, if_neg (fun h' => hc (e.1 h'))]

theorem embed1_relabel {σ : Equiv.Perm (Fin n)} {f : ℕ → ℕ} {q : ℕ} (h : Extends σ f {q})
    (U : Matrix Bool Bool ℂ) : (embed1 (f q) U : Oper n) = relabel σ (embed1 q U) := by
  rw [embed1_eq_embed, embed1_eq_embed]
  exact embed_relabel (g := fun _ : Fin 1 => q) (by simpa using h) _

theorem embed_list (l : List ℕ) {k : ℕ} (hl : l.length = k) (g : Fin k → ℕ)
    (hg : ∀ i (h : i < l.length), l[i] = g ⟨i, hl ▸ h⟩)
    (U : ∀ k : ℕ, Matrix (Fin k → Bool) (Fin k → Bool) ℂ) :
    (embed (fun i : Fin l.length => l[i]) (U l.length) : Oper n) = embed g (U k) := by
  subst hl
  have : (fun i : Fin l.length => l[i]) = g := by
    funext i
    exact hg i i.2
  rw [this]

theorem gateDen_rename (ρ : Env) {σ : Equiv.Perm (Fin n)} {f : ℕ → ℕ} (g : Gate)
    (h : Extends σ f {q | q ∈ g.supp}) :
    (gateDen ρ (renameGate f g) : Oper n) = relabel σ (gateDen ρ g) := by
  induction g with
  | fixed g q => exact embed1_relabel (fun r hr => h r (by simpa [Gate.supp] using hr)) _
  | rot g q θ => exact embed1_relabel (fun r hr => h r (by simpa [Gate.supp] using hr)) _
  | u q φ θ ω => exact embed1_relabel (fun r hr => h r (by simpa [Gate.supp] using hr)) _
  | swap a b =>
    funext x y
    simp only [renameGate, gateDen, relabel, swapOp]
    have ha : a ∈ {q | q ∈ (Gate.swap a b).supp} := by simp [Gate.supp]
    have hb : b ∈ {q | q ∈ (Gate.swap a b).supp} := by simp [Gate.supp]
    have e : (∀ j : Fin n, x j = if (j : ℕ) = f a then bit y (f b) else if (j : ℕ) = f b then bit y (f a) else y j) ↔
        ∀ j : Fin n, (x ∘ σ) j =
          if (j : ℕ) = a then bit (y ∘ σ) b else if (j : ℕ) = b then bit (y ∘ σ) a else (y ∘ σ) j := by
      rw [forall_relabel (σ := σ)]
      apply forall_congr'
      intro j
      rw [bit_relabel h ha, bit_relabel h hb]
      have key : ∀ q ∈ {q | q ∈ (Gate.swap a b).supp}, ((σ j : ℕ) = f q ↔ (j : ℕ) = q) := by
        intro q hq
        obtain ⟨h1, h2⟩ := h q hq
        rw [h2]
        constructor
        · intro e; have := σ.injective (Fin.ext e); rw [this]
        · intro e; congr 2; exact Fin.ext e
      simp only [key a ha, key b hb]
      rfl
    by_cases hc : ∀ j : Fin n, (x ∘ σ) j =
          if (j : ℕ) = a then bit (y ∘ σ) b else if (j : ℕ) = b then bit (y ∘ σ) a else (y ∘ σ) j
    · rw [if_pos hc, if_pos (e.2 hc)]
    · rw [if_neg hc, if_neg (fun h' => hc (e.1 h'))]
  | proj ket bra qs =>
    have h' : Extends σ f (Set.range fun i : Fin qs.length => qs[i]) := by
      rintro _ ⟨i, rfl⟩
      exact h _ (by simp [Gate.supp])
    simp only [renameGate, gateDen]
    rw [← embed_relabel h']
    exact embed_list (qs.map f) (by simp) _ (by simp) fun k =>
      Matrix.of fun a b => ind ((∀ i : Fin k, a i = ket.getD i false) ∧ ∀ i : Fin k, b i = bra.getD i false)
  | matrix rows qs =>
    have h' : Extends σ f (Set.range fun i : Fin qs.length => qs[i]) := by
      rintro _ ⟨i, rfl⟩
      exact h _ (by simp [Gate.supp])
    simp only [renameGate, gateDen]
    rw [← embed_relabel h']
    exact embed_list (qs.map f) (by simp) _ (by simp) fun k =>
      Matrix.of fun a b => eval ρ (((rows.getD (bitsValue a) []).getD (bitsValue b)) (.num 0 0))
  | control c cs g ih =>
    funext x y
    simp only [renameGate, gateDen, relabel, controlled]
    rw [ih (fun q hq => h q (by simp only [Gate.supp, Set.mem_setOf_eq, List.mem_append]; exact Or.inr hq))]
    have e : (∀ c ∈ cs.map f, bit x c = true) ↔ ∀ c ∈ cs, bit (x ∘ σ) c = true := by
      rw [List.forall_mem_map]
      apply forall_congr'
      intro c
      apply forall_congr'
      intro hc
      rw [bit_relabel h (by simp [Gate.supp, hc])]
    have e2 : x = y ↔ x ∘ σ = y ∘ σ := by
      constructor
      · rintro rfl; rfl
      · intro e; funext j; have := congrFun e (σ.symm j); simpa using this
    simp only [e, e2]
    rfl

theorem qubits_mapLeaf {L M : Type} (sL : L → List ℕ) (sM : M → List ℕ) (r : L → M) (f : ℕ → ℕ)
    (hs : ∀ l, sM (r l) = (sL l).map f) (b : Block L) : qubits sM (mapLeaf r b) = f '' qubits sL b := by
  induction b using Block.induction with
  | leaf l t => ext q; simp [mapLeaf, qubits_leaf, hs]
  | scale b s t ih => simpa only [mapLeaf, qubits_scale] using ih
  | comp k bs t ih =>
    ext q
    simp only [mapLeaf, mapLeafList_eq, mem_qubits_comp, List.mem_map, exists_exists_and_eq_and, Set.mem_image]
    constructor
    · rintro ⟨b, hb, hq⟩
      rw [ih b hb] at hq
      obtain ⟨r, hr, rfl⟩ := hq
      exact ⟨r, ⟨b, hb, hr⟩, rfl⟩
    · rintro ⟨r, ⟨b, hb, hr⟩, rfl⟩
      exact ⟨b, hb, by rw [ih b hb]; exact ⟨r, hr, rfl⟩⟩

theorem wellFormed_mapLeaf {L M : Type} (sL : L → List ℕ) (sM : M → List ℕ) (r : L → M) (f : ℕ → ℕ)
    (hs : ∀ l, sM (r l) = (sL l).map f) (b : Block L) (hf : Set.InjOn f (qubits sL b)) (h : WellFormed sL b) :
    WellFormed sM (mapLeaf r b) := by
  induction b using Block.induction with
  | leaf l t => simp [mapLeaf, WellFormed]
  | scale b s t ih =>
    simp only [mapLeaf, wellFormed_scale] at h ⊢
    exact ih (by simpa only [qubits_scale] using hf) h
  | comp k bs t ih =>
    have hf' : ∀ b ∈ bs, Set.InjOn f (qubits sL b) := fun b hb =>
      hf.mono fun q hq => mem_qubits_comp.2 ⟨b, hb, hq⟩
    have hp := wellFormed_comp_parts h
    have hall : ∀ c ∈ bs.map (mapLeaf r), WellFormed sM c := by
      intro c hc
      obtain ⟨b, hb, rfl⟩ := List.mem_map.1 hc
      exact ih b hb (hf' b hb) (hp b hb)
    simp only [mapLeaf, mapLeafList_eq]
    cases k with
    | chain => exact wellFormed_chain.2 hall
    | add => exact wellFormed_add.2 hall
    | kron =>
      obtain ⟨h1, h2, h3⟩ := wellFormed_kron.1 h
      refine wellFormed_kron.2 ⟨by simpa using h1, ?_, hall⟩
      rw [List.pairwise_map]
      refine h2.imp_of_mem ?_
      intro a b ha hb hd
      rw [qubits_mapLeaf sL sM r f hs, qubits_mapLeaf sL sM r f hs]
      rw [Set.disjoint_left] at hd ⊢
      rintro _ ⟨p, hp, rfl⟩ ⟨q, hq, e⟩
      have := hf (mem_qubits_comp.2 ⟨b, hb, hq⟩) (mem_qubits_comp.2 ⟨a, ha, hp⟩) e
      subst this
      exact hd hp hq

theorem renameGate_supp (f : ℕ → ℕ) (g : Gate) : (renameGate f g).supp = g.supp.map f := by
  induction g with
  | control c cs g ih => simp [renameGate, Gate.supp, ih]
  | _ => simp [renameGate, Gate.supp]

theorem mapM_get {m : QMap} {f : ℕ → ℕ} (qs : List ℕ) (h : ∀ q ∈ qs, m.get q = .ok (f q)) :
    qs.mapM m.get = .ok (qs.map f) := by
  induction qs with
  | nil => rfl
  | cons q qs ih =>
    rw [List.mapM_cons, h q List.mem_cons_self, ok_bind, ih (fun r hr => h r (List.mem_cons_of_mem _ hr)), ok_bind]
    rfl

theorem gate_reassign_ok {m : QMap} {f : ℕ → ℕ} (g : Gate) (h : ∀ q ∈ g.supp, m.get q = .ok (f q)) :
    g.reassign m = .ok (renameGate f g) := by
  induction g with
  | fixed g q => simp only [Gate.reassign, h q (by simp [Gate.supp]), ok_bind]; rfl
  | rot g q θ => simp only [Gate.reassign, h q (by simp [Gate.supp]), ok_bind]; rfl
  | u q φ θ ω => simp only [Gate.reassign, h q (by simp [Gate.supp]), ok_bind]; rfl
  | swap a b =>
    simp only [Gate.reassign, h a (by simp [Gate.supp]), h b (by simp [Gate.supp]), ok_bind]; rfl
  | proj k b qs => simp only [Gate.reassign, mapM_get qs (fun q hq => h q (by simpa [Gate.supp] using hq)), ok_bind]; rfl
  | matrix r qs => simp only [Gate.reassign, mapM_get qs (fun q hq => h q (by simpa [Gate.supp] using hq)), ok_bind]; rfl
  | control c cs g ih =>
    simp only [Gate.reassign, mapM_get cs (fun q hq => h q (by simp [Gate.supp, hq])),
      ih (fun q hq => h q (by simp [Gate.supp, hq])), ok_bind]
    rfl

theorem reassignAll_ok {L : Type} {supp : L → List ℕ} {ord : List ℕ → List ℕ} {lr : L → Except PyErr L} {r : L → L}
    (bs : List (Block L)) (h : ∀ b ∈ bs, b.reassign supp ord lr = .ok (mapLeaf r b)) :
    Block.reassignAll supp ord lr bs = .ok (bs.map (mapLeaf r)) := by
  induction bs with
  | nil => rfl
  | cons b bs ih =>
    simp only [Block.reassignAll, h b List.mem_cons_self, ih (fun c hc => h c (List.mem_cons_of_mem _ hc)), ok_bind]
    rfl

/-- On a valid block, `reassign` along an injective map which is defined on all qubits renames the qubits of every
primitive block and keeps everything else: tags, parameters, scale factors and structure. -/
theorem C15_reassign_renames {ord : List ℕ → List ℕ} (ho : Block.SetOrder ord) (m : QMap) (f : ℕ → ℕ) (b : Block Gate)
    (hw : WellFormed Gate.supp b) (hm : ∀ q ∈ qubits Gate.supp b, m.get q = .ok (f q))
    (hf : Set.InjOn f (qubits Gate.supp b)) :
    b.reassignGates ord m = .ok (mapLeaf (renameGate f) b) := by
  unfold Block.reassignGates
  have hs := renameGate_supp f
  induction b using Block.induction with
  | leaf l t =>
    simp only [Block.reassign, gate_reassign_ok l (fun q hq => hm q (by simpa [qubits_leaf] using hq)), ok_bind]
    rfl
  | scale b s t ih =>
    simp only [Block.reassign, ih (by simpa only [wellFormed_scale] using hw) (by simpa only [qubits_scale] using hm)
      (by simpa only [qubits_scale] using hf), ok_bind]
    rfl
  | comp k bs t ih =>
    have hall := reassignAll_ok (supp := Gate.supp) (ord := ord) bs fun b hb =>
      ih b hb (wellFormed_comp_parts hw b hb) (fun q hq => hm q (mem_qubits_comp.2 ⟨b, hb, hq⟩))
        (hf.mono fun q hq => mem_qubits_comp.2 ⟨b, hb, hq⟩)
    have hw' := wellFormed_mapLeaf Gate.supp Gate.supp (renameGate f) f hs _ hf hw
    simp only [mapLeaf, mapLeafList_eq] at hw' ⊢
    simp only [Block.reassign, hall, ok_bind]
    cases k with
    | chain => rfl
    | add => rfl
    | kron =>
      obtain ⟨h1, h2, -⟩ := wellFormed_kron.1 hw'
      have := (Block.kronOf_ok_iff Gate.supp ord ho (bs.map (mapLeaf (renameGate f))) _).2 ⟨rfl, h1, h2⟩
      simp only [Block.constructTagged, this, ok_bind]
      rfl

theorem sem_mapLeaf (ρ : Env) {σ : Equiv.Perm (Fin n)} {f : ℕ → ℕ} (b : Block Gate)
    (h : Extends σ f (qubits Gate.supp b)) :
    sem (gateSem n ρ) ρ (mapLeaf (renameGate f) b) = relabel σ (sem (gateSem n ρ) ρ b) := by
  induction b using Block.induction with
  | leaf l t =>
    simp only [mapLeaf, sem_leaf, gateSem_den]
    exact gateDen_rename ρ l (by simpa only [qubits_leaf] using h)
  | scale b s t ih =>
    simp only [mapLeaf, sem_scale, ih (by simpa only [qubits_scale] using h)]
    rfl
  | comp k bs t ih =>
    have hmap : (bs.map (mapLeaf (renameGate f))).map (sem (gateSem n ρ) ρ) =
        (bs.map (sem (gateSem n ρ) ρ)).map (relabel σ) := by
      rw [List.map_map, List.map_map]
      exact List.map_congr_left fun b hb => ih b hb fun q hq => h q (mem_qubits_comp.2 ⟨b, hb, hq⟩)
    simp only [mapLeaf, mapLeafList_eq]
    cases k with
    | chain => rw [sem_chain, sem_chain, hmap, relabel_opProd]
    | kron => rw [sem_kron, sem_kron, hmap, relabel_opProd]
    | add => rw [sem_add, sem_add, hmap, relabel_sum]

/-- An injective map on some qubits of a register extends to a permutation of the register. -/
theorem exists_extends (f : ℕ → ℕ) (S : Set ℕ) (hS : ∀ q ∈ S, q < n ∧ f q < n) (hf : Set.InjOn f S) :
    ∃ σ : Equiv.Perm (Fin n), Extends σ f S := by
  classical
  let T : Set (Fin n) := {j | (j : ℕ) ∈ S}
  let g : T → Fin n := fun j => ⟨f j.1, (hS _ j.2).2⟩
  have hg : Function.Injective g := by
    intro a b e
    have : f a.1 = f b.1 := congrArg Fin.val e
    exact Subtype.ext (Fin.ext (hf a.2 b.2 this))
  let e : {j // j ∈ T} ≃ {j // j ∈ Set.range g} := Equiv.ofInjective g hg
  refine ⟨e.extendSubtype, fun q hq => ⟨(hS q hq).1, ?_⟩⟩
  rw [Equiv.extendSubtype_apply_of_mem e ⟨q, (hS q hq).1⟩ hq]
  rfl

/-- **C15** (partial: blocks without Hamiltonian evolutions, for which it is false): for every valid block and every
map which is injective on its qubits and stays inside the register, `reassign` returns a block, and its operator is the
one of the block with the qubits renamed. -/
theorem C15_reassign_conjugates_partial (ρ : Env) {ord : List ℕ → List ℕ} (ho : Block.SetOrder ord) (m : QMap)
    (f : ℕ → ℕ) (b : Block Gate) (hw : WellFormed Gate.supp b)
    (hm : ∀ q ∈ qubits Gate.supp b, m.get q = .ok (f q)) (hf : Set.InjOn f (qubits Gate.supp b))
    (hn : ∀ q ∈ qubits Gate.supp b, q < n ∧ f q < n) :
    ∃ b', b.reassignGates ord m = .ok b' ∧
      (∃ σ : Equiv.Perm (Fin n), Extends σ f (qubits Gate.supp b)) ∧
      ∀ σ : Equiv.Perm (Fin n), Extends σ f (qubits Gate.supp b) →
        ∀ x y, sem (gateSem n ρ) ρ b' x y = sem (gateSem n ρ) ρ b (x ∘ σ) (y ∘ σ) := by
  refine ⟨_, C15_reassign_renames ho m f b hw hm hf, exists_extends f _ hn hf, fun σ hσ x y => ?_⟩
  rw [sem_mapLeaf ρ b hσ]
  rfl

/-- **C15**: `reassign` keeps the tags, scale factors and the structure of the block, whenever it returns. -/
theorem C15_reassign_keeps_tags {L : Type} (supp : L → List ℕ) (ord : List ℕ → List ℕ) (lr : L → Except PyErr L)
    (b b' : Block L) (h : b.reassign supp ord lr = .ok b') :
    mapLeaf (fun _ => ()) b' = mapLeaf (fun _ => ()) b := by
  induction b using Block.induction generalizing b' with
  | leaf l t =>
    simp only [Block.reassign] at h
    obtain ⟨l', -, h⟩ := bind_ok h
    cases h
    rfl
  | scale b s t ih =>
    simp only [Block.reassign] at h
    obtain ⟨c, hc, h⟩ := bind_ok h
    cases h
    simp only [mapLeaf, ih c hc]
  | comp k bs t ih =>
    simp only [Block.reassign] at h
    obtain ⟨cs, hcs, h1⟩ := bind_ok h
    have hb' : b' = .comp k cs t := by
      cases k with
      | chain => simp only [Block.constructTagged] at h1; cases h1; rfl
      | add => simp only [Block.constructTagged] at h1; cases h1; rfl
      | kron =>
        simp only [Block.constructTagged] at h1
        obtain ⟨_, _, h1⟩ := bind_ok h1
        cases h1; rfl
    subst hb'
    simp only [mapLeaf, mapLeafList_eq]
    congr 1
    clear h h1
    induction bs generalizing cs with
    | nil => cases hcs; rfl
    | cons b bs ih' =>
      simp only [Block.reassignAll] at hcs
      obtain ⟨c, hc, hcs⟩ := bind_ok hcs
      obtain ⟨ds, hds, hcs⟩ := bind_ok hcs
      cases hcs
      simp only [List.map_cons]
      rw [ih b List.mem_cons_self c hc, ih' (fun b hb => ih b (List.mem_cons_of_mem _ hb)) ds hds]

/-- **C15**: a qubit missing from the map is refused. -/
theorem C15_reassign_missing {m : QMap} (g : Gate) (q : ℕ) (hq : q ∈ g.supp) (hm : m.lookup q = none) :
    ∃ e, g.reassign m = .error e := by
  have hget : m.get q = .error .keyError := by simp [QMap.get, hm]
  have hmapM : ∀ qs : List ℕ, q ∈ qs → ∃ e, qs.mapM m.get = .error e := by
    intro qs
    induction qs with
    | nil => simp
    | cons r qs ih =>
      intro h
      rw [List.mapM_cons]
      cases hr : m.get r with
      | error e => exact ⟨e, rfl⟩
      | ok v =>
        have : q ∈ qs := by
          rcases List.mem_cons.1 h with rfl | h
          · rw [hget] at hr; cases hr
          · exact h
        obtain ⟨e, he⟩ := ih this
        exact ⟨e, by rw [ok_bind, he]; rfl⟩
  cases h : g.reassign m with
  | error e => exact ⟨e, rfl⟩
  | ok g' =>
    exfalso
    induction g generalizing g' with
    | fixed g r =>
      simp only [Gate.supp, List.mem_singleton] at hq
      subst hq
      simp only [Gate.reassign, hget] at h
      cases h
    | rot g r θ =>
      simp only [Gate.supp, List.mem_singleton] at hq
      subst hq
      simp only [Gate.reassign, hget] at h
      cases h
    | u r φ θ ω =>
      simp only [Gate.supp, List.mem_singleton] at hq
      subst hq
      simp only [Gate.reassign, hget] at h
      cases h
    | swap a b =>
      simp only [Gate.reassign] at h
      obtain ⟨x, hx, h⟩ := bind_ok h
      obtain ⟨y, hy, h⟩ := bind_ok h
      simp only [Gate.supp, List.mem_cons, List.not_mem_nil, or_false] at hq
      rcases hq with rfl | rfl
      · rw [hget] at hx; cases hx
      · rw [hget] at hy; cases hy
    | proj k b qs =>
      simp only [Gate.reassign] at h
      obtain ⟨x, hx, h⟩ := bind_ok h
      obtain ⟨e, he⟩ := hmapM qs hq
      rw [he] at hx; cases hx
    | matrix r qs =>
      simp only [Gate.reassign] at h
      obtain ⟨x, hx, h⟩ := bind_ok h
      obtain ⟨e, he⟩ := hmapM qs hq
      rw [he] at hx; cases hx
    | control c cs g ih =>
      simp only [Gate.reassign] at h
      obtain ⟨x, hx, h⟩ := bind_ok h
      obtain ⟨y, hy, h⟩ := bind_ok h
      simp only [Gate.supp, List.mem_append] at hq
      rcases hq with hq | hq
      · obtain ⟨e, he⟩ := hmapM cs hq
        rw [he] at hx; cases hx
      · exact ih hq y hy

/-! ## invert_endianness -/

theorem invertMap_get {k q : ℕ} (h : q < k) : (invertMap k).get q = .ok (k - 1 - q) := by
  have key : ∀ (l : List ℕ) (r : List ℕ) (i : ℕ) (h1 : i < l.length) (h2 : i < r.length), l.Nodup →
      (l.zip r).lookup l[i] = some r[i] := by
    intro l
    induction l with
    | nil => intro r i h1; simp at h1
    | cons a l ih =>
      intro r i h1 h2 hn
      cases r with
      | nil => simp at h2
      | cons b r =>
        cases i with
        | zero => simp
        | succ i =>
          have hne : l[i]'(by simpa using h1) ≠ a := by
            intro e
            exact (List.nodup_cons.1 hn).1 (e ▸ List.getElem_mem _)
          simp only [List.zip_cons_cons, List.getElem_cons_succ, List.lookup_cons]
          rw [beq_false_of_ne hne]
          exact ih r i (by simpa using h1) (by simpa using h2) (List.nodup_cons.1 hn).2
  have := key (List.range k) (List.range k).reverse q (by simpa using h) (by simpa using h) List.nodup_range
  simp only [List.getElem_range] at this
  rw [QMap.get, invertMap, this]
  simp

/-- **C15**: for a valid block on qubits below `k`, `invert_endianness(block, k)` returns a block whose operator on `k`
qubits is the one of the block between bit-reversed basis states. -/
theorem C15_invert_endianness (ρ : Env) {ord : List ℕ → List ℕ} (ho : Block.SetOrder ord) (k : ℕ) (b : Block Gate)
    (hw : WellFormed Gate.supp b) (hk : ∀ q ∈ qubits Gate.supp b, q < k) :
    ∃ b', invertBlock ord k b = .ok b' ∧
      ∀ x y, sem (gateSem k ρ) ρ b' x y = sem (gateSem k ρ) ρ b (x ∘ Fin.rev) (y ∘ Fin.rev) := by
  have hf : Set.InjOn (fun q => k - 1 - q) (qubits Gate.supp b) := by
    intro p hp q hq e
    have := hk p hp
    have := hk q hq
    simp only at e
    omega
  obtain ⟨b', h1, -, h2⟩ := C15_reassign_conjugates_partial (n := k) ρ ho (invertMap k) (fun q => k - 1 - q) b hw
    (fun q hq => invertMap_get (hk q hq)) hf (fun q hq => ⟨hk q hq, by have := hk q hq; omega⟩)
  refine ⟨b', h1, fun x y => h2 Fin.revPerm ?_ x y⟩
  intro q hq
  refine ⟨hk q hq, ?_⟩
  simp [Fin.val_rev]
  omega

theorem renameGate_renameGate (f g : ℕ → ℕ) (a : Gate) (h : ∀ q ∈ a.supp, g (f q) = q) :
    renameGate g (renameGate f a) = a := by
  have hl : ∀ qs : List ℕ, (∀ q ∈ qs, g (f q) = q) → (qs.map f).map g = qs := by
    intro qs hqs
    rw [List.map_map]
    conv_rhs => rw [← List.map_id qs]
    exact List.map_congr_left hqs
  induction a with
  | control c cs a ih =>
    simp only [renameGate, hl cs (fun q hq => h q (by simp [Gate.supp, hq])),
      ih (fun q hq => h q (by simp [Gate.supp, hq]))]
  | proj k b qs => simp only [renameGate, hl qs h]
  | matrix r qs => simp only [renameGate, hl qs h]
  | _ => simp_all [renameGate, Gate.supp]

theorem mapLeaf_mapLeaf_rename (f g : ℕ → ℕ) (b : Block Gate) (h : ∀ q ∈ qubits Gate.supp b, g (f q) = q) :
    mapLeaf (renameGate g) (mapLeaf (renameGate f) b) = b := by
  induction b using Block.induction with
  | leaf l t =>
    simp only [mapLeaf, renameGate_renameGate f g l (fun q hq => h q (by simpa [qubits_leaf] using hq))]
  | scale b s t ih => simp only [mapLeaf, ih (by simpa only [qubits_scale] using h)]
  | comp k bs t ih =>
    simp only [mapLeaf, mapLeafList_eq, List.map_map]
    congr 1
    conv_rhs => rw [← List.map_id bs]
    exact List.map_congr_left fun b hb => ih b hb fun q hq => h q (mem_qubits_comp.2 ⟨b, hb, hq⟩)

/-- **C15**: inverting the endianness twice gives back the very same block (gates, parameters, tags, structure). -/
theorem C15_invert_endianness_involution {ord : List ℕ → List ℕ} (ho : Block.SetOrder ord) (k : ℕ) (b : Block Gate)
    (hw : WellFormed Gate.supp b) (hk : ∀ q ∈ qubits Gate.supp b, q < k) :
    ∃ b', invertBlock ord k b = .ok b' ∧ invertBlock ord k b' = .ok b := by
  have hf : Set.InjOn (fun q => k - 1 - q) (qubits Gate.supp b) := by
    intro p hp q hq e
    have := hk p hp
    have := hk q hq
    simp only at e
    omega
  have hs := renameGate_supp (fun q => k - 1 - q)
  have h1 := C15_reassign_renames ho (invertMap k) (fun q => k - 1 - q) b hw (fun q hq => invertMap_get (hk q hq)) hf
  have hq' := qubits_mapLeaf Gate.supp Gate.supp (renameGate fun q => k - 1 - q) _ hs b
  have hw' := wellFormed_mapLeaf Gate.supp Gate.supp (renameGate fun q => k - 1 - q) _ hs b hf hw
  have hk' : ∀ q ∈ qubits Gate.supp (mapLeaf (renameGate fun q => k - 1 - q) b), q < k := by
    rw [hq']
    rintro _ ⟨q, hq, rfl⟩
    have := hk q hq
    simp only
    omega
  have hf' : Set.InjOn (fun q => k - 1 - q) (qubits Gate.supp (mapLeaf (renameGate fun q => k - 1 - q) b)) := by
    intro p hp q hq e
    have := hk' p hp
    have := hk' q hq
    simp only at e
    omega
  refine ⟨_, h1, ?_⟩
  have h2 := C15_reassign_renames ho (invertMap k) (fun q => k - 1 - q) _ hw'
    (fun q hq => invertMap_get (hk' q hq)) hf'
  rw [invertBlock, h2, mapLeaf_mapLeaf_rename]
  intro q hq
  have := hk q hq
  omega

/-- The operator of a `HamEvo` object: the generator is evaluated on its own qubits
(qadence/blocks/block_to_tensor.py:400-410). -/
noncomputable def HamEvoObj.den (ρ : Env) (h : HamEvoObj) : Oper n :=
  evolution (eval ρ h.t) (sem (gateSem n ρ) ρ h.gen)

/-- **C15**: exchanging qubits 0 and 1 of `HamEvo(Z(0), π/2)` does not change its operator, since the generator is
left alone. -/
theorem C15_counterexample_hamevo (ρ : Env) :
    ∃ h', HamEvoObj.reassign [(0, 1), (1, 0)] ⟨[0], .leaf (.fixed .Z 0) none, .mul .pi (.num (1 / 2) 0)⟩ = .ok h' ∧
      (h'.den ρ : Oper 2) ≠ relabel (Equiv.swap 0 1)
        (HamEvoObj.den ρ ⟨[0], .leaf (.fixed .Z 0) none, .mul .pi (.num (1 / 2) 0)⟩) := by
  refine ⟨⟨[1], .leaf (.fixed .Z 0) none, .mul .pi (.num (1 / 2) 0)⟩, rfl, ?_⟩
  have hZ : (embed1 0 (mat1 .Z) : Oper 2) = Matrix.diagonal fun x => if x 0 then -1 else 1 := by
    funext x y
    simp only [embed1, mat1, Matrix.diagonal_apply, bit]
    by_cases hxy : x = y
    · subst hxy; simp
    · rw [if_neg hxy]
      split
      · next h =>
        simp only [Nat.zero_lt_two, dif_pos]
        have : x 0 ≠ y 0 := by
          intro e
          apply hxy
          funext j
          by_cases hj : j = 0
          · rw [hj]; exact e
          · exact h j (fun e => hj (Fin.ext e.symm))
        exact if_neg this
      · rfl
  have ht : eval ρ (.mul .pi (.num (1 / 2) 0)) = Real.pi / 2 := by
    have : eval ρ (.num (1 / 2) 0) = 1 / 2 := by apply Complex.ext <;> simp [eval]
    rw [show eval ρ (.mul .pi (.num (1 / 2) 0)) = eval ρ .pi * eval ρ (.num (1 / 2) 0) from rfl, this]
    simp only [eval]; ring
  intro e
  simp only [HamEvoObj.den, sem_leaf, gateSem_den, gateDen, hZ, evolution, ht, ← Matrix.diagonal_smul, Matrix.exp_diagonal] at e
  have e' := congrFun (congrFun e ![true, false]) ![true, false]
  rw [relabel] at e'
  simp only [Matrix.diagonal_apply_eq, Pi.coe_exp, Pi.smul_apply, Function.comp_apply, Equiv.swap_apply_left,
    Matrix.cons_val_zero, Matrix.cons_val_one, smul_eq_mul, if_true, Bool.false_eq_true, if_false, mul_neg, mul_one,
    ← Complex.exp_eq_exp_ℂ] at e'
  have h1 : Complex.exp (-(-Complex.I * (Real.pi / 2))) = Complex.I := by
    rw [show -(-Complex.I * ((Real.pi : ℂ) / 2)) = (Real.pi / 2) * Complex.I by ring, Complex.exp_pi_div_two_mul_I]
  have h2 := h1
  rw [e'] at h2
  rw [Complex.exp_neg, h2] at h1
  have h3 : Complex.I * Complex.I = 1 := by
    nth_rewrite 1 [← h1]
    exact inv_mul_cancel₀ Complex.I_ne_zero
  rw [Complex.I_mul_I] at h3
  norm_num at h3

/-- A block meeting the hypotheses of C15: `chain(CNOT(0, 2), kron(X(1), RZ(0, x)))` with a tag. -/
def demoReassign : Block Gate :=
  .comp .chain [.leaf (Gate.cnot 0 2) none,
    .comp .kron [.leaf (.fixed .X 1) none, .leaf (.rot .RZ 0 (.var "x")) none] (some "t")] none

theorem demoReassign_wf : WellFormed Gate.supp demoReassign := by
  simp [demoReassign, WellFormed, WellFormedList, qubits, Gate.supp, Gate.cnot]

theorem demoReassign_lt : ∀ q ∈ qubits Gate.supp demoReassign, q < 3 := by
  simp only [demoReassign, mem_qubits_comp, List.mem_cons, List.not_mem_nil, or_false, exists_eq_or_imp,
    exists_eq_left, qubits_leaf, Gate.supp, Gate.cnot]
  intro q hq
  simp at hq
  omega

example : ∃ b', invertBlock demoOrd 3 demoReassign = .ok b' ∧ invertBlock demoOrd 3 b' = .ok demoReassign :=
  C15_invert_endianness_involution demoOrd_setOrder 3 _ demoReassign_wf demoReassign_lt

end Qadence
