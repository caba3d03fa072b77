import Verif.Props.Reassign
import Verif.Spec.Place
import Verif.Proofs.States

/-!
# Operators in larger registers
-/

namespace Qadence

open Spec Matrix

variable {n m : ℕ}

open Classical in
/-- Replace the bits of the qubits `f 0, ..., f (n - 1)`. -/
noncomputable def over (f : Fin n ↪ Fin m) (x : St m) (y : St n) : St m :=
  fun j => if h : ∃ i, f i = j then y h.choose else x j

theorem over_at (f : Fin n ↪ Fin m) (x : St m) (y : St n) (i : Fin n) : over f x y (f i) = y i := by
  have h : ∃ i', f i' = f i := ⟨i, rfl⟩
  rw [over, dif_pos h]
  congr 1
  exact f.injective h.choose_spec

theorem over_comp (f : Fin n ↪ Fin m) (x : St m) (y : St n) : over f x y ∘ f = y := funext fun i => over_at f x y i

theorem over_of_ne (f : Fin n ↪ Fin m) (x : St m) (y : St n) {j : Fin m} (h : ∀ i, f i ≠ j) : over f x y j = x j := by
  rw [over, dif_neg (by simpa using h)]

theorem over_eq {f : Fin n ↪ Fin m} {x y : St m} (h : ∀ j, (∀ i, f i ≠ j) → x j = y j) : over f x (y ∘ f) = y := by
  funext j
  by_cases hj : ∀ i, f i ≠ j
  · rw [over_of_ne f x _ hj, h j hj]
  · simp only [ne_eq, not_forall, not_not] at hj
    obtain ⟨i, rfl⟩ := hj
    rw [over_at]
    rfl

theorem place_mulVec (f : Fin n ↪ Fin m) (M : Oper n) (φ : St m → ℂ) (x : St m) :
    (place f M *ᵥ φ) x = ∑ y, M (x ∘ f) y * φ (over f x y) := by
  have hinj : Function.Injective fun y => over f x y := by
    intro a b h
    have := congrArg (· ∘ f) h
    simpa only [over_comp] using this
  have : ∑ y, M (x ∘ f) y * φ (over f x y) = ∑ y ∈ Finset.univ.map ⟨_, hinj⟩, place f M x y * φ y := by
    rw [Finset.sum_map]
    refine Finset.sum_congr rfl fun y _ => ?_
    simp only [Function.Embedding.coeFn_mk, place]
    rw [if_pos fun j hj => (over_of_ne f x y hj).symm, over_comp]
  rw [this, mulVec, dotProduct]
  symm
  apply Finset.sum_subset (Finset.subset_univ _)
  intro y _ hy
  rw [place, if_neg, zero_mul]
  intro h
  apply hy
  simp only [Finset.mem_map, Finset.mem_univ, Function.Embedding.coeFn_mk, true_and]
  exact ⟨y ∘ f, over_eq h⟩

theorem place_mul (f : Fin n ↪ Fin m) (A B : Oper n) : place f (A * B) = place f A * place f B := by
  ext x z
  have h1 : (place f A * place f B) x z = (place f A *ᵥ fun y => place f B y z) x := rfl
  rw [h1, place_mulVec]
  simp only [place, over_comp]
  have h2 : ∀ y, (∀ j, (∀ i, f i ≠ j) → over f x y j = z j) ↔ ∀ j, (∀ i, f i ≠ j) → x j = z j := by
    intro y
    refine forall_congr' fun j => forall_congr' fun hj => ?_
    rw [over_of_ne f x y hj]
  simp only [h2]
  split
  · rw [mul_apply]
  · simp

theorem place_one (f : Fin n ↪ Fin m) : place f 1 = 1 := by
  ext x y
  rw [place, Matrix.one_apply, Matrix.one_apply]
  by_cases h : x = y
  · subst h; simp
  · rw [if_neg h]
    split
    · next h' =>
      rw [if_neg]
      intro e
      apply h
      rw [← over_eq h', ← e, over_eq fun _ _ => rfl]
    · rfl

theorem place_add (f : Fin n ↪ Fin m) (A B : Oper n) : place f (A + B) = place f A + place f B := by
  ext x y
  simp only [place, Matrix.add_apply]
  split <;> simp

theorem place_zero (f : Fin n ↪ Fin m) : place f 0 = 0 := by
  ext x y
  simp [place]

theorem place_smul (f : Fin n ↪ Fin m) (c : ℂ) (A : Oper n) : place f (c • A) = c • place f A := by
  ext x y
  simp only [place, Matrix.smul_apply]
  split <;> simp

theorem place_opProd (f : Fin n ↪ Fin m) (Ms : List (Oper n)) : place f (opProd Ms) = opProd (Ms.map (place f)) := by
  induction Ms with
  | nil => exact place_one f
  | cons M Ms ih => simp only [opProd, List.map_cons, place_mul, ih]

theorem place_sum (f : Fin n ↪ Fin m) (Ms : List (Oper n)) : place f Ms.sum = (Ms.map (place f)).sum := by
  induction Ms with
  | nil => exact place_zero f
  | cons M Ms ih => simp only [List.sum_cons, List.map_cons, place_add, ih]

theorem place_conjTranspose (f : Fin n ↪ Fin m) (A : Oper n) : place f Aᴴ = (place f A)ᴴ := by
  ext x y
  simp only [place, conjTranspose_apply]
  have : (∀ j, (∀ i, f i ≠ j) → x j = y j) ↔ ∀ j, (∀ i, f i ≠ j) → y j = x j :=
    forall_congr' fun j => forall_congr' fun _ => eq_comm
  by_cases h : ∀ j, (∀ i, f i ≠ j) → x j = y j
  · rw [if_pos h, if_pos (this.1 h)]
  · rw [if_neg h, if_neg fun h' => h (this.2 h'), star_zero]

theorem place_actsOn (f : Fin n ↪ Fin m) (A : Oper n) : ActsOn {q | ∃ i, (f i : ℕ) = q} (place f A) := by
  intro j hj
  have hj' : ∀ i, f i ≠ j := fun i e => hj ⟨i, congrArg Fin.val e⟩
  refine ⟨fun x y hxy => ?_, fun x y => ?_⟩
  · rw [place, if_neg]
    exact fun h => hxy (h j hj')
  · have hc : ∀ z : St m, flipBit j z ∘ f = z ∘ f := fun z => by
      funext i
      simp only [Function.comp_apply, flipBit, Function.update_of_ne (hj' i)]
    rw [place, place, hc, hc]
    have : (∀ k, (∀ i, f i ≠ k) → flipBit j x k = flipBit j y k) ↔ ∀ k, (∀ i, f i ≠ k) → x k = y k := by
      refine forall_congr' fun k => forall_congr' fun _ => ?_
      unfold flipBit
      by_cases hk : k = j
      · subst hk; simp
      · rw [Function.update_of_ne hk, Function.update_of_ne hk]
    simp only [this]

/-! ## Renaming into a larger register -/

/-- `F` does what `f` does on the qubits in `S`, which belong to the small register. -/
def Places (f : Fin n ↪ Fin m) (F : ℕ → ℕ) (S : Set ℕ) : Prop := ∀ q ∈ S, ∃ h : q < n, F q = f ⟨q, h⟩

theorem bit_place {f : Fin n ↪ Fin m} {F : ℕ → ℕ} {S : Set ℕ} (h : Places f F S) {q : ℕ} (hq : q ∈ S) (x : St m) :
    bit x (F q) = bit (x ∘ f) q := by
  obtain ⟨h1, h2⟩ := h q hq
  rw [h2, bit_val]
  simp [bit, h1]

theorem embed_place {k : ℕ} {f : Fin n ↪ Fin m} {F : ℕ → ℕ} {g : Fin k → ℕ} (h : Places f F (Set.range g))
    (U : Matrix (Fin k → Bool) (Fin k → Bool) ℂ) : (embed (fun i => F (g i)) U : Oper m) = place f (embed g U) := by
  funext x y
  simp only [place, embed]
  have hb : ∀ z : St m, (fun i => bit z (F (g i))) = fun i => bit (z ∘ f) (g i) := fun z => by
    funext i
    exact bit_place h ⟨i, rfl⟩ z
  rw [hb, hb]
  have e : (∀ j : Fin m, (∀ i, F (g i) ≠ j) → x j = y j) ↔
      (∀ j, (∀ i, f i ≠ j) → x j = y j) ∧ ∀ j : Fin n, (∀ i, g i ≠ j) → (x ∘ f) j = (y ∘ f) j := by
    constructor
    · intro h'
      refine ⟨fun j hj => h' j fun i => ?_, fun j hj => h' (f j) fun i => ?_⟩
      · obtain ⟨h1, h2⟩ := h (g i) ⟨i, rfl⟩
        rw [h2]
        exact fun e => hj _ (Fin.ext e)
      · obtain ⟨h1, h2⟩ := h (g i) ⟨i, rfl⟩
        rw [h2]
        intro e
        have := f.injective (Fin.ext e)
        exact hj i (by rw [← this])
    · rintro ⟨h1, h2⟩ j hj
      by_cases hf : ∀ i, f i ≠ j
      · exact h1 j hf
      · simp only [ne_eq, not_forall, not_not] at hf
        obtain ⟨i, rfl⟩ := hf
        refine h2 i fun l e => ?_
        obtain ⟨h3, h4⟩ := h (g l) ⟨l, rfl⟩
        apply hj l
        rw [h4]
        congr 2
        exact Fin.ext e
  by_cases h1 : ∀ j, (∀ i, f i ≠ j) → x j = y j
  · rw [if_pos h1]
    by_cases h2 : ∀ j : Fin n, (∀ i, g i ≠ j) → (x ∘ f) j = (y ∘ f) j
    · rw [if_pos h2, if_pos (e.2 ⟨h1, h2⟩)]
    · rw [if_neg h2, if_neg fun h' => h2 (e.1 h').2]
  · rw [if_neg h1, if_neg fun h' => h1 (e.1 h').1]

theorem embed1_place {f : Fin n ↪ Fin m} {F : ℕ → ℕ} {q : ℕ} (h : Places f F {q}) (U : Matrix Bool Bool ℂ) :
    (embed1 (F q) U : Oper m) = place f (embed1 q U) := by
  rw [embed1_eq_embed, embed1_eq_embed]
  exact embed_place (g := fun _ : Fin 1 => q) (by simpa using h) _

theorem gateDen_place (ρ : Env) {f : Fin n ↪ Fin m} {F : ℕ → ℕ} (g : Gate) (h : Places f F {q | q ∈ g.supp}) :
    (gateDen ρ (renameGate F g) : Oper m) = place f (gateDen ρ g) := by
  induction g with
  | fixed g q => exact embed1_place (fun r hr => h r (by simpa [Gate.supp] using hr)) _
  | rot g q θ => exact embed1_place (fun r hr => h r (by simpa [Gate.supp] using hr)) _
  | u q φ θ ω => exact embed1_place (fun r hr => h r (by simpa [Gate.supp] using hr)) _
  | swap a b =>
    funext x y
    simp only [renameGate, gateDen, place, swapOp]
    have ha : a ∈ {q | q ∈ (Gate.swap a b).supp} := by simp [Gate.supp]
    have hb : b ∈ {q | q ∈ (Gate.swap a b).supp} := by simp [Gate.supp]
    have key : ∀ q ∈ {q | q ∈ (Gate.swap a b).supp}, ∀ j : Fin n, ((f j : ℕ) = F q ↔ (j : ℕ) = q) := by
      intro q hq j
      obtain ⟨h1, h2⟩ := h q hq
      rw [h2]
      constructor
      · intro e; have := f.injective (Fin.ext e); rw [this]
      · intro e; congr 2; exact Fin.ext e
    have out : ∀ q ∈ {q | q ∈ (Gate.swap a b).supp}, ∀ j : Fin m, (∀ i, f i ≠ j) → (j : ℕ) ≠ F q := by
      intro q hq j hj e
      obtain ⟨h1, h2⟩ := h q hq
      exact hj _ (Fin.ext (h2.symm.trans e.symm))
    have e : (∀ j : Fin m, x j = if (j : ℕ) = F a then bit y (F b) else if (j : ℕ) = F b then bit y (F a) else y j) ↔
        (∀ j, (∀ i, f i ≠ j) → x j = y j) ∧ ∀ j : Fin n, (x ∘ f) j =
          if (j : ℕ) = a then bit (y ∘ f) b else if (j : ℕ) = b then bit (y ∘ f) a else (y ∘ f) j := by
      rw [bit_place h ha, bit_place h hb]
      constructor
      · intro h'
        refine ⟨fun j hj => ?_, fun j => ?_⟩
        · have := h' j
          rwa [if_neg (out a ha j hj), if_neg (out b hb j hj)] at this
        · have := h' (f j)
          simp only [key a ha, key b hb] at this
          exact this
      · rintro ⟨h1, h2⟩ j
        by_cases hf : ∀ i, f i ≠ j
        · rw [if_neg (out a ha j hf), if_neg (out b hb j hf)]
          exact h1 j hf
        · simp only [ne_eq, not_forall, not_not] at hf
          obtain ⟨i, rfl⟩ := hf
          simp only [key a ha, key b hb]
          exact h2 i
    by_cases h1 : ∀ j, (∀ i, f i ≠ j) → x j = y j
    · rw [if_pos h1]
      by_cases h2 : ∀ j : Fin n, (x ∘ f) j =
          if (j : ℕ) = a then bit (y ∘ f) b else if (j : ℕ) = b then bit (y ∘ f) a else (y ∘ f) j
      · rw [if_pos h2, if_pos (e.2 ⟨h1, h2⟩)]
      · rw [if_neg h2, if_neg fun h' => h2 (e.1 h').2]
    · rw [if_neg h1, if_neg fun h' => h1 (e.1 h').1]
  | proj ket bra qs =>
    have h' : Places f F (Set.range fun i : Fin qs.length => qs[i]) := by
      rintro _ ⟨i, rfl⟩
      exact h _ (by simp [Gate.supp])
    simp only [renameGate, gateDen]
    rw [← embed_place h']
    exact embed_list (qs.map F) (by simp) _ (by simp) fun k =>
      Matrix.of fun a b => ind ((∀ i : Fin k, a i = ket.getD i false) ∧ ∀ i : Fin k, b i = bra.getD i false)
  | matrix rows qs =>
    have h' : Places f F (Set.range fun i : Fin qs.length => qs[i]) := by
      rintro _ ⟨i, rfl⟩
      exact h _ (by simp [Gate.supp])
    simp only [renameGate, gateDen]
    rw [← embed_place h']
    exact embed_list (qs.map F) (by simp) _ (by simp) fun k =>
      Matrix.of fun a b => eval ρ (((rows.getD (bitsValue a) []).getD (bitsValue b)) (.num 0 0))
  | control c cs g ih =>
    funext x y
    simp only [renameGate, gateDen, controlled]
    rw [ih (fun q hq => h q (by simp only [Gate.supp, Set.mem_setOf_eq, List.mem_append]; exact Or.inr hq))]
    have e : (∀ c ∈ cs.map F, bit x c = true) ↔ ∀ c ∈ cs, bit (x ∘ f) c = true := by
      rw [List.forall_mem_map]
      refine forall_congr' fun c => forall_congr' fun hc => ?_
      rw [bit_place h (by simp [Gate.supp, hc])]
    have e1 : place f (1 : Oper n) x y = if x = y then 1 else 0 := by rw [place_one]; exact Matrix.one_apply
    simp only [place, Matrix.one_apply] at e1
    simp only [e, place, controlled]
    by_cases hc : ∀ c ∈ cs, bit (x ∘ f) c = true
    · rw [if_pos hc, if_pos hc]
    · rw [if_neg hc, if_neg hc, ← e1]

theorem sem_place (ρ : Env) {f : Fin n ↪ Fin m} {F : ℕ → ℕ} (b : Block Gate) (h : Places f F (qubits Gate.supp b)) :
    sem (gateSem m ρ) ρ (mapLeaf (renameGate F) b) = place f (sem (gateSem n ρ) ρ b) := by
  induction b using Block.induction with
  | leaf l t =>
    simp only [mapLeaf, sem_leaf, gateSem_den]
    exact gateDen_place ρ l (by simpa only [qubits_leaf] using h)
  | scale b s t ih =>
    simp only [mapLeaf, sem_scale, ih (by simpa only [qubits_scale] using h), place_smul]
  | comp k bs t ih =>
    have hmap : (bs.map (mapLeaf (renameGate F))).map (sem (gateSem m ρ) ρ) =
        (bs.map (sem (gateSem n ρ) ρ)).map (place f) := by
      rw [List.map_map, List.map_map]
      exact List.map_congr_left fun b hb => ih b hb fun q hq => h q (mem_qubits_comp.2 ⟨b, hb, hq⟩)
    simp only [mapLeaf, mapLeafList_eq]
    cases k with
    | chain => rw [sem_chain, sem_chain, hmap, place_opProd]
    | kron => rw [sem_kron, sem_kron, hmap, place_opProd]
    | add => rw [sem_add, sem_add, hmap, place_sum]

/-- `reassign` along an injective map of the qubits of a register into a larger register gives the
operator of the block on the new qubits of the larger register and the identity on the others. -/
theorem reassign_place (ρ : Env) {ord : List ℕ → List ℕ} (ho : Block.SetOrder ord) (M : QMap) (f : Fin n ↪ Fin m) (b : Block Gate)
    (hw : WellFormed Gate.supp b) (hn : ∀ q ∈ qubits Gate.supp b, q < n) (hM : ∀ i : Fin n, (i : ℕ) ∈ qubits Gate.supp b → M.get i = .ok (f i)) :
    ∃ b', b.reassignGates ord M = .ok b' ∧ WellFormed Gate.supp b' ∧
      (∀ q, q ∈ qubits Gate.supp b' ↔ ∃ i : Fin n, (i : ℕ) ∈ qubits Gate.supp b ∧ (f i : ℕ) = q) ∧
      sem (gateSem m ρ) ρ b' = place f (sem (gateSem n ρ) ρ b) := by
  let F : ℕ → ℕ := fun q => if h : q < n then f ⟨q, h⟩ else 0
  have hF : ∀ i : Fin n, F i = f i := fun i => by simp [F]
  have hinj : Set.InjOn F (qubits Gate.supp b) := by
    intro p hp q hq e
    have h1 := hF ⟨p, hn p hp⟩
    have h2 := hF ⟨q, hn q hq⟩
    simp only at h1 h2
    rw [h1, h2] at e
    exact congrArg Fin.val (f.injective (Fin.ext e))
  refine ⟨_, C15_reassign_renames ho M F b hw (fun q hq => ?_) hinj, ?_, fun q => ?_, ?_⟩
  · have h1 := hF ⟨q, hn q hq⟩
    have h2 := hM ⟨q, hn q hq⟩ hq
    simp only at h1 h2
    rw [h1, h2]
  · exact wellFormed_mapLeaf Gate.supp Gate.supp _ F (renameGate_supp F) b hinj hw
  · rw [qubits_mapLeaf Gate.supp Gate.supp _ F (renameGate_supp F)]
    constructor
    · rintro ⟨p, hp, rfl⟩
      exact ⟨⟨p, hn p hp⟩, hp, (hF ⟨p, hn p hp⟩).symm⟩
    · rintro ⟨i, hi, rfl⟩
      exact ⟨i, hi, hF i⟩
  · exact sem_place ρ b fun q hq => ⟨hn q hq, hF ⟨q, hn q hq⟩⟩

end Qadence
