import Mathlib.Tactic
import Verif.Model.Hamiltonian
import Verif.Proofs.Embed1
import Verif.Proofs.PyDict
import Verif.Props.Arith
import Verif.Props.Padding

/-!
# C16: commuting Hamiltonians; C40: the operator of `hamiltonian_factory`
-/

namespace Qadence

open Spec Block

variable {n : ℕ}

namespace Spec

/-- `c` is part of the block `b`, at any depth. -/
inductive Part {L : Type} : Block L → Block L → Prop
  | refl (b : Block L) : Part b b
  | scale {c b : Block L} (s t) : Part c b → Part c (.scale b s t)
  | comp {c b : Block L} {bs : List (Block L)} (k t) : b ∈ bs → Part c b → Part c (.comp k bs t)

end Spec

namespace Block

theorem primitiveBlocksList_eq {L : Type} (bs : List (Block L)) :
    primitiveBlocksList bs = bs.flatMap primitiveBlocks := by
  induction bs with
  | nil => simp [primitiveBlocksList]
  | cons b bs ih => simp [primitiveBlocksList, ih]

theorem mem_primitiveBlocks_of_part {L : Type} {c b : Block L} (h : Part c b) {l : L} (hl : l ∈ primitiveBlocks c) :
    l ∈ primitiveBlocks b := by
  induction h with
  | refl => exact hl
  | scale s t _ ih => simpa [primitiveBlocks] using ih
  | comp k t hb _ ih =>
    rw [primitiveBlocks, primitiveBlocksList_eq]
    exact List.mem_flatMap.2 ⟨_, hb, ih⟩

/-- An operator commuting with all leaves commutes with the block. -/
theorem sem_commute_of_leaves {L : Type} (S : LeafSem L n) (ρ : Env) (b : Block L) (M : Oper n)
    (h : ∀ l ∈ primitiveBlocks b, Commute (S.den l) M) : Commute (sem S ρ b) M := by
  induction b using Block.induction with
  | leaf l t =>
    rw [sem_leaf]
    exact h l (by simp [primitiveBlocks])
  | scale b s t ih =>
    rw [sem_scale]
    exact (ih (by simpa [primitiveBlocks] using h)).smul_left _
  | comp k bs t ih =>
    rw [primitiveBlocks, primitiveBlocksList_eq] at h
    have h' : ∀ b ∈ bs, Commute (sem S ρ b) M := fun b hb =>
      ih b hb fun l hl => h l (List.mem_flatMap.2 ⟨b, hb, hl⟩)
    have hprod : Commute (opProd (bs.map (sem S ρ))) M := by
      clear h ih
      induction bs with
      | nil => exact Commute.one_left M
      | cons b bs ihb =>
        rw [List.map_cons, opProd]
        exact (ihb fun c hc => h' c (by simp [hc])).mul_left (h' b (by simp))
    cases k with
    | chain => rw [sem_chain]; exact hprod
    | kron => rw [sem_kron]; exact hprod
    | add =>
      rw [sem_add]
      clear hprod h ih
      induction bs with
      | nil => exact Commute.zero_left M
      | cons b bs ihb =>
        rw [List.map_cons, List.sum_cons]
        exact (h' b (by simp)).add_left (ihb fun c hc => h' c (by simp [hc]))

/-! ## The commutation check -/

/-- Everything recorded in `s` is recorded in `s'`. -/
def Recorded (s s' : PyDict ℕ (List Char)) : Prop :=
  ∀ i v, s.get? i = some v → ∃ v', s'.get? i = some v' ∧ ∀ p ∈ v, p ∈ v'

theorem Recorded.refl (s : PyDict ℕ (List Char)) : Recorded s s := fun _ v h => ⟨v, h, fun _ hp => hp⟩

theorem Recorded.trans {a b c : PyDict ℕ (List Char)} (h : Recorded a b) (h' : Recorded b c) : Recorded a c := by
  intro i v hv
  obtain ⟨v', h1, h2⟩ := h i v hv
  obtain ⟨v'', h3, h4⟩ := h' i v' h1
  exact ⟨v'', h3, fun p hp => h4 p (h2 p hp)⟩

/-- The leaf is recorded. -/
def Has (s : PyDict ℕ (List Char)) (g : Gate) : Prop :=
  ∀ p, pauliName g = some p → ∀ i, g.supp.head? = some i → ∃ v, s.get? i = some v ∧ p ∈ v

theorem Has.mono {s s' : PyDict ℕ (List Char)} (h : Recorded s s') {g : Gate} (hg : Has s g) : Has s' g := by
  intro p hp i hi
  obtain ⟨v, hv, hm⟩ := hg p hp i hi
  obtain ⟨v', h1, h2⟩ := h i v hv
  exact ⟨v', h1, h2 p hm⟩

theorem supportPrimitive_spec (g : Gate) (s : PyDict ℕ (List Char)) :
    Recorded s (supportPrimitive g s) ∧ Has (supportPrimitive g s) g := by
  unfold supportPrimitive
  split
  · next p i is hp hs =>
    split
    · next v hv =>
      constructor
      · intro j w hw
        rw [PyDict.get?_set]
        by_cases e : i = j
        · subst e
          rw [hv] at hw
          cases hw
          refine ⟨_, by rw [if_pos rfl], fun q hq => ?_⟩
          split
          · exact hq
          · simp [hq]
        · rw [if_neg e]
          exact ⟨w, hw, fun _ h => h⟩
      · intro q hq j hj
        rw [hp] at hq
        rw [hs] at hj
        cases hq
        cases hj
        rw [PyDict.get?_set, if_pos rfl]
        refine ⟨_, rfl, ?_⟩
        split
        · assumption
        · simp
    · next hv =>
      constructor
      · intro j w hw
        rw [PyDict.get?_set]
        by_cases e : i = j
        · subst e
          rw [hv] at hw
          cases hw
        · rw [if_neg e]
          exact ⟨w, hw, fun _ h => h⟩
      · intro q hq j hj
        rw [hp] at hq
        rw [hs] at hj
        cases hq
        cases hj
        rw [PyDict.get?_set, if_pos rfl]
        exact ⟨_, rfl, by simp⟩
  · next h =>
    refine ⟨Recorded.refl s, fun p hp i hi => ?_⟩
    exfalso
    cases hs : g.supp with
    | nil => rw [hs] at hi; cases hi
    | cons j js => exact h p j js hp hs

theorem checkCommutation_spec (b : Block Gate) :
    ∀ s s', checkCommutation b s = .ok s' → Recorded s s' ∧ ∀ g ∈ primitiveBlocks b, Has s' g := by
  induction b using Block.induction with
  | leaf g t =>
    intro s s' h
    rw [checkCommutation] at h
    cases h
    refine ⟨(supportPrimitive_spec g s).1, fun g' hg' => ?_⟩
    simp only [primitiveBlocks, List.mem_singleton] at hg'
    subst hg'
    exact (supportPrimitive_spec g' s).2
  | scale b c t ih =>
    intro s s' h
    rw [checkCommutation] at h
    simpa [primitiveBlocks] using ih s s' h
  | comp k bs t ih =>
    have key : ∀ s s', checkCommutationList bs s = .ok s' →
        Recorded s s' ∧ ∀ g ∈ bs.flatMap primitiveBlocks, Has s' g := by
      clear t
      induction bs with
      | nil =>
        intro s s' h
        rw [checkCommutationList] at h
        cases h
        exact ⟨Recorded.refl s, by simp⟩
      | cons b bs ihb =>
        intro s s' h
        rw [checkCommutationList] at h
        obtain ⟨s1, h1, h2⟩ := bind_ok h
        obtain ⟨a1, a2⟩ := ih b (by simp) s s1 h1
        obtain ⟨b1, b2⟩ := ihb (fun c hc => ih c (by simp [hc])) s1 s' h2
        refine ⟨a1.trans b1, fun g hg => ?_⟩
        rw [List.flatMap_cons, List.mem_append] at hg
        rcases hg with hg | hg
        · exact (a2 g hg).mono b1
        · exact b2 g hg
    intro s s' h
    rw [primitiveBlocks, primitiveBlocksList_eq]
    cases k with
    | chain => rw [checkCommutation] at h; cases h
    | kron => rw [checkCommutation] at h; exact key s s' h
    | add => rw [checkCommutation] at h; exact key s s' h

/-- Pauli blocks are one-qubit gates. -/
theorem pauli_fixed {g : Gate} {p : Char} (h : pauliName g = some p) :
    ∃ f q, g = .fixed f q ∧ pauliName (.fixed f 0) = some p := by
  unfold pauliName at h
  split at h <;> cases h <;> exact ⟨_, _, rfl, rfl⟩

theorem mat1_N_commute (s t : Bool) : mat1 (.N s) * mat1 (.N t) = mat1 (.N t) * mat1 (.N s) := by
  ext a b
  rw [Matrix.mul_apply, Matrix.mul_apply, Fintype.sum_bool, Fintype.sum_bool]
  cases s <;> cases t <;> cases a <;> cases b <;> simp [mat1, ind]

/-- Two Pauli blocks of the same name have commuting matrices. -/
theorem mat1_commute_of_name {f g : FixedGate} {p : Char} (hf : pauliName (.fixed f 0) = some p)
    (hg : pauliName (.fixed g 0) = some p) : mat1 f * mat1 g = mat1 g * mat1 f := by
  have e : pauliName (.fixed f 0) = pauliName (.fixed g 0) := hf.trans hg.symm
  have h : f = g ∨ ∃ s t, f = .N s ∧ g = .N t := by
    cases f <;> cases g <;> first | exact Or.inl rfl | exact Or.inr ⟨_, _, rfl, rfl⟩ |
      (simp [pauliName] at hf; done) | (simp [pauliName] at e; done)
  rcases h with rfl | ⟨s, t, rfl, rfl⟩
  · rfl
  · exact mat1_N_commute _ _

end Block

/-- When `block_is_commuting_hamiltonian` answers True, any two parts of the Hamiltonian (terms, factors, factors of
factors, ...) commute as operators. -/
theorem C16_commuting (b : Block Gate) (h : isCommutingHamiltonian b = .ok true) (ρ : Env) (c d : Block Gate)
    (hc : Part c b) (hd : Part d b) : Commute (sem (gateSem n ρ) ρ c) (sem (gateSem n ρ) ρ d) := by
  unfold isCommutingHamiltonian at h
  split at h
  · next hq =>
    obtain ⟨s, hs, h⟩ := bind_ok h
    have hv := pure_ok h
    obtain ⟨-, hall⟩ := checkCommutation_spec b [] s hs
    have hleaf : ∀ g ∈ primitiveBlocks b, ∀ g' ∈ primitiveBlocks b,
        Commute (gateDen ρ g : Oper n) (gateDen ρ g') := by
      intro g hg g' hg'
      have hn := List.all_eq_true.1 hq g hg
      have hn' := List.all_eq_true.1 hq g' hg'
      obtain ⟨p, hp⟩ := Option.isSome_iff_exists.1 hn
      obtain ⟨p', hp'⟩ := Option.isSome_iff_exists.1 hn'
      obtain ⟨f, q, rfl, hf⟩ := pauli_fixed hp
      obtain ⟨f', q', rfl, hf'⟩ := pauli_fixed hp'
      rw [gateDen, gateDen]
      by_cases e : q = q'
      · subst e
        obtain ⟨v, v1, v2⟩ := hall _ hg p hp q rfl
        obtain ⟨v', w1, w2⟩ := hall _ hg' p' hp' q rfl
        rw [v1] at w1
        cases w1
        have hlen := List.all_eq_true.1 hv v (List.mem_map.2 ⟨_, PyDict.mem_of_get? v1, rfl⟩)
        have hlen : v.length ≤ 1 := by simpa using hlen
        have : p = p' := by
          match v, hlen, v2, w2 with
          | [a], _, h1, h2 => simp at h1 h2; rw [h1, h2]
        subst this
        exact embed1_commute q (mat1_commute_of_name hf hf')
      · exact embed1_commute_of_ne e _ _
    refine sem_commute_of_leaves _ ρ c _ fun l hl => ?_
    refine (sem_commute_of_leaves _ ρ d _ fun l' hl' => ?_).symm
    exact hleaf l' (mem_primitiveBlocks_of_part hd hl') l (mem_primitiveBlocks_of_part hc hl)
  · cases h

/-- A Hamiltonian with two different Pauli operators on the same qubit is not reported as commuting. -/
example : isCommutingHamiltonian (.comp .add [.scale (ofFixed .Z 0) (.num 2 0) none,
    .comp .kron [ofFixed .Z 0, ofFixed .X 1] none, ofFixed .X 1] none) = .ok true := by decide

example : isCommutingHamiltonian (.comp .add [ofFixed .Z 0, ofFixed .X 0] none) = .ok false := by decide

/-! ## C40 -/

namespace Spec

/-- The operator of a detuning on qubit `i`. -/
noncomputable def detuningOp : Detuning → ℕ → Oper n
  | .N, i => embed1 i (mat1 (.N true))
  | .X, i => embed1 i (mat1 .X)
  | .Y, i => embed1 i (mat1 .Y)
  | .Z, i => embed1 i (mat1 .Z)
  | .unknown, _ => 0

/-- The operator of an interaction between qubits `i` and `j`; for a custom function the operator of the block it
returns. -/
noncomputable def interactionOp (ρ : Env) : Interact → ℕ → ℕ → Oper n
  | .ZZ, i, j => embed1 i (mat1 .Z) * embed1 j (mat1 .Z)
  | .NN, i, j => embed1 i (mat1 (.N true)) * embed1 j (mat1 (.N true))
  | .XY, i, j => embed1 i (mat1 .X) * embed1 j (mat1 .X) + embed1 i (mat1 .Y) * embed1 j (mat1 .Y)
  | .XYZ, i, j => embed1 i (mat1 .X) * embed1 j (mat1 .X) + embed1 i (mat1 .Y) * embed1 j (mat1 .Y) +
      embed1 i (mat1 .Z) * embed1 j (mat1 .Z)
  | .custom f, i, j => match f i j with
    | .ok b => sem (gateSem n ρ) ρ b
    | .error _ => 0
  | .unknown, _, _ => 0

/-- The k-th strength: 1 or a random number by default, the k-th entry of an array, the value of the parameter
`prefix_suffix`. -/
noncomputable def strengthAt (ρ : Env) (rand : Option (ℕ → ℚ)) (suffix : String) (k : ℕ) : Strength → ℂ
  | .default => match rand with
    | some r => ((r k : ℚ) : ℂ)
    | none => 1
  | .array l => eval ρ (l.getD k (.num 0 0))
  | .name s => ρ.var (s ++ "_" ++ suffix)
  | .other => 0

/-- The sum over all nodes: the k-th node carries the k-th strength. -/
noncomputable def detuningSum (ρ : Env) (a : HamArgs) (d : Detuning) (nodes : List ℕ) : Oper n :=
  (nodes.zipIdx.map fun p =>
    strengthAt ρ a.randD (toString p.1) p.2 a.detuningStrength • detuningOp d p.1).sum

/-- The sum over all interacting pairs. -/
noncomputable def interactionSum (ρ : Env) (a : HamArgs) (i : Interact) (pairs : List (ℕ × ℕ)) : Oper n :=
  (pairs.zipIdx.map fun p =>
    strengthAt ρ a.randI (toString p.1.1 ++ toString p.1.2) p.2 a.interactionStrength •
      interactionOp ρ i p.1.1 p.1.2).sum

end Spec

theorem gate_arithOk (n : ℕ) (ρ : Env) : ArithOpsOk Gate.arith (gateSem n ρ) where
  isI l h := by
    unfold Gate.arith at h
    dsimp only at h
    split at h
    · exact mat1_I
    · cases h
  isZero l h := by
    unfold Gate.arith at h
    dsimp only at h
    split at h
    · exact embed1_zero _
    · cases h

variable {ord : List ℕ → List ℕ}

theorem eval_one' (ρ : Env) : eval ρ (.num 1 0) = 1 := by apply Complex.ext <;> simp [eval]

theorem preprocess_spec (ρ : Env) (names : List String) (rand : Option (ℕ → ℚ)) (s : Strength) (l : List Expr)
    (h : s.preprocess names rand = .ok l) :
    l.length = names.length ∧ ∀ k (hk : k < l.length) (hk' : k < names.length),
      eval ρ l[k] = strengthAt ρ rand names[k] k s := by
  cases s with
  | default =>
    cases rand with
    | none =>
      simp only [Strength.preprocess, Except.ok.injEq] at h
      subst h
      refine ⟨by simp, fun k hk _ => ?_⟩
      rw [List.getElem_replicate, eval_one', strengthAt]
    | some r =>
      simp only [Strength.preprocess, Except.ok.injEq] at h
      subst h
      refine ⟨by simp, fun k hk _ => ?_⟩
      rw [List.getElem_map, List.getElem_range, strengthAt]
      apply Complex.ext <;> simp [eval]
  | array xs =>
    rw [Strength.preprocess] at h
    split at h
    · cases h
    · next hl =>
      cases h
      refine ⟨by simpa using hl, fun k hk _ => ?_⟩
      rw [strengthAt, List.getD_eq_getElem?_getD, List.getElem?_eq_getElem hk, Option.getD_some]
  | name p =>
    simp only [Strength.preprocess, Except.ok.injEq] at h
    subst h
    refine ⟨by simp, fun k hk hk' => ?_⟩
    rw [List.getElem_map, strengthAt, eval]
  | other => cases h

theorem sem_scaledTerm (ρ : Env) (s : Expr) (b c : Block Gate) (h : scaledTerm s b = .ok c) :
    sem (gateSem n ρ) ρ c = eval ρ s • sem (gateSem n ρ) ρ b := by
  obtain ⟨r, h1, h2⟩ := C07_rmul_scalar (gate_arithOk n ρ) ρ b s
  unfold scaledTerm at h
  rw [h] at h1
  cases h1
  exact h2

theorem sem_ofFixed (ρ : Env) (g : FixedGate) (q : ℕ) :
    sem (gateSem n ρ) ρ (ofFixed g q) = embed1 q (mat1 g) := by
  rw [ofFixed, sem_leaf, gateSem_den, gateDen]

theorem sem_fixed_matmul (ho : SetOrder ord) (ρ : Env) (f g : FixedGate) (i j : ℕ) (b : Block Gate)
    (h : (ofFixed f i).matmul Gate.supp ord (.block (ofFixed g j)) = .ok b) :
    i ≠ j ∧ sem (gateSem n ρ) ρ b = embed1 i (mat1 f) * embed1 j (mat1 g) := by
  rw [matmul, kronOf_ok_iff _ _ ho] at h
  obtain ⟨rfl, -, h3⟩ := h
  have hij : i ≠ j := by
    simp [ofFixed, qubits, Gate.supp] at h3
    exact h3
  refine ⟨hij, ?_⟩
  rw [sem_kron]
  simp only [List.map_cons, List.map_nil, opProd, one_mul, sem_ofFixed]
  exact (embed1_commute_of_ne hij _ _).symm

theorem fixed_matmul_ok (ho : SetOrder ord) (f g : FixedGate) {i j : ℕ} (h : i ≠ j) :
    (ofFixed f i).matmul Gate.supp ord (.block (ofFixed g j)) = .ok (.comp .kron [ofFixed f i, ofFixed g j] none) := by
  rw [matmul, kronOf_ok_iff _ _ ho]
  refine ⟨rfl, by simp, ?_⟩
  simp [ofFixed, qubits, Gate.supp]
  exact h

theorem sem_interaction (ho : SetOrder ord) (ρ : Env) (t : Interact) (i j : ℕ) (b : Block Gate)
    (h : t.block ord i j = .ok b) : sem (gateSem n ρ) ρ b = interactionOp ρ t i j := by
  have hadd : ∀ a b c : Block Gate, a.add' Gate.arith (.block b) = .ok c →
      sem (gateSem n ρ) ρ c = sem (gateSem n ρ) ρ a + sem (gateSem n ρ) ρ b := by
    intro a b c hc
    obtain ⟨r, h1, h2⟩ := C07_add (gate_arithOk n ρ) ρ a b
    rw [hc] at h1
    cases h1
    exact h2
  cases t with
  | ZZ => exact (sem_fixed_matmul ho ρ _ _ i j b h).2
  | NN => exact (sem_fixed_matmul ho ρ _ _ i j b h).2
  | XY =>
    simp only [Interact.block] at h
    obtain ⟨x, hx, h⟩ := bind_ok h
    obtain ⟨y, hy, h⟩ := bind_ok h
    rw [hadd _ _ _ h, (sem_fixed_matmul ho ρ _ _ i j x hx).2, (sem_fixed_matmul ho ρ _ _ i j y hy).2, interactionOp]
  | XYZ =>
    simp only [Interact.block] at h
    obtain ⟨x, hx, h⟩ := bind_ok h
    obtain ⟨y, hy, h⟩ := bind_ok h
    obtain ⟨z, hz, h⟩ := bind_ok h
    obtain ⟨w, hw, h⟩ := bind_ok h
    rw [hadd _ _ _ h, hadd _ _ _ hw, (sem_fixed_matmul ho ρ _ _ i j x hx).2, (sem_fixed_matmul ho ρ _ _ i j y hy).2,
      (sem_fixed_matmul ho ρ _ _ i j z hz).2, interactionOp]
  | custom f =>
    simp only [Interact.block] at h
    rw [interactionOp, h]
  | unknown => cases h

theorem sem_detuning (ρ : Env) (d : Detuning) (i : ℕ) (b : Block Gate) (h : d.block i = .ok b) :
    sem (gateSem n ρ) ρ b = detuningOp d i := by
  cases d <;> simp only [Detuning.block, Except.ok.injEq, reduceCtorEq] at h <;> subst h <;>
    rw [sem_ofFixed, detuningOp]

/-- A sum over strengths zipped with places is the sum over the places with their positions. -/
theorem sum_terms {α : Type} (ρ : Env) (ss : List Expr) (as : List α) (f : α → Except PyErr (Block Gate))
    (op : α → Oper n) (st : α → ℕ → ℂ) (hop : ∀ a b, f a = .ok b → sem (gateSem n ρ) ρ b = op a)
    (hlen : ss.length = as.length)
    (hst : ∀ k (hk : k < ss.length) (hk' : k < as.length), eval ρ ss[k] = st as[k] k) (bs : List (Block Gate))
    (h : ((ss.zip as).mapM fun p => do
      let b ← f p.2
      scaledTerm p.1 b) = .ok bs) :
    (bs.map (sem (gateSem n ρ) ρ)).sum = ((as.zipIdx.map fun p => st p.1 p.2 • op p.1)).sum := by
  suffices H : ∀ (c : ℕ) (ss : List Expr) (as : List α) (bs : List (Block Gate)), ss.length = as.length →
      (∀ k (hk : k < ss.length) (hk' : k < as.length), eval ρ ss[k] = st as[k] (c + k)) →
      ((ss.zip as).mapM fun p => do
        let b ← f p.2
        scaledTerm p.1 b) = .ok bs →
      (bs.map (sem (gateSem n ρ) ρ)).sum = (((as.zipIdx c).map fun p => st p.1 p.2 • op p.1)).sum by
    exact H 0 ss as bs hlen (by simpa using hst) h
  clear h hst hlen bs as ss
  intro c ss
  induction ss generalizing c with
  | nil =>
    intro as bs hlen _ h
    cases as with
    | nil =>
      have : [] = bs := by simpa using pure_ok h
      subst this
      simp
    | cons a as => simp at hlen
  | cons s ss ih =>
    intro as bs hlen hst h
    cases as with
    | nil => simp at hlen
    | cons a as =>
      rw [List.zip_cons_cons, List.mapM_cons] at h
      obtain ⟨b, hb, h⟩ := bind_ok h
      obtain ⟨bs', hbs, h⟩ := bind_ok h
      have := pure_ok h
      subst this
      obtain ⟨b0, hb0, hb⟩ := bind_ok hb
      have h0 := hst 0 (by simp) (by simp)
      simp only [List.getElem_cons_zero, Nat.add_zero] at h0
      rw [List.map_cons, List.sum_cons, sem_scaledTerm ρ _ _ _ hb, hop _ _ hb0, List.zipIdx_cons, List.map_cons,
        List.sum_cons, h0]
      congr 1
      refine ih (c + 1) as bs' (by simpa using hlen) (fun k hk hk' => ?_) hbs
      have := hst (k + 1) (by simpa using hk) (by simpa using hk')
      simpa [Nat.add_assoc, Nat.add_comm 1 k] using this

/-- The Hamiltonian is the sum over all nodes of strength times detuning plus the sum over the interacting pairs of
strength times interaction. -/
theorem C40_operator (ho : SetOrder ord) (r : Register) (a : HamArgs) (b : Block Gate) (ρ : Env)
    (h : hamiltonianFactory ord r a = .ok b) :
    sem (gateSem n ρ) ρ b =
      (match a.detuning with
        | some d => detuningSum ρ a d r.labels
        | none => 0) +
      (match a.interaction with
        | some i => interactionSum ρ a i (if a.useAllNodePairs then r.allNodePairs ord else r.edges)
        | none => 0) := by
  unfold hamiltonianFactory at h
  obtain ⟨-, -, h⟩ := bind_ok h
  obtain ⟨ds, hds, h⟩ := bind_ok h
  obtain ⟨is, his, h⟩ := bind_ok h
  obtain ⟨single, hsingle, h⟩ := bind_ok h
  obtain ⟨two, htwo, h⟩ := bind_ok h
  have := pure_ok h
  subst this
  rw [addOf, sem_add, List.map_append, List.sum_append]
  obtain ⟨d1, d2⟩ := preprocess_spec ρ _ _ _ _ hds
  obtain ⟨i1, i2⟩ := preprocess_spec ρ _ _ _ _ his
  congr 1
  · cases hd : a.detuning with
    | none =>
      rw [hd] at hsingle
      cases hsingle
      simp
    | some d =>
      rw [hd] at hsingle
      simp only [detuningTerms] at hsingle
      rw [sum_terms ρ ds r.labels d.block (detuningOp d)
        (fun i k => strengthAt ρ a.randD (toString i) k a.detuningStrength) (fun i b hb => sem_detuning ρ d i b hb)
        (by simpa using d1) ?_ single hsingle]
      · rfl
      intro k hk hk'
      rw [d2 k hk (by simpa using hk')]
      simp [nodeName]
  · cases hi : a.interaction with
    | none =>
      rw [hi] at htwo
      cases htwo
      simp
    | some t =>
      rw [hi] at htwo
      simp only [interactionTerms] at htwo
      rw [sum_terms ρ is (a.pairs ord r) (fun e => t.block ord e.1 e.2) (fun e => interactionOp ρ t e.1 e.2)
        (fun e k => strengthAt ρ a.randI (toString e.1 ++ toString e.2) k a.interactionStrength)
        (fun e b hb => sem_interaction ho ρ t e.1 e.2 b hb) (by simpa using i1) ?_ two htwo]
      · rfl
      intro k hk hk'
      rw [i2 k hk (by simpa using hk')]
      simp [edgeName]

/-- Arrays of strengths of the wrong length are rejected with a ValueError. -/
theorem C40_rejects_wrong_length (r : Register) (a : HamArgs) (hc : a.check ord = .ok ())
    (h : (∃ l, a.detuningStrength = .array l ∧ l.length ≠ r.labels.length) ∨
      ((∃ l, a.interactionStrength = .array l ∧
          l.length ≠ (if a.useAllNodePairs then r.allNodePairs ord else r.edges).length) ∧
        a.detuningStrength = .default)) :
    hamiltonianFactory ord r a = .error .valueError := by
  unfold hamiltonianFactory
  rw [hc, ok_bind]
  rcases h with ⟨l, hl, hne⟩ | ⟨⟨l, hl, hne⟩, hd⟩
  · rw [hl, Strength.preprocess, if_pos (by simpa using hne), error_bind]
  · have : ∃ ds, a.detuningStrength.preprocess (r.labels.map nodeName) a.randD = .ok ds := by
      rw [hd]
      cases a.randD <;> exact ⟨_, rfl⟩
    obtain ⟨ds, hds⟩ := this
    rw [hds, ok_bind, hl, Strength.preprocess, if_pos (by simpa [HamArgs.pairs] using hne), error_bind]

theorem scaledTerm_ok (s : Expr) (b : Block Gate) : ∃ c, scaledTerm s b = .ok c := by
  unfold scaledTerm rmul mul
  exact ⟨_, rfl⟩

theorem interaction_ok (ho : SetOrder ord) (t : Interact) (ht : t = .ZZ ∨ t = .NN ∨ t = .XY ∨ t = .XYZ) {i j : ℕ}
    (hij : i ≠ j) : ∃ b, t.block ord i j = .ok b := by
  rcases ht with rfl | rfl | rfl | rfl
  · exact ⟨_, fixed_matmul_ok ho _ _ hij⟩
  · exact ⟨_, fixed_matmul_ok ho _ _ hij⟩
  · simp only [Interact.block, fixed_matmul_ok ho _ _ hij, ok_bind]
    exact ⟨_, rfl⟩
  · simp only [Interact.block, fixed_matmul_ok ho _ _ hij, ok_bind, add', isZeroBlock]
    exact ⟨_, rfl⟩

theorem preprocess_ok (names : List String) (rand : Option (ℕ → ℚ)) (s : Strength) (h1 : s ≠ .other)
    (h2 : ∀ l, s = .array l → l.length = names.length) : ∃ l, s.preprocess names rand = .ok l := by
  cases s with
  | default => cases rand <;> exact ⟨_, rfl⟩
  | array l => exact ⟨l, by rw [Strength.preprocess, if_neg (by simpa using h2 l rfl)]⟩
  | name s => exact ⟨_, rfl⟩
  | other => exact absurd rfl h1

/-- With a supported interaction or detuning (or both), strengths of matching length and a graph without loops the
Hamiltonian is built. -/
theorem C40_total (ho : SetOrder ord) (r : Register) (a : HamArgs)
    (h0 : a.interaction.isSome ∨ a.detuning.isSome)
    (hi : ∀ t, a.interaction = some t → t = .ZZ ∨ t = .NN ∨ t = .XY ∨ t = .XYZ)
    (hd : a.detuning ≠ some .unknown)
    (hsd : a.detuningStrength ≠ .other ∧ ∀ l, a.detuningStrength = .array l → l.length = r.labels.length)
    (hsi : a.interactionStrength ≠ .other ∧ ∀ l, a.interactionStrength = .array l →
      l.length = (if a.useAllNodePairs then r.allNodePairs ord else r.edges).length)
    (hl : ∀ e ∈ r.edges, e.1 ≠ e.2) : ∃ b, hamiltonianFactory ord r a = .ok b := by
  have hc : a.check ord = .ok () := by
    unfold HamArgs.check
    have h1 : (a.interaction.isNone && a.detuning.isNone) = false := by
      cases hA : a.interaction <;> cases hB : a.detuning <;> simp_all
    rw [h1]
    simp only [Bool.false_eq_true, if_false, hd]
    cases hA : a.interaction with
    | none => rfl
    | some t => rcases hi t hA with rfl | rfl | rfl | rfl <;> rfl
  obtain ⟨ds, hds⟩ := preprocess_ok (r.labels.map nodeName) a.randD _ hsd.1 (by simpa using hsd.2)
  obtain ⟨is, his⟩ := preprocess_ok ((a.pairs ord r).map edgeName) a.randI _ hsi.1
    (by simpa [HamArgs.pairs] using hsi.2)
  have h1 : ∃ l, detuningTerms a.detuning ds r.labels = .ok l := by
    unfold detuningTerms
    cases hA : a.detuning with
    | none => exact ⟨_, rfl⟩
    | some d =>
      refine mapM_ok_of_forall fun p _ => ?_
      have : ∃ b, d.block p.2 = .ok b := by
        cases d <;> first | exact ⟨_, rfl⟩ | exact absurd hA hd
      obtain ⟨b, hb⟩ := this
      rw [hb, ok_bind]
      exact scaledTerm_ok _ _
  have h2 : ∃ l, interactionTerms ord a.interaction is (a.pairs ord r) = .ok l := by
    unfold interactionTerms
    cases hA : a.interaction with
    | none => exact ⟨_, rfl⟩
    | some t =>
      refine mapM_ok_of_forall fun p hp => ?_
      have hmem : p.2 ∈ a.pairs ord r := (List.of_mem_zip hp).2
      have hne : p.2.1 ≠ p.2.2 := by
        unfold HamArgs.pairs at hmem
        split at hmem
        · have := (List.mem_filter.1 hmem).2
          exact (by simpa using this : p.2.1 < p.2.2).ne
        · exact hl _ hmem
      obtain ⟨b, hb⟩ := interaction_ok ho t (hi t hA) hne
      simp only [hb, ok_bind]
      exact scaledTerm_ok _ _
  obtain ⟨l1, h1⟩ := h1
  obtain ⟨l2, h2⟩ := h2
  unfold hamiltonianFactory
  rw [hc, ok_bind, hds, ok_bind, his, ok_bind, h1, ok_bind, h2, ok_bind]
  exact ⟨_, rfl⟩

/-- Without interaction and detuning, or with an unsupported one, an error is raised. -/
theorem C40_rejects_unsupported (r : Register) (a : HamArgs) :
    (a.interaction = none → a.detuning = none → hamiltonianFactory ord r a = .error .valueError) ∧
    (a.interaction = some .unknown → hamiltonianFactory ord r a = .error .keyError) ∧
    (a.interaction = none → a.detuning = some .unknown → hamiltonianFactory ord r a = .error .typeError) := by
  refine ⟨fun h1 h2 => ?_, fun h1 => ?_, fun h1 h2 => ?_⟩
  · have : a.check ord = .error .valueError := by unfold HamArgs.check; rw [h1, h2]; rfl
    unfold hamiltonianFactory
    rw [this, error_bind]
  · have : a.check ord = .error .keyError := by unfold HamArgs.check; rw [h1]; rfl
    unfold hamiltonianFactory
    rw [this, error_bind]
  · have : a.check ord = .error .typeError := by unfold HamArgs.check; rw [h1, h2]; rfl
    unfold hamiltonianFactory
    rw [this, error_bind]

/-- A line of three nodes with ZZ interaction and X detuning of parametrised strength meets the hypotheses. -/
example : ∃ b, hamiltonianFactory demoOrd (Register.lineGraph 3)
    { interaction := some .ZZ, detuning := some .X, detuningStrength := .name "x",
      interactionStrength := .array [.num 2 0, .num (-1) 0] } = .ok b := by
  refine C40_total demoOrd_setOrder _ _ (by simp) (by simp) (by simp) ⟨by simp, by simp⟩ ⟨by simp, ?_⟩ ?_
  · simp [Register.lineGraph]
  · intro e he
    simp [Register.lineGraph, List.range, List.range.loop, List.range'] at he
    rcases he with rfl | rfl <;> simp

end Qadence
