import Verif.Spec.Decompose
import Verif.Proofs.PauliExp
import Verif.Props.Padding

/-!
# Pauli exponentials as digital gates (C34)
-/

namespace Qadence.Decompose

open Spec Block Matrix Measure Ansatz QFT

variable {n : ℕ}

/-! ### The gates of a term -/

/-- The gates of the basis change of a letter. -/
def zGates (s : ℚ) (p : FixedGate × ℕ) : List (Block Prim) :=
  match p.1 with
  | .X => [gateBlock (.fixed .H p.2)]
  | .Y => [gateBlock (.rot .RX p.2 (.mul (.num (s / 2) 0) .pi))]
  | _ => []

/-- The gates of a term. -/
def gates (s : ℚ) (ps : List (FixedGate × ℕ)) (a b : ℕ) (θ : Expr) : List (Block Prim) :=
  (ps.map (zGates s)).flatten ++ ladder a b ++ [gateBlock (.rot .RZ b θ)] ++ (ladder a b).reverse ++
    (ps.reverse.map (zGates (-s))).flatten

theorem zGates_reverse (s : ℚ) (p : FixedGate × ℕ) : (zGates s p).reverse = zGates s p := by
  unfold zGates
  split <;> rfl

theorem gates_reverse (s : ℚ) (ps : List (FixedGate × ℕ)) (a b : ℕ) (θ : Expr) :
    (gates s ps a b θ).reverse = gates (-s) ps a b θ := by
  have h : ∀ (s : ℚ) (ps : List (FixedGate × ℕ)), (ps.map (zGates s)).flatten.reverse = (ps.reverse.map (zGates s)).flatten := by
    intro s ps
    rw [List.reverse_flatten, List.map_map, ← List.map_reverse, List.map_reverse, List.map_reverse]
    congr 2
    apply List.map_congr_left
    intro p _
    exact zGates_reverse s p
  unfold gates
  simp only [List.reverse_append, h, List.reverse_reverse, neg_neg, List.reverse_cons, List.reverse_nil, List.nil_append,
    List.append_assoc]

theorem toZBasis_leaf (ord : List ℕ → List ℕ) (s : ℚ) (g : FixedGate) (q : ℕ) (t : Option String) :
    toZBasis ord s (.leaf (.fixed g q) t) = .ok (zGates s (g, q)) := by
  have : firstQubit ord (.leaf (.fixed g q) t) = .ok q := rfl
  rw [toZBasis, this]
  cases g <;> rfl

theorem mapM_zBasis (ord : List ℕ → List ℕ) (s : ℚ) {bs : List (Block Gate)} {ps : List (FixedGate × ℕ)}
    (h : List.Forall₂ (fun b p => ∃ t, b = .leaf (.fixed p.1 p.2) t) bs ps) :
    bs.mapM (toZBasis ord s) = .ok (ps.map (zGates s)) := by
  induction h with
  | nil => rfl
  | cons h _ ih =>
    obtain ⟨t, rfl⟩ := h
    rw [List.mapM_cons, toZBasis_leaf, ok_bind, ih]
    rfl

theorem mapM_first (ord : List ℕ → List ℕ) {bs : List (Block Gate)} {ps : List (FixedGate × ℕ)}
    (h : List.Forall₂ (fun b p => ∃ t, b = .leaf (.fixed p.1 p.2) t) bs ps) :
    bs.mapM (firstQubit ord) = .ok (ps.map Prod.snd) := by
  induction h with
  | nil => rfl
  | cons h _ ih =>
    obtain ⟨t, rfl⟩ := h
    have : ∀ g q, firstQubit ord (.leaf (.fixed g q) t) = .ok q := fun _ _ => rfl
    rw [List.mapM_cons, this, ok_bind, ih]
    rfl

theorem countPaulis_letters {bs : List (Block Gate)} {ps : List (FixedGate × ℕ)}
    (h : List.Forall₂ (fun b p => ∃ t, b = .leaf (.fixed p.1 p.2) t) bs ps)
    (hp : ∀ p ∈ ps, p.1 = .X ∨ p.1 = .Y ∨ p.1 = .Z ∨ p.1 = .I ∨ ∃ d, p.1 = .N d) (k : CKind) (t : Option String) :
    countPaulis (.comp k bs t) = ps.length := by
  rw [countPaulis, primitiveBlocks]
  induction h with
  | nil => rfl
  | @cons b p bs ps h _ ih =>
    obtain ⟨u, rfl⟩ := h
    rw [primitiveBlocksList, List.countP_append, ih fun r hr => hp r (by simp [hr]), List.length_cons, add_comm]
    congr 1
    obtain ⟨g, q⟩ := p
    rcases hp _ List.mem_cons_self with h | h | h | h | ⟨d, h⟩ <;> simp only at h <;> subst h <;> rfl

/-- The parts of a term. -/
theorem partsOf_letters {term : Block Gate} {ps : List (FixedGate × ℕ)} (h : Letters n term ps) :
    ∃ bs, partsOf term = .ok bs ∧ List.Forall₂ (fun b p => ∃ t, b = .leaf (.fixed p.1 p.2) t) bs ps := by
  rcases h.parts with ⟨g, q, t, rfl, rfl⟩ | ⟨k, bs, t, rfl, -, hl, hf⟩
  · refine ⟨[.leaf (.fixed g q) t], ?_, .cons ⟨t, rfl⟩ .nil⟩
    rw [partsOf.eq_def, if_neg]
    rw [countPaulis, primitiveBlocks]
    have := List.countP_le_length (p := fun g : Gate => (pauliName g).isSome) (l := [Gate.fixed g q])
    simp only [List.length_singleton] at this
    omega
  · refine ⟨bs, ?_, hf⟩
    rw [partsOf, if_pos]
    rw [countPaulis_letters hf h.pauli]
    exact hl

theorem expTerm_letters (ord : List ℕ → List ℕ) (t s : Expr) {term : Block Gate} {ps : List (FixedGate × ℕ)}
    (h : Letters n term ps) {a b : ℕ} (ha : (ps.map Prod.snd).min? = some a) (hb : (ps.map Prod.snd).max? = some b) :
    expTerm ord t (term, s) = .ok (gates 1 ps a b (.mul (.mul (.num 2 0) t) s)) := by
  obtain ⟨bs, h1, h2⟩ := partsOf_letters h
  have h2' : List.Forall₂ (fun b p => ∃ t, b = Block.leaf (Gate.fixed p.1 p.2) t) bs.reverse ps.reverse :=
    List.rel_reverse h2
  unfold expTerm
  rw [h1, ok_bind, mapM_first ord h2, ok_bind, mapM_zBasis ord 1 h2, ok_bind, mapM_zBasis ord (-1) h2', ok_bind, ha, hb]
  rfl

theorem eval_rat (ρ : Env) (q : ℚ) : eval ρ (.num q 0) = q := by
  rw [eval]
  apply Complex.ext <;> simp

theorem sem_zGates {ord : List ℕ → List ℕ} (ho : SetOrder ord) (ρ : Env) (s : ℚ) (ps : List (FixedGate × ℕ)) :
    opProd ((ps.map (zGates s)).flatten.map (sem (primSem n ρ ord ho) ρ)) = basis s ps := by
  have key : ∀ p : FixedGate × ℕ, opProd ((zGates s p).map (sem (primSem n ρ ord ho) ρ)) = embed1 p.2 (zl s p.1) := by
    rintro ⟨g, q⟩
    cases g <;> simp only [zGates, List.map_cons, List.map_nil, opProd, opProd_singleton, den_gateBlock, gateDen, zl, one_mul,
      embed1_one]
    rw [eval, eval_rat, eval]
  induction ps with
  | nil => rfl
  | cons p ps ih =>
    rw [List.map_cons, List.flatten_cons, List.map_append, opProd_append, ih, key]
    rfl

theorem sem_gates {ord : List ℕ → List ℕ} (ho : SetOrder ord) (ρ : Env) {s : ℚ} (hs : s = 1 ∨ s = -1)
    {ps : List (FixedGate × ℕ)} (hnd : (ps.map Prod.snd).Nodup) (hq : ∀ p ∈ ps, p.2 < n) {a k : ℕ} (h : a + k < n) (θ : Expr) :
    opProd ((gates s ps a (a + k) θ).map (sem (primSem n ρ ord ho) ρ)) =
      evolution (eval ρ θ / 2) (imgString s ps (List.range' a (k + 1)) : Oper n) := by
  have hl : (ladder a (a + k)).map (sem (primSem n ρ ord ho) ρ) =
      (List.range' a k).map fun i => controlled [i] (embed1 (i + 1) (mat1 .X)) := by
    rw [ladder, List.map_map, Nat.add_sub_cancel_left]
    rfl
  rw [← sandwich hs hnd hq h]
  have hr : (ladder a (a + k)).reverse.map (sem (primSem n ρ ord ho) ρ) =
      ((List.range' a k).map fun i => controlled [i] (embed1 (i + 1) (mat1 .X))).reverse := by
    rw [List.map_reverse, hl]
  unfold gates
  simp only [List.map_append, opProd_append, sem_zGates, hl, hr, List.map_cons, List.map_nil, opProd_singleton,
    den_gateBlock, gateDen, ladderOp, mul_assoc]

/-- The letters with both signs of the angle. -/
theorem imgString_eq {s : ℚ} {ps : List (FixedGate × ℕ)} (hnd : (ps.map Prod.snd).Nodup) {a k : ℕ}
    (hr : ∀ p ∈ ps, a ≤ p.2 ∧ p.2 ≤ a + k) :
    (imgString s ps (List.range' a (k + 1)) : Oper n) = (s : ℂ) ^ countY ps • filled ps a k := by
  have hl : ∀ q g, (g, q) ∈ ps → letterAt ps q = g := fun q g h => letterAt_mem hnd h
  have hy : ∀ q, (.Y, q) ∈ ps ↔ letterAt ps q = .Y := by
    intro q
    refine ⟨hl q .Y, fun h => ?_⟩
    by_cases hm : q ∈ ps.map Prod.snd
    · obtain ⟨⟨g, r⟩, hp, rfl⟩ := List.mem_map.1 hm
      have := hl _ _ hp
      simp only at h this
      rw [h] at this
      rwa [this]
    · rw [letterAt_not_mem hm] at h
      cases h
  have hx : ∀ q, (.X, q) ∈ ps ↔ letterAt ps q = .X := by
    intro q
    refine ⟨hl q .X, fun h => ?_⟩
    by_cases hm : q ∈ ps.map Prod.snd
    · obtain ⟨⟨g, r⟩, hp, rfl⟩ := List.mem_map.1 hm
      have := hl _ _ hp
      simp only at h this
      rw [h] at this
      rwa [this]
    · rw [letterAt_not_mem hm] at h
      cases h
  have h1 : ∀ q, img s (letterAt ps q) = (if letterAt ps q = .Y then (s : ℂ) else 1) • filledLetter ps q := by
    intro q
    unfold filledLetter
    simp only [hx, hy]
    cases letterAt ps q <;> simp [img]
  have h2 : ∀ qs : List ℕ, (imgString s ps qs : Oper n) =
      (s : ℂ) ^ (qs.countP fun q => letterAt ps q = .Y) • opProd (qs.map fun q => embed1 q (filledLetter ps q)) := by
    intro qs
    induction qs with
    | nil => simp [imgString, opProd]
    | cons q qs ih =>
      have e1 : (imgString s ps (q :: qs) : Oper n) = imgString s ps qs * embed1 q (img s (letterAt ps q)) := rfl
      rw [e1, ih, h1, embed1_smul, smul_mul_smul_comm, List.countP_cons, List.map_cons, opProd]
      congr 1
      by_cases h : letterAt ps q = .Y <;> simp [h, pow_succ]
  rw [h2, filled]
  congr 2
  rw [countY, List.countP_eq_length_filter, List.countP_eq_length_filter, ← List.length_map (as := ps.filter _) (f := Prod.snd)]
  apply List.Perm.length_eq
  rw [List.perm_ext_iff_of_nodup]
  · intro q
    simp only [List.mem_filter, List.mem_map, List.mem_range'_1, decide_eq_true_eq, ← hy]
    constructor
    · rintro ⟨-, h⟩
      exact ⟨_, ⟨h, rfl⟩, rfl⟩
    · rintro ⟨⟨g, r⟩, ⟨h, h'⟩, rfl⟩
      simp only at h'
      subst h'
      have := hr _ h
      exact ⟨by simp only at this ⊢; omega, h⟩
  · exact List.Nodup.filter _ List.nodup_range'
  · exact (List.Sublist.map _ List.filter_sublist).nodup hnd

theorem min_max {l : List ℕ} (h : l ≠ []) : ∃ a k, l.min? = some a ∧ l.max? = some (a + k) ∧ a ∈ l ∧ a + k ∈ l ∧
    ∀ q ∈ l, a ≤ q ∧ q ≤ a + k := by
  obtain ⟨a, ha⟩ := Option.isSome_iff_exists.1 (List.isSome_min?_of_ne_nil h)
  obtain ⟨b, hb⟩ := Option.isSome_iff_exists.1 (List.isSome_max?_of_ne_nil h)
  have ha' := List.min?_eq_some_iff.1 ha
  have hb' := List.max?_eq_some_iff.1 hb
  obtain ⟨k, rfl⟩ := Nat.exists_eq_add_of_le (hb'.2 a ha'.1)
  exact ⟨a, k, ha, hb, ha'.1, hb'.1, fun q hq => ⟨ha'.2 q hq, hb'.2 q hq⟩⟩

/-! ### C34 -/

theorem Letters.ne_nil {term : Block Gate} {ps : List (FixedGate × ℕ)} (h : Letters n term ps) : ps ≠ [] := by
  rcases h.parts with ⟨g, q, t, rfl, rfl⟩ | ⟨k, bs, t, rfl, -, hl, hf⟩
  · simp
  · rintro rfl
    simp at hl

theorem expTerm_spec {ord : List ℕ → List ℕ} (ho : SetOrder ord) (ρ : Env) (t s : Expr) {term : Block Gate}
    {ps : List (FixedGate × ℕ)} (h : Letters n term ps) : ∃ a k bs, a ∈ ps.map Prod.snd ∧ a + k ∈ ps.map Prod.snd ∧
      (∀ q ∈ ps.map Prod.snd, a ≤ q ∧ q ≤ a + k) ∧ expTerm ord t (term, s) = .ok bs ∧
      opProd (bs.map (sem (primSem n ρ ord ho) ρ)) = evolution (eval ρ t * eval ρ s) (filled ps a k) ∧
      opProd (bs.reverse.map (sem (primSem n ρ ord ho) ρ)) =
        evolution ((-1) ^ countY ps * (eval ρ t * eval ρ s)) (filled ps a k) := by
  obtain ⟨a, k, h1, h2, h3, h4, h5⟩ := min_max (l := ps.map Prod.snd) (by simpa using Letters.ne_nil h)
  have h6 : a + k < n := by
    obtain ⟨p, hp, he⟩ := List.mem_map.1 h4
    rw [← he]
    exact h.inside p hp
  have h7 : ∀ p ∈ ps, a ≤ p.2 ∧ p.2 ≤ a + k := fun p hp => h5 _ (List.mem_map.2 ⟨p, hp, rfl⟩)
  refine ⟨a, k, _, h3, h4, h5, expTerm_letters ord t s h h1 h2, ?_, ?_⟩
  · rw [sem_gates ho ρ (.inl rfl) h.once h.inside h6, imgString_eq h.once h7]
    rw [eval, eval, eval_rat, Rat.cast_one, one_pow, one_smul]
    congr 1
    push_cast
    ring
  · rw [gates_reverse, sem_gates ho ρ (.inr rfl) h.once h.inside h6, imgString_eq h.once h7]
    rw [eval, eval, eval_rat, evolution, evolution, smul_smul]
    congr 2
    push_cast
    ring

/-- C34: what `decompose_pauli_exp` makes of a term with letters on different qubits: the exponential of the product of
these letters over the whole interval between the lowest and the highest qubit, where Z is put on the idle qubits and in place
of I and N. -/
theorem C34_filled {ord : List ℕ → List ℕ} (ho : SetOrder ord) (ρ : Env) (t s : Expr) {term : Block Gate}
    {ps : List (FixedGate × ℕ)} (h : Letters n term ps) : ∃ a k bs, a ∈ ps.map Prod.snd ∧ a + k ∈ ps.map Prod.snd ∧
      (∀ q ∈ ps.map Prod.snd, a ≤ q ∧ q ≤ a + k) ∧ pauliExp ord t [(term, s)] = .ok bs ∧
      sem (primSem n ρ ord ho) ρ (chainOf bs) = evolution (eval ρ t * eval ρ s) (filled ps a k) := by
  obtain ⟨a, k, bs, h1, h2, h3, h4, h5, -⟩ := expTerm_spec ho ρ t s h
  refine ⟨a, k, bs, h1, h2, h3, ?_, ?_⟩
  · rw [pauliExp, List.mapM_cons, h4]
    change Except.ok (bs ++ []) = _
    rw [List.append_nil]
  · rw [chainOf, sem_chain, h5]

theorem opProd_perm {α : Type} {l l' : List α} (hp : l.Perm l') (f : α → Oper n)
    (hc : l.Pairwise fun a b => f a * f b = f b * f a) : opProd (l.map f) = opProd (l'.map f) := by
  induction hp with
  | nil => rfl
  | cons a _ ih => simp only [List.map_cons, opProd]; rw [ih (List.pairwise_cons.1 hc).2]
  | swap a b l =>
    simp only [List.map_cons, opProd, mul_assoc]
    rw [(List.pairwise_cons.1 hc).1 a (by simp)]
  | trans h1 _ ih1 ih2 =>
    rw [ih1 hc, ih2]
    exact (h1.pairwise_iff (fun {a b} h => h.symm)).1 hc

theorem Plain.letters {term : Block Gate} {ps : List (FixedGate × ℕ)} (h : Plain n term ps) : Letters n term ps := by
  have hp : ∀ p ∈ ps, p.1 = .X ∨ p.1 = .Y ∨ p.1 = .Z := by
    intro p hp
    have := h.string.inner
    have hm : some p ∈ (innerBlocks term).map pauliLetter := by rw [this]; exact List.mem_map.2 ⟨p, hp, rfl⟩
    obtain ⟨b, -, hb⟩ := List.mem_map.1 hm
    exact (pauliLetter_some hb).2
  refine ⟨?_, fun p hp' => ?_, h.string.inside, h.once⟩
  · rcases h.string.parts with h1 | ⟨k, bs, t, rfl, hk, h1⟩
    · left
      cases h2 : pauliLetter term with
      | none => rw [h2] at h1; exact absurd h1.symm h.string.nonempty
      | some p =>
        rw [h2] at h1
        obtain ⟨⟨t, rfl⟩, -⟩ := pauliLetter_some h2
        exact ⟨p.1, p.2, t, rfl, h1.symm⟩
    · right
      have hf : List.Forall₂ (fun b p => ∃ t, b = Block.leaf (Gate.fixed p.1 p.2) t) bs ps := by
        rw [← List.forall₂_eq_eq_eq, List.forall₂_map_left_iff, List.forall₂_map_right_iff] at h1
        exact h1.imp fun b p h => (pauliLetter_some h).1
      refine ⟨k, bs, t, rfl, hk, ?_, hf⟩
      rw [← hf.length_eq]
      match bs, hf with
      | [], hf => exact absurd (List.forall₂_nil_left_iff.1 hf) h.string.nonempty
      | [b], _ => exact absurd rfl (h.many k b t)
      | _ :: _ :: _, _ => simp
  · rcases hp p hp' with h | h | h <;> simp [h]

/-- The filled string of a plain term is its operator. -/
theorem Plain.filled {term : Block Gate} {ps : List (FixedGate × ℕ)} (h : Plain n term ps) (ρ : Env) {a k : ℕ}
    (ha : a ∈ ps.map Prod.snd) (hk : a + k ∈ ps.map Prod.snd) (hr : ∀ q ∈ ps.map Prod.snd, a ≤ q ∧ q ≤ a + k) :
    (filled ps a k : Oper n) = sem (gateSem n ρ) ρ term := by
  have hmem : ∀ q, q ∈ ps.map Prod.snd ↔ a ≤ q ∧ q ≤ a + k := by
    obtain ⟨a', k', hi⟩ := h.interval
    have h1 := (hi a).1 ha
    have h2 := (hi (a + k)).1 hk
    have h3 := hr a' ((hi a').2 ⟨le_rfl, by omega⟩)
    have h4 := hr (a' + k') ((hi (a' + k')).2 ⟨by omega, le_rfl⟩)
    intro q
    rw [hi q]
    omega
  have hperm : (ps.map Prod.snd).Perm (List.range' a (k + 1)) := by
    rw [List.perm_ext_iff_of_nodup h.once List.nodup_range']
    intro q
    rw [hmem, List.mem_range'_1]
    omega
  have hpw : (ps.map Prod.snd).Pairwise fun q r => (embed1 q (filledLetter ps q) : Oper n) * embed1 r (filledLetter ps r) =
      embed1 r (filledLetter ps r) * embed1 q (filledLetter ps q) :=
    h.once.imp fun hne => (embed1_commute_of_ne hne _ _).eq
  rw [Spec.filled, ← opProd_perm hperm _ hpw, sem_pauliString ρ h.string, List.map_map]
  congr 1
  apply List.map_congr_left
  intro p hp
  rw [Function.comp_apply]
  congr 1
  have hl : ∀ g, (g, p.2) ∈ ps ↔ g = p.1 := by
    intro g
    constructor
    · intro hg
      have h1 := letterAt_mem h.once hg
      have h2 := letterAt_mem h.once hp
      simp only at h1
      rw [← h1, h2]
    · rintro rfl
      exact hp
  have hx : p.1 = .X ∨ p.1 = .Y ∨ p.1 = .Z := by
    have := h.string.inner
    have hm : some p ∈ (innerBlocks term).map pauliLetter := by rw [this]; exact List.mem_map.2 ⟨p, hp, rfl⟩
    obtain ⟨b, -, hb⟩ := List.mem_map.1 hm
    exact (pauliLetter_some hb).2
  unfold filledLetter
  simp only [hl]
  rcases hx with hx | hx | hx <;> simp [hx]

theorem evolution_smul (t c : ℂ) (M : Oper n) : evolution t (c • M) = evolution (t * c) M := by
  rw [evolution, evolution, smul_smul, mul_assoc]

/-- The decomposition of a list of terms, and its reversal. -/
theorem pauliExp_plain {ord : List ℕ → List ℕ} (ho : SetOrder ord) (ρ : Env) (t : Expr) (l : List (Block Gate × Expr))
    (h : ∀ x ∈ l, ∃ ps, Plain n x.1 ps) : ∃ bs, pauliExp ord t l = .ok bs ∧
      opProd (bs.map (sem (primSem n ρ ord ho) ρ)) =
        opProd (l.map fun x => evolution (eval ρ t) (eval ρ x.2 • sem (gateSem n ρ) ρ x.1)) ∧
      ((∀ x ∈ l, ∃ ps, Plain n x.1 ps ∧ Even (countY ps)) → opProd (bs.reverse.map (sem (primSem n ρ ord ho) ρ)) =
        opProd (l.reverse.map fun x => evolution (eval ρ t) (eval ρ x.2 • sem (gateSem n ρ) ρ x.1))) := by
  induction l with
  | nil => exact ⟨[], rfl, rfl, fun _ => rfl⟩
  | cons x l ih =>
    obtain ⟨bs, h1, h2, h3⟩ := ih fun y hy => h y (by simp [hy])
    obtain ⟨ls, h4, h5⟩ := (map_ok (f := List.flatten) (x := l.mapM (expTerm ord t)) (b := bs) (by
      rw [pauliExp] at h1
      cases h6 : l.mapM (expTerm ord t) with
      | error e => rw [h6] at h1; exact absurd h1 (by rintro ⟨⟩)
      | ok v => rw [h6] at h1; exact h1))
    have key : ∀ ps, Plain n x.1 ps → ∃ cs, expTerm ord t x = .ok cs ∧
        opProd (cs.map (sem (primSem n ρ ord ho) ρ)) = evolution (eval ρ t) (eval ρ x.2 • sem (gateSem n ρ) ρ x.1) ∧
        (Even (countY ps) → opProd (cs.reverse.map (sem (primSem n ρ ord ho) ρ)) =
          evolution (eval ρ t) (eval ρ x.2 • sem (gateSem n ρ) ρ x.1)) := by
      intro ps hps
      obtain ⟨a, k, cs, e1, e2, e3, e4, e5, e6⟩ := expTerm_spec ho ρ t x.2 (Plain.letters hps)
      rw [Plain.filled hps ρ e1 e2 e3] at e5 e6
      refine ⟨cs, e4, ?_, fun he => ?_⟩
      · rw [e5, evolution_smul]
      · rw [e6, evolution_smul, he.neg_one_pow, one_mul]
    obtain ⟨ps, hps⟩ := h x (by simp)
    obtain ⟨cs, c1, c2, -⟩ := key ps hps
    refine ⟨cs ++ bs, ?_, ?_, fun he => ?_⟩
    · rw [pauliExp, List.mapM_cons, c1, ok_bind, h4]
      change Except.ok (cs ++ ls.flatten) = _
      rw [h5]
    · rw [List.map_append, opProd_append, h2, c2]
      rfl
    · obtain ⟨ps', hps', hev⟩ := he x (by simp)
      obtain ⟨cs', c1', -, c3'⟩ := key ps' hps'
      rw [c1] at c1'
      injection c1' with c1'
      subst c1'
      rw [List.reverse_append, List.map_append, opProd_append, h3 fun y hy => he y (by simp [hy]), c3' hev,
        List.reverse_cons, List.map_append, opProd_append]
      simp [opProd]

/-- C34 (partial): for terms with letters X, Y, Z on different qubits without gap, which are no composite of a single part,
the gates are exactly the product of the exponentials of the terms, in order. Missing: supports with gaps, the letters I and N,
composites with one part and nested composites, for which the claim is false. -/
theorem C34_pauli_exp_partial {ord : List ℕ → List ℕ} (ho : SetOrder ord) (ρ : Env) (t : Expr) (l : List (Block Gate × Expr))
    (h : ∀ x ∈ l, ∃ ps, Plain n x.1 ps) : ∃ bs, pauliExp ord t l = .ok bs ∧ sem (primSem n ρ ord ho) ρ (chainOf bs) =
      opProd (l.map fun x => evolution (eval ρ t * eval ρ x.2) (sem (gateSem n ρ) ρ x.1)) := by
  obtain ⟨bs, h1, h2, -⟩ := pauliExp_plain ho ρ t l h
  refine ⟨bs, h1, ?_⟩
  rw [chainOf, sem_chain, h2]
  simp only [evolution_smul]

end Qadence.Decompose
