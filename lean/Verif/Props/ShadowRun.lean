import Verif.Props.Shadow

/-!
# C60 (classical shadows): snapshots and mean values
-/

namespace Qadence.Shadow

open Spec Measure Block Matrix

variable {n N : ℕ}

/-! ### Circuits of snapshots -/

/-- The rotations of a snapshot, as one-qubit matrices. -/
noncomputable def rotLocals (b : Fin n → Fin 3) (is : List (Fin n)) : List (ℕ × Matrix Bool Bool ℂ) :=
  is.filterMap fun i => if b i = 2 then none else some (i.val, rotMat (letterOf (b i)))

theorem rotationFor_qubits (ord : List ℕ → List ℕ) {a : Fin 3} {q : ℕ} {blk : Block Prim} (h : rotationFor a q = some blk) :
    ∀ r ∈ qubits (Prim.supp ord) blk, r = q := by
  intro r hr
  match a, h with
  | 0, h =>
    simp only [rotationFor, Option.some.injEq] at h
    subst h
    simpa [qubits_leaf, Prim.supp, Gate.supp] using hr
  | 1, h =>
    simp only [rotationFor, Option.some.injEq] at h
    subst h
    rw [rotation, chainOf, mem_qubits_comp] at hr
    obtain ⟨b, hb, hq⟩ := hr
    simp only [List.mem_cons, List.not_mem_nil, or_false] at hb
    rcases hb with rfl | rfl <;> simpa [qubits_leaf, Prim.supp, Gate.supp] using hq
  | 2, h => cases h

theorem sem_rotationFor {ord : List ℕ → List ℕ} (ho : SetOrder ord) (ρ : Env) (a : Fin 3) {q : ℕ} (hq : q < n) :
    (rotationFor a q).map (sem (primSem n ρ ord ho) ρ) =
      (if a = 2 then none else some (q, rotMat (letterOf a))).map fun p => embed1 p.1 p.2 := by
  match a with
  | 0 =>
    rw [if_neg (by decide)]
    simp only [rotationFor, Option.map_some, sem_leaf, letterOf, rotMat]
    rw [show mat1 .I = 1 from rfl, mul_one]
    rfl
  | 1 =>
    rw [if_neg (by decide)]
    simp only [rotationFor, Option.map_some]
    rw [sem_rotation ρ ord ho hq]
    rfl
  | 2 => rfl

theorem sem_rotations {ord : List ℕ → List ℕ} (ho : SetOrder ord) (ρ : Env) (b : Fin n → Fin 3) (is : List (Fin n)) :
    (is.filterMap fun i => rotationFor (b i) i.val).map (sem (primSem n ρ ord ho) ρ) =
      (rotLocals b is).map fun p => embed1 p.1 p.2 := by
  rw [rotLocals, List.map_filterMap, List.map_filterMap]
  congr 1
  funext i
  exact sem_rotationFor ho ρ (b i) i.2

theorem rotLocals_mem {b : Fin n → Fin 3} {is : List (Fin n)} {p : ℕ × Matrix Bool Bool ℂ} :
    p ∈ rotLocals b is ↔ ∃ i ∈ is, b i ≠ 2 ∧ p = (i.val, rotMat (letterOf (b i))) := by
  rw [rotLocals, List.mem_filterMap]
  constructor
  · rintro ⟨i, hi, h⟩
    split at h
    · cases h
    · next hb => exact ⟨i, hi, hb, (Option.some.inj h).symm⟩
  · rintro ⟨i, hi, hb, rfl⟩
    exact ⟨i, hi, by rw [if_neg hb]⟩

theorem rotLocals_nodup (b : Fin n → Fin 3) : ((rotLocals b (List.finRange n)).map Prod.fst).Nodup := by
  have : (rotLocals b (List.finRange n)).map Prod.fst = ((List.finRange n).filter fun i => b i ≠ 2).map Fin.val := by
    unfold rotLocals
    induction List.finRange n with
    | nil => rfl
    | cons i is ih =>
      rw [List.filterMap_cons, List.filter_cons]
      by_cases hb : b i = 2
      · simp [hb, ih]
      · simp [hb, ih]
  rw [this]
  exact ((List.nodup_finRange n).filter _).map Fin.val_injective

/-- The rotations turn a word which is measured into a product of Z on the same qubits. -/
theorem rotLocals_intertwine {ls : List (FixedGate × ℕ)} (h : Letters n ls) (b : Fin n → Fin 3) (hm : Measured ls b) :
    (locals (rotLocals b (List.finRange n)) : Oper n) * opProd (ls.map fun p => embed1 p.2 (mat1 p.1)) =
      zString ((nontrivial ls).map Prod.snd) * locals (rotLocals b (List.finRange n)) := by
  have hint : ∀ p ∈ nontrivial ls, (locals (rotLocals b (List.finRange n)) : Oper n) * embed1 p.2 (mat1 p.1) =
      embed1 p.2 (mat1 .Z) * locals (rotLocals b (List.finRange n)) := by
    intro p hp
    obtain ⟨hlt, hb⟩ := hm p hp
    obtain ⟨i, hi, hl⟩ := h.basis hp
    have hbi : b ⟨p.2, hlt⟩ = i := by rw [hi] at hb; exact (Option.some.inj hb).symm
    by_cases hz : i = 2
    · subst hz
      rw [← hl]
      apply locals_commute
      intro r hr e
      obtain ⟨j, -, hj, rfl⟩ := rotLocals_mem.1 hr
      apply hj
      rw [← hbi]
      congr 1
      exact Fin.ext e
    · refine locals_intertwine (rotLocals_nodup b) hlt (U := rotMat p.1) ?_ (rotMat_intertwine _ ?_)
      · exact rotLocals_mem.2 ⟨⟨p.2, hlt⟩, List.mem_finRange _, by rw [hbi]; exact hz, by rw [hbi, hl]⟩
      · rw [← hl]
        match i with
        | 0 => exact Or.inl rfl
        | 1 => exact Or.inr (Or.inl rfl)
        | 2 => exact Or.inr (Or.inr rfl)
  clear hm h
  generalize (locals (rotLocals b (List.finRange n)) : Oper n) = R at hint ⊢
  induction ls with
  | nil => simp [nontrivial, zString, opProd]
  | cons p ls ih =>
    have e1 : opProd ((p :: ls).map fun p => (embed1 p.2 (mat1 p.1) : Oper n)) =
        opProd (ls.map fun p => embed1 p.2 (mat1 p.1)) * embed1 p.2 (mat1 p.1) := rfl
    by_cases hI : p.1 = .I
    · have e2 : nontrivial (p :: ls) = nontrivial ls := by simp [nontrivial, hI]
      rw [e2] at hint ⊢
      rw [e1, ← mul_assoc, ih hint, hI, show mat1 .I = 1 from rfl, embed1_one, mul_one]
    · have e2 : nontrivial (p :: ls) = p :: nontrivial ls := by simp [nontrivial, hI]
      rw [e2] at hint ⊢
      have e3 : (zString ((p :: nontrivial ls).map Prod.snd) : Oper n) = zString ((nontrivial ls).map Prod.snd) * embed1 p.2 (mat1 .Z) := rfl
      rw [e1, e3, ← mul_assoc, ih fun r hr => hint r (by simp [hr]), mul_assoc, hint p (by simp), mul_assoc]

/-- Operator of a word. -/
theorem sem_word (ρ : Env) {term : Block Gate} {ls : List (FixedGate × ℕ)} (h : Word n term ls) :
    sem (gateSem n ρ) ρ term = opProd (ls.map fun p => embed1 p.2 (mat1 p.1)) := by
  rcases h.parts with ⟨p, h1, rfl, -⟩ | ⟨k, bs, t, rfl, hk, h1⟩
  · obtain ⟨⟨t, rfl⟩, -⟩ := letter_some h1
    rw [sem_leaf]
    simp [opProd, gateDen]
  · have hk' : bs.map (sem (gateSem n ρ) ρ) = ls.map fun p => embed1 p.2 (mat1 p.1) := by
      clear hk h
      induction bs generalizing ls with
      | nil =>
        have : ls = [] := by simpa using h1.symm
        subst this; rfl
      | cons b bs ih =>
        cases ls with
        | nil => simp at h1
        | cons p ls =>
          simp only [List.map_cons, List.cons.injEq] at h1
          obtain ⟨⟨t, rfl⟩, -⟩ := letter_some h1.1
          rw [List.map_cons, List.map_cons, ih h1.2, sem_leaf]; rfl
    cases k
    · rw [sem_chain]; exact congrArg opProd hk'
    · rw [sem_kron]; exact congrArg opProd hk'
    · exact absurd rfl hk

/-- A circuit made of a composite block. -/
theorem circuit_new {ord : List ℕ → List ℕ} (ho : SetOrder ord) (k : CKind) (bs : List (Block Prim)) (t : Option String)
    (blocks : List (Block Prim)) (hroot : Circuit.rootBlock blocks = .comp k bs t)
    (hq : ∀ q ∈ qubits (Prim.supp ord) (.comp k bs t), q < n) :
    Circuit.new (Prim.supp ord) (Prim.nQubits ord) ord n blocks = .ok ⟨n, .comp k bs t⟩ := by
  obtain ⟨m, h1, h2⟩ := C18_composite_size (Prim.supp ord) (Prim.nQubits ord) ho k bs t
  have hm : ¬ m > n := by
    have := (h2 n).2 hq
    omega
  simp only [Circuit.new]
  rw [hroot]
  split
  · rfl
  · rw [h1, ok_bind, if_neg hm]; rfl

/-- **C60**: on at least two qubits the circuit of every snapshot is accepted. It applies a unitary which turns every word measured
in the snapshot into the product of Z on the same qubits, to the state prepared by the circuit. -/
theorem C60_snapshot {ord : List ℕ → List ℕ} (ho : SetOrder ord) (native : Bool) {c : Circuit Prim} (hn : 1 < c.nReg)
    (hc : ∀ q ∈ qubits (Prim.supp ord) c.block, q < c.nReg)
    (hnew : Circuit.new (Prim.supp ord) (Prim.nQubits ord) ord c.nReg [c.block] = .ok c) (b : Fin c.nReg → Fin 3) :
    ∃ c' R, snapshotCircuit ord native c (List.ofFn b) = .ok c' ∧ c'.nReg = c.nReg ∧
      (∀ ρ, sem (primSem c.nReg ρ ord ho) ρ c'.block = R * if native then 1 else sem (primSem c.nReg ρ ord ho) ρ c.block) ∧
      Rᴴ * R = 1 ∧ ∀ (ρ : Env) term ls, Word c.nReg term ls → Measured ls b →
        R * sem (gateSem c.nReg ρ) ρ term * Rᴴ = zString ((nontrivial ls).map Prod.snd) ∧
        Rᴴ * zString ((nontrivial ls).map Prod.snd) * R = sem (gateSem c.nReg ρ) ρ term := by
  set R : Oper c.nReg := locals (rotLocals b (List.finRange c.nReg)) with hR
  have hU : Rᴴ * R = 1 := by
    apply locals_unitary
    · intro p hp
      obtain ⟨i, -, -, rfl⟩ := rotLocals_mem.1 hp
      exact i.2
    · intro p hp
      obtain ⟨i, -, -, rfl⟩ := rotLocals_mem.1 hp
      exact rotMat_unitary _
  have hU' : R * Rᴴ = 1 := mul_eq_one_comm.1 hU
  have hword : ∀ (ρ : Env) term ls, Word c.nReg term ls → Measured ls b →
        R * sem (gateSem c.nReg ρ) ρ term * Rᴴ = zString ((nontrivial ls).map Prod.snd) ∧
        Rᴴ * zString ((nontrivial ls).map Prod.snd) * R = sem (gateSem c.nReg ρ) ρ term := by
    intro ρ term ls hw hm
    rw [sem_word ρ hw]
    have := rotLocals_intertwine hw.ofParts b hm
    rw [← hR] at this
    constructor
    · rw [this, mul_assoc, hU', mul_one]
    · rw [mul_assoc, ← this, ← mul_assoc, hU, one_mul]
  set bs := (List.finRange c.nReg).filterMap fun i => rotationFor (b i) i.val with hbs
  have hops : ((List.ofFn b).zipIdx.map fun p => rotationFor p.1 p.2).filterMap id = bs := by
    rw [List.filterMap_map, hbs]
    have : (List.ofFn b).zipIdx = (List.finRange c.nReg).map fun i => (b i, i.val) := by
      apply List.ext_getElem
      · simp
      · intro i h1 h2; simp
    rw [this, List.filterMap_map]
    rfl
  have hq : ∀ blk ∈ bs, ∀ q ∈ qubits (Prim.supp ord) blk, q < c.nReg := by
    intro blk hb q hq
    obtain ⟨i, -, hi⟩ := List.mem_filterMap.1 hb
    rw [rotationFor_qubits ord hi q hq]
    exact i.2
  have hkron : bs ≠ [] → kronOf (Prim.supp ord) ord bs = .ok (.comp .kron bs none) := by
    intro hne
    rw [kronOf_ok_iff (Prim.supp ord) ord ho]
    refine ⟨rfl, hne, ?_⟩
    rw [hbs, List.pairwise_filterMap]
    refine (List.nodup_finRange c.nReg).imp ?_
    intro i j hij x hx y hy
    rw [Set.disjoint_left]
    intro q hqx hqy
    apply hij
    apply Fin.ext
    rw [← rotationFor_qubits ord hx q hqx, rotationFor_qubits ord hy q hqy]
  have hsem : ∀ ρ, opProd (bs.map (sem (primSem c.nReg ρ ord ho) ρ)) = R := by
    intro ρ
    rw [hbs, sem_rotations ho]
    rfl
  have hpre : snapshotCircuit ord native c (List.ofFn b) =
      (match bs with
        | [] => Circuit.new (Prim.supp ord) (Prim.nQubits ord) ord c.nReg (if native then [] else [c.block])
        | _ => Circuit.new (Prim.supp ord) (Prim.nQubits ord) ord c.nReg
          (if native then [.comp .kron bs none] else [c.block, .comp .kron bs none])) := by
    rw [snapshotCircuit, if_pos hn, hops]
    cases hbs' : bs with
    | nil => cases native <;> rfl
    | cons x xs =>
      simp only
      rw [← hbs', hkron (by rw [hbs']; simp), ok_bind, pure_eq_ok, ok_bind]
      cases native <;> rfl
  cases hbs' : bs with
  | nil =>
    rw [hbs'] at hpre
    simp only at hpre
    have h1 : ∀ _ : Env, R = 1 := by
      intro ρ
      rw [← hsem ρ, hbs']; rfl
    cases native with
    | true =>
      refine ⟨⟨c.nReg, .comp .chain [] none⟩, R, ?_, rfl, ?_, hU, hword⟩
      · rw [hpre]; rfl
      · intro ρ
        rw [sem_chain, h1 ρ]; simp [opProd]
    | false =>
      refine ⟨c, R, ?_, rfl, ?_, hU, hword⟩
      · rw [hpre]; exact hnew
      · intro ρ
        rw [h1 ρ]; simp
  | cons x xs =>
    have hne : bs ≠ [] := by rw [hbs']; simp
    rw [hbs'] at hpre
    simp only at hpre
    rw [← hbs'] at hpre
    cases native with
    | true =>
      refine ⟨⟨c.nReg, .comp .kron bs none⟩, R, ?_, rfl, ?_, hU, hword⟩
      · rw [hpre]
        refine circuit_new ho .kron bs none _ rfl ?_
        intro q hq'
        rw [mem_qubits_comp] at hq'
        obtain ⟨blk, hb, hq'⟩ := hq'
        exact hq blk hb q hq'
      · intro ρ
        rw [sem_kron, hsem]; simp
    | false =>
      refine ⟨⟨c.nReg, chainOf [c.block, .comp .kron bs none]⟩, R, ?_, rfl, ?_, hU, hword⟩
      · rw [hpre]
        refine circuit_new ho .chain _ none _ rfl ?_
        intro q hq'
        rw [mem_qubits_comp] at hq'
        obtain ⟨blk, hb, hq'⟩ := hq'
        simp only [List.mem_cons, List.not_mem_nil, or_false] at hb
        rcases hb with rfl | rfl
        · exact hc q hq'
        · rw [mem_qubits_comp] at hq'
          obtain ⟨blk, hb, hq'⟩ := hq'
          exact hq blk hb q hq'
      · intro ρ
        rw [chainOf, sem_chain]
        simp only [List.map_cons, List.map_nil, opProd, one_mul]
        rw [sem_kron, hsem]; simp

/-- **C60** (defect): on a single qubit every snapshot raises an AttributeError: the list of rotations is used as a block. -/
theorem C60_counterexample_one_qubit (ord : List ℕ → List ℕ) (native : Bool) {c : Circuit Prim} (hn : c.nReg = 1)
    (b : Fin c.nReg → Fin 3) : snapshotCircuit ord native c (List.ofFn b) = .error .attributeError := by
  have hl : (List.ofFn b).length = 1 := by simp [hn]
  obtain ⟨a, ha⟩ := List.length_eq_one_iff.1 hl
  rw [snapshotCircuit, ha, if_neg (by omega), if_neg (by simp)]
  rfl

/-! ### Mean values -/

/-- State prepared by the circuit. -/
noncomputable def prepared {ord : List ℕ → List ℕ} (ho : SetOrder ord) (c : Circuit Prim) (ρ : Env) (ψ : St c.nReg → ℂ) :
    St c.nReg → ℂ := sem (primSem c.nReg ρ ord ho) ρ c.block *ᵥ ψ

/-- Probability of an outcome of the circuit of a snapshot, which starts from the prepared state on PyQTorch and from the
initial state elsewhere. -/
noncomputable def outcomeProb {ord : List ℕ → List ℕ} (ho : SetOrder ord) (native : Bool) (c : Circuit Prim) (ρ : Env)
    (ψ : St c.nReg → ℂ) (c' : Circuit Prim) (x : St c.nReg) : ℝ :=
  ‖(sem (primSem c.nReg ρ ord ho) ρ c'.block *ᵥ (if native then prepared ho c ρ ψ else ψ)) x‖ ^ 2

theorem norm_unitary {R : Oper n} (hU : Rᴴ * R = 1) (φ : St n → ℂ) : ∑ x, ‖(R *ᵥ φ) x‖ ^ 2 = ∑ x, ‖φ x‖ ^ 2 := by
  have h1 : ∀ φ : St n → ℂ, expct (1 : Oper n) φ = ((∑ x, ‖φ x‖ ^ 2 : ℝ) : ℂ) := by
    intro φ
    have := expct_zString (n := n) [] (by simp) φ
    rw [show (zString [] : Oper n) = 1 from rfl] at this
    rw [this, Complex.ofReal_sum]
    simp [parity]
  have h2 := expct_conj R 1 φ
  rw [mul_one, hU, h1, h1] at h2
  exact_mod_cast h2

/-- Distribution of the outcomes of a snapshot. -/
theorem outcome_spec {ord : List ℕ → List ℕ} (ho : SetOrder ord) (native : Bool) {c : Circuit Prim} (hn : 1 < c.nReg)
    (hc : ∀ q ∈ qubits (Prim.supp ord) c.block, q < c.nReg)
    (hnew : Circuit.new (Prim.supp ord) (Prim.nQubits ord) ord c.nReg [c.block] = .ok c) (ρ : Env) {ψ : St c.nReg → ℂ}
    (hψ : ∑ x, ‖prepared ho c ρ ψ x‖ ^ 2 = 1) (b : Fin c.nReg → Fin 3) :
    ∃ c', snapshotCircuit ord native c (List.ofFn b) = .ok c' ∧ (∑ x, outcomeProb ho native c ρ ψ c' x = 1) ∧
      ∀ term ls, Word c.nReg term ls → Measured ls b →
        ∑ x, (outcomeProb ho native c ρ ψ c' x : ℂ) * result ls x = expct (sem (gateSem c.nReg ρ) ρ term) (prepared ho c ρ ψ) := by
  obtain ⟨c', R, h1, -, h3, h4, h5⟩ := C60_snapshot ho native hn hc hnew b
  have hstate : sem (primSem c.nReg ρ ord ho) ρ c'.block *ᵥ (if native then prepared ho c ρ ψ else ψ) = R *ᵥ prepared ho c ρ ψ := by
    rw [h3]
    cases native
    · simp only [Bool.false_eq_true, if_false]
      rw [prepared, Matrix.mulVec_mulVec]
    · simp
  refine ⟨c', h1, ?_, ?_⟩
  · unfold outcomeProb
    rw [hstate, norm_unitary h4, hψ]
  · intro term ls hw hm
    have hin : ∀ q ∈ (nontrivial ls).map Prod.snd, q < c.nReg := by
      intro q hq
      obtain ⟨p, hp, rfl⟩ := List.mem_map.1 hq
      exact hw.inside p (nontrivial_mem.1 hp).1
    rw [← (h5 ρ term ls hw hm).2, ← expct_conj, expct_zString _ hin]
    unfold outcomeProb
    rw [hstate]
    apply Finset.sum_congr rfl
    intro x _
    rw [result]
    push_cast
    rfl

/-- **C60**: mean value of the estimator of a group, over uniformly random bases and the outcomes of the circuits of the snapshots. It
is the exact expectation value times the probability that the word of `w` letters is measured in the group of `N / K`
snapshots at all, `1 - (1 - 3^-w)^(N/K)`. (The estimator is therefore not unbiased; see `C60_counterexample_biased`.) -/
theorem C60_mean_partial {ord : List ℕ → List ℕ} (ho : SetOrder ord) (native : Bool) {c : Circuit Prim} (hn : 1 < c.nReg)
    (hc : ∀ q ∈ qubits (Prim.supp ord) c.block, q < c.nReg)
    (hnew : Circuit.new (Prim.supp ord) (Prim.nQubits ord) ord c.nReg [c.block] = .ok c) (ρ : Env) {ψ : St c.nReg → ℂ}
    (hψ : ∑ x, ‖prepared ho c ρ ψ x‖ ^ 2 = 1) {term : Block Gate} {ls : List (FixedGate × ℕ)} (hw : Word c.nReg term ls)
    (hord : support Gate.supp ord term = ls.map Prod.snd) (N : ℕ) {K : ℕ} :
    ∃ (circ : (Fin c.nReg → Fin 3) → Circuit Prim) (est : (Fin N → Fin c.nReg → Fin 3) → (Fin N → St c.nReg) → List ℚ),
      (∀ b, snapshotCircuit ord native c (List.ofFn b) = .ok (circ b)) ∧
      (∀ b o, 0 < K → estimators ord N K (List.ofFn fun i => List.ofFn (b i)) (List.ofFn fun i => signs (List.ofFn (o i))) term =
        .ok (est b o)) ∧
      ∀ k < K, ∑ b : Fin N → Fin c.nReg → Fin 3, ∑ o : Fin N → St c.nReg,
        (∏ i, ((1 / 3 : ℂ) ^ c.nReg * outcomeProb ho native c ρ ψ (circ (b i)) (o i))) * (est b o).getD k 0 =
          (1 - (1 - (1 / 3) ^ (nontrivial ls).length) ^ (N / K)) * expct (sem (gateSem c.nReg ρ) ρ term) (prepared ho c ρ ψ) := by
  choose circ h1 h2 h3 using outcome_spec ho native hn hc hnew ρ hψ
  refine ⟨circ, fun b o => (List.range K).map fun k => groupMean ls b o (group N (N / K) k), h1, ?_, ?_⟩
  · intro b o hK
    exact C60_estimators hw hord hK b o
  · intro k hk
    have := mean_of_group (N := N) hw.ofParts (fun b x => (outcomeProb ho native c ρ ψ (circ b) x : ℂ))
      (fun b => by rw [← Complex.ofReal_sum, h2]; simp) (fun b hm => h3 b term ls hw hm) (group N (N / K) k)
    rw [(C60_groups N (by omega)).1 k hk] at this
    rw [← this]
    apply Finset.sum_congr rfl
    intro b _
    apply Finset.sum_congr rfl
    intro o _
    congr 2
    rw [List.getD_eq_getElem?_getD, List.getElem?_map, List.getElem?_range hk]
    rfl

/-- **C60**: given bases such that the word is measured in some snapshot of the group, the estimator is unbiased. -/
theorem C60_conditional {ord : List ℕ → List ℕ} (ho : SetOrder ord) (native : Bool) {c : Circuit Prim} (hn : 1 < c.nReg)
    (hc : ∀ q ∈ qubits (Prim.supp ord) c.block, q < c.nReg)
    (hnew : Circuit.new (Prim.supp ord) (Prim.nQubits ord) ord c.nReg [c.block] = .ok c) (ρ : Env) {ψ : St c.nReg → ℂ}
    (hψ : ∑ x, ‖prepared ho c ρ ψ x‖ ^ 2 = 1) {term : Block Gate} {ls : List (FixedGate × ℕ)} (hw : Word c.nReg term ls)
    (hord : support Gate.supp ord term = ls.map Prod.snd) (N : ℕ) {K : ℕ} (b : Fin N → Fin c.nReg → Fin 3) :
    ∃ (circ : Fin N → Circuit Prim) (est : (Fin N → St c.nReg) → List ℚ),
      (∀ i, snapshotCircuit ord native c (List.ofFn (b i)) = .ok (circ i)) ∧
      (∀ o, 0 < K → estimators ord N K (List.ofFn fun i => List.ofFn (b i)) (List.ofFn fun i => signs (List.ofFn (o i))) term =
        .ok (est o)) ∧
      ∀ k < K, (∃ i ∈ group N (N / K) k, Measured ls (b i)) → ∑ o : Fin N → St c.nReg,
        (∏ i, (outcomeProb ho native c ρ ψ (circ i) (o i) : ℂ)) * (est o).getD k 0 =
          expct (sem (gateSem c.nReg ρ) ρ term) (prepared ho c ρ ψ) := by
  classical
  choose circ h1 h2 h3 using outcome_spec ho native hn hc hnew ρ hψ
  refine ⟨fun i => circ (b i), fun o => (List.range K).map fun k => groupMean ls b o (group N (N / K) k), fun i => h1 _, ?_, ?_⟩
  · intro o hK
    exact C60_estimators hw hord hK b o
  · intro k hk hit
    have := mean_given_bases (N := N) ls (fun b x => (outcomeProb ho native c ρ ψ (circ b) x : ℂ))
      (fun b => by rw [← Complex.ofReal_sum, h2]; simp) (fun b hm => h3 b term ls hw hm) (group N (N / K) k) b
    rw [if_pos hit] at this
    rw [← this]
    apply Finset.sum_congr rfl
    intro o _
    congr 1
    rw [List.getD_eq_getElem?_getD, List.getElem?_map, List.getElem?_range hk]
    rfl

end Qadence.Shadow
