import Verif.Model.States
import Verif.Proofs.States
import Verif.Proofs.Except
import Verif.Props.Bits
import Verif.Props.Dagger
import Verif.Props.Padding
import Verif.Props.QFT
import Verif.Proofs.PauliExp

/-!
# C48: state preparation
-/

namespace Qadence.States

open Spec Matrix Block

variable {n : ℕ}

/-! ## Rows of amplitudes -/

theorem bitstringValue_inj (e : Endian) {s t : Bits} (hl : s.length = t.length) (h : bitstringValue e s = bitstringValue e t) :
    s = t := by
  cases e
  · rw [bitstringValue_big, bitstringValue_big] at h
    exact bitVal_inj hl h
  · rw [bitstringValue_little, bitstringValue_little] at h
    have := bitVal_inj (by simpa using hl) h
    simpa using this

theorem bitstringValue_lt (e : Endian) (s : Bits) : bitstringValue e s < 2 ^ s.length := by
  cases e
  · rw [bitstringValue_big]; exact bitVal_lt s
  · rw [bitstringValue_little]; simpa using bitVal_lt s.reverse

theorem tabulates_set (e : Endian) (y : St n) :
    Tabulates e ((List.replicate (2 ^ n) (0 : ℂ)).set (bitstringValue e (List.ofFn y)) 1) (ket y) := by
  refine ⟨by simp, fun x => ?_⟩
  have hx : bitstringValue e (List.ofFn x) < 2 ^ n := by simpa using bitstringValue_lt e (List.ofFn x)
  rw [List.getElem?_set]
  by_cases h : x = y
  · subst h; simp [ket, hx]
  · have : bitstringValue e (List.ofFn y) ≠ bitstringValue e (List.ofFn x) := fun e' =>
      h (List.ofFn_injective (bitstringValue_inj e (by simp) e'.symm))
    simp [this, ket, h, hx]

/-- Every position is that of a basis state. -/
theorem exists_position (e : Endian) {k : ℕ} (h : k < 2 ^ n) : ∃ x : St n, bitstringValue e (List.ofFn x) = k := by
  have hinj : Function.Injective fun x : St n => (⟨bitstringValue e (List.ofFn x), by
      simpa using bitstringValue_lt e (List.ofFn x)⟩ : Fin (2 ^ n)) := by
    intro x y hxy
    exact List.ofFn_injective (bitstringValue_inj e (by simp) (by simpa using hxy))
  have hb := (Fintype.bijective_iff_injective_and_card _).2 ⟨hinj, by simp⟩
  obtain ⟨x, hx⟩ := hb.2 ⟨k, h⟩
  exact ⟨x, by simpa using congrArg Fin.val hx⟩

/-- A row is determined by the state it contains. -/
theorem tabulates_unique {e : Endian} {a b : List ℂ} {φ : St n → ℂ} (ha : Tabulates e a φ) (hb : Tabulates e b φ) : a = b := by
  apply list_eq_of_getElem? ha.1 hb.1
  intro i hi
  obtain ⟨x, rfl⟩ := exists_position e hi
  rw [ha.2, hb.2]

/-- Sums over the row are sums over the basis states. -/
theorem tabulates_sum {M : Type} [AddCommMonoid M] {e : Endian} {a : List ℂ} {φ : St n → ℂ} (ha : Tabulates e a φ) (f : ℂ → M) :
    (a.map f).sum = ∑ x, f (φ x) := by
  have hinj : Function.Injective fun x : St n => (⟨bitstringValue e (List.ofFn x), by
      simpa [ha.1] using bitstringValue_lt e (List.ofFn x)⟩ : Fin a.length) := by
    intro x y hxy
    exact List.ofFn_injective (bitstringValue_inj e (by simp) (by simpa using hxy))
  have hb := (Fintype.bijective_iff_injective_and_card _).2 ⟨hinj, by simp [ha.1]⟩
  have h1 : (a.map f).sum = ∑ i : Fin a.length, f a[i] := by
    rw [← List.sum_ofFn]
    congr 1
    apply List.ext_getElem <;> simp
  rw [h1]
  symm
  refine Fintype.sum_bijective _ hb _ _ fun x => ?_
  have := ha.2 x
  obtain ⟨h, h2⟩ := List.getElem?_eq_some_iff.1 this
  simp only [Fin.getElem_fin, h2]

theorem tabulates_normSq {e : Endian} {a : List ℂ} {φ : St n → ℂ} (ha : Tabulates e a φ) : normSq a = ∑ x, ‖φ x‖ ^ 2 := by
  rw [normSq, tabulates_sum ha]

/-! ## Blocks of one gate per qubit -/

/-- The block with the gate `g i` on qubit `i`. -/
theorem kron_layer {ord : List ℕ → List ℕ} (ho : SetOrder ord) (ρ : Env) (hn : 0 < n) (g : ℕ → FixedGate) :
    ∃ b, kronOf Gate.supp ord ((List.range n).map fun i => .leaf (.fixed (g i) i) none) = .ok b ∧
      WellFormed Gate.supp b ∧ (∀ q, q ∈ qubits Gate.supp b ↔ q < n) ∧
      (sem (gateSem n ρ) ρ b *ᵥ ket0 : St n → ℂ) = prodState fun i a => mat1 (g i) a false := by
  have hpw : ((List.range n).map fun i => (Block.leaf (.fixed (g i) i) none : Block Gate)).Pairwise fun a b =>
      Disjoint (qubits Gate.supp a) (qubits Gate.supp b) := by
    rw [List.pairwise_map]
    refine List.nodup_range.imp fun {a b} hab => ?_
    simpa [qubits_leaf, Gate.supp] using hab
  refine ⟨.comp .kron ((List.range n).map fun i => .leaf (.fixed (g i) i) none) none, ?_, ?_, fun q => ?_, ?_⟩
  · rw [kronOf_ok_iff _ _ ho]
    refine ⟨rfl, by simp; omega, hpw⟩
  · rw [wellFormed_kron]
    refine ⟨by simp; omega, hpw, fun b hb => ?_⟩
    obtain ⟨i, -, rfl⟩ := List.mem_map.1 hb
    trivial
  · rw [mem_qubits_comp]
    simp [qubits_leaf, Gate.supp]
  · rw [sem_kron, List.map_map, ket0, ket_eq_prodState fun _ => false]
    have := layer_prodState (n := n) (List.nodup_range (n := n)) (fun q hq => List.mem_range.1 hq) (fun i => mat1 (g i))
      (fun _ b => if b = false then 1 else 0)
    refine Eq.trans ?_ (this.trans ?_)
    · rfl
    · funext x
      unfold prodState
      refine Finset.prod_congr rfl fun i _ => ?_
      simp [mulVec, dotProduct]

theorem bitGates_eq (s : Bits) (i : ℕ) :
    bitGates i s = (List.range s.length).map fun j => .leaf (.fixed (if s.getD j false then .X else .I) (i + j)) none := by
  induction s generalizing i with
  | nil => rfl
  | cons b s ih =>
    rw [bitGates, ih, List.length_cons, List.range_succ_eq_map, List.map_cons, List.map_map]
    congr 1
    · cases b <;> rfl
    · apply List.map_congr_left
      intro j _
      simp [Nat.add_assoc, Nat.add_comm 1 j]

theorem prod_bits (s : ℕ → Bool) :
    (prodState fun i a => mat1 (if s i then .X else .I) a false : St n → ℂ) = ket fun j => s j := by
  rw [ket_eq_prodState]
  congr 1
  funext i a
  cases h : s i <;> cases a <;> simp [mat1, ind]

theorem stateFromBitstring_ok {s : Bits} (hs : s ≠ []) (batch : ℕ) (e : Endian) :
    stateFromBitstring s batch e =
      .ok (List.replicate batch ((List.replicate (2 ^ s.length) (0 : ℂ)).set (bitstringValue e s) 1)) := by
  rw [stateFromBitstring, basisToInt_ok hs]
  simp [ok_bind, pure_ok]

/-- **C48**: `product_block` of a bitstring prepares the basis state denoted by the string from the state of zeros, and the
rows of `_state_from_bitstring` contain the amplitudes of this state, in both orders. -/
theorem C48_product_block {ord : List ℕ → List ℕ} (ho : SetOrder ord) (ρ : Env) {s : Bits} (hs : s ≠ []) (batch : ℕ) (e : Endian) :
    ∃ b rows, productBlock ord s = .ok b ∧ stateFromBitstring s batch e = .ok rows ∧
      WellFormed Gate.supp b ∧ (∀ q, q ∈ qubits Gate.supp b ↔ q < s.length) ∧
      (sem (gateSem s.length ρ) ρ b *ᵥ ket0 : St s.length → ℂ) = ket (fun j => s[j]) ∧
      rows.length = batch ∧
      ∀ row ∈ rows, Tabulates e row (sem (gateSem s.length ρ) ρ b *ᵥ ket0 : St s.length → ℂ) := by
  obtain ⟨b, h1, h2, h3, h4⟩ := kron_layer (n := s.length) ho ρ (List.length_pos_of_ne_nil hs)
    (fun i => if s.getD i false then .X else .I)
  rw [prod_bits] at h4
  have h5 : (fun j : Fin s.length => s.getD j false) = fun j => s[j] := by
    funext j; simp
  refine ⟨b, _, ?_, stateFromBitstring_ok hs batch e, h2, h3, h4.trans (by rw [h5]), by simp, fun row hrow => ?_⟩
  · rw [productBlock, bitGates_eq]
    simpa only [Nat.zero_add] using h1
  · rw [h4, h5, List.eq_of_mem_replicate hrow]
    have := tabulates_set (n := s.length) e (fun j => s[j])
    have hof : List.ofFn (fun j : Fin s.length => s[j]) = s := by
      apply List.ext_getElem <;> simp
    rwa [hof] at this

/-- **C48**: `zero_block` and `zero_state`. -/
theorem C48_zero_block {ord : List ℕ → List ℕ} (ho : SetOrder ord) (ρ : Env) (hn : 0 < n) (batch : ℕ) :
    ∃ b rows, zeroBlock ord n = .ok b ∧ zeroState n batch = .ok rows ∧
      WellFormed Gate.supp b ∧ (∀ q, q ∈ qubits Gate.supp b ↔ q < n) ∧
      (sem (gateSem n ρ) ρ b *ᵥ ket0 : St n → ℂ) = ket0 ∧ rows.length = batch ∧
      ∀ row ∈ rows, Tabulates .big row (sem (gateSem n ρ) ρ b *ᵥ ket0 : St n → ℂ) := by
  obtain ⟨b, h1, h2, h3, h4⟩ := kron_layer (n := n) ho ρ hn fun _ => .I
  have h5 : (prodState fun _ a => mat1 .I a false : St n → ℂ) = ket0 := prod_bits (n := n) fun _ => false
  have hne : List.replicate n false ≠ [] := by simp; omega
  refine ⟨b, _, h1, stateFromBitstring_ok hne batch .big, h2, h3, h4.trans h5, by simp, fun row hrow => ?_⟩
  rw [h4, h5, List.eq_of_mem_replicate hrow]
  have := tabulates_set (n := n) .big (fun _ => false)
  rw [List.ofFn_const] at this
  simpa [ket0] using this

/-- **C48**: `one_block` and `one_state`. -/
theorem C48_one_block {ord : List ℕ → List ℕ} (ho : SetOrder ord) (ρ : Env) (hn : 0 < n) (batch : ℕ) :
    ∃ b rows, oneBlock ord n = .ok b ∧ oneState n batch = .ok rows ∧
      WellFormed Gate.supp b ∧ (∀ q, q ∈ qubits Gate.supp b ↔ q < n) ∧
      (sem (gateSem n ρ) ρ b *ᵥ ket0 : St n → ℂ) = ket1 ∧ rows.length = batch ∧
      ∀ row ∈ rows, Tabulates .big row (sem (gateSem n ρ) ρ b *ᵥ ket0 : St n → ℂ) := by
  obtain ⟨b, h1, h2, h3, h4⟩ := kron_layer (n := n) ho ρ hn fun _ => .X
  have h5 : (prodState fun _ a => mat1 .X a false : St n → ℂ) = ket1 := prod_bits (n := n) fun _ => true
  have hne : List.replicate n true ≠ [] := by simp; omega
  refine ⟨b, _, h1, stateFromBitstring_ok hne batch .big, h2, h3, h4.trans h5, by simp, fun row hrow => ?_⟩
  rw [h4, h5, List.eq_of_mem_replicate hrow]
  have := tabulates_set (n := n) .big (fun _ => true)
  rw [List.ofFn_const] at this
  simpa [ket1] using this

theorem tabulates_const (e : Endian) (c : ℂ) : Tabulates e (List.replicate (2 ^ n) c) (fun _ : St n => c) := by
  refine ⟨by simp, fun x => ?_⟩
  have hx : bitstringValue e (List.ofFn x) < 2 ^ n := by simpa using bitstringValue_lt e (List.ofFn x)
  simp [hx]

/-- **C48**: `uniform_block` and `uniform_state`: all amplitudes are `1 / √(2 ^ n)`. -/
theorem C48_uniform_block {ord : List ℕ → List ℕ} (ho : SetOrder ord) (ρ : Env) (hn : 0 < n) (batch : ℕ) :
    ∃ b, uniformBlock ord n = .ok b ∧
      WellFormed Gate.supp b ∧ (∀ q, q ∈ qubits Gate.supp b ↔ q < n) ∧
      (∀ x, (sem (gateSem n ρ) ρ b *ᵥ ket0 : St n → ℂ) x = ((1 / Real.sqrt (2 ^ n) : ℝ) : ℂ)) ∧
      (uniformState n batch).length = batch ∧
      ∀ row ∈ uniformState n batch, Tabulates .big row (sem (gateSem n ρ) ρ b *ᵥ ket0 : St n → ℂ) := by
  obtain ⟨b, h1, h2, h3, h4⟩ := kron_layer (n := n) ho ρ hn fun _ => .H
  have h5 : ∀ x, (prodState fun _ a => mat1 .H a false : St n → ℂ) x = ((1 / Real.sqrt (2 ^ n) : ℝ) : ℂ) := by
    intro x
    have : ∀ a, mat1 .H a false = ((1 / Real.sqrt 2 : ℝ) : ℂ) := by intro a; cases a <;> simp [mat1]
    simp only [prodState, this, Finset.prod_const, Finset.card_univ, Fintype.card_fin]
    rw [← Complex.ofReal_pow, div_pow, one_pow]
    congr 2
    rw [eq_comm, Real.sqrt_eq_iff_mul_self_eq (by positivity) (by positivity), ← mul_pow, Real.mul_self_sqrt (by norm_num)]
  refine ⟨b, h1, h2, h3, fun x => by rw [h4, h5], by simp [uniformState], fun row hrow => ?_⟩
  rw [h4, List.eq_of_mem_replicate hrow, funext h5]
  have := tabulates_const (n := n) .big ((1 / Real.sqrt (2 ^ n) : ℝ) : ℂ)
  simpa using this

/-! ## GHZ states -/

/-- The first `k + 1` qubits are 1. -/
def ones (k : ℕ) : St n := fun j => decide ((j : ℕ) ≤ k)

theorem H_ket0 (hn : 0 < n) :
    (embed1 0 (mat1 .H) *ᵥ ket0 : St n → ℂ) = ((1 / Real.sqrt 2 : ℝ) : ℂ) • (ket0 + ket (ones 0)) := by
  funext x
  rw [embed1_mulVec hn]
  have h1 : mat1 .H (bit x 0) false = ((1 / Real.sqrt 2 : ℝ) : ℂ) := by cases bit x 0 <;> simp [mat1]
  have h2 : (ket0 : St n → ℂ) (Function.update x ⟨0, hn⟩ true) = 0 := by
    rw [ket0, ket, if_neg]
    intro h
    have := congrFun h ⟨0, hn⟩
    simp at this
  rw [Fintype.sum_bool, h2, h1, mul_zero, zero_add, Pi.smul_apply, smul_eq_mul, Pi.add_apply]
  congr 1
  have h3 : (ones 0 : St n) = Function.update (fun _ => false) ⟨0, hn⟩ true := by
    funext j
    by_cases hj : j = ⟨0, hn⟩
    · subst hj; simp [ones]
    · rw [Function.update_of_ne hj]
      have : (j : ℕ) ≠ 0 := fun e => hj (Fin.ext e)
      simp [ones, this]
  rw [h3]
  simp only [ket0, ket]
  have h4 : Function.update x ⟨0, hn⟩ false = (fun _ => false) ↔
      x = (fun _ => false) ∨ x = Function.update (fun _ => false) ⟨0, hn⟩ true := by
    constructor
    · intro h
      have h' : ∀ j : Fin n, j ≠ ⟨0, hn⟩ → x j = false := fun j hj => by
        have := congrFun h j
        rwa [Function.update_of_ne hj] at this
      cases hx : x ⟨0, hn⟩
      · left
        funext j
        by_cases hj : j = ⟨0, hn⟩
        · subst hj; exact hx
        · exact h' j hj
      · right
        funext j
        by_cases hj : j = ⟨0, hn⟩
        · subst hj; simp [hx]
        · rw [Function.update_of_ne hj]; exact h' j hj
    · rintro (h | h) <;> subst h
      · funext j
        by_cases hj : j = ⟨0, hn⟩
        · subst hj; simp
        · rw [Function.update_of_ne hj]
      · simp only [Function.update_idem]
        funext j
        by_cases hj : j = ⟨0, hn⟩
        · subst hj; simp
        · rw [Function.update_of_ne hj]
  have h5 : (fun _ => false : St n) ≠ Function.update (fun _ => false) ⟨0, hn⟩ true := by
    intro h
    have := congrFun h ⟨0, hn⟩
    simp at this
  by_cases ha : x = fun _ => false
  · subst ha
    rw [if_pos (h4.2 (.inl rfl)), if_pos rfl, if_neg h5, add_zero]
  · by_cases hb : x = Function.update (fun _ => false) ⟨0, hn⟩ true
    · rw [if_pos (h4.2 (.inr hb)), if_neg ha, if_pos hb, zero_add]
    · rw [if_neg (fun h => (h4.1 h).elim ha hb), if_neg ha, if_neg hb, add_zero]

theorem flip_zeros (k : ℕ) : ctrlFlip [k] (k + 1) (fun _ => false : St n) = fun _ => false := by
  have hb : bit (fun _ => false : St n) k = false := by unfold bit; split <;> rfl
  funext j
  unfold ctrlFlip
  simp [hb]

theorem flip_ones {k : ℕ} (h : k + 1 < n) : ctrlFlip [k] (k + 1) (ones k : St n) = ones (k + 1) := by
  apply st_ext
  intro q hq
  rw [bit_ctrlFlip _ _ _ h]
  have hb : ∀ m q, q < n → bit (ones m : St n) q = decide (q ≤ m) := fun m q hq => by simp [bit, ones, hq]
  rw [hb _ _ hq, hb _ _ hq]
  simp only [List.mem_singleton, forall_eq, hb k k (by omega)]
  by_cases h1 : q = k + 1
  · subst h1; simp
  · simp only [h1, false_and, if_false, decide_eq_decide]
    omega

theorem cnots_state {m : ℕ} (h : m < n) (c : ℂ) :
    (opProd ((List.range' 1 m).map fun i => controlled [i - 1] (embed1 i (mat1 .X))) *ᵥ (c • (ket0 + ket (ones 0))) : St n → ℂ) =
      c • (ket0 + ket (ones m)) := by
  induction m with
  | zero => simp [opProd]
  | succ m ih =>
    rw [List.range'_1_concat, List.map_append, opProd_append, ← mulVec_mulVec, ih (by omega), List.map_cons, List.map_nil,
      opProd_singleton]
    have he : 1 + m - 1 = m := by omega
    have he' : 1 + m = m + 1 := by omega
    rw [he, he', Decompose.cnot_eq (by omega), mulVec_smul, mulVec_add, mapOp_ket, flip_ones h, ket0, mapOp_ket, flip_zeros]

/-- **C48**: `ghz_block` and `ghz_state`: the state of zeros and the state of ones with the amplitude `1 / √2` each. -/
theorem C48_ghz_block (ρ : Env) (hn : 0 < n) (batch : ℕ) :
    WellFormed Gate.supp (ghzBlock n) ∧ (∀ q, q ∈ qubits Gate.supp (ghzBlock n) ↔ q < n) ∧
      (sem (gateSem n ρ) ρ (ghzBlock n) *ᵥ ket0 : St n → ℂ) = ((1 / Real.sqrt 2 : ℝ) : ℂ) • (ket0 + ket1) ∧
      ∃ rows, ghzState n batch = .ok rows ∧ rows.length = batch ∧
        ∀ row ∈ rows, Tabulates .big row (sem (gateSem n ρ) ρ (ghzBlock n) *ᵥ ket0 : St n → ℂ) := by
  have hsem : (sem (gateSem n ρ) ρ (ghzBlock n) *ᵥ ket0 : St n → ℂ) = ((1 / Real.sqrt 2 : ℝ) : ℂ) • (ket0 + ket1) := by
    have h1 : sem (gateSem n ρ) ρ (ghzBlock n) =
        opProd ((List.range' 1 (n - 1)).map fun i => controlled [i - 1] (embed1 i (mat1 .X))) * embed1 0 (mat1 .H) := by
      rw [ghzBlock, chainOf, sem_chain, List.map_cons, List.map_cons, List.map_nil, opProd, opProd, opProd, one_mul, chainOf,
        sem_chain, List.map_map]
      rfl
    have h2 : (ones (n - 1) : St n) = fun _ => true := by
      funext j
      have := j.2
      simp only [ones, decide_eq_true_eq]
      omega
    rw [h1, ← mulVec_mulVec, H_ket0 hn, cnots_state (by omega), h2, ket1]
  refine ⟨?_, fun q => ?_, hsem, ?_⟩
  · rw [ghzBlock, chainOf, wellFormed_chain]
    simp only [List.mem_cons, List.not_mem_nil, or_false, forall_eq_or_imp, forall_eq]
    refine ⟨trivial, ?_⟩
    rw [chainOf, wellFormed_chain]
    intro b hb
    obtain ⟨i, -, rfl⟩ := List.mem_map.1 hb
    trivial
  · rw [ghzBlock, chainOf, mem_qubits_comp]
    simp only [List.mem_cons, List.not_mem_nil, or_false, exists_eq_or_imp, exists_eq_left, qubits_leaf, Gate.supp,
      Set.mem_setOf_eq, chainOf, mem_qubits_comp, List.mem_map, List.mem_range'_1]
    constructor
    · rintro (rfl | ⟨b, ⟨i, hi, rfl⟩, hq⟩)
      · exact hn
      · simp only [qubits_leaf, Gate.cnot, Gate.supp, List.cons_append, List.nil_append, List.mem_cons, List.not_mem_nil,
          or_false, Set.mem_setOf_eq] at hq
        omega
    · intro h
      rcases Nat.eq_zero_or_pos q with rfl | hq
      · exact .inl rfl
      · refine .inr ⟨_, ⟨q, by omega, rfl⟩, ?_⟩
        simp [qubits_leaf, Gate.cnot, Gate.supp]
  · have hz : List.replicate n false ≠ [] := by simp; omega
    have ho : List.replicate n true ≠ [] := by simp; omega
    rw [ghzState, zeroState, oneState, stateFromBitstring_ok hz, stateFromBitstring_ok ho]
    refine ⟨_, rfl, by simp, fun row hrow => ?_⟩
    rw [List.zipWith_replicate, List.map_replicate, Nat.min_self] at hrow
    rw [List.eq_of_mem_replicate hrow, hsem]
    have t0 := tabulates_set (n := n) .big (fun _ => false)
    have t1 := tabulates_set (n := n) .big (fun _ => true)
    rw [List.ofFn_const] at t0 t1
    refine ⟨by simp, fun x => ?_⟩
    have e0 := t0.2 x
    have e1 := t1.2 x
    simp only [List.length_replicate, List.getElem?_map, List.getElem?_zipWith, e0, e1]
    simp [ket0, ket1]

end Qadence.States
