import Verif.Model.Circuit
import Verif.Proofs.GateSem
import Verif.Proofs.Except
import Verif.Props.Padding
import Verif.Props.QubitSupport

/-!
# C18: supports and sizes of blocks
-/

namespace Qadence

open Spec Block

variable {L : Type} {n : ℕ}

/-- **C18**: an operator only acts on the qubits of `qubit_support`. -/
theorem C18_support_sound (S : LeafSem L n) (ρ : Env) {ord : List ℕ → List ℕ} (ho : SetOrder ord) (b : Block L)
    (j : Fin n) (hj : (j : ℕ) ∉ support S.supp ord b) : TrivialOn j (sem S ρ b) := by
  rw [mem_support S.supp ord ho] at hj
  exact sem_actsOn S ρ b j hj

/-- **C18**: the support of a composite block is the union of the supports of its parts. -/
theorem C18_support_composite (supp : L → List ℕ) {ord : List ℕ → List ℕ} (ho : SetOrder ord) (k : CKind)
    (bs : List (Block L)) (t : Option String) (q : ℕ) :
    q ∈ support supp ord (.comp k bs t) ↔ ∃ b ∈ bs, q ∈ support supp ord b := by
  rw [mem_support supp ord ho, mem_qubits_comp]
  simp only [mem_support supp ord ho]

/-- **C18**: the support of a composite block has no duplicates if those of its parts have none. -/
theorem C18_support_nodup (supp : L → List ℕ) {ord : List ℕ → List ℕ} (ho : SetOrder ord)
    (hs : ∀ l, (supp l).Nodup) (b : Block L) : (support supp ord b).Nodup := by
  induction b using Block.induction with
  | leaf l t => exact hs l
  | scale b s t ih => simpa only [support] using ih
  | comp k bs t ih =>
    rw [support, supports_eq_map, sumSupports]
    have hadd : ∀ a b : List ℕ, a.Nodup → ∃ l, QSupport.add ord (.loc a) (.loc b) = .loc l ∧ l.Nodup := by
      intro a b ha
      simp only [QSupport.add]
      split
      · exact ⟨a, rfl, ha⟩
      · exact ⟨_, rfl, (ho _).1⟩
    have key : ∀ (ss : List (List ℕ)) (a : List ℕ), a.Nodup → ∃ l,
        ss.foldl (fun acc s => QSupport.add ord acc (.loc s)) (.loc a) = .loc l ∧ l.Nodup := by
      intro ss
      induction ss with
      | nil => intro a ha; exact ⟨a, rfl, ha⟩
      | cons s ss ih =>
        intro a ha
        obtain ⟨l, hl, hn⟩ := hadd a s ha
        rw [List.foldl_cons, hl]
        exact ih l hn
    obtain ⟨l, hl, hn⟩ := key (bs.map (support supp ord)) [] List.nodup_nil
    obtain ⟨l', hl', hn'⟩ := hadd l [] hn
    rw [hl, hl']
    exact hn'

/-- **C18**: the support is not always sorted. `kron(X(8), X(1)).qubit_support` lists the elements of the set `{8, 1}` in
the iteration order of the interpreter; CPython puts 8 before 1 since its hash table has 8 slots. -/
theorem C18_counterexample_unsorted : ∃ ord : List ℕ → List ℕ, SetOrder ord ∧
    support Gate.supp ord (.comp .kron [.leaf (.fixed .X 8) none, .leaf (.fixed .X 1) none] none) = [8, 1] :=
  ⟨demoOrd, demoOrd_setOrder, by decide⟩

/-- **C18**: `kron` refuses nothing, and only, empty lists and overlapping parts. -/
theorem C18_kron_disjoint (S : LeafSem L n) {ord : List ℕ → List ℕ} (ho : SetOrder ord) (bs : List (Block L)) :
    (∃ b, kronOf S.supp ord bs = .ok b) ↔
      bs ≠ [] ∧ bs.Pairwise fun a b => ∀ q ∈ support S.supp ord a, q ∉ support S.supp ord b := by
  have : ∀ a b : Block L, Disjoint (qubits S.supp a) (qubits S.supp b) ↔
      ∀ q ∈ support S.supp ord a, q ∉ support S.supp ord b := by
    intro a b
    simp only [mem_support S.supp ord ho, Set.disjoint_left]
  constructor
  · rintro ⟨b, hb⟩
    obtain ⟨-, h1, h2⟩ := (kronOf_ok_iff S.supp ord ho bs b).1 hb
    exact ⟨h1, h2.imp fun h => (this _ _).1 h⟩
  · rintro ⟨h1, h2⟩
    exact ⟨_, (kronOf_ok_iff S.supp ord ho bs _).2 ⟨rfl, h1, h2.imp fun h => (this _ _).2 h⟩⟩

/-- The parts of an accepted kron commute: their order does not matter. -/
theorem C18_kron_parts_commute (S : LeafSem L n) (ρ : Env) {ord : List ℕ → List ℕ} (ho : SetOrder ord)
    (bs : List (Block L)) (b : Block L) (h : kronOf S.supp ord bs = .ok b) :
    bs.Pairwise fun a b => sem S ρ a * sem S ρ b = sem S ρ b * sem S ρ a :=
  ((kronOf_ok_iff S.supp ord ho bs b).1 h).2.2.imp fun hd => sem_commute_of_disjoint S ρ _ _ hd

theorem maxPlusOne_spec {t : List ℕ} {m : ℕ} (h : maxPlusOne t = .ok m) :
    (∀ q ∈ t, q < m) ∧ ∃ q ∈ t, m = q + 1 := by
  cases t with
  | nil => cases h
  | cons a t =>
    simp only [maxPlusOne, List.isEmpty_cons, Bool.false_eq_true, if_false] at h
    cases h
    exact ⟨fun q hq => Nat.lt_succ_of_le (QSupport.le_tupleMax hq), _, QSupport.tupleMax_mem (by simp), rfl⟩

/-- **C18**: for chain, kron and add blocks `n_qubits` is always defined, and it is the least register size which
contains all qubits of the block. -/
theorem C18_composite_size (supp : L → List ℕ) (nq : L → Except PyErr ℕ) {ord : List ℕ → List ℕ} (ho : SetOrder ord)
    (k : CKind) (bs : List (Block L)) (t : Option String) :
    ∃ m, nQubits supp nq ord (.comp k bs t) = .ok m ∧
      ∀ m', m ≤ m' ↔ ∀ q ∈ qubits supp (.comp k bs t), q < m' := by
  have hm := mem_support supp ord ho (.comp k bs t)
  rw [nQubits]
  cases hs : support supp ord (.comp k bs t) with
  | nil =>
    rw [hs] at hm
    refine ⟨0, rfl, fun m' => ⟨fun _ q hq => ?_, fun _ => Nat.zero_le _⟩⟩
    exact absurd ((hm q).2 hq) (by simp)
  | cons a s =>
    rw [hs] at hm
    have h1 : maxPlusOne (a :: s) = .ok (QSupport.tupleMax (a :: s) + 1) := by simp [maxPlusOne]
    obtain ⟨h2, q, h3, h4⟩ := maxPlusOne_spec h1
    refine ⟨_, h1, fun m' => ⟨fun h q hq => lt_of_lt_of_le (h2 q ((hm q).2 hq)) h, fun h => ?_⟩⟩
    rw [h4]
    exact h q ((hm q).1 h3)

/-- Leaves whose `n_qubits` is computed from the largest qubit. -/
def Gate.SizeSound : Gate → Prop
  | .fixed .T _ => False
  | .fixed .TDagger _ => False
  | .u _ _ _ _ => False
  | .matrix _ _ => False
  | .control cls _ _ => cls.isParametric = false ∧ cls ≠ .Toffoli
  | _ => True

theorem gate_nQubits_sound (g : Gate) (hg : g.SizeSound) (m : ℕ) (h : g.nQubits = .ok m) : ∀ q ∈ g.supp, q < m := by
  have key : ∀ t, maxPlusOne t = .ok m → ∀ q ∈ t, q < m := fun t h => (maxPlusOne_spec h).1
  cases g with
  | fixed g q => cases g <;> first | exact key _ h | exact absurd hg id
  | control cls cs g =>
    obtain ⟨h1, h2⟩ := hg
    simp only [Gate.nQubits, h1, h2, decide_false, Bool.or_self, Bool.false_eq_true, if_false] at h
    exact key _ h
  | u _ _ _ _ => exact absurd hg id
  | matrix _ _ => exact absurd hg id
  | rot _ _ _ => exact key _ h
  | swap _ _ => exact key _ h
  | proj _ _ _ => exact key _ h

/-- A block whose own `n_qubits` does not come from a primitive block with an unsound size. -/
def Block.SizeSound : Block Gate → Prop
  | .leaf g _ => g.SizeSound
  | .scale b _ _ => b.SizeSound
  | .comp _ _ _ => True

theorem block_nQubits_sound {ord : List ℕ → List ℕ} (ho : SetOrder ord) (b : Block Gate) (hb : b.SizeSound) (m : ℕ)
    (h : b.nQubits Gate.supp Gate.nQubits ord = .ok m) : ∀ q ∈ qubits Gate.supp b, q < m := by
  induction b using Block.induction with
  | leaf l t =>
    simp only [nQubits] at h
    rw [qubits_leaf]
    exact gate_nQubits_sound l hb m h
  | scale b s t ih =>
    simp only [nQubits] at h
    simpa only [qubits_scale] using ih hb h
  | comp k bs t ih =>
    obtain ⟨m', h1, h2⟩ := C18_composite_size Gate.supp Gate.nQubits ho k bs t
    rw [h1] at h
    cases h
    exact (h2 m).1 le_rfl

/-- **C18** (partial: not for a lone primitive block which overrides `n_qubits` wrongly, see the counterexamples):
an accepted circuit contains all qubits of its block. -/
theorem C18_circuit_fits_partial {ord : List ℕ → List ℕ} (ho : SetOrder ord) (nReg : ℕ) (bs : List (Block Gate))
    (c : Circuit Gate) (h : Circuit.new Gate.supp Gate.nQubits ord nReg bs = .ok c) (hs : c.block.SizeSound) :
    c.nReg = nReg ∧ ∀ q ∈ qubits Gate.supp c.block, q < nReg := by
  simp only [Circuit.new] at h
  generalize Circuit.rootBlock bs = b at h
  by_cases h0 : b.len = 0
  · rw [if_pos h0] at h
    cases h
    refine ⟨rfl, ?_⟩
    cases b with
    | leaf _ _ => simp [Block.len] at h0
    | scale _ _ _ => simp [Block.len] at h0
    | comp k bs t =>
      have : bs = [] := List.length_eq_zero_iff.1 h0
      subst this
      intro q hq
      rw [mem_qubits_comp] at hq
      simp at hq
  · rw [if_neg h0] at h
    obtain ⟨m, hm, h⟩ := bind_ok h
    split at h
    · cases h
    · next hle =>
      cases h
      exact ⟨rfl, fun q hq => lt_of_lt_of_le (block_nQubits_sound ho b hs m hm q hq) (by omega)⟩

/-- **C18**: with two or more blocks (or a single composite one), a register is accepted exactly if it contains all
qubits. -/
theorem C18_circuit_accepts_iff {ord : List ℕ → List ℕ} (ho : SetOrder ord) (supp : L → List ℕ)
    (nq : L → Except PyErr ℕ) (nReg : ℕ) (bs : List (Block L)) (hl : bs.length ≠ 1) :
    (∃ c, Circuit.new supp nq ord nReg bs = .ok c) ↔ ∀ b ∈ bs, ∀ q ∈ qubits supp b, q < nReg := by
  have hb : Circuit.rootBlock bs = chainOf bs := by
    match bs, hl with
    | [], _ => rfl
    | [b], hl => simp at hl
    | a :: b :: bs, _ => rfl
  simp only [Circuit.new, hb]
  by_cases h0 : bs = []
  · subst h0
    simp [chainOf, Block.len]
    exact ⟨_, rfl⟩
  · have hlen : (chainOf bs).len ≠ 0 := by simpa [chainOf, Block.len] using h0
    obtain ⟨m, h1, h2⟩ := C18_composite_size supp nq ho .chain bs none
    rw [if_neg hlen, chainOf, h1, ok_bind]
    have h3 := h2 nReg
    have h4 : (∀ q ∈ qubits supp (.comp .chain bs none), q < nReg) ↔ ∀ b ∈ bs, ∀ q ∈ qubits supp b, q < nReg := by
      simp only [mem_qubits_comp]
      exact ⟨fun h b hb q hq => h q ⟨b, hb, hq⟩, fun h q ⟨b, hb, hq⟩ => h b hb q hq⟩
    rw [← h4, ← h3]
    by_cases hm : m > nReg
    · rw [if_pos hm]
      simp only [reduceCtorEq, exists_false, false_iff]
      omega
    · rw [if_neg hm]
      simp only [not_lt] at hm
      exact ⟨fun _ => hm, fun _ => ⟨_, rfl⟩⟩

/-- **C18**: `QuantumCircuit(2, CRX(1, 2, x))` is accepted, though the gate acts on qubit 2. -/
theorem C18_counterexample_parametric_control (ord : List ℕ → List ℕ) :
    ∃ c, Circuit.new Gate.supp Gate.nQubits ord 2 [.leaf (Gate.crx 1 2 (.var "x")) none] = .ok c ∧
      ∃ q ∈ qubits Gate.supp c.block, ¬ q < 2 := by
  refine ⟨⟨2, .leaf (Gate.crx 1 2 (.var "x")) none⟩, rfl, 2, ?_, by omega⟩
  simp [qubits_leaf, Gate.crx, Gate.supp]

/-- **C18**: the same for `T(5)` on a register of one qubit. -/
theorem C18_counterexample_t_gate (ord : List ℕ → List ℕ) :
    ∃ c, Circuit.new Gate.supp Gate.nQubits ord 1 [.leaf (.fixed .T 5) none] = .ok c ∧
      ∃ q ∈ qubits Gate.supp c.block, ¬ q < 1 :=
  ⟨⟨1, .leaf (.fixed .T 5) none⟩, rfl, 5, by simp [qubits_leaf, Gate.supp], by omega⟩

/-- **C18**: the same for `Toffoli((3, 4), 5)` on a register of three qubits. -/
theorem C18_counterexample_toffoli (ord : List ℕ → List ℕ) :
    ∃ c, Circuit.new Gate.supp Gate.nQubits ord 3 [.leaf (Gate.toffoli [3, 4] 5) none] = .ok c ∧
      ∃ q ∈ qubits Gate.supp c.block, ¬ q < 3 :=
  ⟨⟨3, .leaf (Gate.toffoli [3, 4] 5) none⟩, rfl, 5, by simp [qubits_leaf, Gate.toffoli, Gate.supp], by omega⟩

/-- `QuantumCircuit(3, chain(X(0), CNOT(1, 2)))` is accepted with a sound size; with two qubits it is refused. -/
example : (∃ c, Circuit.new Gate.supp Gate.nQubits demoOrd 3
      [.comp .chain [.leaf (.fixed .X 0) none, .leaf (Gate.cnot 1 2) none] none] = .ok c ∧ c.block.SizeSound) ∧
    Circuit.new Gate.supp Gate.nQubits demoOrd 2
      [.comp .chain [.leaf (.fixed .X 0) none, .leaf (Gate.cnot 1 2) none] none] = .error .valueError :=
  ⟨⟨_, rfl, trivial⟩, rfl⟩

example : ([.leaf (.fixed .X 0) none, .leaf (Gate.cnot 1 2) none] : List (Block Gate)).length ≠ 1 := by decide

end Qadence
