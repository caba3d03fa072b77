import Verif.Proofs.OverlapTests
import Verif.Props.Support
import Verif.Spec.Overlap

/-!
# The circuits of the overlap protocols
-/

namespace Qadence.Overlap

open Spec Matrix Block QFT

variable {n N : ℕ}

/-! ## `dagger` of blocks of gates -/

theorem dagger_supp (g : Gate) : g.dagger.supp = g.supp := by
  induction g <;> simp_all [Gate.dagger, Gate.supp]

theorem qubits_dagger (b : Block Gate) : qubits Gate.supp (daggerGates b) = qubits Gate.supp b := by
  induction b using Block.induction with
  | leaf l t => simp only [daggerGates, Block.dagger, qubits_leaf, dagger_supp]
  | scale b s t ih => simpa only [daggerGates, Block.dagger, qubits_scale] using ih
  | comp k bs t ih =>
    ext q
    simp only [daggerGates, Block.dagger, Block.daggerAll_eq, mem_qubits_comp, List.mem_reverse, List.mem_map,
      exists_exists_and_eq_and]
    constructor
    · rintro ⟨b, hb, h⟩
      exact ⟨b, hb, by have := ih b hb; rw [daggerGates] at this; rwa [this] at h⟩
    · rintro ⟨b, hb, h⟩
      exact ⟨b, hb, by have := ih b hb; rw [daggerGates] at this; rwa [this]⟩

theorem wellFormed_dagger (b : Block Gate) (hw : WellFormed Gate.supp b) : WellFormed Gate.supp (daggerGates b) := by
  induction b using Block.induction with
  | leaf l t => trivial
  | scale b s t ih =>
    simp only [daggerGates, Block.dagger, wellFormed_scale] at hw ih ⊢
    exact ih hw
  | comp k bs t ih =>
    have hp := wellFormed_comp_parts hw
    have hall : ∀ b ∈ (bs.map (Block.dagger Gate.dagger Gate.daggerKeepsTag)).reverse, WellFormed Gate.supp b := by
      intro b hb
      rw [List.mem_reverse, List.mem_map] at hb
      obtain ⟨b', hb', rfl⟩ := hb
      exact ih b' hb' (hp b' hb')
    simp only [daggerGates, Block.dagger, Block.daggerAll_eq]
    cases k with
    | chain => exact wellFormed_chain.2 hall
    | add => exact wellFormed_add.2 hall
    | kron =>
      obtain ⟨h1, h2, -⟩ := wellFormed_kron.1 hw
      refine wellFormed_kron.2 ⟨by simpa using h1, ?_, hall⟩
      rw [List.pairwise_reverse, List.pairwise_map]
      refine h2.imp ?_
      intro a b hab
      have e1 := qubits_dagger a
      have e2 := qubits_dagger b
      rw [daggerGates] at e1 e2
      rw [e1, e2]
      exact hab.symm

theorem sizeSound_gate_dagger (g : Gate) (h : g.SizeSound) : g.dagger.SizeSound := by
  cases g with
  | fixed g q => cases g <;> simp_all [Gate.SizeSound, Gate.dagger, FixedGate.dagger]
  | _ => simp_all [Gate.SizeSound, Gate.dagger]

theorem sizeSound_dagger (b : Block Gate) (h : b.SizeSound) : (daggerGates b).SizeSound := by
  induction b using Block.induction with
  | leaf l t => exact sizeSound_gate_dagger l h
  | scale b s t ih => exact ih h
  | comp k bs t ih => trivial

theorem sem_daggerGates (ρ : Env) (b : Block Gate) (hb : AllLeaves (Adjointable ρ) b) (hn : ∀ q ∈ qubits Gate.supp b, q < n) :
    sem (gateSem n ρ) ρ (daggerGates b) = (sem (gateSem n ρ) ρ b)ᴴ := by
  rw [daggerGates]
  apply sem_dagger
  apply allLeaves_mono b Gate.supp _ hb
  intro l hl hq
  exact gateDen_dagger ρ l hl fun q hq' => hn q (hq q hq')

/-! ## Sizes -/

/-- `n_qubits` of the block is there, large enough for its qubits and not larger than the register. -/
def SizeOk (ord : List ℕ → List ℕ) (N : ℕ) (b : Block Gate) : Prop :=
  ∃ k, b.nQubits Gate.supp Gate.nQubits ord = .ok k ∧ k ≤ N ∧ ∀ q ∈ qubits Gate.supp b, q < k

theorem gate_size {g : Gate} (hg : g.SizeSound) (hne : g.supp ≠ []) (h : ∀ q ∈ g.supp, q < N) :
    ∃ k, g.nQubits = .ok k ∧ k ≤ N := by
  have key : ∀ t : List ℕ, t ≠ [] → (∀ q ∈ t, q < N) → ∃ k, maxPlusOne t = .ok k ∧ k ≤ N := by
    intro t ht hN
    cases hm : maxPlusOne t with
    | error e =>
      cases t with
      | nil => exact absurd rfl ht
      | cons a t => simp [maxPlusOne] at hm
    | ok k =>
      obtain ⟨-, q, hq, rfl⟩ := maxPlusOne_spec hm
      exact ⟨_, rfl, hN q hq⟩
  cases g with
  | fixed g q => cases g <;> first | exact key _ hne h | exact absurd hg id
  | control cls cs g =>
    obtain ⟨h1, h2⟩ := hg
    simp only [Gate.nQubits, h1, h2, decide_false, Bool.or_self, Bool.false_eq_true, if_false]
    exact key _ hne h
  | u _ _ _ _ => exact absurd hg id
  | matrix _ _ => exact absurd hg id
  | rot _ _ _ => exact key _ hne h
  | swap _ _ => exact key _ hne h
  | proj _ _ _ => exact key _ hne h

theorem sizeOk {ord : List ℕ → List ℕ} (ho : SetOrder ord) (b : Block Gate) (hs : b.SizeSound) (hne : (qubits Gate.supp b).Nonempty)
    (h : ∀ q ∈ qubits Gate.supp b, q < N) : SizeOk ord N b := by
  have hk : ∃ k, b.nQubits Gate.supp Gate.nQubits ord = .ok k ∧ k ≤ N := by
    induction b using Block.induction with
    | leaf l t =>
      simp only [qubits_leaf] at hne h
      refine gate_size hs ?_ fun q hq => h q hq
      obtain ⟨q, hq⟩ := hne
      intro e
      have hq' : q ∈ l.supp := hq
      rw [e] at hq'
      simp at hq'
    | scale b s t ih => exact ih hs (by simpa only [qubits_scale] using hne) (by simpa only [qubits_scale] using h)
    | comp k bs t ih =>
      obtain ⟨m, h1, h2⟩ := C18_composite_size Gate.supp Gate.nQubits ho k bs t
      exact ⟨m, h1, (h2 N).2 h⟩
  obtain ⟨k, h1, h2⟩ := hk
  exact ⟨k, h1, h2, block_nQubits_sound ho b hs k h1⟩

/-! ## Circuits -/

/-- The circuit of one chain which fits into the register. -/
theorem circuit_chain {ord : List ℕ → List ℕ} (ho : SetOrder ord) {m : ℕ} {bs : List (Block Gate)}
    (h : ∀ b ∈ bs, ∀ q ∈ qubits Gate.supp b, q < m) : circuit ord m [chainOf bs] = .ok ⟨m, chainOf bs⟩ := by
  rw [circuit, Circuit.new]
  have hr : Circuit.rootBlock [chainOf bs] = chainOf bs := rfl
  by_cases h0 : (Circuit.rootBlock [chainOf bs]).len = 0
  · rw [if_pos h0]; rfl
  · rw [if_neg h0, hr]
    obtain ⟨k, h1, h2⟩ := C18_composite_size Gate.supp Gate.nQubits ho .chain bs none
    have : k ≤ m := (h2 m).2 fun q hq => by
      obtain ⟨b, hb, hq'⟩ := mem_qubits_comp.1 hq
      exact h b hb q hq'
    rw [chainOf, h1, ok_bind, if_neg (by omega)]
    rfl

theorem circuit_two {ord : List ℕ → List ℕ} (ho : SetOrder ord) {m : ℕ} {a b : Block Gate}
    (ha : ∀ q ∈ qubits Gate.supp a, q < m) (hb : ∀ q ∈ qubits Gate.supp b, q < m) :
    circuit ord m [a, b] = .ok ⟨m, chainOf [a, b]⟩ := by
  have := circuit_chain ho (m := m) (bs := [a, b]) (by simpa using ⟨ha, hb⟩)
  exact this

theorem sem_H (ρ : Env) (q : ℕ) : sem (gateSem n ρ) ρ (.leaf (.fixed .H q) none) = embed1 q (mat1 .H) := by
  rw [sem_leaf, gateSem_den, gateDen]

theorem sem_S (ρ : Env) (q : ℕ) : sem (gateSem n ρ) ρ (.leaf (.fixed .S q) none) = embed1 q (mat1 .S) := by
  rw [sem_leaf, gateSem_den, gateDen]

theorem qubits_fixed (g : FixedGate) (q : ℕ) : qubits Gate.supp (.leaf (.fixed g q) none) = {q} := by
  ext; simp [qubits_leaf, Gate.supp]

theorem uniform {α : Type} {x : Except PyErr α} {P : α → Env → Prop} (h : ∀ ρ, ∃ c, x = .ok c ∧ P c ρ) :
    ∃ c, x = .ok c ∧ ∀ ρ, P c ρ := by
  obtain ⟨c, hc, -⟩ := h ⟨fun _ => 0, fun _ _ => 0⟩
  refine ⟨c, hc, fun ρ => ?_⟩
  obtain ⟨c', hc', hP⟩ := h ρ
  rw [hc] at hc'
  cases hc'
  exact hP

/-- The circuit of compute-uncompute. -/
theorem computeUncompute_ok {ord : List ℕ → List ℕ} (ho : SetOrder ord) {a k : Block Gate}
    (ha : WellFormed Gate.supp a) (hk : WellFormed Gate.supp k) (hqa : ∀ q ∈ qubits Gate.supp a, q < N)
    (hqk : ∀ q ∈ qubits Gate.supp k, q < N) :
    ∃ c, computeUncompute ord ⟨N, a⟩ ⟨N, k⟩ = .ok ⟨N, c⟩ ∧ WellFormed Gate.supp c ∧ (∀ q ∈ qubits Gate.supp c, q < N) ∧
      ∀ ρ, sem (gateSem N ρ) ρ c = sem (gateSem N ρ) ρ (daggerGates k) * sem (gateSem N ρ) ρ a := by
  refine ⟨chainOf [a, daggerGates k], circuit_two ho hqa (by rwa [qubits_dagger]), ?_, ?_, fun ρ => ?_⟩
  · rw [chainOf, wellFormed_chain]
    simpa using ⟨ha, wellFormed_dagger k hk⟩
  · intro q hq
    rw [chainOf, mem_qubits_comp] at hq
    obtain ⟨b, hb, hq⟩ := hq
    simp only [List.mem_cons, List.not_mem_nil, or_false] at hb
    rcases hb with rfl | rfl
    · exact hqa q hq
    · rw [qubits_dagger] at hq; exact hqk q hq
  · rw [chainOf, sem_chain]
    simp [opProd]

/-- The circuit of the swap test. -/
theorem swapTest_ok {ord : List ℕ → List ℕ} (ho : SetOrder ord) {a k : Block Gate}
    (ha : WellFormed Gate.supp a) (hk : WellFormed Gate.supp k) (hqa : ∀ q ∈ qubits Gate.supp a, q < N)
    (hqk : ∀ q ∈ qubits Gate.supp k, q < N) :
    ∃ c, swapTest ord ⟨N, a⟩ ⟨N, k⟩ = .ok ⟨2 * N + 1, c⟩ ∧ WellFormed Gate.supp c ∧ (∀ q ∈ qubits Gate.supp c, q < 2 * N + 1) ∧
      ∀ ρ, sem (gateSem (2 * N + 1) ρ) ρ c = embed1 0 (mat1 .H) * (opProd ((List.range N).map fun i => mapOp (swapPair N i)) *
        (place (right N) (sem (gateSem N ρ) ρ k) * (place (left N) (sem (gateSem N ρ) ρ a) * embed1 0 (mat1 .H)))) := by
  obtain ⟨sa, a1, h⟩ := uniform (P := fun sa ρ => _) fun ρ => reassign_place ρ ho ((List.range N).map fun i => (i, i + 1)) (left N) a ha hqa
    fun i _ => lookup_map (fun i => i + 1) (List.mem_range.2 i.2)
  have a2 := (h ⟨fun _ => 0, fun _ _ => 0⟩).1
  have a3 := (h ⟨fun _ => 0, fun _ _ => 0⟩).2.1
  have a4 := fun ρ => (h ρ).2.2
  clear h
  obtain ⟨sk, k1, h⟩ := uniform (P := fun sa ρ => _) fun ρ => reassign_place ρ ho ((List.range N).map fun i => (i, i + N + 1)) (right N) k hk hqk
    fun i _ => lookup_map (fun i => i + N + 1) (List.mem_range.2 i.2)
  have k2 := (h ⟨fun _ => 0, fun _ _ => 0⟩).1
  have k3 := (h ⟨fun _ => 0, fun _ _ => 0⟩).2.1
  have k4 := fun ρ => (h ρ).2.2
  clear h
  have hkron : kronOf Gate.supp ord [sa, sk] = .ok (.comp .kron [sa, sk] none) := by
    refine (kronOf_ok_iff Gate.supp ord ho _ _).2 ⟨rfl, by simp, ?_⟩
    simp only [List.pairwise_cons, List.mem_singleton, forall_eq, List.not_mem_nil, false_implies, implies_true, List.Pairwise.nil,
      and_true]
    rw [Set.disjoint_left]
    intro q h1 h2
    obtain ⟨i, -, hi⟩ := (a3 q).1 h1
    obtain ⟨j, -, hj⟩ := (k3 q).1 h2
    exact left_ne_right i j (Fin.ext (hi.trans hj.symm))
  have hc : ∀ i, ∃ w, i ∈ List.range N → cswap ord 0 (i + 1) (i + 1 + N) = .ok w ∧ (WellFormed Gate.supp w ∧
      (∀ q ∈ qubits Gate.supp w, q < 2 * N + 1)) ∧ ∀ ρ, sem (gateSem (2 * N + 1) ρ) ρ w = mapOp (swapPair N i) := by
    intro i
    by_cases hi : i ∈ List.range N
    · have hi' := List.mem_range.1 hi
      obtain ⟨w, w1, h⟩ := uniform (P := fun w ρ => _) fun ρ => cswap_ok (n := 2 * N + 1) (c := 0) (a := i + 1) (b := i + 1 + N) ρ ho
        (by omega) (by omega) (by omega) (by omega) (by omega) (by omega)
      exact ⟨w, fun _ => ⟨w1, ⟨(h ⟨fun _ => 0, fun _ _ => 0⟩).1, (h ⟨fun _ => 0, fun _ _ => 0⟩).2.1⟩, fun ρ => (h ρ).2.2⟩⟩
    · exact ⟨p0 0, fun h => absurd h hi⟩
  choose w hw using hc
  have hws : (List.range N).mapM (fun i => cswap ord 0 (i + 1) (i + 1 + N)) = .ok ((List.range N).map w) :=
    mapM_ok_map fun i hi => (hw i hi).1
  let bs : List (Block Gate) := [.leaf (.fixed .H 0) none, .comp .kron [sa, sk] none, chainOf ((List.range N).map w),
    .leaf (.fixed .H 0) none]
  have hq : ∀ b ∈ bs, ∀ q ∈ qubits Gate.supp b, q < 2 * N + 1 := by
    intro b hb q hq
    simp only [bs, List.mem_cons, List.not_mem_nil, or_false] at hb
    rcases hb with rfl | rfl | rfl | rfl
    · rw [qubits_fixed] at hq; simp only [Set.mem_singleton_iff] at hq; omega
    · obtain ⟨b, hb, hq'⟩ := mem_qubits_comp.1 hq
      simp only [List.mem_cons, List.not_mem_nil, or_false] at hb
      rcases hb with rfl | rfl
      · obtain ⟨i, -, rfl⟩ := (a3 q).1 hq'; exact (left N i).2
      · obtain ⟨i, -, rfl⟩ := (k3 q).1 hq'; exact (right N i).2
    · obtain ⟨b, hb, hq⟩ := mem_qubits_comp.1 hq
      rw [List.mem_map] at hb
      obtain ⟨i, hi, rfl⟩ := hb
      exact (hw i hi).2.1.2 q hq
    · rw [qubits_fixed] at hq; simp only [Set.mem_singleton_iff] at hq; omega
  refine ⟨chainOf bs, ?_, ?_, ?_, fun ρ => ?_⟩
  · rw [swapTest]
    simp only
    rw [a1, ok_bind, k1, ok_bind, hkron, ok_bind, hws, ok_bind]
    exact circuit_chain ho hq
  · rw [chainOf, wellFormed_chain]
    intro b hb
    simp only [bs, List.mem_cons, List.not_mem_nil, or_false] at hb
    rcases hb with rfl | rfl | rfl | rfl
    · trivial
    · obtain ⟨-, h1, h2⟩ := (kronOf_ok_iff Gate.supp ord ho _ _).1 hkron
      exact wellFormed_kron.2 ⟨h1, h2, by simpa using ⟨a2, k2⟩⟩
    · rw [chainOf, wellFormed_chain]
      intro b hb
      rw [List.mem_map] at hb
      obtain ⟨i, hi, rfl⟩ := hb
      exact (hw i hi).2.1.1
    · trivial
  · intro q h
    rw [chainOf, mem_qubits_comp] at h
    obtain ⟨b, hb, h⟩ := h
    exact hq b hb q h
  · have hsw : sem (gateSem (2 * N + 1) ρ) ρ (chainOf ((List.range N).map w)) =
        opProd ((List.range N).map fun i => mapOp (swapPair N i)) := by
      rw [chainOf, sem_chain, List.map_map]
      congr 1
      exact List.map_congr_left fun i hi => (hw i hi).2.2 ρ
    rw [chainOf, sem_chain]
    simp only [bs, List.map_cons, List.map_nil, hsw, sem_H, sem_kron, opProd, one_mul, a4 ρ, k4 ρ, mul_assoc]

/-- The circuits of the Hadamard test. -/
theorem hadamardTest_ok {ord : List ℕ → List ℕ} (ho : SetOrder ord) {a k : Block Gate}
    (ha : WellFormed Gate.supp a) (hk : WellFormed Gate.supp k) (hsa : SizeOk ord N a) (hsk : SizeOk ord N (daggerGates k)) :
    ∃ re im, hadamardTest ord ⟨N, a⟩ ⟨N, k⟩ = .ok (⟨N + 1, re⟩, ⟨N + 1, im⟩) ∧
      (WellFormed Gate.supp re ∧ ∀ q ∈ qubits Gate.supp re, q < N + 1) ∧
      (WellFormed Gate.supp im ∧ ∀ q ∈ qubits Gate.supp im, q < N + 1) ∧
      ∀ ρ, sem (gateSem (N + 1) ρ) ρ re = embed1 0 (mat1 .H) * (ctrl 0 (place (Fin.succEmb N) (sem (gateSem N ρ) ρ (daggerGates k))) *
          (ctrl 0 (place (Fin.succEmb N) (sem (gateSem N ρ) ρ a)) * embed1 0 (mat1 .H))) ∧
        sem (gateSem (N + 1) ρ) ρ im = embed1 0 (mat1 .H) * (embed1 0 (mat1 .S) *
          (ctrl 0 (place (Fin.succEmb N) (sem (gateSem N ρ) ρ (daggerGates k))) *
          (ctrl 0 (place (Fin.succEmb N) (sem (gateSem N ρ) ρ a)) * embed1 0 (mat1 .H)))) := by
  obtain ⟨ka, ka1, ka2, ka3⟩ := hsa
  obtain ⟨kk, kk1, kk2, kk3⟩ := hsk
  obtain ⟨ca, a1, h⟩ := uniform (P := fun w ρ => _) fun ρ => controlledUnitary_ok ρ ho ka1 ka2 ha ka3
  have a2 := (h ⟨fun _ => 0, fun _ _ => 0⟩).1
  have a3 := (h ⟨fun _ => 0, fun _ _ => 0⟩).2.1
  have a4 := fun ρ => (h ρ).2.2
  clear h
  obtain ⟨ck, k1, h⟩ := uniform (P := fun w ρ => _) fun ρ => controlledUnitary_ok ρ ho kk1 kk2 (wellFormed_dagger k hk) kk3
  have k2 := (h ⟨fun _ => 0, fun _ _ => 0⟩).1
  have k3 := (h ⟨fun _ => 0, fun _ _ => 0⟩).2.1
  have k4 := fun ρ => (h ρ).2.2
  clear h
  let b1 : List (Block Gate) := [.leaf (.fixed .H 0) none, ca, ck, .leaf (.fixed .H 0) none]
  let b2 : List (Block Gate) := [.leaf (.fixed .H 0) none, ca, ck, .leaf (.fixed .S 0) none, .leaf (.fixed .H 0) none]
  have hf : ∀ g : FixedGate, ∀ q ∈ qubits Gate.supp (.leaf (.fixed g 0) none), q < N + 1 := by
    intro g q hq
    rw [qubits_fixed] at hq; simp only [Set.mem_singleton_iff] at hq; omega
  have q1 : ∀ b ∈ b1, ∀ q ∈ qubits Gate.supp b, q < N + 1 := by
    simp only [b1, List.forall_mem_cons]
    exact ⟨hf _, a3, k3, hf _, by simp⟩
  have q2 : ∀ b ∈ b2, ∀ q ∈ qubits Gate.supp b, q < N + 1 := by
    simp only [b2, List.forall_mem_cons]
    exact ⟨hf _, a3, k3, hf _, hf _, by simp⟩
  refine ⟨chainOf b1, chainOf b2, ?_, ⟨?_, ?_⟩, ⟨?_, ?_⟩, fun ρ => ⟨?_, ?_⟩⟩
  · rw [hadamardTest]
    simp only
    rw [a1, ok_bind, k1, ok_bind, circuit_chain ho q1, ok_bind, circuit_chain ho q2, ok_bind]
    rfl
  · rw [chainOf, wellFormed_chain]
    simp only [b1, List.forall_mem_cons]
    exact ⟨trivial, a2, k2, trivial, by simp⟩
  · intro q h
    obtain ⟨b, hb, h⟩ := mem_qubits_comp.1 h
    exact q1 b hb q h
  · rw [chainOf, wellFormed_chain]
    simp only [b2, List.forall_mem_cons]
    exact ⟨trivial, a2, k2, trivial, trivial, by simp⟩
  · intro q h
    obtain ⟨b, hb, h⟩ := mem_qubits_comp.1 h
    exact q2 b hb q h
  · rw [chainOf, sem_chain]
    simp only [b1, List.map_cons, List.map_nil, sem_H, opProd, one_mul, a4 ρ, k4 ρ, mul_assoc]
  · rw [chainOf, sem_chain]
    simp only [b2, List.map_cons, List.map_nil, sem_H, sem_S, opProd, one_mul, a4 ρ, k4 ρ, mul_assoc]

end Qadence.Overlap
