import Verif.Proofs.OverlapCircuits
import Verif.Props.StatesNorm
import Verif.Props.Measure

/-!
# C47: overlaps of circuits
-/

namespace Qadence

open Spec Matrix Block QFT Overlap

variable {n N : ℕ}

namespace Spec

/-- For each set of parameter values the simulation computes the amplitudes of the state which the block makes out of
the state of zeros. -/
def ExactBatch (ρs : List Env) (run : ℕ → Block Gate → Except PyErr (List (List ℂ))) : Prop :=
  ∀ (n : ℕ) (b : Block Gate), WellFormed Gate.supp b → (∀ q ∈ qubits Gate.supp b, q < n) →
    ∃ rows, run n b = .ok rows ∧
      List.Forall₂ (fun ρ row => Tabulates .big row (sem (gateSem n ρ) ρ b *ᵥ ket0 : St n → ℂ)) ρs rows

/-- The block is a circuit of gates on `n` qubits. -/
structure CircuitOn (n : ℕ) (ρs : List Env) (b : Block Gate) : Prop where
  wf : WellFormed Gate.supp b
  inside : ∀ q ∈ qubits Gate.supp b, q < n
  gates : ∀ ρ ∈ ρs, IsCircuit ρ (IsGate n ρ) b

/-- For each set of parameter values the counter has `shots` shots with the frequencies of the Born rule. -/
def BornBatch (ρs : List Env) (shots n : ℕ) (b : Block Gate) (cs : List (PyDict Bits ℕ)) : Prop :=
  List.Forall₂ (fun ρ c => BornCounter shots (sem (gateSem n ρ) ρ b *ᵥ ket0 : St n → ℂ) c ∧ (c.map Prod.fst).Nodup) ρs cs

end Spec

theorem Spec.CircuitOn.unitary {ρs : List Env} {b : Block Gate} (h : CircuitOn n ρs b) {ρ : Env} (hρ : ρ ∈ ρs) :
    sem (gateSem n ρ) ρ b ∈ unitary (Oper n) := C67_gates_unitary ρ b (h.gates ρ hρ) h.inside

theorem mapM_forall₂ {α β γ : Type} {f : β → Except PyErr γ} {g : α → γ} {R : α → β → Prop} {as : List α} {bs : List β}
    (h : List.Forall₂ R as bs) (hf : ∀ a ∈ as, ∀ b, R a b → f b = .ok (g a)) : bs.mapM f = .ok (as.map g) := by
  induction h with
  | nil => rfl
  | cons h1 _ ih =>
    rw [List.mapM_cons, hf _ (by simp) _ h1, ok_bind, ih fun a ha b => hf a (by simp [ha]) b, ok_bind]
    rfl

theorem map_forall₂ {α β γ : Type} {f : β → γ} {g : α → γ} {R : α → β → Prop} {as : List α} {bs : List β}
    (h : List.Forall₂ R as bs) (hf : ∀ a ∈ as, ∀ b, R a b → f b = g a) : bs.map f = as.map g := by
  induction h with
  | nil => rfl
  | cons h1 _ ih => rw [List.map_cons, List.map_cons, hf _ (by simp) _ h1, ih fun a ha b => hf a (by simp [ha]) b]

theorem braket_adjoint (K : Oper n) (v : St n → ℂ) : braket ket0 (Kᴴ *ᵥ v) = braket (K *ᵥ ket0) v := by
  have h : ∀ w : St n → ℂ, braket ket0 w = w fun _ => false := by
    intro w
    rw [braket, Finset.sum_eq_single fun _ => false]
    · simp [ket0_apply]
    · intro x _ hx; simp [ket0_apply, hx]
    · simp
  rw [h, mulVec, dotProduct, braket]
  refine Finset.sum_congr rfl fun x _ => ?_
  rw [conjTranspose_apply]
  congr 2
  rw [mulVec, dotProduct, Finset.sum_eq_single fun _ => false]
  · simp [ket0_apply]
  · intro y _ hy; simp [ket0_apply, hy]
  · simp

theorem braket_ket0 (w : St n → ℂ) : braket ket0 w = w fun _ => false := by
  have := braket_adjoint (1 : Oper n) w
  rw [braket, Finset.sum_eq_single fun _ => false]
  · simp [ket0_apply]
  · intro x _ hx; simp [ket0_apply, hx]
  · simp

theorem braket_symm (φ ψ : St n → ℂ) : braket ψ φ = star (braket φ ψ) := by
  rw [braket, braket, star_sum]
  exact Finset.sum_congr rfl fun x _ => by rw [star_mul', star_star, mul_comm]

theorem zeros_position (e : Endian) : bitstringValue e (List.ofFn fun _ : Fin n => false) = 0 := by
  have h : ∀ m, bitVal (List.replicate m false) = 0 := by
    intro m
    induction m with
    | zero => rfl
    | succ m ih => rw [List.replicate_succ, bitVal_cons, ih]; simp
  rw [List.ofFn_const]
  cases e
  · rw [bitstringValue_big, h]
  · unfold bitstringValue
    refine Finset.sum_eq_zero fun i _ => ?_
    rw [if_neg]
    simp [List.getD_eq_getElem?_getD, List.getElem?_replicate]
    split <;> simp

/-! ## The exact method -/

/-- **C47**: the EXACT method returns the squared overlap. -/
theorem C47_exact {ρs : List Env} {run : ℕ → Block Gate → Except PyErr (List (List ℂ))} (hr : ExactBatch ρs run)
    (ord : List ℕ → List ℕ) {a k : Block Gate} (ha : CircuitOn N ρs a) (hk : CircuitOn N ρs k) :
    exactValue run ord .exact ⟨N, a⟩ ⟨N, k⟩ = .ok (ρs.map fun ρ => overlapOf N ρ a k) := by
  obtain ⟨ra, h1, h2⟩ := hr N a ha.wf ha.inside
  obtain ⟨rk, h3, h4⟩ := hr N k hk.wf hk.inside
  rw [exactValue]
  simp only
  rw [h1, ok_bind, h3, ok_bind, pure_eq_ok]
  congr 1
  clear h1 h3 ha hk hr
  induction h2 generalizing rk with
  | nil => cases h4; rfl
  | cons h _ ih =>
    cases h4 with
    | cons h' h4 =>
      rw [List.zipWith_cons_cons, List.map_cons, ih _ h4, States.overlapExact_eq h h']
      rfl

/-! ## Compute and uncompute -/

theorem dagger_amplitude {ρ : Env} {a k c : Block Gate} (hq : ∀ q ∈ qubits Gate.supp k, q < N) (hk : AllLeaves (Adjointable ρ) k)
    (hc : sem (gateSem N ρ) ρ c = sem (gateSem N ρ) ρ (daggerGates k) * sem (gateSem N ρ) ρ a) :
    ‖(sem (gateSem N ρ) ρ c *ᵥ ket0 : St N → ℂ) fun _ => false‖ ^ 2 = overlapOf N ρ a k := by
  rw [hc, sem_daggerGates ρ k hk hq, ← mulVec_mulVec,
    ← braket_ket0 (_ *ᵥ _), braket_adjoint, overlapOf, braket_symm, norm_star]

/-- **C47** (partial: fails for `U` with different outer angles and for matrix blocks, see the counterexample):
compute-uncompute returns the squared overlap. -/
theorem C47_compute_uncompute_partial {ρs : List Env} {run : ℕ → Block Gate → Except PyErr (List (List ℂ))}
    (hr : ExactBatch ρs run) {ord : List ℕ → List ℕ} (ho : SetOrder ord) {a k : Block Gate} (ha : CircuitOn N ρs a)
    (hk : CircuitOn N ρs k) (hd : ∀ ρ ∈ ρs, AllLeaves (Adjointable ρ) k) :
    exactValue run ord .computeUncompute ⟨N, a⟩ ⟨N, k⟩ = .ok (ρs.map fun ρ => overlapOf N ρ a k) := by
  obtain ⟨c, h1, h2, h3, h4⟩ := computeUncompute_ok ho ha.wf hk.wf ha.inside hk.inside
  obtain ⟨rows, h5, h6⟩ := hr N c h2 h3
  rw [exactValue, h1, ok_bind, h5, ok_bind, valueComputeUncompute]
  refine mapM_forall₂ h6 fun ρ hρ row ht => ?_
  have := ht.2 fun _ => false
  rw [zeros_position] at this
  rw [this]
  simp only
  rw [dagger_amplitude hk.inside (hd ρ hρ) (h4 ρ)]

theorem get?_countOf (c : PyDict Bits ℕ) (h : (c.map Prod.fst).Nodup) (k : Bits) : (c.get? k).getD 0 = countOf c k := by
  induction c with
  | nil => rfl
  | cons a c ih =>
    rw [List.map_cons, List.nodup_cons] at h
    by_cases hk : a.1 = k
    · have h0 : countOf c k = 0 := by
        unfold countOf
        rw [List.filter_eq_nil_iff.2, List.map_nil, List.sum_nil]
        intro kv hkv
        simp only [beq_iff_eq, decide_eq_true_eq]
        intro e
        exact h.1 (List.mem_map.2 ⟨kv, hkv, by rw [hk]; simpa using e⟩)
      have h1 : countOf (a :: c) k = a.2 + countOf c k := by
        unfold countOf
        rw [List.filter_cons, if_pos (by simpa using hk)]
        simp
      rw [h1, h0]
      simp [PyDict.get?, hk]
    · have h1 : countOf (a :: c) k = countOf c k := by
        unfold countOf
        rw [List.filter_cons, if_neg (by simpa using hk)]
      rw [h1, ← ih h.2]
      have hk' : ¬ k = a.1 := fun e => hk e.symm
      simp [PyDict.get?, hk, hk']

theorem firstCounter_ok {ρs : List Env} {shots m : ℕ} {b : Block Gate} {cs : List (PyDict Bits ℕ)} (hs : 0 < shots) (hρ : ρs ≠ [])
    (h : BornBatch ρs shots m b cs) : firstCounter cs = .ok (m, shots) := by
  cases h with
  | nil => exact absurd rfl hρ
  | @cons ρ c ρs cs h1 h2 =>
    obtain ⟨⟨w, t, -⟩, -⟩ := h1
    cases c with
    | nil => simp [totalShots] at t; omega
    | cons kv c =>
      obtain ⟨k, v⟩ := kv
      have hk := w (k, v) (by simp)
      simp only at hk
      rw [firstCounter, hk]
      congr 2

/-- **C47** (partial, as above): from counters with the frequencies of the Born rule, compute-uncompute computes the
squared overlap. -/
theorem C47_compute_uncompute_counts_partial {ρs : List Env} (hρ : ρs ≠ []) {shots : ℕ} (hs : 0 < shots) {ord : List ℕ → List ℕ}
    (ho : SetOrder ord) {a k : Block Gate} (ha : CircuitOn N ρs a) (hk : CircuitOn N ρs k)
    (hd : ∀ ρ ∈ ρs, AllLeaves (Adjointable ρ) k) :
    ∃ c, computeUncompute ord ⟨N, a⟩ ⟨N, k⟩ = .ok c ∧ c.nReg = N ∧ ∀ cs, BornBatch ρs shots N c.block cs →
      ∃ vs, countsComputeUncompute cs = .ok vs ∧ vs.map (fun v : ℚ => (v : ℝ)) = ρs.map fun ρ => overlapOf N ρ a k := by
  obtain ⟨c, h1, h2, h3, h4⟩ := computeUncompute_ok ho ha.wf hk.wf ha.inside hk.inside
  refine ⟨_, h1, rfl, fun cs hcs => ?_⟩
  rw [countsComputeUncompute, firstCounter_ok hs hρ hcs, ok_bind]
  simp only
  refine ⟨_, rfl, ?_⟩
  rw [List.map_map]
  refine map_forall₂ hcs fun ρ hρ cnt hc => ?_
  obtain ⟨hc, hnd⟩ := hc
  simp only [Function.comp_apply]
  rw [get?_countOf cnt hnd, ← dagger_amplitude hk.inside (hd ρ hρ) (h4 ρ)]
  have := hc.born fun _ => false
  rw [List.ofFn_const] at this
  push_cast
  rw [this]
  have : (shots : ℝ) ≠ 0 := by positivity
  field_simp

/-! ## Swap test -/

/-- **C47**: the swap test returns the squared overlap. -/
theorem C47_swap_test {ρs : List Env} {run : ℕ → Block Gate → Except PyErr (List (List ℂ))}
    (hr : ExactBatch ρs run) {ord : List ℕ → List ℕ} (ho : SetOrder ord) {a k : Block Gate} (ha : CircuitOn N ρs a)
    (hk : CircuitOn N ρs k) :
    exactValue run ord .swapTest ⟨N, a⟩ ⟨N, k⟩ = .ok (ρs.map fun ρ => overlapOf N ρ a k) := by
  obtain ⟨c, h1, h2, h3, h4⟩ := swapTest_ok ho ha.wf hk.wf ha.inside hk.inside
  obtain ⟨rows, h5, h6⟩ := hr _ c h2 h3
  rw [exactValue, h1, ok_bind, h5, ok_bind, valueSwapTest]
  rw [mapM_forall₂ (g := fun ρ => (1 + overlapOf N ρ a k) / 2) h6 fun ρ hρ row ht => ?_, ok_bind, pure_eq_ok, List.map_map]
  · congr 1
    refine List.map_congr_left fun ρ _ => ?_
    simp only [Function.comp_apply]
    ring
  · rw [(prob0_ok ht).1, h4 ρ]
    congr 1
    simp only [← mulVec_mulVec]
    exact swap_prob (ha.unitary hρ) (hk.unitary hρ)

theorem fraction0_born {shots : ℕ} (hs : 0 < shots) {φ : St (n + 1) → ℂ} {c : PyDict Bits ℕ} (h : BornCounter shots φ c) :
    ((fraction0 shots c : ℚ) : ℝ) = ∑ x, if x 0 = true then 0 else ‖φ x‖ ^ 2 := by
  have h1 := Measure.sum_counter c h.width fun k => if k[0]? = some false then 1 else 0
  have h2 : (((c.map fun kv => if kv.1[0]? = some false then kv.2 else 0).sum : ℕ) : ℝ) =
      (c.map fun kv => (kv.2 : ℝ) * if kv.1[0]? = some false then 1 else 0).sum := by
    clear h h1
    induction c with
    | nil => simp
    | cons a c ih =>
      rw [List.map_cons, List.sum_cons, List.map_cons, List.sum_cons, ← ih, Nat.cast_add]
      split <;> simp
  rw [fraction0, Rat.cast_div, Rat.cast_natCast, Rat.cast_natCast, h2, h1, Finset.sum_div]
  refine Finset.sum_congr rfl fun x _ => ?_
  rw [h.born x]
  have : (shots : ℝ) ≠ 0 := by positivity
  rw [List.ofFn_succ]
  cases hx : x 0
  · simp [hx]
    field_simp
  · simp [hx]

/-- **C47**: from counters with the frequencies of the Born rule, the swap test computes the squared overlap. -/
theorem C47_swap_test_counts {ρs : List Env} (hρ : ρs ≠ []) {shots : ℕ} (hs : 0 < shots) {ord : List ℕ → List ℕ}
    (ho : SetOrder ord) {a k : Block Gate} (ha : CircuitOn N ρs a) (hk : CircuitOn N ρs k) :
    ∃ c, swapTest ord ⟨N, a⟩ ⟨N, k⟩ = .ok c ∧ c.nReg = 2 * N + 1 ∧ ∀ cs, BornBatch ρs shots (2 * N + 1) c.block cs →
      ∃ vs, countsSwapTest cs = .ok vs ∧ vs.map (fun v : ℚ => (v : ℝ)) = ρs.map fun ρ => overlapOf N ρ a k := by
  obtain ⟨c, h1, h2, h3, h4⟩ := swapTest_ok ho ha.wf hk.wf ha.inside hk.inside
  refine ⟨_, h1, rfl, fun cs hcs => ?_⟩
  rw [countsSwapTest, firstCounter_ok hs hρ hcs, ok_bind]
  simp only
  refine ⟨_, rfl, ?_⟩
  rw [List.map_map, List.map_map]
  refine map_forall₂ hcs fun ρ hρ cnt hc => ?_
  simp only [Function.comp_apply]
  push_cast
  rw [fraction0_born hs hc.1]
  simp only
  rw [h4 ρ]
  simp only [← mulVec_mulVec]
  rw [swap_prob (ha.unitary hρ) (hk.unitary hρ), ← overlapOf]
  ring

/-! ## Hadamard test -/

theorem hadamard_probs {ρ : Env} {a k re im : Block Gate} (hA : sem (gateSem N ρ) ρ a ∈ unitary (Oper N))
    (hK : sem (gateSem N ρ) ρ k ∈ unitary (Oper N)) (hq : ∀ q ∈ qubits Gate.supp k, q < N) (hd : AllLeaves (Adjointable ρ) k)
    (h : sem (gateSem (N + 1) ρ) ρ re = embed1 0 (mat1 .H) * (ctrl 0 (place (Fin.succEmb N) (sem (gateSem N ρ) ρ (daggerGates k))) *
          (ctrl 0 (place (Fin.succEmb N) (sem (gateSem N ρ) ρ a)) * embed1 0 (mat1 .H))) ∧
        sem (gateSem (N + 1) ρ) ρ im = embed1 0 (mat1 .H) * (embed1 0 (mat1 .S) *
          (ctrl 0 (place (Fin.succEmb N) (sem (gateSem N ρ) ρ (daggerGates k))) *
          (ctrl 0 (place (Fin.succEmb N) (sem (gateSem N ρ) ρ a)) * embed1 0 (mat1 .H))))) :
    ∃ p q : ℝ, (∑ x, if x 0 = true then 0 else ‖(sem (gateSem (N + 1) ρ) ρ re *ᵥ ket0 : St (N + 1) → ℂ) x‖ ^ 2) = p ∧
      (∑ x, if x 0 = true then 0 else ‖(sem (gateSem (N + 1) ρ) ρ im *ᵥ ket0 : St (N + 1) → ℂ) x‖ ^ 2) = q ∧
      (2 * p - 1) ^ 2 + (2 * q - 1) ^ 2 = overlapOf N ρ a k := by
  have hK' : (sem (gateSem N ρ) ρ k)ᴴ ∈ unitary (Oper N) := by
    rw [← star_eq_conjTranspose]
    exact Unitary.star_mem hK
  rw [sem_daggerGates ρ k hd hq] at h
  set A := sem (gateSem N ρ) ρ a with hA'
  set K := sem (gateSem N ρ) ρ k with hK''
  have p1 := hadamard_prob A Kᴴ 1 (by simp) (D := mat1 .I) (by simp [mat1, ind]) hA hK'
  have p2 := hadamard_prob A Kᴴ Complex.I (by simp) (D := mat1 .S) (by simp [mat1]) hA hK'
  rw [mat1_I, one_mulVec, one_mul] at p1
  refine ⟨_, _, rfl, rfl, ?_⟩
  rw [h.1, h.2]
  simp only [← mulVec_mulVec]
  rw [p1, p2, overlapOf, ← hA', ← hK'', braket_symm (K *ᵥ ket0) (A *ᵥ ket0), norm_star, braket_adjoint,
    ← Complex.normSq_eq_norm_sq, Complex.normSq_apply]
  simp only [Complex.I_mul_re]
  ring

/-- **C47** (partial: fails for `U` with different outer angles and matrix blocks, and for single gates whose
`n_qubits` is wrong): the Hadamard test returns the squared overlap. -/
theorem C47_hadamard_test_partial {ρs : List Env} {run : ℕ → Block Gate → Except PyErr (List (List ℂ))}
    (hr : ExactBatch ρs run) {ord : List ℕ → List ℕ} (ho : SetOrder ord) {a k : Block Gate} (ha : CircuitOn N ρs a)
    (hk : CircuitOn N ρs k) (hd : ∀ ρ ∈ ρs, AllLeaves (Adjointable ρ) k) (sa : a.SizeSound) (sk : k.SizeSound)
    (na : (qubits Gate.supp a).Nonempty) (nk : (qubits Gate.supp k).Nonempty) :
    exactValue run ord .hadamardTest ⟨N, a⟩ ⟨N, k⟩ = .ok (ρs.map fun ρ => overlapOf N ρ a k) := by
  obtain ⟨re, im, h1, ⟨h2, h3⟩, ⟨h4, h5⟩, h6⟩ := hadamardTest_ok ho ha.wf hk.wf (sizeOk ho a sa na ha.inside)
    (sizeOk ho _ (sizeSound_dagger k sk) (by rwa [qubits_dagger]) (by rw [qubits_dagger]; exact hk.inside))
  obtain ⟨r1, h7, h8⟩ := hr _ re h2 h3
  obtain ⟨r2, h9, h10⟩ := hr _ im h4 h5
  rw [exactValue]
  simp only
  rw [h1, ok_bind]
  dsimp only
  rw [h7, ok_bind, h9, ok_bind, valueHadamardTest, mapM_forall₂ h8 fun ρ hρ row ht => (prob0_ok ht).2, ok_bind,
    mapM_forall₂ h10 fun ρ hρ row ht => (prob0_ok ht).2, ok_bind, pure_eq_ok]
  congr 1
  rw [List.zipWith_map, List.zipWith_self]
  refine List.map_congr_left fun ρ hρ => ?_
  obtain ⟨p, q, e1, e2, e3⟩ := hadamard_probs (ha.unitary hρ) (hk.unitary hρ) hk.inside (hd ρ hρ) (h6 ρ)
  rw [e1, e2, e3]

/-- **C47** (partial, as above): from counters with the frequencies of the Born rule, the Hadamard test computes the
squared overlap. -/
theorem C47_hadamard_test_counts_partial {ρs : List Env} (hρ : ρs ≠ []) {shots : ℕ} (hs : 0 < shots) {ord : List ℕ → List ℕ}
    (ho : SetOrder ord) {a k : Block Gate} (ha : CircuitOn N ρs a)
    (hk : CircuitOn N ρs k) (hd : ∀ ρ ∈ ρs, AllLeaves (Adjointable ρ) k) (sa : a.SizeSound) (sk : k.SizeSound)
    (na : (qubits Gate.supp a).Nonempty) (nk : (qubits Gate.supp k).Nonempty) :
    ∃ re im, hadamardTest ord ⟨N, a⟩ ⟨N, k⟩ = .ok (re, im) ∧ re.nReg = N + 1 ∧ im.nReg = N + 1 ∧ ∀ cs ds,
      BornBatch ρs shots (N + 1) re.block cs → BornBatch ρs shots (N + 1) im.block ds →
      ∃ vs, countsHadamardTest cs ds = .ok vs ∧ vs.map (fun v : ℚ => (v : ℝ)) = ρs.map fun ρ => overlapOf N ρ a k := by
  obtain ⟨re, im, h1, ⟨h2, h3⟩, ⟨h4, h5⟩, h6⟩ := hadamardTest_ok ho ha.wf hk.wf (sizeOk ho a sa na ha.inside)
    (sizeOk ho _ (sizeSound_dagger k sk) (by rwa [qubits_dagger]) (by rw [qubits_dagger]; exact hk.inside))
  refine ⟨_, _, h1, rfl, rfl, fun cs ds hcs hds => ?_⟩
  rw [countsHadamardTest, firstCounter_ok hs hρ hcs, ok_bind]
  simp only
  refine ⟨_, rfl, ?_⟩
  simp only at hcs hds
  rw [List.zipWith_map, List.map_zipWith]
  have e1 := map_forall₂ (f := fun c => ((fraction0 shots c : ℚ) : ℝ)) hcs fun ρ _ c hc => fraction0_born hs hc.1
  have e2 := map_forall₂ (f := fun c => ((fraction0 shots c : ℚ) : ℝ)) hds fun ρ _ c hc => fraction0_born hs hc.1
  have e3 : List.zipWith (fun c d => (((2 * fraction0 shots c - 1) ^ 2 + (2 * fraction0 shots d - 1) ^ 2 : ℚ) : ℝ)) cs ds =
      List.zipWith (fun a b : ℝ => (2 * a - 1) ^ 2 + (2 * b - 1) ^ 2) (cs.map fun c => ((fraction0 shots c : ℚ) : ℝ))
        (ds.map fun c => ((fraction0 shots c : ℚ) : ℝ)) := by
    rw [List.zipWith_map]
    congr 1
    funext c d
    push_cast
    rfl
  rw [e3, e1, e2, List.zipWith_map, List.zipWith_self]
  refine List.map_congr_left fun ρ hρ => ?_
  obtain ⟨p, q, e1, e2, e3⟩ := hadamard_probs (ha.unitary hρ) (hk.unitary hρ) hk.inside (hd ρ hρ) (h6 ρ)
  rw [e1, e2, e3]

/-! ## Range -/

/-- **C47**: the squared overlap is in `[0, 1]` and symmetric; it is one exactly if the states agree up to a phase. -/
theorem C47_unit_interval {ρs : List Env} {a k : Block Gate} (ha : CircuitOn N ρs a) (hk : CircuitOn N ρs k) {ρ : Env}
    (hρ : ρ ∈ ρs) : 0 ≤ overlapOf N ρ a k ∧ overlapOf N ρ a k ≤ 1 ∧ overlapOf N ρ a k = overlapOf N ρ k a ∧
      (overlapOf N ρ a k = 1 ↔ ∃ c : ℂ, ‖c‖ = 1 ∧
        (sem (gateSem N ρ) ρ k *ᵥ ket0 : St N → ℂ) = c • (sem (gateSem N ρ) ρ a *ᵥ ket0)) := by
  obtain ⟨ra, h1⟩ := States.exists_row .big (sem (gateSem N ρ) ρ a *ᵥ ket0 : St N → ℂ)
  obtain ⟨rk, h2⟩ := States.exists_row .big (sem (gateSem N ρ) ρ k *ᵥ ket0 : St N → ℂ)
  have h0 : UnitVector (ket0 : St N → ℂ) := unitVector_ket _
  have u1 : UnitVector (sem (gateSem N ρ) ρ a *ᵥ ket0 : St N → ℂ) := by
    rw [UnitVector, unitary_norm (ha.unitary hρ)]; exact h0
  have u2 : UnitVector (sem (gateSem N ρ) ρ k *ᵥ ket0 : St N → ℂ) := by
    rw [UnitVector, unitary_norm (hk.unitary hρ)]; exact h0
  obtain ⟨e, e1, e2, e3, e4⟩ := States.C48_overlap h1 h2 u1 u2
  obtain ⟨e', -, -, -, -⟩ := States.C48_overlap h2 h1 u2 u1
  rw [e', e] at e3
  rw [e] at e1 e2 e4
  exact ⟨e1, e2, e3, e4⟩

/-- **C47** (partial, as the methods): all methods return the same numbers, which are in `[0, 1]`. -/
theorem C47_methods_agree_partial {ρs : List Env} {run : ℕ → Block Gate → Except PyErr (List (List ℂ))}
    (hr : ExactBatch ρs run) {ord : List ℕ → List ℕ} (ho : SetOrder ord) {a k : Block Gate} (ha : CircuitOn N ρs a)
    (hk : CircuitOn N ρs k) (hd : ∀ ρ ∈ ρs, AllLeaves (Adjointable ρ) k) (sa : a.SizeSound) (sk : k.SizeSound)
    (na : (qubits Gate.supp a).Nonempty) (nk : (qubits Gate.supp k).Nonempty) :
    ∃ vs : List ℝ, (∀ m, exactValue run ord m ⟨N, a⟩ ⟨N, k⟩ = .ok vs) ∧ vs.length = ρs.length ∧ ∀ v ∈ vs, 0 ≤ v ∧ v ≤ 1 := by
  refine ⟨ρs.map fun ρ => overlapOf N ρ a k, fun m => ?_, by simp, fun v hv => ?_⟩
  · cases m with
    | exact => exact C47_exact hr ord ha hk
    | computeUncompute => exact C47_compute_uncompute_partial hr ho ha hk hd
    | swapTest => exact C47_swap_test hr ho ha hk
    | hadamardTest => exact C47_hadamard_test_partial hr ho ha hk hd sa sk na nk
  · obtain ⟨ρ, hρ, rfl⟩ := List.mem_map.1 hv
    obtain ⟨h1, h2, -⟩ := C47_unit_interval ha hk hρ
    exact ⟨h1, h2⟩

theorem fraction0_range {shots : ℕ} {c : PyDict Bits ℕ} (h : totalShots c = shots) : 0 ≤ fraction0 shots c ∧ fraction0 shots c ≤ 1 := by
  have hle : (c.map fun kv => if kv.1[0]? = some false then kv.2 else 0).sum ≤ totalShots c := by
    rw [totalShots]
    clear h
    induction c with
    | nil => simp
    | cons a c ih =>
      simp only [List.map_cons, List.sum_cons]
      split <;> omega
  rw [fraction0]
  refine ⟨by positivity, div_le_one_of_le₀ ?_ (by positivity)⟩
  rw [← h]
  exact_mod_cast hle

theorem countOf_le (c : PyDict Bits ℕ) (k : Bits) : countOf c k ≤ totalShots c := by
  unfold countOf totalShots
  induction c with
  | nil => simp
  | cons a c ih =>
    rw [List.filter_cons]
    split
    · simp only [List.map_cons, List.sum_cons]; omega
    · simp only [List.map_cons, List.sum_cons]; omega

/-- **C47**: whatever the counters are, as long as all have the same number of shots: the estimates of compute-uncompute
are in `[0, 1]`, those of the swap test in `[-1, 1]` and those of the Hadamard test in `[0, 2]`. -/
theorem C47_counts_range {shots : ℕ} {cs ds : List (PyDict Bits ℕ)} (hc : ∀ c ∈ cs, totalShots c = shots ∧ (c.map Prod.fst).Nodup)
    (hd : ∀ c ∈ ds, totalShots c = shots) :
    (∀ vs, countsComputeUncompute cs = .ok vs → ∀ v ∈ vs, 0 ≤ v ∧ v ≤ 1) ∧
    (∀ vs, countsSwapTest cs = .ok vs → ∀ v ∈ vs, -1 ≤ v ∧ v ≤ 1) ∧
    ∀ vs, countsHadamardTest cs ds = .ok vs → ∀ v ∈ vs, 0 ≤ v ∧ v ≤ 2 := by
  have hf : ∀ p, firstCounter cs = .ok p → p.2 = shots := by
    intro p hp
    match cs, hp with
    | ((k, v) :: c) :: cs, hp =>
      rw [firstCounter] at hp
      cases hp
      exact (hc _ (by simp)).1
  refine ⟨fun vs hvs v hv => ?_, fun vs hvs v hv => ?_, fun vs hvs v hv => ?_⟩
  · obtain ⟨⟨m, s⟩, h1, h2⟩ := bind_ok hvs
    obtain rfl : s = shots := hf _ h1
    simp only at h2
    rw [← pure_ok h2] at hv
    obtain ⟨c, hmem, rfl⟩ := List.mem_map.1 hv
    obtain ⟨h3, h4⟩ := hc c hmem
    refine ⟨by positivity, div_le_one_of_le₀ ?_ (by positivity)⟩
    rw [get?_countOf c h4, ← h3]
    exact_mod_cast countOf_le c _
  · obtain ⟨⟨m, s⟩, h1, h2⟩ := bind_ok hvs
    obtain rfl : s = shots := hf _ h1
    simp only at h2
    rw [← pure_ok h2, List.map_map] at hv
    obtain ⟨c, hmem, rfl⟩ := List.mem_map.1 hv
    obtain ⟨h3, h4⟩ := fraction0_range (hc c hmem).1
    simp only [Function.comp_apply]
    constructor <;> linarith
  · obtain ⟨⟨m, s⟩, h1, h2⟩ := bind_ok hvs
    obtain rfl : s = shots := hf _ h1
    simp only at h2
    rw [← pure_ok h2, List.zipWith_map] at hv
    obtain ⟨i, hi, rfl⟩ := List.mem_iff_getElem.1 hv
    simp only [List.getElem_zipWith]
    simp only [List.length_zipWith, lt_inf_iff] at hi
    obtain ⟨h3, h4⟩ := fraction0_range (hc _ (List.getElem_mem hi.1)).1
    obtain ⟨h5, h6⟩ := fraction0_range (hd _ (List.getElem_mem hi.2))
    refine ⟨by positivity, ?_⟩
    nlinarith

/-! ## What fails -/

/-- **C47**: the estimate of the swap test can be negative and the one of the Hadamard test larger than one. -/
theorem C47_counterexample_counts :
    countsSwapTest [[([true, false, true], 1)]] = .ok [-1] ∧
    countsHadamardTest [[([false, false], 1)]] [[([false, false], 1)]] = .ok [2] := by
  constructor <;> decide +kernel

/-- **C47**: for the state `U(0, 0, π/2, π)|0>` and itself compute-uncompute returns zero instead of one. -/
theorem C47_counterexample_u {ρ : Env} {run : ℕ → Block Gate → Except PyErr (List (List ℂ))} (hr : ExactBatch [ρ] run)
    {ord : List ℕ → List ℕ} (ho : SetOrder ord) {a : Block Gate}
    (ha : a = .leaf (.u 0 (.num 0 0) (.mul .pi (.num (1 / 2) 0)) .pi) none) :
    exactValue run ord .computeUncompute ⟨1, a⟩ ⟨1, a⟩ = .ok [0] ∧ overlapOf 1 ρ a a = 1 := by
  subst ha
  have hw : WellFormed Gate.supp (.leaf (.u 0 (.num 0 0) (.mul .pi (.num (1 / 2) 0)) .pi) none) := trivial
  have hq : ∀ q ∈ qubits Gate.supp (.leaf (.u 0 (.num 0 0) (.mul .pi (.num (1 / 2) 0)) .pi) none), q < 1 := by
    intro q hq
    simp [qubits_leaf, Gate.supp] at hq
    omega
  have e2 : eval ρ (.mul .pi (.num (1 / 2) 0)) = (Real.pi / 2 : ℝ) := by
    apply Complex.ext <;> simp [eval] <;> ring
  have e3 : eval ρ .pi = (Real.pi : ℝ) := by simp [eval]
  constructor
  · obtain ⟨c, h1, h2, h3, h4⟩ := computeUncompute_ok ho hw hw hq hq
    obtain ⟨rows, h5, h6⟩ := hr 1 c h2 h3
    rw [exactValue, h1, ok_bind, h5, ok_bind, valueComputeUncompute]
    refine mapM_forall₂ (g := fun _ => (0 : ℝ)) h6 fun ρ' hρ row ht => ?_
    obtain rfl : ρ' = ρ := by simpa using hρ
    have := ht.2 fun _ => false
    rw [zeros_position] at this
    rw [this]
    simp only
    have hz : (sem (gateSem 1 ρ') ρ' c *ᵥ ket0 : St 1 → ℂ) (fun _ => false) = 0 := by
      have hone : ∀ W : Matrix Bool Bool ℂ, (embed1 0 W *ᵥ ket0 : St 1 → ℂ) (fun _ => false) = W false false := by
        intro W
        have hj : (ket0 : St 1 → ℂ) = join ket0 0 := ket0_join
        rw [hj, embed1_join]
        simp [join, ket0_apply]
      rw [h4 ρ', daggerGates, Block.dagger, sem_leaf, sem_leaf, gateSem_den, gateSem_den, Gate.dagger, gateDen, gateDen, eval_neg, eval_neg,
        eval_neg, eval_zero, e2, e3, embed1_mul (by norm_num), hone]
      have e1 : Complex.exp (Complex.I * Real.pi / 2) = Complex.I := by
        rw [show Complex.I * (Real.pi : ℂ) / 2 = Real.pi / 2 * Complex.I by ring, Complex.exp_pi_div_two_mul_I]
      have e4 : Complex.exp (-(Complex.I * Real.pi / 2)) = -Complex.I := by
        rw [Complex.exp_neg, e1, Complex.inv_I]
      have e5 : Complex.cos ((Real.pi / 2 : ℝ) / 2) = Complex.sin ((Real.pi / 2 : ℝ) / 2) := by
        rw [show ((Real.pi / 2 : ℝ) : ℂ) / 2 = ((Real.pi / 4 : ℝ) : ℂ) by push_cast; ring, ← Complex.ofReal_cos, ← Complex.ofReal_sin,
          Real.cos_pi_div_four, Real.sin_pi_div_four]
      simp only [Matrix.mul_apply, Fintype.sum_bool]
      simp only [matRot]
      simp only [neg_zero, mul_zero, zero_div, Complex.exp_zero, neg_div, mul_neg, Complex.sin_neg, Complex.cos_neg, neg_neg, e1, e4, e5]
      simp
    rw [hz]
    simp
  · have hc : CircuitOn 1 [ρ] (.leaf (.u 0 (.num 0 0) (.mul .pi (.num (1 / 2) 0)) .pi) none) := by
      refine ⟨hw, hq, fun ρ' h => ?_⟩
      obtain rfl : ρ' = ρ := by simpa using h
      refine ⟨by rw [eval_zero]; rfl, ?_, ?_⟩
      · rw [e2]; exact Complex.ofReal_im _
      · rw [e3]; exact Complex.ofReal_im _
    exact (C47_unit_interval hc hc (by simp)).2.2.2.2 ⟨1, by simp, by simp⟩

/-- **C47**: the Hadamard test of the single gate `T(1)` on two qubits fails: its `n_qubits` is one. -/
theorem C47_counterexample_size :
    hadamardTest demoOrd ⟨2, .leaf (.fixed .T 1) none⟩ ⟨2, .leaf (.fixed .X 1) none⟩ = .error .keyError := rfl

/-! ## Examples -/

/-- The hypotheses hold for `chain(H(0), CNOT(0, 1))` and `kron(RX(0, x), T(1))` and two values of `x`. -/
example (ρ₁ ρ₂ : Env) (h₁ : (ρ₁.var "x").im = 0) (h₂ : (ρ₂.var "x").im = 0) {a k : Block Gate}
    (ha : a = .comp .chain [.leaf (.fixed .H 0) none, .leaf (Gate.cnot 0 1) none] none)
    (hk : k = .comp .kron [.leaf (.rot .RX 0 (.var "x")) none, .leaf (.fixed .T 1) none] none) :
    CircuitOn 2 [ρ₁, ρ₂] a ∧ CircuitOn 2 [ρ₁, ρ₂] k ∧ (∀ ρ ∈ [ρ₁, ρ₂], AllLeaves (Adjointable ρ) k) ∧ a.SizeSound ∧ k.SizeSound ∧
      (qubits Gate.supp a).Nonempty ∧ (qubits Gate.supp k).Nonempty := by
  have hv : ∀ ρ ∈ [ρ₁, ρ₂], (ρ.var "x").im = 0 := by simpa using ⟨h₁, h₂⟩
  subst ha hk
  refine ⟨⟨?_, ?_, fun ρ hρ => ?_⟩, ⟨?_, ?_, fun ρ hρ => ?_⟩, fun ρ hρ => ?_, trivial, trivial, ⟨0, ?_⟩, ⟨0, ?_⟩⟩
  · exact wellFormed_chain.2 (by simp [WellFormed])
  · intro q hq; simp [mem_qubits_comp, qubits_leaf, Gate.supp, Gate.cnot] at hq; omega
  · exact ⟨by simp, ⟨by simp, by simp⟩, ⟨⟨by simp, by simp⟩, by simp [Gate.supp]⟩, trivial⟩
  · exact wellFormed_kron.2 ⟨by simp, by simp [qubits_leaf, Gate.supp], by simp [WellFormed]⟩
  · intro q hq; simp [mem_qubits_comp, qubits_leaf, Gate.supp] at hq; omega
  · exact ⟨by simp, hv ρ hρ, ⟨by simp, by simp⟩, trivial⟩
  · exact ⟨hv ρ hρ, trivial, trivial⟩
  · simp [mem_qubits_comp, qubits_leaf, Gate.supp, Gate.cnot]
  · simp [mem_qubits_comp, qubits_leaf, Gate.supp]

/-- There is an exact simulation. -/
example (ρs : List Env) : ∃ run, ExactBatch ρs run := by
  refine ⟨fun n b => .ok (ρs.map fun ρ => (States.exists_row .big (sem (gateSem n ρ) ρ b *ᵥ ket0 : St n → ℂ)).choose),
    fun n b _ _ => ⟨_, rfl, ?_⟩⟩
  rw [List.forall₂_map_right_iff]
  exact List.forall₂_same.2 fun ρ _ => (States.exists_row .big _).choose_spec

/-- A counter of the compute-uncompute circuit of `X(0)` and `X(0)`. -/
example (ρ : Env) : BornBatch [ρ] 100 1 (.leaf (.fixed .I 0) none) [[([false], 100)]] := by
  refine .cons ⟨⟨by simp, by simp [totalShots], fun x => ?_⟩, by simp⟩ .nil
  rw [sem_leaf, gateSem_den, gateDen, mat1_I, one_mulVec, ket0_apply]
  have hx : List.ofFn x = [x 0] := by simp [List.ofFn_succ]
  rw [hx]
  cases hb : x 0
  · have : x = fun _ => false := by funext i; rw [Fin.fin_one_eq_zero i, hb]
    rw [if_pos this]
    simp [countOf]
  · have : x ≠ fun _ => false := fun e => by rw [e] at hb; simp at hb
    rw [if_neg this]
    simp [countOf]

end Qadence
