import Verif.Props.AnsatzNames
import Verif.Props.Padding

/-!
# Entangling layers of the ansätze (C42)
-/

namespace Qadence.Ansatz

open Spec Block

variable {ord : List ℕ → List ℕ}

/-- A pair of positions as a pair of qubits. -/
def place (support : List ℕ) (p : ℕ × ℕ) : ℕ × ℕ := (support.getD p.1 0, support.getD p.2 0)

theorem getD_lt {l : List ℕ} {i : ℕ} (h : i < l.length) : l.getD i 0 = l[i] := by
  rw [List.getD_eq_getElem?_getD, List.getElem?_eq_getElem h, Option.getD_some]

theorem primPair_entGate (e : Entangler) (c t : ℕ) (s : String) : primPair (.gate (entGate e c t s) none) = [(c, t)] := by
  cases e <;> rfl

theorem links_comp (k : CKind) (bs : List (Block Prim)) (t) : links (.comp k bs t) = bs.flatMap links :=
  gather_comp _ _ k bs t

theorem links_entKron (ho : SetOrder ord) {pre : String} {support : List ℕ} {e : Entangler} {ps : List (ℕ × ℕ)} {c : ℕ}
    {b : Block Prim} (h : entKron ord pre support e ps c = .ok b) : links b = ps.map (place support) := by
  rw [links, entKron_gather ho h]
  simp only [primPair_entGate]
  rw [← List.map_eq_flatMap]
  conv_rhs => rw [← List.zipIdx_map_fst c ps, List.map_map]
  rfl

theorem links_rotKron (ho : SetOrder ord) {pre : String} {support : List ℕ} {n : ℕ} {g : RotGate} {c : ℕ}
    {b : Block Prim} (h : rotKron ord pre support n g c = .ok b) : links b = [] := by
  rw [links, rotKron_gather ho h]
  simp [primPair]

theorem links_rotKrons (ho : SetOrder ord) {pre : String} {support : List ℕ} {n : ℕ} {gs : List RotGate} {c : ℕ}
    {bs : List (Block Prim)} (h : rotKrons ord pre support n gs c = .ok bs) : bs.flatMap links = [] := by
  induction gs generalizing c bs with
  | nil => cases h; rfl
  | cons g gs ih =>
    rw [rotKrons] at h
    obtain ⟨b, hb, h⟩ := bind_ok h
    obtain ⟨rest, hr, h⟩ := bind_ok h
    have := pure_ok h
    subst this
    rw [List.flatMap_cons, links_rotKron ho hb, ih hr, List.nil_append]

theorem links_rotationsDigital (ho : SetOrder ord) {pre : String} {support : List ℕ} {n : ℕ} {gs : List RotGate}
    {d c : ℕ} {bs : List (Block Prim)} (h : rotationsDigital ord pre support n gs d c = .ok bs) :
    bs.flatMap links = [] := by
  induction d generalizing c bs with
  | zero => cases h; rfl
  | succ d ih =>
    rw [rotationsDigital] at h
    obtain ⟨ks, hk, h⟩ := bind_ok h
    obtain ⟨rest, hr, h⟩ := bind_ok h
    have := pure_ok h
    subst this
    rw [List.flatMap_cons, chainOf, links_comp, links_rotKrons ho hk, ih hr, List.nil_append]

/-! ### Every kron consists of disjoint parts -/

theorem wf_kronOf (ho : SetOrder ord) {bs : List (Block Prim)} {b : Block Prim}
    (h : kronOf (Prim.supp ord) ord bs = .ok b) (hw : ∀ c ∈ bs, WellFormed (Prim.supp ord) c) :
    WellFormed (Prim.supp ord) b := by
  rw [kronOf_ok_iff _ _ ho] at h
  obtain ⟨rfl, h1, h2⟩ := h
  exact wellFormed_kron.2 ⟨h1, h2, hw⟩

theorem wf_rotKron (ho : SetOrder ord) {pre : String} {support : List ℕ} {n : ℕ} {g : RotGate} {c : ℕ}
    {b : Block Prim} (h : rotKron ord pre support n g c = .ok b) : WellFormed (Prim.supp ord) b := by
  unfold rotKron at h
  obtain ⟨bs, hbs, h⟩ := bind_ok h
  refine wf_kronOf ho h fun x hx => ?_
  obtain ⟨i, -, hi⟩ := (mapM_ok_mem hbs).2 x hx
  obtain ⟨q, hq, hi⟩ := bind_ok hi
  have := pure_ok hi
  subst this
  rw [gateBlock, WellFormed]
  trivial

theorem wf_entKron (ho : SetOrder ord) {pre : String} {support : List ℕ} {e : Entangler} {ps : List (ℕ × ℕ)} {c : ℕ}
    {b : Block Prim} (h : entKron ord pre support e ps c = .ok b) : WellFormed (Prim.supp ord) b := by
  unfold entKron at h
  obtain ⟨bs, hbs, h⟩ := bind_ok h
  refine wf_kronOf ho h fun x hx => ?_
  obtain ⟨i, -, hi⟩ := (mapM_ok_mem hbs).2 x hx
  obtain ⟨q, hq, hi⟩ := bind_ok hi
  obtain ⟨q', hq', hi⟩ := bind_ok hi
  obtain ⟨-, rfl⟩ := entanglerBlock_ok.1 hi
  rw [gateBlock, WellFormed]
  trivial

theorem wf_rotKrons (ho : SetOrder ord) {pre : String} {support : List ℕ} {n : ℕ} {gs : List RotGate} {c : ℕ}
    {bs : List (Block Prim)} (h : rotKrons ord pre support n gs c = .ok bs) :
    ∀ b ∈ bs, WellFormed (Prim.supp ord) b := by
  induction gs generalizing c bs with
  | nil => cases h; simp
  | cons g gs ih =>
    rw [rotKrons] at h
    obtain ⟨b, hb, h⟩ := bind_ok h
    obtain ⟨rest, hr, h⟩ := bind_ok h
    have := pure_ok h
    subst this
    intro x hx
    rcases List.mem_cons.1 hx with rfl | hx
    · exact wf_rotKron ho hb
    · exact ih hr x hx

theorem wf_rotationsDigital (ho : SetOrder ord) {pre : String} {support : List ℕ} {n : ℕ} {gs : List RotGate}
    {d c : ℕ} {bs : List (Block Prim)} (h : rotationsDigital ord pre support n gs d c = .ok bs) :
    ∀ b ∈ bs, WellFormed (Prim.supp ord) b := by
  induction d generalizing c bs with
  | zero => cases h; simp
  | succ d ih =>
    rw [rotationsDigital] at h
    obtain ⟨ks, hk, h⟩ := bind_ok h
    obtain ⟨rest, hr, h⟩ := bind_ok h
    have := pure_ok h
    subst this
    intro x hx
    rcases List.mem_cons.1 hx with rfl | hx
    · exact wellFormed_chain.2 (wf_rotKrons ho hk)
    · exact ih hr x hx

theorem wf_heaEntLayer (ho : SetOrder ord) {pre : String} {support : List ℕ} {n : ℕ} {p : Bool} {e : Entangler}
    {c : ℕ} {l : Block Prim × ℕ} (h : heaEntLayer ord pre support n p e c = .ok l) :
    WellFormed (Prim.supp ord) l.1 := by
  unfold heaEntLayer at h
  obtain ⟨k₁, h1, h⟩ := bind_ok h
  split at h
  · obtain ⟨k₂, h2, h⟩ := bind_ok h
    have := pure_ok h
    subst this
    refine wellFormed_chain.2 fun x hx => ?_
    simp only [List.mem_cons, List.not_mem_nil, or_false] at hx
    rcases hx with rfl | rfl
    · exact wf_entKron ho h1
    · exact wf_entKron ho h2
  · have := pure_ok h
    subst this
    refine wellFormed_chain.2 fun x hx => ?_
    rw [List.mem_singleton.1 hx]
    exact wf_entKron ho h1

/-! ### Neighbours -/

/-- All neighbours of a chain of qubits. -/
def neighbours (support : List ℕ) (n : ℕ) : List (ℕ × ℕ) :=
  (List.range (n - 1)).map fun i => (support.getD i 0, support.getD (i + 1) 0)

theorem heaPairs₁_eq (n : ℕ) :
    heaPairs₁ n = ((List.range (n - 1)).filter fun i => i % 2 = 0).map fun i => (i, i + 1) := by
  rw [heaPairs₁]
  congr 1
  cases n with
  | zero => rfl
  | succ m =>
    rw [List.range_succ, List.filter_append, Nat.add_sub_cancel]
    have h1 : List.filter (fun i => i % 2 = 0 && decide (i + 1 < m + 1)) [m] = [] := by simp
    rw [h1, List.append_nil]
    refine List.filter_congr fun i hi => ?_
    have := List.mem_range.1 hi
    simp [this]

theorem heaPairs₂_false (n : ℕ) :
    heaPairs₂ n false = ((List.range (n - 1)).filter fun i => i % 2 = 1).map fun i => (i, i + 1) := by
  rw [heaPairs₂]
  simp only [Bool.false_eq_true, if_false]
  refine List.map_congr_left fun i hi => ?_
  have := List.mem_range.1 (List.mem_filter.1 hi).1
  rw [Nat.mod_eq_of_lt (by omega)]

theorem heaPairs₂_true (n : ℕ) :
    heaPairs₂ n true = heaPairs₂ n false ++ if n % 2 = 0 ∧ n ≠ 0 then [(n - 1, 0)] else [] := by
  cases n with
  | zero => rfl
  | succ m =>
    rw [heaPairs₂, heaPairs₂]
    simp only [Bool.false_eq_true, if_true, if_false, Nat.sub_zero, Nat.add_sub_cancel, List.range_succ,
      List.filter_append, List.map_append]
    congr 1
    by_cases hm : m % 2 = 1
    · rw [if_pos ⟨by omega, by omega⟩]
      simp [hm]
    · rw [if_neg (by omega)]
      simp [hm]

theorem pairs_perm (n : ℕ) : (heaPairs₁ n ++ heaPairs₂ n false).Perm ((List.range (n - 1)).map fun i => (i, i + 1)) := by
  rw [heaPairs₁_eq, heaPairs₂_false, ← List.map_append]
  refine List.Perm.map _ ?_
  have h := List.filter_append_perm (fun i : ℕ => decide (i % 2 = 0)) (List.range (n - 1))
  refine List.Perm.trans (List.Perm.of_eq ?_) h
  congr 1
  refine List.filter_congr fun i _ => ?_
  rcases Nat.mod_two_eq_zero_or_one i with h | h <;> simp [h]

theorem links_heaEntLayer (ho : SetOrder ord) {pre : String} {support : List ℕ} {n : ℕ} {p : Bool} {e : Entangler}
    {c : ℕ} {l : Block Prim × ℕ} (h : heaEntLayer ord pre support n p e c = .ok l) :
    links l.1 = (heaPairs₁ n ++ if n > 2 then heaPairs₂ n p else []).map (place support) := by
  unfold heaEntLayer at h
  obtain ⟨k₁, h1, h⟩ := bind_ok h
  split at h
  · next hn =>
    obtain ⟨k₂, h2, h⟩ := bind_ok h
    have := pure_ok h
    subst this
    rw [if_pos hn, chainOf, links_comp, List.map_append, ← links_entKron ho h1, ← links_entKron ho h2]
    simp
  · next hn =>
    have := pure_ok h
    subst this
    rw [if_neg hn, chainOf, links_comp, List.append_nil, ← links_entKron ho h1]
    simp

/-- Pairs of a layer: the neighbours, and last to first if periodic with an even number of more than two qubits. -/
theorem layer_pairs (n : ℕ) (p : Bool) :
    (heaPairs₁ n ++ if n > 2 then heaPairs₂ n p else []).Perm (((List.range (n - 1)).map fun i => (i, i + 1)) ++
      if p = true ∧ n % 2 = 0 ∧ n > 2 then [(n - 1, 0)] else []) := by
  by_cases hn : n > 2
  · rw [if_pos hn]
    cases p
    · rw [if_neg (by simp), List.append_nil]
      exact pairs_perm n
    · rw [heaPairs₂_true, ← List.append_assoc]
      refine List.Perm.append (pairs_perm n) (List.Perm.of_eq ?_)
      congr 1
      simp only [hn, true_and, and_true, eq_iff_iff]
      exact ⟨fun h => h.1, fun h => ⟨h, by omega⟩⟩
  · rw [if_neg hn, if_neg (by simp; omega), List.append_nil, List.append_nil]
    have : n = 0 ∨ n = 1 ∨ n = 2 := by omega
    rcases this with rfl | rfl | rfl <;> exact List.Perm.refl _

/-- **C42** (hea): every entangling layer links all neighbours exactly once, and for periodic boundary conditions
additionally last to first *if the number of qubits is even and larger than two*. -/
theorem C42_hea_layer (ho : SetOrder ord) {pre : String} {support : List ℕ} {n : ℕ} {p : Bool} {e : Entangler}
    {c : ℕ} {l : Block Prim × ℕ} (h : heaEntLayer ord pre support n p e c = .ok l) :
    (links l.1).Perm (neighbours support n ++
      if p = true ∧ n % 2 = 0 ∧ n > 2 then [(support.getD (n - 1) 0, support.getD 0 0)] else []) := by
  rw [links_heaEntLayer ho h]
  refine ((layer_pairs n p).map (place support)).trans (List.Perm.of_eq ?_)
  rw [List.map_append, List.map_map]
  congr 1
  split <;> rfl

/-- The linked qubits are different qubits of the support. -/
theorem C42_hea_layer_valid (ho : SetOrder ord) {pre : String} {support : List ℕ} (hs : support.Nodup) {n : ℕ}
    (hn : n ≤ support.length) {p : Bool} {e : Entangler} {c : ℕ} {l : Block Prim × ℕ}
    (h : heaEntLayer ord pre support n p e c = .ok l) :
    ∀ x ∈ links l.1, x.1 ∈ support ∧ x.2 ∈ support ∧ x.1 ≠ x.2 := by
  intro x hx
  rw [(C42_hea_layer ho h).mem_iff, List.mem_append] at hx
  have key : ∀ i j, i < support.length → j < support.length → i ≠ j →
      support.getD i 0 ∈ support ∧ support.getD j 0 ∈ support ∧ support.getD i 0 ≠ support.getD j 0 := by
    intro i j hi hj hij
    rw [getD_lt hi, getD_lt hj]
    exact ⟨List.getElem_mem _, List.getElem_mem _, fun e => hij ((hs.getElem_inj_iff).1 e)⟩
  rcases hx with hx | hx
  · obtain ⟨i, hi, rfl⟩ := List.mem_map.1 hx
    have := List.mem_range.1 hi
    exact key i (i + 1) (by omega) (by omega) (by omega)
  · split at hx
    · next hp =>
      rw [List.mem_singleton.1 hx]
      exact key (n - 1) 0 (by omega) (by omega) (by omega)
    · simp at hx

/-- **C42** (hea), whole ansatz: the pairs linked by a circuit of the given depth, and every kron of the circuit has
disjoint parts. -/
theorem C42_hea_partial (ho : SetOrder ord) {n depth : ℕ} {pre : String} {support : List ℕ} {periodic : Bool}
    {ops : List RotGate} {e : Entangler} {b : Block Prim}
    (h : heaDigital ord n depth pre support periodic ops e = .ok b) :
    (links b).Perm ((List.replicate depth (neighbours support n ++
      if periodic = true ∧ n % 2 = 0 ∧ n > 2 then [(support.getD (n - 1) 0, support.getD 0 0)] else [])).flatten) ∧
    WellFormed (Prim.supp ord) b := by
  unfold heaDigital at h
  split at h
  · cases h
  obtain ⟨rots, hr, h⟩ := bind_ok h
  obtain ⟨ents, he, h⟩ := bind_ok h
  have := pure_ok h
  subst this
  have hp := interleave_perm rots ents (by rw [rotationsDigital_length hr, entanglersDigital_length he])
  have hents : ∀ (d c : ℕ) (ents : List (Block Prim)),
      entanglersDigital ord pre support n periodic e d c = .ok ents →
      (ents.flatMap links).Perm ((List.replicate d (neighbours support n ++
        if periodic = true ∧ n % 2 = 0 ∧ n > 2 then [(support.getD (n - 1) 0, support.getD 0 0)] else [])).flatten) ∧
      ∀ b ∈ ents, WellFormed (Prim.supp ord) b := by
    intro d
    induction d with
    | zero => intro c ents h; cases h; simp
    | succ d ih =>
      intro c ents h
      rw [entanglersDigital] at h
      obtain ⟨l, hl, h⟩ := bind_ok h
      obtain ⟨rest, hr, h⟩ := bind_ok h
      have := pure_ok h
      subst this
      obtain ⟨h1, h2⟩ := ih _ _ hr
      refine ⟨?_, ?_⟩
      · rw [List.flatMap_cons, List.replicate_succ, List.flatten_cons]
        exact List.Perm.append (C42_hea_layer ho hl) h1
      · intro x hx
        rcases List.mem_cons.1 hx with rfl | hx
        · exact wf_heaEntLayer ho hl
        · exact h2 x hx
  obtain ⟨h1, h2⟩ := hents _ _ _ he
  refine ⟨?_, wellFormed_chain.2 fun x hx => ?_⟩
  · rw [tagChain, links_comp]
    refine (hp.flatMap_right links).trans ?_
    rw [List.flatMap_append, links_rotationsDigital ho hr, List.nil_append]
    exact h1
  · rcases List.mem_append.1 (hp.mem_iff.1 hx) with hx | hx
    · exact wf_rotationsDigital ho hr x hx
    · exact h2 x hx

/-- **C42**, counterexample: with an odd number of qubits the periodic layers do not link the last to the first
qubit. -/
theorem C42_counterexample_periodic_odd (ho : SetOrder ord) {pre : String} {support : List ℕ} (hs : support.Nodup)
    {n : ℕ} (hn : n ≤ support.length) (h3 : 3 ≤ n) (hodd : n % 2 = 1) {e : Entangler}
    {c : ℕ} {l : Block Prim × ℕ} (h : heaEntLayer ord pre support n true e c = .ok l) :
    (support.getD (n - 1) 0, support.getD 0 0) ∉ links l.1 ∧ (support.getD 0 0, support.getD (n - 1) 0) ∉ links l.1 := by
  have key : ∀ i j, i < support.length → j < support.length → support.getD i 0 = support.getD j 0 → i = j := by
    intro i j hi hj e
    rw [getD_lt hi, getD_lt hj] at e
    exact (hs.getElem_inj_iff).1 e
  have hl := (C42_hea_layer ho h)
  rw [if_neg (by omega), List.append_nil] at hl
  rw [hl.mem_iff, hl.mem_iff]
  constructor <;>
  · intro hx
    obtain ⟨i, hi, e⟩ := List.mem_map.1 hx
    have hi := List.mem_range.1 hi
    rw [Prod.mk.injEq] at e
    have h1 := key _ _ (by omega) (by omega) e.1
    have h2 := key _ _ (by omega) (by omega) e.2
    omega

/-- **C42**, counterexample: on one qubit the construction of an entangling layer fails. -/
theorem C42_counterexample_one_qubit (pre : String) (support : List ℕ) (p : Bool) (e : Entangler) (c : ℕ) :
    heaEntLayer ord pre support 1 p e c = .error .notImplementedError := rfl

/-! ### Construction succeeds -/

theorem item_ok {l : List ℕ} {i : ℕ} (h : i < l.length) : item l i = .ok (l.getD i 0) := by
  rw [item, List.getElem?_eq_getElem h, getD_lt h]

theorem qubits_entGate (e : Entangler) (c t : ℕ) (s : String) :
    qubits (Prim.supp ord) (gateBlock (entGate e c t s)) = {q | q = c ∨ q = t} := by
  rw [gateBlock, qubits_leaf]
  ext q
  cases e <;> simp [entGate, Prim.supp, Gate.supp, Gate.cnot, Gate.cz, Gate.crx, Gate.cry, Gate.crz, Gate.cphase]

/-- Pairs of positions with no position in common. -/
def Apart (p q : ℕ × ℕ) : Prop := p.1 ≠ q.1 ∧ p.1 ≠ q.2 ∧ p.2 ≠ q.1 ∧ p.2 ≠ q.2

theorem entKron_ok (ho : SetOrder ord) (pre : String) {support : List ℕ} (hs : support.Nodup) {e : Entangler}
    (he : e ≠ .other) {ps : List (ℕ × ℕ)} (hne : ps ≠ []) (hlt : ∀ p ∈ ps, p.1 < support.length ∧ p.2 < support.length)
    (hd : ps.Pairwise Apart) (c : ℕ) : ∃ b, entKron ord pre support e ps c = .ok b := by
  have hm : (ps.zipIdx c).mapM (fun p => do
      let a ← item support p.1.1
      let b ← item support p.1.2
      entanglerBlock e a b (pre ++ "_ent_" ++ toString p.2)) = .ok ((ps.zipIdx c).map fun p =>
        gateBlock (entGate e (support.getD p.1.1 0) (support.getD p.1.2 0) (pre ++ "_ent_" ++ toString p.2))) := by
    refine mapM_ok_map fun p hp => ?_
    have hp1 : p.1 ∈ ps := List.fst_mem_of_mem_zipIdx hp
    rw [item_ok (hlt _ hp1).1, item_ok (hlt _ hp1).2]
    exact entanglerBlock_ok.2 ⟨he, rfl⟩
  rw [entKron, hm, ok_bind]
  refine ⟨_, (kronOf_ok_iff _ _ ho _ _).2 ⟨rfl, by simpa using hne, ?_⟩⟩
  rw [List.pairwise_map]
  have hz : (ps.zipIdx c).Pairwise fun p q => Apart p.1 q.1 := by
    rw [← List.pairwise_map (f := Prod.fst) (R := Apart), List.zipIdx_map_fst]
    exact hd
  refine (hz.imp_of_mem ?_)
  intro p q hp hq hpq
  rw [qubits_entGate, qubits_entGate, Set.disjoint_left]
  have h1 := hlt _ (List.fst_mem_of_mem_zipIdx hp)
  have h2 := hlt _ (List.fst_mem_of_mem_zipIdx hq)
  have key : ∀ i j, i < support.length → j < support.length → support.getD i 0 = support.getD j 0 → i = j := by
    intro i j hi hj e
    rw [getD_lt hi, getD_lt hj] at e
    exact (hs.getElem_inj_iff).1 e
  rintro x (rfl | rfl) (h | h)
  · exact hpq.1 (key _ _ h1.1 h2.1 h)
  · exact hpq.2.1 (key _ _ h1.1 h2.2 h)
  · exact hpq.2.2.1 (key _ _ h1.2 h2.1 h)
  · exact hpq.2.2.2 (key _ _ h1.2 h2.2 h)

/-- **C42** (hea), construction: for at least two qubits the layers are built, for even and odd sizes and both boundary
conditions. -/
theorem C42_hea_layer_total (ho : SetOrder ord) (pre : String) {support : List ℕ} (hs : support.Nodup) {n : ℕ}
    (h2 : 2 ≤ n) (hn : n ≤ support.length) (p : Bool) {e : Entangler} (he : e ≠ .other) (c : ℕ) :
    ∃ l, heaEntLayer ord pre support n p e c = .ok l := by
  have hmem1 : ∀ x ∈ heaPairs₁ n, x.2 = x.1 + 1 ∧ x.1 % 2 = 0 ∧ x.1 + 1 < n := by
    intro x hx
    obtain ⟨i, hi, rfl⟩ := List.mem_map.1 hx
    have := (List.mem_filter.1 hi).2
    simp only [Bool.and_eq_true, decide_eq_true_eq] at this
    exact ⟨rfl, this.1, this.2⟩
  have hmem2 : ∀ x ∈ heaPairs₂ n p, x.2 = (x.1 + 1) % n ∧ x.1 % 2 = 1 ∧ x.1 < n := by
    intro x hx
    obtain ⟨i, hi, rfl⟩ := List.mem_map.1 hx
    obtain ⟨h1, h2⟩ := List.mem_filter.1 hi
    have h1 := List.mem_range.1 h1
    exact ⟨rfl, by simpa using h2, by simp only; omega⟩
  have hnd1 : (heaPairs₁ n).Pairwise fun x y => x.1 ≠ y.1 := by
    rw [heaPairs₁, List.pairwise_map]
    exact (List.nodup_range.filter _)
  have hnd2 : (heaPairs₂ n p).Pairwise fun x y => x.1 ≠ y.1 := by
    rw [heaPairs₂, List.pairwise_map]
    exact (List.nodup_range.filter _)
  obtain ⟨k₁, hk₁⟩ := entKron_ok ho pre hs he (ps := heaPairs₁ n)
    (List.ne_nil_of_mem (a := (0, 1)) (List.mem_map.2 ⟨0, List.mem_filter.2 ⟨List.mem_range.2 (by omega), by
      simp only [Bool.and_eq_true, decide_eq_true_eq]; exact ⟨trivial, by omega⟩⟩, rfl⟩))
    (fun x hx => by obtain ⟨h1, h2, h3⟩ := hmem1 x hx; omega)
    (hnd1.imp_of_mem fun {x y} hx hy hxy => by
      obtain ⟨h1, h2, h3⟩ := hmem1 x hx
      obtain ⟨h1', h2', h3'⟩ := hmem1 y hy
      exact ⟨hxy, by omega, by omega, by omega⟩) c
  have hmod : ∀ i, i < n → ((i + 1) % n = i + 1 ∧ i + 1 < n) ∨ ((i + 1) % n = 0 ∧ i + 1 = n) := by
    intro i hi
    rcases Nat.lt_or_ge (i + 1) n with h | h
    · exact .inl ⟨Nat.mod_eq_of_lt h, h⟩
    · have : i + 1 = n := by omega
      exact .inr ⟨by rw [this, Nat.mod_self], this⟩
  by_cases h3 : n > 2
  · obtain ⟨k₂, hk₂⟩ := entKron_ok ho pre hs he (ps := heaPairs₂ n p)
      (List.ne_nil_of_mem (a := (1, (1 + 1) % n)) (List.mem_map.2 ⟨1, List.mem_filter.2 ⟨List.mem_range.2 (by
        cases p <;> simp <;> omega), by simp⟩, rfl⟩))
      (fun x hx => by
        obtain ⟨h1, h2, h3⟩ := hmem2 x hx
        rcases hmod x.1 h3 with h | h <;> omega)
      (hnd2.imp_of_mem fun {x y} hx hy hxy => by
        obtain ⟨h1, h2, h3⟩ := hmem2 x hx
        obtain ⟨h1', h2', h3'⟩ := hmem2 y hy
        rcases hmod x.1 h3 with h | h <;> rcases hmod y.1 h3' with h' | h' <;>
          exact ⟨hxy, by omega, by omega, by omega⟩) (c + (heaPairs₁ n).length)
    refine ⟨(Block.chainOf [k₁, k₂], c + (heaPairs₁ n).length + (heaPairs₂ n p).length), ?_⟩
    rw [heaEntLayer, hk₁, ok_bind]
    simp only [h3, if_true, hk₂, ok_bind]
    rfl
  · refine ⟨(Block.chainOf [k₁], c + (heaPairs₁ n).length), ?_⟩
    rw [heaEntLayer, hk₁, ok_bind]
    simp only [h3, if_false]
    rfl

theorem rotKron_ok (ho : SetOrder ord) (pre : String) {support : List ℕ} (hs : support.Nodup) {n : ℕ} (h0 : n ≠ 0)
    (hn : n ≤ support.length) (g : RotGate) (c : ℕ) : ∃ b, rotKron ord pre support n g c = .ok b := by
  have hm : (List.range n).mapM (fun i => do
      let q ← item support i
      return gateBlock (.rot g q (.var (pre ++ "_" ++ toString (c + i))))) = .ok ((List.range n).map fun i =>
        gateBlock (.rot g (support.getD i 0) (.var (pre ++ "_" ++ toString (c + i))))) := by
    refine mapM_ok_map fun i hi => ?_
    rw [item_ok (by have := List.mem_range.1 hi; omega)]
    rfl
  rw [rotKron, hm, ok_bind]
  refine ⟨_, (kronOf_ok_iff _ _ ho _ _).2 ⟨rfl, by simpa using h0, ?_⟩⟩
  rw [List.pairwise_map]
  refine List.nodup_range.imp_of_mem fun {i j} hi hj hij => ?_
  have hi := List.mem_range.1 hi
  have hj := List.mem_range.1 hj
  rw [gateBlock, gateBlock, qubits_leaf, qubits_leaf, Set.disjoint_left]
  intro q hq hq'
  simp only [Prim.supp, Gate.supp, List.mem_singleton, Set.mem_setOf_eq] at hq hq'
  rw [getD_lt (by omega)] at hq hq'
  rw [hq] at hq'
  exact hij ((hs.getElem_inj_iff).1 hq')

theorem rotKrons_ok (ho : SetOrder ord) (pre : String) {support : List ℕ} (hs : support.Nodup) {n : ℕ} (h0 : n ≠ 0)
    (hn : n ≤ support.length) (gs : List RotGate) (c : ℕ) : ∃ b, rotKrons ord pre support n gs c = .ok b := by
  induction gs generalizing c with
  | nil => exact ⟨_, rfl⟩
  | cons g gs ih =>
    obtain ⟨b, hb⟩ := rotKron_ok ho pre hs h0 hn g c
    obtain ⟨bs, hbs⟩ := ih (c + n)
    rw [rotKrons, hb, ok_bind, hbs]
    exact ⟨_, rfl⟩

theorem rotationsDigital_ok (ho : SetOrder ord) (pre : String) {support : List ℕ} (hs : support.Nodup) {n : ℕ}
    (h0 : n ≠ 0) (hn : n ≤ support.length) (gs : List RotGate) (d c : ℕ) :
    ∃ b, rotationsDigital ord pre support n gs d c = .ok b := by
  induction d generalizing c with
  | zero => exact ⟨_, rfl⟩
  | succ d ih =>
    obtain ⟨b, hb⟩ := rotKrons_ok ho pre hs h0 hn gs c
    obtain ⟨bs, hbs⟩ := ih (c + n * gs.length)
    rw [rotationsDigital, hb, ok_bind, hbs]
    exact ⟨_, rfl⟩

/-- **C42** (hea), construction: for at least two qubits the ansatz is built. -/
theorem C42_hea_total (ho : SetOrder ord) (pre : String) {support : List ℕ} (hs : support.Nodup) {n : ℕ}
    (h2 : 2 ≤ n) (hn : n ≤ support.length) (depth : ℕ) (p : Bool) (ops : List RotGate) {e : Entangler}
    (he : e ≠ .other) : ∃ b, heaDigital ord n depth pre support p ops e = .ok b := by
  obtain ⟨rots, hr⟩ := rotationsDigital_ok ho pre hs (by omega) hn ops depth 0
  have hents : ∀ d c, ∃ es, entanglersDigital ord pre support n p e d c = .ok es := by
    intro d
    induction d with
    | zero => intro c; exact ⟨_, rfl⟩
    | succ d ih =>
      intro c
      obtain ⟨l, hl⟩ := C42_hea_layer_total ho pre hs h2 hn p he c
      obtain ⟨es, hes⟩ := ih l.2
      rw [entanglersDigital, hl, ok_bind, hes]
      exact ⟨_, rfl⟩
  obtain ⟨es, hes⟩ := hents depth 0
  refine ⟨tagChain (interleave rots es) "HEA", ?_⟩
  simp only [heaDigital, he, if_false, hr, ok_bind, hes]
  rfl

/-- A periodic ansatz on six qubits links the last to the first qubit; the hypotheses of the theorems on names and
layers are met. -/
example (ho : SetOrder ord) : ∃ b, heaDigital ord 6 3 "theta" [5, 7, 0, 2, 4, 9] true [.RX, .RY, .RX] .CRX = .ok b ∧
    (names b).Nodup ∧ "theta_ent_17" ∈ names b ∧ (9, 5) ∈ links b := by
  obtain ⟨b, hb⟩ := C42_hea_total ho "theta" (support := [5, 7, 0, 2, 4, 9]) (by decide) (n := 6) (by norm_num)
    (by simp) 3 true [.RX, .RY, .RX] (e := .CRX) (by simp)
  refine ⟨b, hb, C41_hea_digital ho hb, ?_, ?_⟩
  · unfold heaDigital at hb
    split at hb
    · cases hb
    obtain ⟨rots, hr, hb⟩ := bind_ok hb
    obtain ⟨ents, he, hb⟩ := bind_ok hb
    have := pure_ok hb
    subst this
    rw [tagChain, names_comp, ((interleave_perm rots ents
      (by rw [rotationsDigital_length hr, entanglersDigital_length he])).flatMap_right names).mem_iff,
      List.flatMap_append]
    refine List.mem_append_right _ ?_
    rw [entanglersDigital] at he
    obtain ⟨l₁, h1, he⟩ := bind_ok he
    obtain ⟨es, he1, he⟩ := bind_ok he
    have := pure_ok he
    subst this
    rw [entanglersDigital] at he1
    obtain ⟨l₂, h2, he1⟩ := bind_ok he1
    obtain ⟨es, he2, he1⟩ := bind_ok he1
    have := pure_ok he1
    subst this
    rw [entanglersDigital] at he2
    obtain ⟨l₃, h3, he2⟩ := bind_ok he2
    obtain ⟨es, he3, he2⟩ := bind_ok he2
    have := pure_ok he2
    subst this
    have key : ∀ c (l : Block Prim × ℕ), heaEntLayer ord "theta" [5, 7, 0, 2, 4, 9] 6 true .CRX c = .ok l →
        l.2 = c + 6 ∧ names l.1 = numbered "theta_ent" c 6 := by
      intro c l h
      unfold heaEntLayer at h
      obtain ⟨k₁, g1, h⟩ := bind_ok h
      rw [if_pos (by norm_num)] at h
      obtain ⟨k₂, g2, h⟩ := bind_ok h
      have := pure_ok h
      subst this
      refine ⟨rfl, ?_⟩
      rw [chainOf, names_comp, List.flatMap_cons, List.flatMap_cons, List.flatMap_nil, names_entKron ho g1,
        names_entKron ho g2, if_pos (show Entangler.CRX.parametric = true from rfl),
        if_pos (show Entangler.CRX.parametric = true from rfl), List.append_nil, numbered_append]
      rfl
    obtain ⟨e1, -⟩ := key _ _ h1
    rw [e1] at h2
    obtain ⟨e2, -⟩ := key _ _ h2
    rw [e2] at h3
    obtain ⟨-, h⟩ := key _ _ h3
    simp only [List.flatMap_cons, h, List.mem_append]
    exact .inr (.inr (.inl (List.mem_map.2 ⟨17, by rw [List.mem_range'_1]; omega, by rfl⟩)))
  · rw [(C42_hea_partial ho hb).1.mem_iff]
    decide

end Qadence.Ansatz
