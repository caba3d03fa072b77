import Verif.Props.AnsatzLayers

/-!
# Entangling layers of the alternating layer ansatz (C42)
-/

namespace Qadence.Ansatz

open Spec Block

variable {ord : List ℕ → List ℕ}

theorem mem_pyRange {a b : ℤ} {m : ℕ} (hm : 0 < m) (x : ℤ) :
    x ∈ pyRange a b m ↔ x < b ∧ ∃ k : ℕ, x = a + m * k := by
  rw [pyRange, if_neg (by omega), List.mem_map]
  have hm' : (0 : ℤ) < m := by exact_mod_cast hm
  constructor
  · rintro ⟨k, hk, rfl⟩
    rw [List.mem_range] at hk
    refine ⟨?_, k, rfl⟩
    have h1 : (k : ℤ) < (b - a + m - 1) / m := by omega
    have h2 : (k + 1 : ℤ) * m ≤ b - a + m - 1 := (Int.le_ediv_iff_mul_le hm').1 (by omega)
    nlinarith
  · rintro ⟨hx, k, rfl⟩
    refine ⟨k, ?_, rfl⟩
    rw [List.mem_range]
    have : (k + 1 : ℤ) ≤ (b - a + m - 1) / m := (Int.le_ediv_iff_mul_le hm').2 (by nlinarith)
    omega

theorem nodup_pyRange (a b : ℤ) (m : ℕ) : (pyRange a b m).Nodup := by
  rw [pyRange]
  split
  · exact List.nodup_nil
  · next hm =>
    refine List.nodup_range.map fun i j h => ?_
    have hm' : (m : ℤ) ≠ 0 := by exact_mod_cast hm
    have : (m : ℤ) * i = m * j := by simpa using h
    exact_mod_cast mul_left_cancel₀ hm' this

/-- How far the blocks of a layer are shifted to the left: by half a block in every second layer. -/
def shift (m d : ℕ) : ℕ := if d % 2 = 0 then 0 else (m + 1) / 2

theorem alaStart_eq (m d : ℕ) : alaStart m d = -(shift m d : ℤ) := by
  rw [alaStart, shift]
  split
  · rfl
  · rw [Int.fdiv_eq_ediv_of_nonneg _ (by norm_num)]
    omega

/-- Position of qubit number `k` in its block. -/
def posInBlock (m d k : ℕ) : ℕ := (k + shift m d) % m

theorem pos_of {m d k j b : ℕ} (hj : j < m) (h : (k : ℤ) = alaStart m d + m * b + j) :
    posInBlock m d k = j := by
  rw [alaStart_eq] at h
  have : k + shift m d = m * b + j := by
    have : ((k + shift m d : ℕ) : ℤ) = ((m * b + j : ℕ) : ℤ) := by push_cast; linarith
    exact_mod_cast this
  rw [posInBlock, this, Nat.mul_add_mod, Nat.mod_eq_of_lt hj]

/-- The pairs of one kron: neighbours inside a block whose position has the given parity. -/
theorem mem_alaPairs {n m d sj : ℕ} (hm : 0 < m) (p : ℕ × ℕ) :
    p ∈ alaPairs n m d sj ↔ p.2 = p.1 + 1 ∧ p.1 + 1 < n ∧ posInBlock m d p.1 + 1 < m ∧
      ∃ a, posInBlock m d p.1 = sj + 2 * a := by
  rw [alaPairs, List.mem_flatMap]
  constructor
  · rintro ⟨j, hj, hp⟩
    obtain ⟨hjm, a, rfl⟩ := (mem_pyRange (by norm_num) j).1 hj
    obtain ⟨i, hi, hp⟩ := List.mem_filterMap.1 hp
    obtain ⟨hin, b, rfl⟩ := (mem_pyRange hm i).1 hi
    split at hp
    · next hc =>
      obtain ⟨h1, h2, h3⟩ := hc
      cases hp
      have hk : (((alaStart m d + m * b + ((sj : ℤ) + (2 : ℕ) * a)).toNat : ℕ) : ℤ) =
          alaStart m d + m * b + ((sj + 2 * a : ℕ) : ℤ) := by
        rw [Int.toNat_of_nonneg h3]; push_cast; ring
      have hpos := pos_of (m := m) (d := d) (by push_cast at h2; omega) hk
      refine ⟨?_, ?_, ?_, a, hpos⟩
      · simp only; omega
      · simp only; omega
      · rw [hpos]; push_cast at h2; omega
    · simp at hp
  · rintro ⟨h1, h2, h3, a, ha⟩
    obtain ⟨k, k'⟩ := p
    simp only at h1 h2 h3 ha
    subst h1
    refine ⟨((sj + 2 * a : ℕ) : ℤ), (mem_pyRange (by norm_num) _).2 ⟨?_, a, by push_cast; ring⟩, ?_⟩
    · rw [← ha]
      have : posInBlock m d k < m := by omega
      exact_mod_cast this
    · have hdiv := Nat.div_add_mod (k + shift m d) m
      have hdiv : m * ((k + shift m d) / m) + (sj + 2 * a) = k + shift m d := by
        rw [← ha, posInBlock]; exact hdiv
      have hdz : (m : ℤ) * ((k + shift m d) / m : ℕ) + ((sj + 2 * a : ℕ) : ℤ) = k + shift m d := by exact_mod_cast hdiv
      refine List.mem_filterMap.2 ⟨alaStart m d + m * ((k + shift m d) / m : ℕ),
        (mem_pyRange hm _).2 ⟨?_, _, rfl⟩, ?_⟩
      · rw [alaStart_eq]
        have : (k : ℤ) + 1 < n := by exact_mod_cast h2
        have : (0 : ℤ) ≤ ((sj + 2 * a : ℕ) : ℤ) := by positivity
        linarith
      · have e : alaStart m d + m * ((k + shift m d) / m : ℕ) + ((sj + 2 * a : ℕ) : ℤ) = k := by
          rw [alaStart_eq]; linarith
        rw [if_pos]
        · rw [e]
          simp only [Option.some.injEq, Prod.mk.injEq]
          omega
        · rw [e]
          refine ⟨by exact_mod_cast h2, ?_, by positivity⟩
          rw [ha] at h3
          exact_mod_cast h3

theorem nodup_alaPairs {n m d sj : ℕ} (hm : 0 < m) : (alaPairs n m d sj).Nodup := by
  rw [alaPairs, List.nodup_flatMap]
  have hpos : ∀ (j : ℤ) (p : ℕ × ℕ), j ∈ pyRange sj m 2 →
      p ∈ (pyRange (alaStart m d) n m).filterMap (fun (i : ℤ) =>
        if i + j + 1 < (n : ℤ) ∧ j + 1 < (m : ℤ) ∧ 0 ≤ i + j then some ((i + j).toNat, (i + j + 1).toNat) else none) →
      (posInBlock m d p.1 : ℤ) = j := by
    intro j p hj hp
    obtain ⟨hjm, a, rfl⟩ := (mem_pyRange (by norm_num) j).1 hj
    obtain ⟨i, hi, hp⟩ := List.mem_filterMap.1 hp
    obtain ⟨hin, b, rfl⟩ := (mem_pyRange hm i).1 hi
    split at hp
    · next hc =>
      obtain ⟨h1, h2, h3⟩ := hc
      cases hp
      have hk : (((alaStart m d + m * b + ((sj : ℤ) + (2 : ℕ) * a)).toNat : ℕ) : ℤ) =
          alaStart m d + m * b + ((sj + 2 * a : ℕ) : ℤ) := by
        rw [Int.toNat_of_nonneg h3]; push_cast; ring
      rw [pos_of (m := m) (d := d) (by push_cast at h2; omega) hk]
      push_cast; ring
    · simp at hp
  constructor
  · intro j hj
    refine (nodup_pyRange _ _ _).filterMap ?_
    intro i i' p hp hp'
    simp only [Option.mem_def] at hp hp'
    split at hp
    · split at hp'
      · cases hp
        simp only [Option.some.injEq, Prod.mk.injEq] at hp'
        omega
      · simp at hp'
    · simp at hp
  · refine (nodup_pyRange _ _ _).pairwise_of_forall_ne fun j hj j' hj' hne p hp hp' => hne ?_
    rw [← hpos j p hj hp, ← hpos j' p hj' hp']

/-- The neighbours inside the blocks of a layer. -/
def blockPairs (n m d : ℕ) : List (ℕ × ℕ) :=
  ((List.range (n - 1)).filter fun k => posInBlock m d k + 1 < m).map fun k => (k, k + 1)

theorem mem_blockPairs {n m d : ℕ} (p : ℕ × ℕ) :
    p ∈ blockPairs n m d ↔ p.2 = p.1 + 1 ∧ p.1 + 1 < n ∧ posInBlock m d p.1 + 1 < m := by
  obtain ⟨k, k'⟩ := p
  simp only [blockPairs, List.mem_map, List.mem_filter, List.mem_range, decide_eq_true_eq, Prod.mk.injEq]
  constructor
  · rintro ⟨i, ⟨h1, h2⟩, rfl, rfl⟩
    exact ⟨rfl, by omega, h2⟩
  · rintro ⟨rfl, h1, h2⟩
    exact ⟨k, ⟨by omega, h2⟩, rfl, rfl⟩

theorem alaPairs_perm {n m d : ℕ} (hm : 0 < m) :
    ((alaStarts m).flatMap (alaPairs n m d)).Perm (blockPairs n m d) := by
  rw [List.perm_ext_iff_of_nodup]
  · intro p
    rw [mem_blockPairs, List.mem_flatMap]
    constructor
    · rintro ⟨sj, -, hp⟩
      rw [mem_alaPairs hm] at hp
      exact ⟨hp.1, hp.2.1, hp.2.2.1⟩
    · rintro ⟨h1, h2, h3⟩
      refine ⟨posInBlock m d p.1 % 2, ?_, (mem_alaPairs hm p).2 ⟨h1, h2, h3, posInBlock m d p.1 / 2, by omega⟩⟩
      rw [alaStarts]
      split
      · rcases Nat.mod_two_eq_zero_or_one (posInBlock m d p.1) with h | h <;> simp [h]
      · have : posInBlock m d p.1 = 0 := by omega
        simp [this]
  · rw [List.nodup_flatMap]
    refine ⟨fun sj _ => nodup_alaPairs hm, ?_⟩
    rw [alaStarts]
    split
    · simp only [List.pairwise_cons, List.mem_singleton, forall_eq, List.not_mem_nil, false_implies, implies_true,
        List.Pairwise.nil, and_true]
      intro p hp hp'
      obtain ⟨-, -, -, a, ha⟩ := (mem_alaPairs hm p).1 hp
      obtain ⟨-, -, -, b, hb⟩ := (mem_alaPairs hm p).1 hp'
      omega
    · simp
  · refine (List.nodup_range.filter _).map fun i j h => ?_
    exact (Prod.mk.inj h).1

theorem links_alaKrons (ho : SetOrder ord) {pre : String} {support : List ℕ} {n m : ℕ} {e : Entangler} {d : ℕ}
    {js : List ℕ} {c : ℕ} {l : List (Block Prim) × ℕ} (h : alaKrons ord pre support n m e d js c = .ok l) :
    l.1.flatMap links = (js.flatMap (alaPairs n m d)).map (place support) ∧ ∀ b ∈ l.1, WellFormed (Prim.supp ord) b := by
  induction js generalizing c l with
  | nil => cases h; simp
  | cons j js ih =>
    rw [alaKrons] at h
    obtain ⟨b, hb, h⟩ := bind_ok h
    obtain ⟨rest, hr, h⟩ := bind_ok h
    have := pure_ok h
    subst this
    obtain ⟨h1, h2⟩ := ih hr
    refine ⟨?_, ?_⟩
    · rw [List.flatMap_cons, h1, links_entKron ho hb, List.flatMap_cons, List.map_append]
    · intro x hx
      rcases List.mem_cons.1 hx with rfl | hx
      · exact wf_entKron ho hb
      · exact h2 x hx

/-- **C42** (ala): layer number `d` links exactly the neighbours inside its blocks, each once. -/
theorem C42_ala_layer (ho : SetOrder ord) {pre : String} {support : List ℕ} {n m : ℕ} (hm : 0 < m) {e : Entangler}
    {d c : ℕ} {l : List (Block Prim) × ℕ} (h : alaKrons ord pre support n m e d (alaStarts m) c = .ok l) :
    (links (chainOf l.1)).Perm ((blockPairs n m d).map (place support)) ∧ WellFormed (Prim.supp ord) (chainOf l.1) := by
  obtain ⟨h1, h2⟩ := links_alaKrons ho h
  refine ⟨?_, wellFormed_chain.2 h2⟩
  rw [chainOf, links_comp, h1]
  exact (alaPairs_perm hm).map _

/-- The linked qubits are different qubits of the support. -/
theorem C42_ala_layer_valid (ho : SetOrder ord) {pre : String} {support : List ℕ} (hs : support.Nodup) {n m : ℕ}
    (hn : n ≤ support.length) (hm : 0 < m) {e : Entangler} {d c : ℕ} {l : List (Block Prim) × ℕ}
    (h : alaKrons ord pre support n m e d (alaStarts m) c = .ok l) :
    ∀ x ∈ links (chainOf l.1), x.1 ∈ support ∧ x.2 ∈ support ∧ x.1 ≠ x.2 := by
  intro x hx
  rw [(C42_ala_layer ho hm h).1.mem_iff] at hx
  obtain ⟨p, hp, rfl⟩ := List.mem_map.1 hx
  obtain ⟨h1, h2, -⟩ := (mem_blockPairs p).1 hp
  rw [place, getD_lt (by omega : p.1 < support.length), getD_lt (by omega : p.2 < support.length)]
  refine ⟨List.getElem_mem _, List.getElem_mem _, fun e => ?_⟩
  have := (hs.getElem_inj_iff).1 e
  omega

/-- Two consecutive layers together link all neighbours. -/
theorem C42_ala_two_layers {n m : ℕ} (hm : 2 ≤ m) (d k : ℕ) (hk : k + 1 < n) :
    (k, k + 1) ∈ blockPairs n m d ∨ (k, k + 1) ∈ blockPairs n m (d + 1) := by
  rw [mem_blockPairs, mem_blockPairs]
  by_contra hc
  push Not at hc
  obtain ⟨h1, h2⟩ := hc
  have h1 : posInBlock m d k + 1 = m := by
    have h1 : m ≤ posInBlock m d k + 1 := h1 rfl hk
    have : posInBlock m d k < m := Nat.mod_lt _ (by omega)
    omega
  have h2 : posInBlock m (d + 1) k + 1 = m := by
    have h2 : m ≤ posInBlock m (d + 1) k + 1 := h2 rfl hk
    have : posInBlock m (d + 1) k < m := Nat.mod_lt _ (by omega)
    omega
  have key : k % m + 1 = m ∧ (k + (m + 1) / 2) % m + 1 = m := by
    rcases Nat.mod_two_eq_zero_or_one d with h | h
    · have h' : (d + 1) % 2 ≠ 0 := by omega
      simp only [posInBlock, shift, h, h', if_true, if_false, Nat.add_zero] at h1 h2
      exact ⟨h1, h2⟩
    · have h' : (d + 1) % 2 = 0 := by omega
      have h'' : d % 2 ≠ 0 := by omega
      simp only [posInBlock, shift, h', h'', if_true, if_false, Nat.add_zero] at h1 h2
      exact ⟨h2, h1⟩
  obtain ⟨k1, k2⟩ := key
  rw [Nat.add_mod, show k % m = m - 1 by omega, Nat.mod_eq_of_lt (by omega : (m + 1) / 2 < m),
    show m - 1 + (m + 1) / 2 = m + ((m + 1) / 2 - 1) by omega, Nat.add_mod_left, Nat.mod_eq_of_lt (by omega)] at k2
  omega

/-- A kron of an ala layer is built if it contains a pair. -/
theorem alaKron_ok (ho : SetOrder ord) (pre : String) {support : List ℕ} (hs : support.Nodup) {n m : ℕ}
    (hn : n ≤ support.length) (hm : 0 < m) {e : Entangler} (he : e ≠ .other) (d sj c : ℕ)
    (hne : ∃ k, k + 1 < n ∧ posInBlock m d k + 1 < m ∧ ∃ a, posInBlock m d k = sj + 2 * a) :
    ∃ b, entKron ord pre support e (alaPairs n m d sj) c = .ok b := by
  obtain ⟨k, h1, h2, h3⟩ := hne
  refine entKron_ok ho pre hs he (List.ne_nil_of_mem ((mem_alaPairs hm (k, k + 1)).2 ⟨rfl, h1, h2, h3⟩)) ?_ ?_ c
  · intro p hp
    obtain ⟨h1, h2, -⟩ := (mem_alaPairs hm p).1 hp
    omega
  · refine (nodup_alaPairs hm).imp_of_mem fun {p q} hp hq hpq => ?_
    obtain ⟨p1, p2⟩ := p
    obtain ⟨q1, q2⟩ := q
    obtain ⟨e1, l1, b1, a1, f1⟩ := (mem_alaPairs hm _).1 hp
    obtain ⟨e2, l2, b2, a2, f2⟩ := (mem_alaPairs hm _).1 hq
    simp only at e1 e2 l1 l2 b1 b2 f1 f2
    subst e1 e2
    have hsucc : ∀ k, posInBlock m d k + 1 < m → posInBlock m d (k + 1) = posInBlock m d k + 1 := by
      intro k hk
      rw [posInBlock, posInBlock] at *
      rw [show k + 1 + shift m d = k + shift m d + 1 by ring, Nat.add_mod, Nat.mod_eq_of_lt (by omega : 1 < m),
        Nat.mod_eq_of_lt hk]
    have hne : p1 ≠ q1 := by rintro rfl; exact hpq rfl
    refine ⟨hne, ?_, ?_, by simpa using hne⟩
    · rintro rfl
      have h := hsucc q1 b2
      have f1 : posInBlock m d (q1 + 1) = sj + 2 * a1 := f1
      have f2 : posInBlock m d q1 = sj + 2 * a2 := f2
      omega
    · rintro rfl
      have h := hsucc p1 b1
      have f1 : posInBlock m d p1 = sj + 2 * a1 := f1
      have f2 : posInBlock m d (p1 + 1) = sj + 2 * a2 := f2
      omega

/-- **C42** (ala), construction: if the register is longer than a block, every layer is built. -/
theorem C42_ala_layer_total (ho : SetOrder ord) (pre : String) {support : List ℕ} (hs : support.Nodup) {n m : ℕ}
    (hn : n ≤ support.length) (hm : 2 ≤ m) (hnm : m < n) {e : Entangler} (he : e ≠ .other) (d c : ℕ) :
    ∃ l, alaKrons ord pre support n m e d (alaStarts m) c = .ok l := by
  have hk : ∀ r < m, ∃ k < m, posInBlock m d k = r := by
    intro r hr
    refine ⟨(r + (m - shift m d % m)) % m, Nat.mod_lt _ (by omega), ?_⟩
    have hlt : shift m d % m < m := Nat.mod_lt _ (by omega)
    rw [posInBlock, Nat.add_mod, Nat.mod_mod, ← Nat.add_mod, Nat.add_mod _ (shift m d),
      show (r + (m - shift m d % m)) % m + shift m d % m = (r + (m - shift m d % m)) % m + (shift m d % m) % m by
        rw [Nat.mod_mod], ← Nat.add_mod, show r + (m - shift m d % m) + shift m d % m = r + m by omega,
      Nat.add_mod_right, Nat.mod_eq_of_lt hr]
  have hex : ∀ sj ∈ alaStarts m, ∃ k, k + 1 < n ∧ posInBlock m d k + 1 < m ∧ ∃ a, posInBlock m d k = sj + 2 * a := by
    intro sj hsj
    have hsj : sj + 1 < m := by
      rw [alaStarts] at hsj
      split at hsj
      · simp at hsj; omega
      · simp at hsj; omega
    obtain ⟨k, hk, hp⟩ := hk sj (by omega)
    exact ⟨k, by omega, by omega, 0, by omega⟩
  generalize alaStarts m = js at hex
  induction js generalizing c with
  | nil => exact ⟨_, rfl⟩
  | cons j js ih =>
    obtain ⟨b, hb⟩ := alaKron_ok ho pre hs hn (by omega : 0 < m) he d j c (hex j (by simp))
    obtain ⟨l, hl⟩ := ih (c + (alaPairs n m d j).length) fun sj h => hex sj (by simp [h])
    refine ⟨(b :: l.1, l.2), ?_⟩
    rw [alaKrons, hb, ok_bind, hl]
    rfl

/-- **C42** (ala), counterexample: with one block as large as the register of two or three qubits, every second layer
has an empty kron and the construction fails. -/
theorem C42_counterexample_ala_small (pre : String) (support : List ℕ) (hs : 3 ≤ support.length) (ho : SetOrder ord)
    (hn : support.Nodup) (c : ℕ) :
    alaKrons ord pre support 2 2 .CNOT 1 (alaStarts 2) c = .error .notImplementedError ∧
    alaKrons ord pre support 3 3 .CNOT 1 (alaStarts 3) c = .error .notImplementedError := by
  refine ⟨rfl, ?_⟩
  obtain ⟨b, hb⟩ := alaKron_ok ho pre hn (n := 3) (m := 3) hs (by norm_num) (e := .CNOT) (by simp) 1 0 c
    ⟨1, by norm_num, by decide, 0, by decide⟩
  have h2 : ∀ c, entKron ord pre support .CNOT (alaPairs 3 3 1 1) c = .error .notImplementedError := fun c => rfl
  rw [show alaStarts 3 = [0, 1] from rfl, alaKrons, hb, ok_bind, alaKrons, h2]
  rfl

/-- **C42** (ala), whole ansatz: the pairs linked, layer by layer, and every kron of the circuit has disjoint parts. -/
theorem C42_ala (ho : SetOrder ord) {n m depth : ℕ} (hm : 0 < m) {pre : String} {support : List ℕ}
    {ops : List RotGate} {e : Entangler} {b : Block Prim}
    (h : alaDigital ord n m depth pre support ops e = .ok b) :
    (links b).Perm ((List.range depth).flatMap fun d => (blockPairs n m d).map (place support)) ∧
    WellFormed (Prim.supp ord) b := by
  unfold alaDigital at h
  split at h
  · cases h
  obtain ⟨rots, hr, h⟩ := bind_ok h
  obtain ⟨ents, he, h⟩ := bind_ok h
  have := pure_ok h
  subst this
  have hp := interleave_perm rots ents (by rw [rotationsDigital_length hr, entanglersAla_length he])
  have hents : ∀ (r d c : ℕ) (ents : List (Block Prim)),
      entanglersAla ord (pre ++ "_ent") support n m e r d c = .ok ents →
      (ents.flatMap links).Perm ((List.range' d r).flatMap fun d => (blockPairs n m d).map (place support)) ∧
      ∀ b ∈ ents, WellFormed (Prim.supp ord) b := by
    intro r
    induction r with
    | zero => intro d c ents h; cases h; simp
    | succ r ih =>
      intro d c ents h
      rw [entanglersAla] at h
      obtain ⟨l, hl, h⟩ := bind_ok h
      obtain ⟨rest, hr, h⟩ := bind_ok h
      have := pure_ok h
      subst this
      obtain ⟨h1, h2⟩ := ih _ _ _ hr
      obtain ⟨g1, g2⟩ := C42_ala_layer ho hm hl
      refine ⟨?_, ?_⟩
      · rw [List.flatMap_cons, List.range'_succ, List.flatMap_cons]
        exact List.Perm.append g1 h1
      · intro x hx
        rcases List.mem_cons.1 hx with rfl | hx
        · exact g2
        · exact h2 x hx
  obtain ⟨h1, h2⟩ := hents _ _ _ _ he
  refine ⟨?_, wellFormed_chain.2 fun x hx => ?_⟩
  · rw [tagChain, links_comp]
    refine (hp.flatMap_right links).trans ?_
    rw [List.flatMap_append, links_rotationsDigital ho hr, List.nil_append, List.range_eq_range']
    exact h1
  · rcases List.mem_append.1 (hp.mem_iff.1 hx) with hx | hx
    · exact wf_rotationsDigital ho hr x hx
    · exact h2 x hx

/-- **C42** (ala), construction: if the register is longer than a block, the ansatz is built. -/
theorem C42_ala_total (ho : SetOrder ord) (pre : String) {support : List ℕ} (hs : support.Nodup) {n m : ℕ}
    (hn : n ≤ support.length) (hm : 2 ≤ m) (hnm : m < n) (depth : ℕ) (ops : List RotGate) {e : Entangler}
    (he : e ≠ .other) : ∃ b, alaDigital ord n m depth pre support ops e = .ok b := by
  obtain ⟨rots, hr⟩ := rotationsDigital_ok ho pre hs (by omega) hn ops depth 0
  have hents : ∀ r d c, ∃ es, entanglersAla ord (pre ++ "_ent") support n m e r d c = .ok es := by
    intro r
    induction r with
    | zero => intro d c; exact ⟨_, rfl⟩
    | succ r ih =>
      intro d c
      obtain ⟨l, hl⟩ := C42_ala_layer_total ho (pre ++ "_ent") hs hn hm hnm he d c
      obtain ⟨es, hes⟩ := ih (d + 1) l.2
      rw [entanglersAla, hl, ok_bind, hes]
      exact ⟨_, rfl⟩
  obtain ⟨es, hes⟩ := hents depth 0 0
  refine ⟨tagChain (interleave rots es) "ALA", ?_⟩
  simp only [alaDigital, he, if_false, hr, ok_bind, hes]
  rfl

/-- Blocks of three qubits on seven qubits: layer 0 links within {0,1,2}, {3,4,5}, {6}; layer 1 within {0}, {1,2,3},
{4,5,6}. -/
example : blockPairs 7 3 0 = [(0, 1), (1, 2), (3, 4), (4, 5)] ∧ blockPairs 7 3 1 = [(1, 2), (2, 3), (4, 5), (5, 6)] := by
  decide

example (ho : SetOrder ord) : ∃ b, alaDigital ord 7 3 2 "theta" [0, 1, 2, 3, 4, 5, 6] [.RX] .CRX = .ok b ∧
    (names b).Nodup ∧ (2, 3) ∈ links b := by
  obtain ⟨b, hb⟩ := C42_ala_total ho "theta" (support := [0, 1, 2, 3, 4, 5, 6]) (by decide) (n := 7) (m := 3) (by simp)
    (by norm_num) (by norm_num) 2 [.RX] (e := .CRX) (by simp)
  refine ⟨b, hb, C41_ala ho hb, ?_⟩
  rw [(C42_ala ho (by norm_num) hb).1.mem_iff]
  decide

end Qadence.Ansatz
