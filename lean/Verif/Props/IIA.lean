import Verif.Props.IIANames
import Verif.Proofs.Controlled
import Verif.Props.Padding

/-!
# The identity initialised ansatz (C43)
-/

namespace Qadence.Ansatz

open Spec Block Names

variable {ord : List ℕ → List ℕ} {N : ℕ}

/-! ### Construction succeeds -/

theorem iiaKron_ok (ho : SetOrder ord) {n : ℕ} (hn : n ≠ 0) (layer : ℕ) (pre : String) (g : RotGate) (idx : ℕ) :
    iiaKron ord n layer pre g idx =
      .ok (.comp .kron ((List.range n).map fun q => .leaf (iiaRot layer pre g q (q + n * idx)) none) none) := by
  rw [iiaKron, kronOf_ok_iff _ _ ho]
  refine ⟨rfl, by simpa using hn, ?_⟩
  rw [List.pairwise_map]
  refine List.nodup_range.imp fun {a b} hab => ?_
  simp only [gateBlock, qubits_leaf, Prim.supp, Gate.supp, List.mem_singleton]
  rw [Set.disjoint_left]
  rintro q rfl hq
  exact hab hq

theorem iiaEntanglers_ok {n layer : ℕ} {pre : String} {ent : IIAEntangler} (hd : ∀ e p, ent = .digital e p → e ≠ .other)
    (hs : ∀ gen, ent = .sdaqc gen → gen.isQubitHamiltonian = true) :
    iiaEntanglers n layer pre ent = .ok ((iiaEnts n layer pre ent).map fun p => .leaf p none) := by
  suffices h : ∃ bs, iiaEntanglers n layer pre ent = .ok bs by
    obtain ⟨bs, h⟩ := h
    rw [h, iiaEntanglers_eq h]
  cases ent with
  | digital e p =>
    have he := hd e p rfl
    cases p <;> simp only [iiaEntanglers, if_neg he] <;>
      exact mapM_ok_of_forall fun q _ => ⟨_, entanglerBlock_ok.2 ⟨he, rfl⟩⟩
  | sdaqc gen =>
    rw [iiaEntanglers, if_pos (hs gen rfl)]
    exact ⟨_, rfl⟩

/-- One layer of the ansatz. -/
theorem iiaLayer_ok (ho : SetOrder ord) {n : ℕ} (hn : n ≠ 0) {pre : String} {ops : List RotGate} {ent : IIAEntangler}
    (hd : ∀ e p, ent = .digital e p → e ≠ .other)
    (hs : ∀ gen, ent = .sdaqc gen → gen.isQubitHamiltonian = true) (layer : ℕ) :
    ∃ b, iiaLayer ord n pre ops ent layer = .ok b := by
  obtain ⟨l, hl⟩ : ∃ bs, iiaLeft ord n layer (pre ++ "_α") ops = .ok bs :=
    mapM_ok_of_forall fun g _ => ⟨_, iiaKron_ok ho hn ..⟩
  obtain ⟨r, hr⟩ : ∃ bs, iiaRight ord n layer (pre ++ "_β") ops = .ok bs :=
    mapM_ok_of_forall fun g _ => ⟨_, iiaKron_ok ho hn ..⟩
  rw [iiaLayer, hl, hr, iiaEntanglers_ok hd hs, iiaKron_ok ho hn]
  exact ⟨_, rfl⟩

/-- The ansatz exists for all sizes and depths. -/
theorem iia_ok (ho : SetOrder ord) {n : ℕ} (hn : n ≠ 0) (depth : ℕ) {pre : String} {ops : List RotGate}
    {ent : IIAEntangler} (hd : ∀ e p, ent = .digital e p → e ≠ .other)
    (hs : ∀ gen, ent = .sdaqc gen → gen.isQubitHamiltonian = true) :
    ∃ b, iia ord n depth pre ops ent = .ok b := by
  obtain ⟨bs, hb⟩ : ∃ bs, (List.range depth).mapM (iiaLayer ord n pre ops ent) = .ok bs :=
    mapM_ok_of_forall fun l _ => iiaLayer_ok ho hn hd hs l
  rw [iia, hb]
  exact ⟨_, rfl⟩

/-- **C41**, counterexample: six qubits, twelve layers, the default rotations: the rotation RY on qubit 5 in layer 1 and
the rotation RX on qubit 1 in layer 11 have the same parameter. -/
theorem C41_counterexample_iia (ho : SetOrder ord) (pre : String) :
    ∃ b, iia ord 6 12 pre [.RX, .RY] (.digital .CNOT false) = .ok b ∧
      ∃ p ∈ leaves b, ∃ p' ∈ leaves b, p ≠ p' ∧ ∃ x, x ∈ primNames p ∧ x ∈ primNames p' := by
  obtain ⟨b, hb⟩ := iia_ok ho (n := 6) (by simp) 12 (pre := pre) (ops := [.RX, .RY])
    (ent := .digital .CNOT false) (by rintro e p ⟨⟩; simp) (by simp)
  refine ⟨b, hb, iiaRot 1 (pre ++ "_α") .RY 5 (5 + 6 * 1), ?_, iiaRot 11 (pre ++ "_α") .RX 1 (1 + 6 * 0), ?_, ?_, ?_⟩
  · rw [leaves, gather_iia ho hb, List.mem_flatMap]
    refine ⟨1, by simp, ?_⟩
    simp only [List.mem_append]
    refine .inl (.inl (.inl (.inl ?_)))
    exact List.mem_flatMap.2 ⟨(.RY, 1), by simp, List.mem_flatMap.2 ⟨5, by simp, by simp⟩⟩
  · rw [leaves, gather_iia ho hb, List.mem_flatMap]
    refine ⟨11, by simp, ?_⟩
    simp only [List.mem_append]
    refine .inl (.inl (.inl (.inl ?_)))
    exact List.mem_flatMap.2 ⟨(.RX, 0), by simp, List.mem_flatMap.2 ⟨1, by simp, by simp⟩⟩
  · intro h
    simp [iiaRot] at h
  · refine ⟨_, by rw [names_iiaRot]; exact List.mem_singleton_self _, ?_⟩
    rw [names_iiaRot, List.mem_singleton, String.append_assoc (s₁ := pre ++ "_α" ++ "_"),
      String.append_assoc (s₁ := pre ++ "_α" ++ "_")]
    rfl

/-! ### The initial values -/

/-- The condition on the values of the parameters under which the ansatz is the identity. -/
structure InitialValues (ρ : Env) (n depth : ℕ) (pre : String) (nops : ℕ) (ent : IIAEntangler) : Prop where
  opposite : ∀ l < depth, ∀ k < n * nops, ρ.var (pre ++ "_β" ++ "_" ++ toString l ++ toString k) =
    -ρ.var (pre ++ "_α" ++ "_" ++ toString l ++ toString k)
  centre : ∀ l < depth, ∀ k < n, ρ.var (pre ++ "_γ" ++ "_" ++ toString l ++ toString k) = 0
  digital : ∀ e p, ent = .digital e p → e.parametric = true → ∀ l < depth, ∀ q < (if p then n else n - 1),
    ρ.var (pre ++ "_θ_ent_" ++ "_" ++ toString l ++ toString q) = 0
  analog : ∀ gen, ent = .sdaqc gen → ∀ l < depth, ρ.var (pre ++ "_ent_t" ++ "_" ++ toString l) = 0

/-! ### Inverse lists of operators -/

theorem opProd_reverse_mul (l : List (Oper N)) (h : ∀ M ∈ l, M * M = 1) : opProd l.reverse * opProd l = 1 := by
  induction l with
  | nil => simp [opProd]
  | cons M l ih =>
    have h1 := ih fun K hK => h K (by simp [hK])
    rw [List.reverse_cons, opProd_append, opProd_singleton, opProd]
    calc M * opProd l.reverse * (opProd l * M) = M * (opProd l.reverse * opProd l) * M := by
          simp only [Matrix.mul_assoc]
      _ = 1 := by rw [h1, Matrix.mul_one, h M (by simp)]

theorem opProd_reverse_map_mul {β : Type} (l : List β) (A B : β → Oper N) (h : ∀ x ∈ l, B x * A x = 1) :
    opProd (l.reverse.map B) * opProd (l.map A) = 1 := by
  induction l with
  | nil => simp [opProd]
  | cons x l ih =>
    have h1 := ih fun K hK => h K (by simp [hK])
    rw [List.reverse_cons, List.map_append, opProd_append, List.map_singleton, opProd_singleton, List.map_cons, opProd]
    calc B x * opProd (l.reverse.map B) * (opProd (l.map A) * A x)
        = B x * (opProd (l.reverse.map B) * opProd (l.map A)) * A x := by simp only [Matrix.mul_assoc]
      _ = 1 := by rw [h1, Matrix.mul_one, h x (by simp)]

theorem opProd_commute_right (l : List (Oper N)) (M : Oper N) (h : ∀ K ∈ l, M * K = K * M) :
    M * opProd l = opProd l * M := by
  induction l with
  | nil => simp [opProd]
  | cons K l ih =>
    rw [opProd, ← Matrix.mul_assoc, ih fun K hK => h K (by simp [hK]), Matrix.mul_assoc, h K (by simp),
      Matrix.mul_assoc]

/-- Products of operators on different qubits. -/
theorem opProd_embed_mul (l : List ℕ) (hl : l.Nodup) (A B : ℕ → Matrix Bool Bool ℂ) (hq : ∀ q ∈ l, q < N)
    (h : ∀ q ∈ l, B q * A q = 1) :
    opProd (l.map fun q => (embed1 q (B q) : Oper N)) * opProd (l.map fun q => embed1 q (A q)) = 1 := by
  induction l with
  | nil => simp [opProd]
  | cons q l ih =>
    have hl' := List.nodup_cons.1 hl
    have h1 := ih hl'.2 (fun p hp => hq p (by simp [hp])) fun p hp => h p (by simp [hp])
    have hc : (embed1 q (B q) : Oper N) * opProd (l.map fun q => embed1 q (A q)) =
        opProd (l.map fun q => embed1 q (A q)) * embed1 q (B q) := by
      apply opProd_commute_right
      intro K hK
      obtain ⟨p, hp, rfl⟩ := List.mem_map.1 hK
      exact embed1_commute_of_ne (by rintro rfl; exact hl'.1 hp) _ _
    rw [List.map_cons, List.map_cons, opProd, opProd]
    calc opProd (l.map fun q => (embed1 q (B q) : Oper N)) * embed1 q (B q) *
          (opProd (l.map fun q => embed1 q (A q)) * embed1 q (A q))
        = opProd (l.map fun q => (embed1 q (B q) : Oper N)) *
          (embed1 q (B q) * opProd (l.map fun q => embed1 q (A q))) * embed1 q (A q) := by
          simp only [Matrix.mul_assoc]
      _ = (opProd (l.map fun q => (embed1 q (B q) : Oper N)) * opProd (l.map fun q => embed1 q (A q))) *
          (embed1 q (B q) * embed1 q (A q)) := by
          rw [hc]; simp only [Matrix.mul_assoc]
      _ = 1 := by rw [h1, Matrix.one_mul, embed1_mul (hq q (by simp)), h q (by simp), embed1_one]

/-- A controlled self-inverse operation is self-inverse. -/
theorem controlled_sq {c t : ℕ} (ht : t < N) (hct : c ≠ t) (U : Matrix Bool Bool ℂ) (hU : U * U = 1) :
    controlled [c] (embed1 t U : Oper N) * controlled [c] (embed1 t U) = 1 := by
  rw [controlled_mul [c] _ _ {q | q = t} (embed1_actsOn t U) (embed1_actsOn t U) (by simpa using hct),
    embed1_mul ht, hU, embed1_one, controlled_one]

theorem mat1_X_sq : mat1 .X * mat1 .X = 1 := by
  ext a b
  rw [Matrix.mul_apply, Fintype.sum_bool]
  cases a <;> cases b <;> simp [mat1, ind, Matrix.one_apply]

theorem mat1_Z_sq : mat1 .Z * mat1 .Z = 1 := by
  ext a b
  rw [Matrix.mul_apply, Fintype.sum_bool]
  cases a <;> cases b <;> simp [mat1, Matrix.one_apply]

/-- The entangling gates at the initial values are self-inverse. -/
theorem entGate_sq (ρ : Env) (e : Entangler) {c t : ℕ} (ht : t < N) (hct : c ≠ t) (name : String)
    (h : e.parametric = true → ρ.var name = 0) :
    (gateDen ρ (entGate e c t name) : Oper N) * gateDen ρ (entGate e c t name) = 1 := by
  have hrot : ∀ g : RotGate, ρ.var name = 0 →
      controlled [c] (embed1 t (matRot (eval ρ (.var name)) g) : Oper N) = 1 := by
    intro g h0
    rw [eval, h0, matRot_zero, embed1_one, controlled_one]
  cases e
  · exact controlled_sq ht hct _ mat1_X_sq
  · exact controlled_sq ht hct _ mat1_Z_sq
  · simp only [entGate, Gate.crx, gateDen, hrot _ (h rfl), Matrix.one_mul]
  · simp only [entGate, Gate.cry, gateDen, hrot _ (h rfl), Matrix.one_mul]
  · simp only [entGate, Gate.crz, gateDen, hrot _ (h rfl), Matrix.one_mul]
  · simp only [entGate, Gate.cphase, gateDen, hrot _ (h rfl), Matrix.one_mul]
  · exact controlled_sq ht hct _ mat1_X_sq

theorem sem_iiaKron (ho : SetOrder ord) (ρ : Env) {n layer : ℕ} {pre : String} {g : RotGate} {idx : ℕ} {b : Block Prim}
    (h : iiaKron ord n layer pre g idx = .ok b) :
    sem (primSem N ρ ord ho) ρ b = opProd ((List.range n).map fun q =>
      embed1 q (matRot (ρ.var (pre ++ "_" ++ toString layer ++ toString (q + n * idx))) g)) := by
  rw [iiaKron_eq ho h, sem_kron, List.map_map]
  rfl

theorem index_lt {n m q i : ℕ} (hq : q < n) (hi : i < m) : q + n * i < n * m := by
  calc q + n * i < n + n * i := by omega
    _ = n * (i + 1) := by ring
    _ ≤ n * m := Nat.mul_le_mul_left _ hi

/-- Every layer is the identity at the initial values. -/
theorem sem_iiaLayer (ho : SetOrder ord) (ρ : Env) {n depth layer : ℕ} {pre : String} {ops : List RotGate}
    {ent : IIAEntangler} (hN : n ≤ N) (hper : ∀ e, ent = .digital e true → n ≠ 1)
    (hi : InitialValues ρ n depth pre ops.length ent) (hl : layer < depth) {b : Block Prim}
    (h : iiaLayer ord n pre ops ent layer = .ok b) : sem (primSem N ρ ord ho) ρ b = 1 := by
  unfold iiaLayer at h
  obtain ⟨left, h1, h⟩ := bind_ok h
  obtain ⟨ents, h2, h⟩ := bind_ok h
  obtain ⟨centre, h3, h⟩ := bind_ok h
  obtain ⟨right, h4, h⟩ := bind_ok h
  have := pure_ok h
  subst this
  rw [iiaRight_eq] at h4
  -- the centre
  have hc : sem (primSem N ρ ord ho) ρ centre = 1 := by
    rw [sem_iiaKron ho ρ h3]
    have : ∀ q ∈ List.range n, (embed1 q (matRot (ρ.var (pre ++ "_γ" ++ "_" ++ toString layer ++
        toString (q + n * 0))) .RX) : Oper N) = 1 := by
      intro q hq
      rw [Nat.mul_zero, Nat.add_zero, hi.centre layer hl q (List.mem_range.1 hq), matRot_zero, embed1_one]
    exact opProd_map_one _ _ this
  -- the entanglers
  have he : opProd (ents.reverse.map (sem (primSem N ρ ord ho) ρ)) *
      opProd (ents.map (sem (primSem N ρ ord ho) ρ)) = 1 := by
    rw [List.map_reverse]
    apply opProd_reverse_mul
    intro M hM
    rw [iiaEntanglers_eq h2, List.map_map] at hM
    obtain ⟨p, hp, rfl⟩ := List.mem_map.1 hM
    simp only [Function.comp, sem_leaf]
    change primDen ρ p * primDen ρ p = 1
    cases ent with
    | digital e pd =>
      obtain ⟨q, hq, rfl⟩ := List.mem_map.1 hp
      rw [List.mem_range] at hq
      rw [primDen]
      refine entGate_sq ρ e ?_ ?_ _ fun hpar => hi.digital e pd rfl hpar layer hl q hq
      · cases pd
        · simp only [Bool.false_eq_true, if_false] at hq ⊢; omega
        · simp only [if_true] at hq ⊢
          exact lt_of_lt_of_le (Nat.mod_lt _ (by omega)) hN
      · cases pd
        · simp
        · simp only [if_true] at hq ⊢
          have := hper e rfl
          rcases Nat.lt_or_ge (q + 1) n with h | h
          · rw [Nat.mod_eq_of_lt h]; omega
          · have : q + 1 = n := by omega
            rw [this, Nat.mod_self]; omega
    | sdaqc gen =>
      obtain rfl := List.mem_singleton.1 hp
      rw [primDen, eval, hi.analog gen rfl layer hl, evolution_zero, Matrix.one_mul]
  -- the rotations
  have hr : opProd (right.map (sem (primSem N ρ ord ho) ρ)) * opProd (left.map (sem (primSem N ρ ord ho) ρ)) = 1 := by
    have hmap : ∀ (s : String) (l : List (RotGate × ℕ)) (bs : List (Block Prim)),
        l.mapM (fun g => iiaKron ord n layer (pre ++ s) g.1 g.2) = .ok bs →
        bs.map (sem (primSem N ρ ord ho) ρ) = l.map fun g => opProd ((List.range n).map fun q =>
          embed1 q (matRot (ρ.var (pre ++ s ++ "_" ++ toString layer ++ toString (q + n * g.2))) g.1)) := by
      intro s l
      induction l with
      | nil =>
        intro bs hb
        have : [] = bs := by rw [List.mapM_nil] at hb; exact pure_ok hb
        subst this; rfl
      | cons g l ih =>
        intro bs hb
        rw [List.mapM_cons] at hb
        obtain ⟨b, hb1, hb⟩ := bind_ok hb
        obtain ⟨bs', hb2, hb⟩ := bind_ok hb
        have := pure_ok hb
        subst this
        rw [List.map_cons, List.map_cons, ih _ hb2, sem_iiaKron ho ρ hb1]
    rw [hmap _ _ _ h4, hmap _ _ _ h1]
    apply opProd_reverse_map_mul
    intro g hg
    apply opProd_embed_mul _ List.nodup_range
    · intro q hq
      exact lt_of_lt_of_le (List.mem_range.1 hq) hN
    · intro q hq
      have hg2 : g.2 < ops.length := by
        have := List.snd_lt_of_mem_zipIdx hg
        omega
      rw [hi.opposite layer hl _ (index_lt (List.mem_range.1 hq) hg2), matRot_neg_mul]
  rw [tagChain, sem_chain]
  simp only [List.map_append, List.map_cons, List.map_nil, opProd_append, opProd_singleton, chainOf, sem_chain, hc,
    Matrix.one_mul]
  rw [← Matrix.mul_assoc (opProd (ents.reverse.map _)), he, Matrix.one_mul, hr]

/-- **C43**: with the initial values of its parameters the ansatz is the identity. -/
theorem C43_identity (ho : SetOrder ord) (ρ : Env) {n depth : ℕ} {pre : String} {ops : List RotGate}
    {ent : IIAEntangler} (hN : n ≤ N) (hper : ∀ e, ent = .digital e true → n ≠ 1)
    (hi : InitialValues ρ n depth pre ops.length ent) {b : Block Prim} (h : iia ord n depth pre ops ent = .ok b) :
    sem (primSem N ρ ord ho) ρ b = 1 := by
  unfold iia at h
  obtain ⟨ls, hl, h⟩ := bind_ok h
  have := pure_ok h
  subst this
  rw [chainOf, sem_chain]
  have : ∀ b ∈ ls, sem (primSem N ρ ord ho) ρ b = 1 := by
    intro b hb
    obtain ⟨l, hl1, hl2⟩ := (mapM_ok_mem hl).2 b hb
    exact sem_iiaLayer ho ρ hN hper hi (List.mem_range.1 hl1) hl2
  exact opProd_map_one _ _ this

/-! ### The values given by the constructor -/

theorem lastValue_append (a b : List (String × ℚ)) (x : String) :
    lastValue (a ++ b) x = (lastValue b x).or (lastValue a x) := by
  rw [lastValue, List.reverse_append, List.lookup_append, lastValue, lastValue]

theorem mem_of_lastValue {l : List (String × ℚ)} {x : String} {v : ℚ} (h : lastValue l x = some v) : (x, v) ∈ l := by
  rw [lastValue] at h
  obtain ⟨l₁, l₂, h, -⟩ := List.lookup_eq_some_iff.1 h
  have : (x, v) ∈ l.reverse := by rw [h]; simp
  simpa using this

theorem lastValue_isSome {l : List (String × ℚ)} {x : String} {v : ℚ} (h : (x, v) ∈ l) :
    (lastValue l x).isSome = true := by
  rw [lastValue, List.lookup_isSome_iff]
  exact ⟨(x, v), by simpa using h, by simp⟩

theorem lastValue_eq_none {l : List (String × ℚ)} {x : String} (h : ∀ v, (x, v) ∉ l) : lastValue l x = none := by
  cases hx : lastValue l x with
  | none => rfl
  | some v => exact absurd (mem_of_lastValue hx) (h v)

/-- The parameters of a layer by their names. -/
theorem mem_layerItems {n : ℕ} {pre : String} {nops : ℕ} {ent : IIAEntangler} {alpha : ℕ → ℚ} {l : ℕ} {t s : String}
    {v : ℚ} (hs : '_' ∉ s.toList) (h : (pre ++ t ++ "_" ++ s, v) ∈ iiaLayerItems n pre nops ent alpha l) :
    (t = "_α" ∧ ∃ k < n * nops, s = toString l ++ toString k ∧ v = alpha k) ∨
    (t = "_β" ∧ ∃ k < n * nops, s = toString l ++ toString k ∧ v = -alpha k) ∨ (t ≠ "_α" ∧ t ≠ "_β" ∧ v = 0) := by
  have key : ∀ {t' s' : String}, '_' ∉ s'.toList → pre ++ t' ++ "_" ++ s' = pre ++ t ++ "_" ++ s →
      t' = t ∧ s' = s := by
    intro t' s' hs' e
    obtain ⟨h1, h2⟩ := suffix_inj hs' hs e
    exact ⟨(String.append_right_inj _).1 h1, h2⟩
  have key2 : ∀ {t' : String} {k : ℕ}, pre ++ t' ++ "_" ++ toString l ++ toString k = pre ++ t ++ "_" ++ s →
      t' = t ∧ toString l ++ toString k = s := by
    intro t' k e
    rw [String.append_assoc (s₁ := pre ++ t' ++ "_")] at e
    exact key (pair_underscore _ _) e
  rw [iiaLayerItems] at h
  simp only [List.mem_append, List.mem_map, List.mem_range, Prod.mk.injEq] at h
  rcases h with ((⟨k, hk, e, rfl⟩ | h) | ⟨k, hk, e, rfl⟩) | ⟨k, hk, e, rfl⟩
  · obtain ⟨rfl, rfl⟩ := key2 e
    exact .inl ⟨rfl, k, hk, rfl, rfl⟩
  · have : v = 0 ∧ (t = "_θ_ent_" ∨ t = "_ent_t") := by
      cases ent with
      | digital e p =>
        rw [iiaEntItems] at h
        split at h
        · simp only [List.mem_map, Prod.mk.injEq] at h
          obtain ⟨k, -, e, rfl⟩ := h
          exact ⟨rfl, .inl (key2 e).1.symm⟩
        · simp at h
      | sdaqc gen =>
        rw [iiaEntItems, List.mem_singleton, Prod.mk.injEq] at h
        exact ⟨h.2, .inr (key (underscore_not_mem _) h.1.symm).1.symm⟩
    obtain ⟨rfl, rfl | rfl⟩ := this
    · exact .inr (.inr ⟨by decide, by decide, rfl⟩)
    · exact .inr (.inr ⟨by decide, by decide, rfl⟩)
  · obtain ⟨rfl, -⟩ := key2 e
    exact .inr (.inr ⟨by decide, by decide, rfl⟩)
  · obtain ⟨rfl, rfl⟩ := key2 e
    exact .inr (.inl ⟨rfl, k, hk, rfl, rfl⟩)

theorem mem_layer_alpha (n : ℕ) (pre : String) {nops : ℕ} (ent : IIAEntangler) (alpha : ℕ → ℚ) (l : ℕ) {k : ℕ}
    (hk : k < n * nops) :
    (pre ++ "_α" ++ "_" ++ (toString l ++ toString k), alpha k) ∈ iiaLayerItems n pre nops ent alpha l := by
  rw [iiaLayerItems]
  simp only [List.mem_append, List.mem_map, List.mem_range, Prod.mk.injEq]
  exact .inl (.inl (.inl ⟨k, hk, by rw [String.append_assoc (s₁ := pre ++ "_α" ++ "_")], rfl⟩))

theorem mem_layer_beta (n : ℕ) (pre : String) {nops : ℕ} (ent : IIAEntangler) (alpha : ℕ → ℚ) (l : ℕ) {k : ℕ}
    (hk : k < n * nops) :
    (pre ++ "_β" ++ "_" ++ (toString l ++ toString k), -alpha k) ∈ iiaLayerItems n pre nops ent alpha l := by
  rw [iiaLayerItems]
  simp only [List.mem_append, List.mem_map, List.mem_range, Prod.mk.injEq]
  exact .inr ⟨k, hk, by rw [String.append_assoc (s₁ := pre ++ "_β" ++ "_")], rfl⟩

/-- In every layer the values of the right rotations are opposite to those of the left. -/
theorem lastValue_layer (n : ℕ) (pre : String) (nops : ℕ) (ent : IIAEntangler) (alpha : ℕ → ℚ) (l : ℕ) {s : String}
    (hs : '_' ∉ s.toList) :
    lastValue (iiaLayerItems n pre nops ent alpha l) (pre ++ "_β" ++ "_" ++ s) =
      (lastValue (iiaLayerItems n pre nops ent alpha l) (pre ++ "_α" ++ "_" ++ s)).map fun v => -v := by
  have uniq : ∀ {k k' : ℕ}, toString l ++ toString k = toString l ++ toString k' → k = k' :=
    fun h => toString_inj ((String.append_right_inj _).1 h)
  by_cases h : ∃ k < n * nops, s = toString l ++ toString k
  · obtain ⟨k, hk, rfl⟩ := h
    obtain ⟨v, hv⟩ := Option.isSome_iff_exists.1 (lastValue_isSome (mem_layer_alpha n pre ent alpha l hk))
    obtain ⟨w, hw⟩ := Option.isSome_iff_exists.1 (lastValue_isSome (mem_layer_beta n pre ent alpha l hk))
    rw [hv, hw, Option.map_some]
    congr 1
    rcases mem_layerItems hs (mem_of_lastValue hv) with ⟨-, i, -, hi, rfl⟩ | ⟨h, -⟩ | ⟨h, -⟩
    · rcases mem_layerItems hs (mem_of_lastValue hw) with ⟨h, -⟩ | ⟨-, j, -, hj, rfl⟩ | ⟨-, h, -⟩
      · exact absurd h (by decide)
      · rw [uniq (hi.symm.trans hj)]
      · exact absurd rfl h
    · exact absurd h (by decide)
    · exact absurd rfl h
  · rw [lastValue_eq_none, lastValue_eq_none, Option.map_none]
    · intro v hv
      rcases mem_layerItems hs hv with ⟨-, k, hk, e, -⟩ | ⟨h', -⟩ | ⟨h', -⟩
      · exact h ⟨k, hk, e⟩
      · exact absurd h' (by decide)
      · exact absurd rfl h'
    · intro v hv
      rcases mem_layerItems hs hv with ⟨h', -⟩ | ⟨-, k, hk, e, -⟩ | ⟨-, h', -⟩
      · exact absurd h' (by decide)
      · exact h ⟨k, hk, e⟩
      · exact absurd rfl h'

theorem lastValue_items (n depth : ℕ) (pre : String) (nops : ℕ) (ent : IIAEntangler) (alpha : ℕ → ℕ → ℚ) {s : String}
    (hs : '_' ∉ s.toList) :
    lastValue (iiaItems n depth pre nops ent alpha) (pre ++ "_β" ++ "_" ++ s) =
      (lastValue (iiaItems n depth pre nops ent alpha) (pre ++ "_α" ++ "_" ++ s)).map fun v => -v := by
  rw [iiaItems]
  induction depth with
  | zero => rfl
  | succ d ih =>
    rw [List.range_succ, List.flatMap_append, List.flatMap_singleton, lastValue_append, lastValue_append, ih,
      lastValue_layer n pre nops ent _ d hs]
    cases lastValue (iiaLayerItems n pre nops ent (alpha d) d) (pre ++ "_α" ++ "_" ++ s) <;> simp

/-- The values of the parameters of a model built from the ansatz. -/
noncomputable def initialEnv (n depth : ℕ) (pre : String) (nops : ℕ) (ent : IIAEntangler) (alpha : ℕ → ℕ → ℚ)
    (ρ : Env) : Env :=
  { ρ with var := fun x => match lastValue (iiaItems n depth pre nops ent alpha) x with
      | some v => (v : ℂ)
      | none => ρ.var x }

theorem lastValue_other {n depth : ℕ} {pre : String} {nops : ℕ} {ent : IIAEntangler} {alpha : ℕ → ℕ → ℚ}
    {t s : String} (hs : '_' ∉ s.toList) (h1 : t ≠ "_α") (h2 : t ≠ "_β") {v : ℚ}
    (h : (pre ++ t ++ "_" ++ s, v) ∈ iiaItems n depth pre nops ent alpha) :
    lastValue (iiaItems n depth pre nops ent alpha) (pre ++ t ++ "_" ++ s) = some 0 := by
  obtain ⟨w, hw⟩ := Option.isSome_iff_exists.1 (lastValue_isSome h)
  rw [hw]
  obtain ⟨l, -, hl⟩ := List.mem_flatMap.1 (mem_of_lastValue hw)
  rcases mem_layerItems hs hl with ⟨h, -⟩ | ⟨h, -⟩ | ⟨-, -, h⟩
  · exact absurd h h1
  · exact absurd h h2
  · rw [h]

/-- The values given by the constructor satisfy the condition, whatever the random numbers are and also if names
collide. -/
theorem initialValues (n depth : ℕ) (pre : String) (nops : ℕ) (ent : IIAEntangler) (alpha : ℕ → ℕ → ℚ) (ρ : Env) :
    InitialValues (initialEnv n depth pre nops ent alpha ρ) n depth pre nops ent where
  opposite := by
    intro l hl k hk
    simp only [initialEnv]
    rw [String.append_assoc (s₁ := pre ++ "_β" ++ "_"), String.append_assoc (s₁ := pre ++ "_α" ++ "_"),
      lastValue_items n depth pre nops ent alpha (pair_underscore l k)]
    have hmem : (pre ++ "_α" ++ "_" ++ (toString l ++ toString k), alpha l k) ∈ iiaItems n depth pre nops ent alpha :=
      List.mem_flatMap.2 ⟨l, List.mem_range.2 hl, mem_layer_alpha n pre ent (alpha l) l hk⟩
    obtain ⟨v, hv⟩ := Option.isSome_iff_exists.1 (lastValue_isSome hmem)
    rw [hv]
    simp
  centre := by
    intro l hl k hk
    simp only [initialEnv]
    rw [String.append_assoc (s₁ := pre ++ "_γ" ++ "_"), lastValue_other (t := "_γ") (v := 0) (pair_underscore l k)
      (by decide) (by decide)]
    · simp
    · refine List.mem_flatMap.2 ⟨l, List.mem_range.2 hl, ?_⟩
      rw [iiaLayerItems]
      simp only [List.mem_append, List.mem_map, List.mem_range, Prod.mk.injEq]
      exact .inl (.inr ⟨k, hk, by rw [String.append_assoc (s₁ := pre ++ "_γ" ++ "_")], trivial⟩)
  digital := by
    rintro e p rfl hpar l hl k hk
    simp only [initialEnv]
    rw [String.append_assoc (s₁ := pre ++ "_θ_ent_" ++ "_"), lastValue_other (t := "_θ_ent_") (v := 0)
      (pair_underscore l k) (by decide) (by decide)]
    · simp
    · refine List.mem_flatMap.2 ⟨l, List.mem_range.2 hl, ?_⟩
      rw [iiaLayerItems]
      simp only [List.mem_append]
      refine .inl (.inl (.inr ?_))
      rw [iiaEntItems, if_pos hpar, List.mem_map]
      exact ⟨k, List.mem_range.2 hk, by rw [String.append_assoc (s₁ := pre ++ "_θ_ent_" ++ "_")]⟩
  analog := by
    rintro gen rfl l hl
    simp only [initialEnv]
    rw [lastValue_other (t := "_ent_t") (v := 0) (underscore_not_mem l) (by decide) (by decide)]
    · simp
    · refine List.mem_flatMap.2 ⟨l, List.mem_range.2 hl, ?_⟩
      rw [iiaLayerItems]
      simp only [List.mem_append]
      exact .inl (.inl (.inr (List.mem_singleton.2 rfl)))

/-- **C43**: the ansatz with the values given by the constructor is the identity, for all sizes, depths, rotations,
entanglers and random numbers. Only the periodic ansatz on one qubit is excluded: its entangler would have the same
qubit as control and target. -/
theorem C43_initial_identity (ho : SetOrder ord) (ρ : Env) {n depth : ℕ} {pre : String} {ops : List RotGate}
    {ent : IIAEntangler} (alpha : ℕ → ℕ → ℚ) (hN : n ≤ N) (hper : ∀ e, ent = .digital e true → n ≠ 1) {b : Block Prim}
    (h : iia ord n depth pre ops ent = .ok b) :
    sem (primSem N (initialEnv n depth pre ops.length ent alpha ρ) ord ho)
      (initialEnv n depth pre ops.length ent alpha ρ) b = 1 :=
  C43_identity ho _ hN hper (initialValues n depth pre ops.length ent alpha ρ) h

/-- **C43**, construction: the ansatz is built for every non-empty register and valid entangler. -/
theorem C43_total (ho : SetOrder ord) {n : ℕ} (hn : n ≠ 0) (depth : ℕ) (pre : String) (ops : List RotGate)
    (ent : IIAEntangler) (hd : ∀ e p, ent = .digital e p → e ≠ .other)
    (hs : ∀ gen, ent = .sdaqc gen → gen.isQubitHamiltonian = true) :
    ∃ b, iia ord n depth pre ops ent = .ok b := iia_ok ho hn depth hd hs

/-- The ansatz is no constant: its gates depend on the random numbers, for instance the first rotation. -/
example (ho : SetOrder ord) : ∃ b, iia ord 3 2 "p" [.RX, .RY] (.digital .CRZ true) = .ok b ∧
    iiaRot 0 "p_α" .RX 0 0 ∈ leaves b := by
  obtain ⟨b, hb⟩ := iia_ok ho (n := 3) (by simp) 2 (pre := "p") (ops := [.RX, .RY])
    (ent := .digital .CRZ true) (by rintro e p ⟨⟩; simp) (by simp)
  refine ⟨b, hb, ?_⟩
  rw [leaves, gather_iia ho hb, List.mem_flatMap]
  refine ⟨0, by simp, ?_⟩
  simp only [List.mem_append]
  refine .inl (.inl (.inl (.inl ?_)))
  exact List.mem_flatMap.2 ⟨(.RX, 0), by simp, List.mem_flatMap.2 ⟨0, by simp, List.mem_singleton.2 rfl⟩⟩

end Qadence.Ansatz
