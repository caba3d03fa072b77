import Verif.Proofs.Ansatz
import Verif.Proofs.Names
import Verif.Props.Hamiltonian

/-!
# Parameter names of the ansätze (C41)
-/

namespace Qadence.Ansatz

open Spec Block Names

variable {ord : List ℕ → List ℕ}

theorem names_entGate (e : Entangler) (c t : ℕ) (s : String) :
    gateNames (entGate e c t s) = if e.parametric then [s] else [] := by
  cases e <;> rfl

/-- The names `p_c, p_(c+1), ..., p_(c+k-1)`. -/
def numbered (p : String) (c k : ℕ) : List String := (List.range' c k).map fun i => p ++ "_" ++ toString i

theorem numbered_append (p : String) (c k l : ℕ) : numbered p c k ++ numbered p (c + k) l = numbered p c (k + l) := by
  rw [numbered, numbered, numbered, ← List.map_append, List.range'_append_1]

theorem numbered_nodup (p : String) (c k : ℕ) : (numbered p c k).Nodup := by
  refine (List.nodup_map_iff_inj_on List.nodup_range').2 fun i _ j _ h => (numbered_inj h).2

theorem numbered_disjoint {p q : String} (h : p ≠ q) (c k d l : ℕ) : (numbered p c k).Disjoint (numbered q d l) := by
  intro x hx hy
  obtain ⟨i, -, rfl⟩ := List.mem_map.1 hx
  obtain ⟨j, -, hj⟩ := List.mem_map.1 hy
  exact h (numbered_inj hj).1.symm

theorem names_rotKron (ho : SetOrder ord) {pre : String} {support : List ℕ} {n : ℕ} {g : RotGate} {c : ℕ}
    {b : Block Prim} (h : rotKron ord pre support n g c = .ok b) : names b = numbered pre c n := by
  rw [names, rotKron_gather ho h, numbered, List.range'_eq_map_range, List.map_map]
  simp only [primNames, gateNames, Expr.freeSymbols, List.flatMap_singleton']
  rw [← List.map_eq_flatMap]
  rfl

theorem names_rotKrons (ho : SetOrder ord) {pre : String} {support : List ℕ} {n : ℕ} {gs : List RotGate} {c : ℕ}
    {bs : List (Block Prim)} (h : rotKrons ord pre support n gs c = .ok bs) :
    bs.flatMap names = numbered pre c (n * gs.length) := by
  induction gs generalizing c bs with
  | nil => cases h; simp [numbered]
  | cons g gs ih =>
    rw [rotKrons] at h
    obtain ⟨b, hb, h⟩ := bind_ok h
    obtain ⟨rest, hr, h⟩ := bind_ok h
    have := pure_ok h
    subst this
    rw [List.flatMap_cons, names_rotKron ho hb, ih hr, numbered_append, List.length_cons]
    congr 1
    ring

theorem names_comp (k : CKind) (bs : List (Block Prim)) (t) : names (.comp k bs t) = bs.flatMap names :=
  gather_comp _ _ k bs t

theorem names_rotationsDigital (ho : SetOrder ord) {pre : String} {support : List ℕ} {n : ℕ} {gs : List RotGate}
    {d c : ℕ} {bs : List (Block Prim)} (h : rotationsDigital ord pre support n gs d c = .ok bs) :
    bs.flatMap names = numbered pre c (d * (n * gs.length)) := by
  induction d generalizing c bs with
  | zero => cases h; simp [numbered]
  | succ d ih =>
    rw [rotationsDigital] at h
    obtain ⟨ks, hk, h⟩ := bind_ok h
    obtain ⟨rest, hr, h⟩ := bind_ok h
    have := pure_ok h
    subst this
    rw [List.flatMap_cons, chainOf, names_comp, names_rotKrons ho hk, ih hr, numbered_append]
    congr 1
    ring

theorem ent_prefix (pre : String) : pre ++ "_ent_" = pre ++ "_ent" ++ "_" := by
  rw [String.append_assoc]; rfl

theorem t_prefix (pre : String) : pre ++ "_t_" = pre ++ "_t" ++ "_" := by
  rw [String.append_assoc]; rfl

theorem names_entKron (ho : SetOrder ord) {pre : String} {support : List ℕ} {e : Entangler} {ps : List (ℕ × ℕ)} {c : ℕ}
    {b : Block Prim} (h : entKron ord pre support e ps c = .ok b) :
    names b = if e.parametric then numbered (pre ++ "_ent") c ps.length else [] := by
  rw [names, entKron_gather ho h]
  simp only [primNames, names_entGate]
  split
  · rw [← List.map_eq_flatMap, numbered, ← List.zipIdx_map_snd, List.map_map]
    refine List.map_congr_left fun p _ => ?_
    rw [Function.comp, ent_prefix]
  · simp

/-- Number of parametrised gates of the entangling layers. -/
theorem names_heaEntLayer (ho : SetOrder ord) {pre : String} {support : List ℕ} {n : ℕ} {p : Bool} {e : Entangler}
    {c : ℕ} {l : Block Prim × ℕ} (h : heaEntLayer ord pre support n p e c = .ok l) :
    ∃ k, l.2 = c + k ∧ names l.1 = if e.parametric then numbered (pre ++ "_ent") c k else [] := by
  unfold heaEntLayer at h
  obtain ⟨k₁, h1, h⟩ := bind_ok h
  split at h
  · obtain ⟨k₂, h2, h⟩ := bind_ok h
    have := pure_ok h
    subst this
    refine ⟨(heaPairs₁ n).length + (heaPairs₂ n p).length, by simp only; omega, ?_⟩
    rw [chainOf, names_comp, List.flatMap_cons, List.flatMap_cons, List.flatMap_nil, names_entKron ho h1,
      names_entKron ho h2]
    split
    · rw [List.append_nil, numbered_append]
    · rfl
  · have := pure_ok h
    subst this
    refine ⟨(heaPairs₁ n).length, rfl, ?_⟩
    rw [chainOf, names_comp, List.flatMap_cons, List.flatMap_nil, names_entKron ho h1, List.append_nil]

theorem names_entanglersDigital (ho : SetOrder ord) {pre : String} {support : List ℕ} {n : ℕ} {p : Bool} {e : Entangler}
    {d c : ℕ} {bs : List (Block Prim)} (h : entanglersDigital ord pre support n p e d c = .ok bs) :
    ∃ k, bs.flatMap names = if e.parametric then numbered (pre ++ "_ent") c k else [] := by
  induction d generalizing c bs with
  | zero => cases h; exact ⟨0, by simp [numbered]⟩
  | succ d ih =>
    rw [entanglersDigital] at h
    obtain ⟨l, hl, h⟩ := bind_ok h
    obtain ⟨rest, hr, h⟩ := bind_ok h
    have := pure_ok h
    subst this
    obtain ⟨k, hk, h1⟩ := names_heaEntLayer ho hl
    obtain ⟨k', h2⟩ := ih hr
    refine ⟨k + k', ?_⟩
    rw [List.flatMap_cons, h1, h2, hk]
    split
    · rw [numbered_append]
    · rfl

theorem names_alaKrons (ho : SetOrder ord) {pre : String} {support : List ℕ} {n m : ℕ} {e : Entangler} {d : ℕ}
    {js : List ℕ} {c : ℕ} {l : List (Block Prim) × ℕ} (h : alaKrons ord pre support n m e d js c = .ok l) :
    ∃ k, l.2 = c + k ∧ l.1.flatMap names = if e.parametric then numbered (pre ++ "_ent") c k else [] := by
  induction js generalizing c l with
  | nil => cases h; exact ⟨0, rfl, by simp [numbered]⟩
  | cons j js ih =>
    rw [alaKrons] at h
    obtain ⟨b, hb, h⟩ := bind_ok h
    obtain ⟨rest, hr, h⟩ := bind_ok h
    have := pure_ok h
    subst this
    obtain ⟨k, hk, h1⟩ := ih hr
    refine ⟨(alaPairs n m d j).length + k, by simp only; omega, ?_⟩
    rw [List.flatMap_cons, h1, names_entKron ho hb]
    split
    · rw [numbered_append]
    · rfl

theorem names_entanglersAla (ho : SetOrder ord) {pre : String} {support : List ℕ} {n m : ℕ} {e : Entangler}
    {r d c : ℕ} {bs : List (Block Prim)} (h : entanglersAla ord pre support n m e r d c = .ok bs) :
    ∃ k, bs.flatMap names = if e.parametric then numbered (pre ++ "_ent") c k else [] := by
  induction r generalizing c d bs with
  | zero => cases h; exact ⟨0, by simp [numbered]⟩
  | succ r ih =>
    rw [entanglersAla] at h
    obtain ⟨l, hl, h⟩ := bind_ok h
    obtain ⟨rest, hr, h⟩ := bind_ok h
    have := pure_ok h
    subst this
    obtain ⟨k, hk, h1⟩ := names_alaKrons ho hl
    obtain ⟨k', h2⟩ := ih hr
    refine ⟨k + k', ?_⟩
    rw [List.flatMap_cons, chainOf, names_comp, h1, h2, hk]
    split
    · rw [numbered_append]
    · rfl

theorem prefix_ne (p s : String) (h : s ≠ "") : p ≠ p ++ s := by
  intro e
  have := congrArg String.length e
  rw [String.length_append] at this
  have : s.length = 0 := by omega
  exact h (String.length_eq_zero_iff.1 this)

/-- Interleaved layers with numbered names of two different prefixes have distinct names. -/
theorem nodup_interleave {as bs : List (Block Prim)} (hl : as.length = bs.length) {p q : String} (hpq : p ≠ q)
    {c k d l : ℕ} {x : Bool} (ha : as.flatMap names = numbered p c k)
    (hb : bs.flatMap names = if x then numbered q d l else []) (t : String) :
    (names (tagChain (interleave as bs) t)).Nodup := by
  rw [tagChain, names_comp, ((interleave_perm as bs hl).flatMap_right names).nodup_iff, List.flatMap_append, ha, hb]
  split
  · exact List.nodup_append'.2 ⟨numbered_nodup .., numbered_nodup .., numbered_disjoint hpq ..⟩
  · rw [List.append_nil]
    exact numbered_nodup ..

/-- **C41** (hea, digital): the parameter names of the gates are pairwise distinct, for all sizes, depths, prefixes,
supports, operations and entanglers. -/
theorem C41_hea_digital (ho : SetOrder ord) {n depth : ℕ} {pre : String} {support : List ℕ} {periodic : Bool}
    {ops : List RotGate} {e : Entangler} {b : Block Prim}
    (h : heaDigital ord n depth pre support periodic ops e = .ok b) : (names b).Nodup := by
  unfold heaDigital at h
  split at h
  · cases h
  obtain ⟨rots, hr, h⟩ := bind_ok h
  obtain ⟨ents, he, h⟩ := bind_ok h
  have := pure_ok h
  subst this
  obtain ⟨k, hk⟩ := names_entanglersDigital ho he
  exact nodup_interleave (by rw [rotationsDigital_length hr, entanglersDigital_length he])
    (prefix_ne pre "_ent" (by decide)) (names_rotationsDigital ho hr) hk _

/-- Every rotation has a parameter of its own: the ansatz has at least as many parameters as rotations. -/
theorem C41_hea_digital_rotations (ho : SetOrder ord) {n depth : ℕ} {pre : String} {support : List ℕ} {periodic : Bool}
    {ops : List RotGate} {e : Entangler} {b : Block Prim}
    (h : heaDigital ord n depth pre support periodic ops e = .ok b) (k : ℕ) (hk : k < depth * (n * ops.length)) :
    pre ++ "_" ++ toString k ∈ names b := by
  unfold heaDigital at h
  split at h
  · cases h
  obtain ⟨rots, hr, h⟩ := bind_ok h
  obtain ⟨ents, he, h⟩ := bind_ok h
  have := pure_ok h
  subst this
  rw [tagChain, names_comp, ((interleave_perm rots ents
    (by rw [rotationsDigital_length hr, entanglersDigital_length he])).flatMap_right names).mem_iff,
    List.flatMap_append, names_rotationsDigital ho hr]
  refine List.mem_append_left _ (List.mem_map.2 ⟨k, ?_, rfl⟩)
  rw [List.mem_range'_1]
  omega

/-- **C41** (hea, sDAQC): the same for analog entanglers. The parameters of the generator itself are not counted. -/
theorem C41_hea_sdaqc (ho : SetOrder ord) {n depth : ℕ} {pre : String} {support : List ℕ} {ops : List RotGate}
    {gen : Block Gate} {b : Block Prim} (h : heaSDAQC ord n depth pre support ops gen = .ok b) : (names b).Nodup := by
  unfold heaSDAQC at h
  split at h
  · cases h
  obtain ⟨rots, hr, h⟩ := bind_ok h
  have := pure_ok h
  subst this
  refine nodup_interleave (q := pre ++ "_t") (x := true) (d := 0) (l := depth) ?_
    (prefix_ne pre "_t" (by decide)) (names_rotationsDigital ho hr) ?_ _
  · rw [rotationsDigital_length hr, entanglersAnalog, List.length_map, List.length_range]
  · rw [if_pos rfl, entanglersAnalog, numbered, List.flatMap_map, List.range_eq_range', List.map_eq_flatMap]
    refine List.flatMap_congr fun d _ => ?_
    rw [names, gather, primNames, Expr.freeSymbols, t_prefix]

/-- **C41** (ala). -/
theorem C41_ala (ho : SetOrder ord) {n m depth : ℕ} {pre : String} {support : List ℕ}
    {ops : List RotGate} {e : Entangler} {b : Block Prim}
    (h : alaDigital ord n m depth pre support ops e = .ok b) : (names b).Nodup := by
  unfold alaDigital at h
  split at h
  · cases h
  obtain ⟨rots, hr, h⟩ := bind_ok h
  obtain ⟨ents, he, h⟩ := bind_ok h
  have := pure_ok h
  subst this
  obtain ⟨k, hk⟩ := names_entanglersAla ho he
  refine nodup_interleave (by rw [rotationsDigital_length hr, entanglersAla_length he])
    ?_ (names_rotationsDigital ho hr) hk _
  rw [String.append_assoc]
  exact prefix_ne pre _ (by decide)

/-! ### Hamiltonians -/

theorem names_fixed_matmul (ho : SetOrder ord) {f g : FixedGate} {i j : ℕ} {b : Block Gate}
    (h : (ofFixed f i).matmul Gate.supp ord (.block (ofFixed g j)) = .ok b) :
    b = .comp .kron [ofFixed f i, ofFixed g j] none := by
  rw [matmul, kronOf_ok_iff _ _ ho] at h
  exact h.1

/-- The interactions defined in the module contain no parameters and are no scale blocks. -/
theorem names_interact (ho : SetOrder ord) {t : Interact} (ht : ∀ f, t ≠ .custom f) {i j : ℕ} {b : Block Gate}
    (h : t.block ord i j = .ok b) : ∃ k bs, b = .comp k bs none ∧ gateBlockNames b = [] := by
  cases t with
  | ZZ =>
    obtain rfl := names_fixed_matmul ho h
    exact ⟨_, _, rfl, rfl⟩
  | NN =>
    obtain rfl := names_fixed_matmul ho h
    exact ⟨_, _, rfl, rfl⟩
  | XY =>
    simp only [Interact.block] at h
    obtain ⟨x, hx, h⟩ := bind_ok h
    obtain ⟨y, hy, h⟩ := bind_ok h
    obtain rfl := names_fixed_matmul ho hx
    obtain rfl := names_fixed_matmul ho hy
    cases h
    exact ⟨_, _, rfl, rfl⟩
  | XYZ =>
    simp only [Interact.block] at h
    obtain ⟨x, hx, h⟩ := bind_ok h
    obtain ⟨y, hy, h⟩ := bind_ok h
    obtain ⟨z, hz, h⟩ := bind_ok h
    obtain ⟨w, hw, h⟩ := bind_ok h
    obtain rfl := names_fixed_matmul ho hx
    obtain rfl := names_fixed_matmul ho hy
    obtain rfl := names_fixed_matmul ho hz
    cases hw
    cases h
    exact ⟨_, _, rfl, rfl⟩
  | custom f => exact absurd rfl (ht f)
  | unknown => cases h

theorem names_interactionTerms (ho : SetOrder ord) {t : Interact} (ht : ∀ f, t ≠ .custom f) {ss : List Expr}
    {es : List (ℕ × ℕ)} (hl : ss.length = es.length) {bs : List (Block Gate)}
    (h : interactionTerms ord (some t) ss es = .ok bs) :
    bs.flatMap gateBlockNames = ss.flatMap Expr.freeSymbols := by
  unfold interactionTerms at h
  rw [flatMap_mapM (h := fun p => p.1.freeSymbols) h]
  · rw [← List.flatMap_map (f := Prod.fst), List.map_fst_zip (by omega)]
  · intro p _ b hb
    obtain ⟨c, hc, hb⟩ := bind_ok hb
    obtain ⟨k, cs, rfl, hn⟩ := names_interact ho ht hc
    cases hb
    simp only [isZeroBlock, Bool.false_eq_true, if_false, mulScalar, gateBlockNames, gather]
    rw [gateBlockNames, gather] at hn
    rw [hn, List.append_nil]

theorem names_detuningTerms {d : Detuning} {ss : List Expr} {ns : List ℕ} (hl : ss.length = ns.length)
    {bs : List (Block Gate)} (h : detuningTerms (some d) ss ns = .ok bs) :
    bs.flatMap gateBlockNames = ss.flatMap Expr.freeSymbols := by
  unfold detuningTerms at h
  rw [flatMap_mapM (h := fun p => p.1.freeSymbols) h]
  · rw [← List.flatMap_map (f := Prod.fst), List.map_fst_zip (by omega)]
  · intro p _ b hb
    obtain ⟨c, hc, hb⟩ := bind_ok hb
    cases d <;> cases hc <;> cases hb <;> simp [isZeroBlock, ofFixed, mulScalar, gateBlockNames, gather, gateNames,
      Gate.arith]

/-- Names of the parameters of a Hamiltonian with string strengths. -/
def hamNames (ord : List ℕ → List ℕ) (r : Register) (a : HamArgs) (d s : String) : List String :=
  (if a.detuning.isSome then r.labels.map fun i => d ++ "_" ++ nodeName i else []) ++
    (if a.interaction.isSome then (a.pairs ord r).map fun e => s ++ "_" ++ edgeName e else [])

theorem names_hamiltonian (ho : SetOrder ord) {r : Register} {a : HamArgs} {d s : String}
    (hd : a.detuningStrength = .name d) (hs : a.interactionStrength = .name s)
    (hi : ∀ f, a.interaction ≠ some (.custom f)) {b : Block Gate} (h : hamiltonianFactory ord r a = .ok b) :
    gateBlockNames b = hamNames ord r a d s := by
  unfold hamiltonianFactory at h
  obtain ⟨_, -, h⟩ := bind_ok h
  obtain ⟨ds, hds, h⟩ := bind_ok h
  obtain ⟨is, his, h⟩ := bind_ok h
  obtain ⟨single, h1, h⟩ := bind_ok h
  obtain ⟨two, h2, h⟩ := bind_ok h
  have := pure_ok h
  subst this
  rw [hd] at hds
  rw [hs] at his
  cases hds
  cases his
  rw [addOf, gateBlockNames, gather_comp, List.flatMap_append, hamNames]
  congr 1
  · cases hdet : a.detuning with
    | none => rw [hdet] at h1; cases h1; rfl
    | some d =>
      rw [hdet] at h1
      have := names_detuningTerms (by simp) h1
      rw [show gather gateNames Expr.freeSymbols = gateBlockNames from rfl, this]
      simp only [List.flatMap_map, Expr.freeSymbols, Option.isSome_some, if_true]
      rw [← List.map_eq_flatMap]
  · cases hint : a.interaction with
    | none => rw [hint] at h2; cases h2; rfl
    | some d =>
      rw [hint] at h2
      have := names_interactionTerms ho (fun f e => hi f (by rw [hint, e])) (by simp) h2
      rw [show gather gateNames Expr.freeSymbols = gateBlockNames from rfl, this]
      simp only [List.flatMap_map, Expr.freeSymbols, Option.isSome_some, if_true]
      rw [← List.map_eq_flatMap]

/-- **C41** (hamiltonian_factory with string strengths): the names are distinct if the two prefixes differ and all
interacting pairs (i, j) have i < j < 100. Missing: larger qubit numbers and equal prefixes, where the names collide
(see the counterexamples), and interaction functions given by the user. -/
theorem C41_hamiltonian_partial (ho : SetOrder ord) {r : Register} {a : HamArgs} {d s : String}
    (hd : a.detuningStrength = .name d) (hs : a.interactionStrength = .name s) (hne : d ≠ s)
    (hi : ∀ f, a.interaction ≠ some (.custom f)) (hl : r.labels.Nodup) (hp : (a.pairs ord r).Nodup)
    (hlt : ∀ e ∈ a.pairs ord r, e.1 < e.2 ∧ e.2 < 100) {b : Block Gate} (h : hamiltonianFactory ord r a = .ok b) :
    (gateBlockNames b).Nodup := by
  rw [names_hamiltonian ho hd hs hi h, hamNames]
  refine List.nodup_append'.2 ⟨?_, ?_, ?_⟩
  · split
    · exact (List.nodup_map_iff_inj_on hl).2 fun i _ j _ e => (numbered_inj e).2
    · exact List.nodup_nil
  · split
    · refine (List.nodup_map_iff_inj_on hp).2 fun e he e' he' h => ?_
      obtain ⟨-, h⟩ := suffix_inj (pair_underscore _ _) (pair_underscore _ _) h
      obtain ⟨h1, h2⟩ := pair_inj_of_lt h (hlt e he).1 (hlt e' he').1 (hlt e he).2 (hlt e' he').2
      exact Prod.ext h1 h2
    · exact List.nodup_nil
  · intro x hx hy
    split at hx
    · split at hy
      · obtain ⟨i, -, rfl⟩ := List.mem_map.1 hx
        obtain ⟨e, -, he⟩ := List.mem_map.1 hy
        exact hne (suffix_inj (pair_underscore _ _) (underscore_not_mem _) he).1.symm
      · simp at hy
    · simp at hx

/-- The collision for larger qubit numbers: the pairs (1, 112) and (11, 12) get the same name. -/
theorem C41_counterexample_hamiltonian_pairs (ho : SetOrder ord) (r : Register) (s : String)
    (h1 : ((1, 112) : ℕ × ℕ) ∈ r.edges) (h2 : ((11, 12) : ℕ × ℕ) ∈ r.edges) {b : Block Gate}
    (h : hamiltonianFactory ord r
      { interaction := some Interact.ZZ
        detuningStrength := Strength.name "d"
        interactionStrength := Strength.name s } = .ok b) : ¬ (gateBlockNames b).Nodup := by
  rw [names_hamiltonian ho rfl rfl (by simp) h, hamNames]
  simp only [Option.isSome_none, Bool.false_eq_true, if_false, List.nil_append, Option.isSome_some, if_true,
    HamArgs.pairs]
  intro hn
  have := List.inj_on_of_nodup_map hn h1 h2 (by rfl)
  simp at this

/-- The collision for equal prefixes: node 12 and the pair (1, 2) get the same name. -/
theorem C41_counterexample_hamiltonian_prefix (ho : SetOrder ord) (r : Register) (s : String)
    (h1 : 12 ∈ r.labels) (h2 : ((1, 2) : ℕ × ℕ) ∈ r.edges) {b : Block Gate}
    (h : hamiltonianFactory ord r
      { interaction := some Interact.ZZ
        detuning := some Detuning.Z
        detuningStrength := Strength.name s
        interactionStrength := Strength.name s } = .ok b) : ¬ (gateBlockNames b).Nodup := by
  rw [names_hamiltonian ho rfl rfl (by simp) h, hamNames]
  simp only [Option.isSome_some, if_true, HamArgs.pairs, Bool.false_eq_true, if_false]
  intro hn
  exact (List.nodup_append'.1 hn).2.2 (List.mem_map_of_mem h1) (List.mem_map.2 ⟨(1, 2), h2, rfl⟩)

end Qadence.Ansatz
