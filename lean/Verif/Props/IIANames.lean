import Verif.Props.AnsatzNames

/-!
# Parameter names of the identity initialised ansatz (C41)
-/

namespace Qadence.Ansatz

open Spec Block Names

variable {ord : List ℕ → List ℕ} {α : Type}

/-- A rotation of the ansatz. -/
def iiaRot (layer : ℕ) (pre : String) (g : RotGate) (q k : ℕ) : Prim :=
  .gate (.rot g q (.var (pre ++ "_" ++ toString layer ++ toString k))) none

theorem iiaKron_eq (ho : SetOrder ord) {n layer : ℕ} {pre : String} {g : RotGate} {idx : ℕ} {b : Block Prim}
    (h : iiaKron ord n layer pre g idx = .ok b) :
    b = .comp .kron ((List.range n).map fun q => .leaf (iiaRot layer pre g q (q + n * idx)) none) none :=
  (kronOf_blocks ho h).1

/-- The right side has the operations of the left side in reversed order. -/
theorem zipIdx_reverse {β : Type} (l : List β) :
    l.reverse.zipIdx.map (fun g => (g.1, l.length - g.2 - 1)) = l.zipIdx.reverse := by
  apply List.ext_getElem
  · simp
  · intro i h1 h2
    simp only [List.getElem_map, List.getElem_zipIdx, List.getElem_reverse, List.length_zipIdx]
    simp only [List.length_map, List.length_zipIdx, List.length_reverse] at h1
    ext <;> simp only <;> first | rfl | omega

theorem iiaRight_eq (n layer : ℕ) (pre : String) (ops : List RotGate) :
    iiaRight ord n layer pre ops = ops.zipIdx.reverse.mapM (fun g => iiaKron ord n layer pre g.1 g.2) := by
  rw [iiaRight, ← zipIdx_reverse, List.mapM_map]
  rfl

theorem gather_iiaKron (ho : SetOrder ord) {n layer : ℕ} {pre : String} {g : RotGate} {idx : ℕ} {b : Block Prim}
    (h : iiaKron ord n layer pre g idx = .ok b) (f : Prim → List α) (s : Expr → List α) :
    gather f s b = (List.range n).flatMap fun q => f (iiaRot layer pre g q (q + n * idx)) := by
  rw [iiaKron_eq ho h, gather_comp, List.flatMap_map]
  rfl

/-- The entangling blocks of a layer. -/
def iiaEnts (n layer : ℕ) (pre : String) : IIAEntangler → List Prim
  | .digital e p => (List.range (if p then n else n - 1)).map fun q =>
      .gate (entGate e q (if p then (q + 1) % n else q + 1)
        (pre ++ "_θ_ent_" ++ "_" ++ toString layer ++ toString q)) none
  | .sdaqc gen => [.hamEvo gen (.var (pre ++ "_ent_t" ++ "_" ++ toString layer))]

theorem iiaEntanglers_eq {n layer : ℕ} {pre : String} {ent : IIAEntangler} {bs : List (Block Prim)}
    (h : iiaEntanglers n layer pre ent = .ok bs) : bs = (iiaEnts n layer pre ent).map fun p => .leaf p none := by
  cases ent with
  | digital e p =>
    cases p with
    | false =>
      simp only [iiaEntanglers] at h
      split at h
      · cases h
      · next he =>
        rw [mapM_ok_map (g := fun q => gateBlock (entGate e q (q + 1)
          (pre ++ "_θ_ent_" ++ "_" ++ toString layer ++ toString q)))] at h
        · cases h
          simp [iiaEnts, gateBlock]
        · intro q _
          exact entanglerBlock_ok.2 ⟨he, rfl⟩
    | true =>
      simp only [iiaEntanglers] at h
      split at h
      · cases h
      · next he =>
        rw [mapM_ok_map (g := fun q => gateBlock (entGate e q ((q + 1) % n)
          (pre ++ "_θ_ent_" ++ "_" ++ toString layer ++ toString q)))] at h
        · cases h
          simp [iiaEnts, gateBlock]
        · intro q _
          exact entanglerBlock_ok.2 ⟨he, rfl⟩
  | sdaqc gen =>
    simp only [iiaEntanglers] at h
    split at h
    · cases h; rfl
    · cases h

/-- The gates of one layer. -/
theorem gather_iiaLayer (ho : SetOrder ord) {n layer : ℕ} {pre : String} {ops : List RotGate} {ent : IIAEntangler}
    {b : Block Prim} (h : iiaLayer ord n pre ops ent layer = .ok b) (f : Prim → List α) (s : Expr → List α) :
    gather f s b =
      (ops.zipIdx.flatMap fun g => (List.range n).flatMap fun q =>
        f (iiaRot layer (pre ++ "_α") g.1 q (q + n * g.2))) ++
      (iiaEnts n layer pre ent).flatMap f ++
      ((List.range n).flatMap fun q => f (iiaRot layer (pre ++ "_γ") .RX q (q + n * 0))) ++
      (iiaEnts n layer pre ent).reverse.flatMap f ++
      (ops.zipIdx.reverse.flatMap fun g => (List.range n).flatMap fun q =>
        f (iiaRot layer (pre ++ "_β") g.1 q (q + n * g.2))) := by
  unfold iiaLayer at h
  obtain ⟨left, hl, h⟩ := bind_ok h
  obtain ⟨ents, he, h⟩ := bind_ok h
  obtain ⟨centre, hc, h⟩ := bind_ok h
  obtain ⟨right, hr, h⟩ := bind_ok h
  have := pure_ok h
  subst this
  rw [iiaRight_eq] at hr
  rw [tagChain, gather_comp]
  simp only [List.flatMap_append, List.flatMap_cons, List.flatMap_nil, List.append_nil]
  rw [flatMap_mapM hl fun g _ b hb => gather_iiaKron ho hb f s, flatMap_mapM hr fun g _ b hb => gather_iiaKron ho hb f s,
    gather_iiaKron ho hc f s, chainOf, gather_comp, iiaEntanglers_eq he, ← List.map_reverse, List.flatMap_map,
    List.flatMap_map]
  rfl

theorem gather_iia (ho : SetOrder ord) {n depth : ℕ} {pre : String} {ops : List RotGate} {ent : IIAEntangler}
    {b : Block Prim} (h : iia ord n depth pre ops ent = .ok b) (f : Prim → List α) (s : Expr → List α) :
    gather f s b = (List.range depth).flatMap fun layer =>
      (ops.zipIdx.flatMap fun g => (List.range n).flatMap fun q =>
        f (iiaRot layer (pre ++ "_α") g.1 q (q + n * g.2))) ++
      (iiaEnts n layer pre ent).flatMap f ++
      ((List.range n).flatMap fun q => f (iiaRot layer (pre ++ "_γ") .RX q (q + n * 0))) ++
      (iiaEnts n layer pre ent).reverse.flatMap f ++
      (ops.zipIdx.reverse.flatMap fun g => (List.range n).flatMap fun q =>
        f (iiaRot layer (pre ++ "_β") g.1 q (q + n * g.2))) := by
  unfold iia at h
  obtain ⟨ls, hl, h⟩ := bind_ok h
  have := pure_ok h
  subst this
  rw [chainOf, gather_comp, flatMap_mapM hl fun l _ b hb => gather_iiaLayer ho hb f s]

/-- The name of a rotation determines the kind of rotation, the layer and the index if the layers have the same number
of digits. -/
theorem iiaName_inj {pre : String} {s s' : String} {l l' k k' : ℕ} (hl : l < 10) (hl' : l' < 10)
    (h : pre ++ s ++ "_" ++ toString l ++ toString k = pre ++ s' ++ "_" ++ toString l' ++ toString k') :
    s = s' ∧ l = l' ∧ k = k' := by
  rw [String.append_assoc (s₁ := pre ++ s ++ "_"), String.append_assoc (s₁ := pre ++ s' ++ "_")] at h
  obtain ⟨h1, h2⟩ := suffix_inj (pair_underscore _ _) (pair_underscore _ _) h
  refine ⟨(String.append_right_inj _).1 h1, pair_inj h2 ?_⟩
  have := digits_le (k := 1) (by norm_num) (by omega : l < 10 ^ 1)
  have := digits_le (k := 1) (by norm_num) (by omega : l' < 10 ^ 1)
  have := digits_pos l
  have := digits_pos l'
  omega

/-- Which rotation has which index. -/
def RotAt (n : ℕ) (ops : List RotGate) (s : String) (g : RotGate) (q k : ℕ) : Prop :=
  (s = "_γ" ∧ g = .RX ∧ q = k) ∨ ((s = "_α" ∨ s = "_β") ∧ q < n ∧ ∃ i, ops[i]? = some g ∧ k = q + n * i)

theorem RotAt.unique {n : ℕ} {ops : List RotGate} {s : String} {g g' : RotGate} {q q' k : ℕ} (h : RotAt n ops s g q k)
    (h' : RotAt n ops s g' q' k) : g = g' ∧ q = q' := by
  rcases h with ⟨rfl, rfl, rfl⟩ | ⟨hs, hq, i, hi, rfl⟩
  · rcases h' with ⟨_, rfl, rfl⟩ | ⟨hs, -⟩
    · exact ⟨rfl, rfl⟩
    · rcases hs with hs | hs <;> exact absurd hs (by decide)
  · rcases h' with ⟨rfl, -⟩ | ⟨_, hq', i', hi', e⟩
    · rcases hs with hs | hs <;> exact absurd hs (by decide)
    · have hqq : q = q' := by
        have := congrArg (· % n) e
        simpa [Nat.mod_eq_of_lt hq, Nat.mod_eq_of_lt hq'] using this
      subst hqq
      have hii : i = i' := by
        have : n * i = n * i' := by omega
        exact Nat.eq_of_mul_eq_mul_left (by omega) this
      subst hii
      rw [hi] at hi'
      exact ⟨Option.some.inj hi', rfl⟩

/-- The gates of the ansatz: rotations and entangling gates. -/
theorem mem_leaves_iia (ho : SetOrder ord) {n depth : ℕ} {pre : String} {ops : List RotGate} {ent : IIAEntangler}
    {b : Block Prim} (h : iia ord n depth pre ops ent = .ok b) {p : Prim} (hp : p ∈ leaves b) :
    ∃ l < depth, (∃ s g q k, p = iiaRot l (pre ++ s) g q k ∧ RotAt n ops s g q k) ∨ p ∈ iiaEnts n l pre ent := by
  rw [leaves, gather_iia ho h, List.mem_flatMap] at hp
  obtain ⟨l, hl, hp⟩ := hp
  refine ⟨l, List.mem_range.1 hl, ?_⟩
  simp only [List.mem_append, List.mem_flatMap, List.mem_singleton, List.mem_range, List.mem_reverse] at hp
  rcases hp with (((⟨g, hg, q, hq, rfl⟩ | ⟨a, ha, rfl⟩) | ⟨q, hq, rfl⟩) | ⟨a, ha, rfl⟩) | ⟨g, hg, q, hq, rfl⟩
  · exact .inl ⟨_, _, _, _, rfl, .inr ⟨.inl rfl, hq, g.2, List.mem_zipIdx_iff_getElem?.1 hg, rfl⟩⟩
  · exact .inr ha
  · exact .inl ⟨_, _, _, _, rfl, .inl ⟨rfl, rfl, by simp⟩⟩
  · exact .inr ha
  · exact .inl ⟨_, _, _, _, rfl, .inr ⟨.inr rfl, hq, g.2, List.mem_zipIdx_iff_getElem?.1 hg, rfl⟩⟩

theorem names_iiaRot (l : ℕ) (p : String) (g : RotGate) (q k : ℕ) :
    primNames (iiaRot l p g q k) = [p ++ "_" ++ toString l ++ toString k] := rfl

theorem RotAt.suffix {n : ℕ} {ops : List RotGate} {s : String} {g : RotGate} {q k : ℕ} (h : RotAt n ops s g q k) :
    s = "_α" ∨ s = "_β" ∨ s = "_γ" := by
  rcases h with ⟨rfl, -⟩ | ⟨rfl | rfl, -⟩ <;> simp

/-- Rotations and entangling gates have different names. -/
theorem rot_ne_ent {n depth : ℕ} {pre : String} {ops : List RotGate} {ent : IIAEntangler} {l l' : ℕ} (hl : l < 10)
    (hl' : l' < 10) {s : String} {g : RotGate} {q k : ℕ} (hr : RotAt n ops s g q k) {p : Prim}
    (hp : p ∈ iiaEnts n l' pre ent) {x : String} (hx : x ∈ primNames (iiaRot l (pre ++ s) g q k))
    (hy : x ∈ primNames p) : False := by
  rw [names_iiaRot, List.mem_singleton] at hx
  have hs := hr.suffix
  cases ent with
  | digital e pd =>
    obtain ⟨i, -, rfl⟩ := List.mem_map.1 hp
    rw [primNames, names_entGate] at hy
    split at hy
    · rw [List.mem_singleton.1 hy] at hx
      obtain ⟨rfl, -⟩ := iiaName_inj (s := "_θ_ent_") hl' hl hx
      revert hs
      decide
    · simp at hy
  | sdaqc gen =>
    obtain rfl := List.mem_singleton.1 hp
    rw [primNames, Expr.freeSymbols, List.mem_singleton] at hy
    subst hy
    rw [String.append_assoc (s₁ := pre ++ s ++ "_")] at hx
    obtain ⟨h1, -⟩ := suffix_inj (underscore_not_mem _) (pair_underscore _ _) hx
    have := (String.append_right_inj _).1 h1
    subst this
    revert hs
    decide

/-- **C41** (identity initialised ansatz), first part: for at most ten layers, two gates with a parameter in common are
the same gate. (The entangling gates of the right half of a layer are those of the left half.) Missing: deeper
ansätze, for which names collide (`C41_counterexample_iia`). -/
theorem C41_iia_gates_partial (ho : SetOrder ord) {n depth : ℕ} {pre : String} {ops : List RotGate}
    {ent : IIAEntangler} (hd : depth ≤ 10) {b : Block Prim} (h : iia ord n depth pre ops ent = .ok b) {p p' : Prim}
    (hp : p ∈ leaves b) (hp' : p' ∈ leaves b) {x : String} (hx : x ∈ primNames p) (hx' : x ∈ primNames p') :
    p = p' := by
  obtain ⟨l, hl, hp⟩ := mem_leaves_iia ho h hp
  obtain ⟨l', hl', hp'⟩ := mem_leaves_iia ho h hp'
  have hl : l < 10 := by omega
  have hl' : l' < 10 := by omega
  rcases hp with ⟨s, g, q, k, rfl, hr⟩ | hp
  · rcases hp' with ⟨s', g', q', k', rfl, hr'⟩ | hp'
    · rw [names_iiaRot, List.mem_singleton] at hx hx'
      rw [hx] at hx'
      obtain ⟨rfl, rfl, rfl⟩ := iiaName_inj hl hl' hx'
      obtain ⟨rfl, rfl⟩ := hr.unique hr'
      rfl
    · exact (rot_ne_ent (depth := depth) hl hl' hr hp' hx hx').elim
  · rcases hp' with ⟨s', g', q', k', rfl, hr'⟩ | hp'
    · exact (rot_ne_ent (depth := depth) hl' hl hr' hp hx' hx).elim
    · cases ent with
      | digital e pd =>
        obtain ⟨i, -, rfl⟩ := List.mem_map.1 hp
        obtain ⟨i', -, rfl⟩ := List.mem_map.1 hp'
        rw [primNames, names_entGate] at hx hx'
        split at hx
        · next hpar =>
          rw [if_pos hpar] at hx'
          rw [List.mem_singleton] at hx hx'
          rw [hx] at hx'
          obtain ⟨-, rfl, rfl⟩ := iiaName_inj (s := "_θ_ent_") (s' := "_θ_ent_") hl hl' hx'
          rfl
        · simp at hx
      | sdaqc gen =>
        obtain rfl := List.mem_singleton.1 hp
        obtain rfl := List.mem_singleton.1 hp'
        rw [primNames, Expr.freeSymbols, List.mem_singleton] at hx hx'
        rw [hx] at hx'
        rw [(numbered_inj hx').2]

/-- Indices of the rotations of one side. -/
theorem range_blocks (n m : ℕ) :
    ((List.range m).flatMap fun i => (List.range n).map fun q => q + n * i) = List.range (n * m) := by
  induction m with
  | zero => simp
  | succ m ih =>
    rw [List.range_succ, List.flatMap_append, ih, Nat.mul_succ, List.range_add]
    simp [Nat.add_comm]

theorem rotNames_side (n l : ℕ) (p : String) (ops : List RotGate) :
    (ops.zipIdx.flatMap fun g => (List.range n).flatMap fun q => rotNames (iiaRot l p g.1 q (q + n * g.2))) =
      (List.range (n * ops.length)).map fun k => p ++ "_" ++ toString l ++ toString k := by
  rw [← range_blocks, List.map_flatMap, List.range_eq_range' (n := ops.length), ← List.zipIdx_map_snd 0 ops,
    List.flatMap_map]
  refine List.flatMap_congr fun g _ => ?_
  rw [List.map_map, List.map_eq_flatMap]
  rfl

theorem rotNames_ents (n l : ℕ) (pre : String) (ent : IIAEntangler) :
    (iiaEnts n l pre ent).flatMap rotNames = [] := by
  cases ent with
  | digital e p =>
    rw [iiaEnts, List.flatMap_map, List.flatMap_eq_nil_iff]
    intro q _
    cases e <;> rfl
  | sdaqc gen => rfl

/-- The names of the rotations. -/
theorem rotNames_iia (ho : SetOrder ord) {n depth : ℕ} {pre : String} {ops : List RotGate} {ent : IIAEntangler}
    {b : Block Prim} (h : iia ord n depth pre ops ent = .ok b) :
    (gather rotNames (fun _ => []) b).Perm ((List.range depth).flatMap fun l =>
      ((List.range (n * ops.length)).map fun k => pre ++ "_α" ++ "_" ++ toString l ++ toString k) ++
      ((List.range n).map fun k => pre ++ "_γ" ++ "_" ++ toString l ++ toString k) ++
      ((List.range (n * ops.length)).map fun k => pre ++ "_β" ++ "_" ++ toString l ++ toString k)) := by
  rw [gather_iia ho h]
  refine List.Perm.flatMap_left _ fun l _ => ?_
  rw [rotNames_ents, List.append_nil]
  have h1 : (iiaEnts n l pre ent).reverse.flatMap rotNames = [] := by
    have := (List.reverse_perm (iiaEnts n l pre ent)).flatMap_right rotNames
    rw [rotNames_ents] at this
    exact this.eq_nil
  rw [h1, List.append_nil, rotNames_side]
  refine List.Perm.append (List.Perm.append (List.Perm.refl _) ?_) ?_
  · rw [List.map_eq_flatMap]
    simp only [Nat.mul_zero, Nat.add_zero]
    exact List.Perm.refl _
  · rw [← rotNames_side]
    exact (List.reverse_perm _).flatMap_right _

/-- **C41** (identity initialised ansatz), second part: for at most ten layers the names of the rotations are pairwise
distinct. -/
theorem C41_iia_rotations_partial (ho : SetOrder ord) {n depth : ℕ} {pre : String} {ops : List RotGate}
    {ent : IIAEntangler} (hd : depth ≤ 10) {b : Block Prim} (h : iia ord n depth pre ops ent = .ok b) :
    (gather rotNames (fun _ => []) b).Nodup := by
  rw [(rotNames_iia ho h).nodup_iff, List.nodup_flatMap]
  have key : ∀ {s s' l l' k k'}, l < depth → l' < depth →
      pre ++ s ++ "_" ++ toString l ++ toString k = pre ++ s' ++ "_" ++ toString l' ++ toString k' →
      s = s' ∧ l = l' ∧ k = k' := fun h1 h2 => iiaName_inj (by omega) (by omega)
  constructor
  · intro l hl
    rw [List.mem_range] at hl
    have hmap : ∀ s m, ((List.range m).map fun k => pre ++ s ++ "_" ++ toString l ++ toString k).Nodup := fun s m =>
      (List.nodup_map_iff_inj_on List.nodup_range).2 fun i _ j _ e => (key hl hl e).2.2
    have hdis : ∀ s s' m m', s ≠ s' → List.Disjoint
        ((List.range m).map fun k => pre ++ s ++ "_" ++ toString l ++ toString k)
        ((List.range m').map fun k => pre ++ s' ++ "_" ++ toString l ++ toString k) := by
      intro s s' m m' hne x hx hy
      obtain ⟨i, -, rfl⟩ := List.mem_map.1 hx
      obtain ⟨j, -, hj⟩ := List.mem_map.1 hy
      exact hne (key hl hl hj).1.symm
    refine List.nodup_append'.2 ⟨List.nodup_append'.2 ⟨hmap _ _, hmap _ _, hdis _ _ _ _ (by decide)⟩, hmap _ _, ?_⟩
    rw [List.disjoint_append_left]
    exact ⟨hdis _ _ _ _ (by decide), hdis _ _ _ _ (by decide)⟩
  · refine List.nodup_range.pairwise_of_forall_ne fun l hl l' hl' hne x hx hy => hne ?_
    rw [List.mem_range] at hl hl'
    simp only [List.mem_append, List.mem_map] at hx hy
    rcases hx with (⟨k, -, rfl⟩ | ⟨k, -, rfl⟩) | ⟨k, -, rfl⟩ <;>
      rcases hy with (⟨k', -, e⟩ | ⟨k', -, e⟩) | ⟨k', -, e⟩ <;> exact (key hl' hl e).2.1.symm

end Qadence.Ansatz
