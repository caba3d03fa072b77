import Verif.Props.QCNN

/-!
# C86: parameters, feature map and observable of a quantum convolutional neural network
-/

namespace Qadence.QCNN

open Block Spec Ansatz Qadence.Names

variable {ord : List ℕ → List ℕ}

/-! ## Parameters -/

theorem names_padPrims (pads : List ℕ) (a b : Gate) :
    (padPrims pads a b).flatMap primNames = gateNames a ++ gateNames b := by
  rw [padPrims, List.flatMap_append]
  have : (pads.map fun q => (.gate (.fixed .I q) none : Prim)).flatMap primNames = [] := by
    rw [List.flatMap_eq_nil_iff]
    intro p hp
    obtain ⟨q, -, rfl⟩ := List.mem_map.1 hp
    rfl
  rw [this]
  simp [primNames]

theorem names_rot (g : RotGate) (q : ℕ) (s : String) : gateNames (.rot g q (.var s)) = [s] := rfl

theorem names_entOf (e : Entangler) (a b : ℕ) : primNames (.gate (entOf e a b) none) = [] := by
  unfold entOf; split <;> rfl

theorem names_opPrims (pads : List ℕ) (name : ℕ → String) (c t : ℕ) (ops : List RotGate) (i : ℕ) :
    (opPrims pads name c t ops i).flatMap primNames = (List.range' i (2 * ops.length)).map name := by
  induction ops generalizing i with
  | nil => rfl
  | cons g gs ih =>
    rw [opPrims, List.flatMap_append, names_padPrims, ih, names_rot, names_rot]
    rw [show 2 * (g :: gs).length = 2 * gs.length + 1 + 1 by simp; ring, List.range'_succ, List.range'_succ]
    rfl

theorem names_cellPrims (pads : List ℕ) (ops : List RotGate) (e : Entangler) (name : ℕ → String) (last : Bool) (c t i : ℕ) :
    (cellPrims pads ops e name last c t i).flatMap primNames = (List.range' i (cellParams ops)).map name := by
  have hlast : (if last then [(.gate (entOf e c t) none : Prim)] else []).flatMap primNames = [] := by
    cases last <;> simp [names_entOf]
  have h3 : List.range' (i + 2 * ops.length) 3 = [i + 2 * ops.length, i + 2 * ops.length + 1, i + 2 * ops.length + 2] := rfl
  rw [cellPrims]
  simp only [List.flatMap_append, List.flatMap_singleton, names_entOf, names_padPrims, names_opPrims, names_rot, hlast,
    List.append_nil]
  rw [show cellParams ops = 2 * ops.length + 3 + 2 * ops.length by rw [cellParams]; ring, ← List.range'_append_1,
    ← List.range'_append_1, h3]
  simp [gateNames, Nat.add_assoc]

theorem names_numbered (a : Args) (l rep : ℕ) (last : Bool) (ps : List (ℕ × ℕ)) (i : ℕ) :
    ((numbered (cellParams a.ops) ps i).flatMap (cellOf a l rep last)).flatMap primNames =
      (List.range' i (ps.length * cellParams a.ops)).map (paramName a.corr l rep) := by
  induction ps generalizing i with
  | nil => simp [numbered]
  | cons p ps ih =>
    rw [numbered, List.flatMap_cons, List.flatMap_append, ih, cellOf, names_cellPrims, ← List.map_append,
      List.range'_append_1]
    congr 2
    rw [List.length_cons]; ring

/-- The number of cells in a repetition of a layer. -/
theorem C86_cells (n l rep : ℕ) : (starts n l rep).length =
    if (l = 0 ∨ l = 1) ∧ rep % 2 = 1 then (n / 2 ^ l - 2) / 2 else n / 2 ^ l / 2 := by
  unfold starts
  split <;> simp

/-- C86, parameters: the cells of a repetition take the parameters with consecutive numbers, `4 k + 3` for each cell with `k`
operations. -/
theorem C86_names (ho : SetOrder ord) {pi : ℚ} {t : FeatureMap.FmType} {op : Option RotGate} {k : ℕ} {a : Args}
    {depth : List ℤ} {r : Block Prim × Block Prim} (h : circuit pi ord t op k a depth = .ok r) :
    names r.2 = depth.zipIdx.flatMap fun x => (List.range x.1.toNat).flatMap fun rep =>
      (List.range ((starts a.n x.2 rep).length * (4 * a.ops.length + 3))).map (paramName a.corr x.2 rep) := by
  obtain ⟨ls, hr, -, hf⟩ := C86_layers ho h
  rw [hr, names, chainOf, gather_comp, Gathers.forall₂ hf String primNames Expr.freeSymbols, List.flatMap_assoc]
  refine List.flatMap_congr fun x _ => ?_
  rw [layerPrims, List.flatMap_assoc]
  refine List.flatMap_congr fun rep _ => ?_
  rw [repPrims, names_numbered, List.length_map, List.range_eq_range']
  rfl

theorem paramName_inj {l l' rep rep' p p' : ℕ} (h : paramName false l rep p = paramName false l' rep' p') :
    l = l' ∧ rep = rep' ∧ p = p' := by
  obtain ⟨h, h3⟩ := numbered_inj h
  obtain ⟨h, h2⟩ := numbered_inj h
  obtain ⟨-, h1⟩ := numbered_inj h
  exact ⟨h1, h2, h3⟩

/-- C86, parameters: unless correlated, no parameter is used twice. -/
theorem C86_distinct (ho : SetOrder ord) {pi : ℚ} {t : FeatureMap.FmType} {op : Option RotGate} {k : ℕ} {a : Args}
    (hc : a.corr = false) {depth : List ℤ} {r : Block Prim × Block Prim} (h : circuit pi ord t op k a depth = .ok r) :
    (names r.2).Nodup := by
  rw [C86_names ho h, hc, List.nodup_flatMap]
  constructor
  · intro x _
    rw [List.nodup_flatMap]
    constructor
    · intro rep _
      exact List.Nodup.map (fun p p' hp => (paramName_inj hp).2.2) List.nodup_range
    · refine List.nodup_range.imp fun {i j} hij => ?_
      rw [Function.onFun, List.disjoint_left]
      intro s h1 h2
      obtain ⟨p, -, rfl⟩ := List.mem_map.1 h1
      obtain ⟨p', -, h2⟩ := List.mem_map.1 h2
      exact hij (paramName_inj h2).2.1.symm
  · have hz : depth.zipIdx.Pairwise fun x y => x.2 ≠ y.2 := by
      have : (depth.zipIdx.map Prod.snd).Nodup := by
        rw [List.zipIdx_map_snd]; exact List.nodup_range'
      rwa [List.Nodup, List.pairwise_map] at this
    refine hz.imp fun {x y} hxy => ?_
    rw [Function.onFun, List.disjoint_left]
    intro s h1 h2
    obtain ⟨_, -, h1⟩ := List.mem_flatMap.1 h1
    obtain ⟨_, -, h2⟩ := List.mem_flatMap.1 h2
    obtain ⟨p, -, rfl⟩ := List.mem_map.1 h1
    obtain ⟨p', -, h2⟩ := List.mem_map.1 h2
    exact hxy (paramName_inj h2).1.symm

/-- C86, parameters: with `is_corr` a layer has at most nine parameters. -/
theorem C86_correlated (ho : SetOrder ord) {pi : ℚ} {t : FeatureMap.FmType} {op : Option RotGate} {k : ℕ} {a : Args}
    (hc : a.corr = true) {depth : List ℤ} {r : Block Prim × Block Prim} (h : circuit pi ord t op k a depth = .ok r) :
    ∀ s ∈ names r.2, ∃ l < depth.length, ∃ p < 9, s = "θ_" ++ toString l ++ "_" ++ toString p := by
  intro s hs
  rw [C86_names ho h, hc] at hs
  obtain ⟨x, hx, hs⟩ := List.mem_flatMap.1 hs
  obtain ⟨rep, -, hs⟩ := List.mem_flatMap.1 hs
  obtain ⟨p, -, rfl⟩ := List.mem_map.1 hs
  have := List.mem_zipIdx hx
  exact ⟨x.2, by omega, p % 9, Nat.mod_lt _ (by norm_num), rfl⟩

/-- C86, parameters: with `is_corr`, gate number `g` of the cells number `j` and `j'` of a repetition have the same parameter
iff nine divides the distance of their numbers. -/
theorem C86_correlated_cells (l rep k g j j' : ℕ) (hj : j ≤ j') :
    paramName true l rep (j * (4 * k + 3) + g) = paramName true l rep (j' * (4 * k + 3) + g) ↔
      9 ∣ (j' - j) * (4 * k + 3) := by
  obtain ⟨d, rfl⟩ := Nat.exists_eq_add_of_le hj
  have hd : (j + d) * (4 * k + 3) + g = j * (4 * k + 3) + g + d * (4 * k + 3) := by ring
  rw [hd, Nat.add_sub_cancel_left]
  generalize j * (4 * k + 3) + g = x
  generalize d * (4 * k + 3) = y
  constructor
  · intro h
    have := (numbered_inj h).2
    omega
  · intro h
    show "θ" ++ "_" ++ toString l ++ "_" ++ toString (x % 9) = "θ" ++ "_" ++ toString l ++ "_" ++ toString ((x + y) % 9)
    congr 2
    omega

/-- C86, counterexample: documented is that with `is_corr` corresponding gates of the cells share a parameter; with fewer than
six operations neighbouring cells never do (`[RX, RZ]` gives eleven parameters for each cell). -/
theorem C86_counterexample_correlated (l rep k g j : ℕ) (hk : k < 6) :
    paramName true l rep (j * (4 * k + 3) + g) ≠ paramName true l rep ((j + 1) * (4 * k + 3) + g) := by
  intro h
  rw [C86_correlated_cells l rep k g j (j + 1) (by omega)] at h
  rw [Nat.add_sub_cancel_left, Nat.one_mul] at h
  omega

/-- C86, counterexample: instead, with two operations or more, two different gates of the same cell share a parameter. -/
theorem C86_counterexample_correlated_gates (l rep i : ℕ) : paramName true l rep i = paramName true l rep (i + 9) := by
  show "θ" ++ "_" ++ toString l ++ "_" ++ toString (i % 9) = "θ" ++ "_" ++ toString l ++ "_" ++ toString ((i + 9) % 9)
  rw [Nat.add_mod_right]

/-- C86, counterexample: on four or six qubits the second layer cannot be repeated, though all documented conditions (even
number of qubits, odd depths, two qubits left) hold: the shifted repetition has no cell, and the empty kron is refused. -/
theorem C86_counterexample_repeated (ho : SetOrder ord) (pi : ℚ) (t : FeatureMap.FmType) (op : Option RotGate) (k : ℕ)
    (a : Args) (hn : a.n < 8) (d₀ d₁ : ℤ) (h0 : 0 < d₀) (h1 : 1 < d₁) (ds : List ℤ) (hd : ∀ d ∈ ds, 0 < d) :
    ¬∃ r, circuit pi ord t op k a (d₀ :: d₁ :: ds) = .ok r := by
  rintro ⟨r, h⟩
  have hfm : ∃ fm, featureMaps pi ord t op a.n k = .ok fm := by
    unfold circuit at h
    split at h
    · cases h
    split at h
    · cases h
    split at h
    · cases h
    obtain ⟨fm, hfm, -⟩ := bind_ok h
    exact ⟨fm, hfm⟩
  have hpos : ∀ d ∈ d₀ :: d₁ :: ds, 0 < d := by
    intro d hd'
    rcases List.mem_cons.1 hd' with rfl | hd'
    · exact h0
    · rcases List.mem_cons.1 hd' with rfl | hd'
      · omega
      · exact hd d hd'
  have := ((C86_accepts ho pi t op k a _ hpos hfm).1 ⟨r, h⟩).2.2.2.2.2 d₁ rfl (by omega)
  omega

/-- C86: depth zero is refused as even; the later test for zero repetitions is never reached. -/
theorem C86_depth_zero (pi : ℚ) (t : FeatureMap.FmType) (op : Option RotGate) (k : ℕ) (a : Args) (depth : List ℤ)
    (h : 0 ∈ depth) : circuit pi ord t op k a depth = .error .valueError := by
  unfold circuit
  split
  · rfl
  split
  · rfl
  rw [if_pos (List.any_eq_true.2 ⟨0, h, by decide⟩)]

/-! ## The feature map -/

/-- The number of qubits of input `i` (out of `k`). -/
def numOf (n k i : ℕ) : ℕ := if i < n % k then n / k + 1 else n / k

/-- The inputs `i, i + 1, …` with their qubits. -/
def parts (n k : ℕ) : (remaining i start : ℕ) → List (ℕ × List ℕ)
  | 0, _, _ => []
  | r + 1, i, start => (i, List.range' start (numOf n k i)) :: parts n k r (i + 1) (start + numOf n k i)

/-- The arguments of the feature map of one input. -/
def inputArgs (t : FeatureMap.FmType) (op : Option RotGate) (x : ℕ × List ℕ) : FeatureMap.Args :=
  { support := some x.2, param := "φ" ++ "_" ++ toString x.1, op := op, fmType := t }

theorem parts_flatten (n k : ℕ) (hk : 0 < k) (r i start : ℕ) (hi : i + r = k) (hs : start = i * (n / k) + min i (n % k)) :
    ((parts n k r i start).map Prod.snd).flatten = List.range' start (n - start) := by
  induction r generalizing i start with
  | zero =>
    have hm := Nat.mod_lt n hk
    have : start = n := by
      have := Nat.div_add_mod n k
      rw [hs, Nat.add_zero] at *
      subst hi
      rw [Nat.min_eq_right hm.le]
      exact this
    subst this
    simp [parts]
  | succ r ih =>
    have hstep : start + numOf n k i = (i + 1) * (n / k) + min (i + 1) (n % k) := by
      rw [hs, numOf, Nat.add_mul, Nat.one_mul]
      split <;> omega
    have hle : start + numOf n k i ≤ n := by
      rw [hstep]
      have h1 : (i + 1) * (n / k) ≤ k * (n / k) := Nat.mul_le_mul_right _ (by omega)
      have h2 := Nat.div_add_mod n k
      omega
    rw [parts, List.map_cons, List.flatten_cons, ih (i + 1) _ (by omega) hstep, List.range'_append_1]
    congr 1
    omega

theorem parts_spec (n k r i start : ℕ) : (parts n k r i start).map Prod.fst = List.range' i r ∧
    ∀ x ∈ parts n k r i start, x.2.length = numOf n k x.1 ∧ x.2.Nodup := by
  induction r generalizing i start with
  | zero => simp [parts]
  | succ r ih =>
    obtain ⟨h1, h2⟩ := ih (i + 1) (start + numOf n k i)
    rw [parts, List.map_cons, h1]
    refine ⟨rfl, fun x hx => ?_⟩
    rcases List.mem_cons.1 hx with rfl | hx
    · exact ⟨List.length_range', List.nodup_range'⟩
    · exact h2 x hx

theorem inputMaps_ok {pi : ℚ} {t : FeatureMap.FmType} {op : Option RotGate} {n k : ℕ} (r i start : ℕ)
    (hF : ∀ x ∈ parts n k r i start, ∃ b, FeatureMap.featureMap pi ord x.2.length (inputArgs t op x) = .ok b) :
    ∃ bs, inputMaps pi ord t op n k r i start = .ok bs ∧
      List.Forall₂ (fun x b => FeatureMap.featureMap pi ord x.2.length (inputArgs t op x) = .ok b) (parts n k r i start) bs := by
  induction r generalizing i start with
  | zero => exact ⟨[], rfl, .nil⟩
  | succ r ih =>
    rw [parts] at hF ⊢
    obtain ⟨b, hb⟩ := hF _ List.mem_cons_self
    obtain ⟨bs, h1, h2⟩ := ih (i + 1) (start + numOf n k i) fun x hx => hF x (by simp [hx])
    have hb' := hb
    dsimp only at hb'
    rw [List.length_range'] at hb'
    refine ⟨b :: bs, ?_, .cons hb h2⟩
    rw [inputMaps]
    show (FeatureMap.featureMap pi ord (numOf n k i) (inputArgs t op (i, List.range' start (numOf n k i))) >>= _) = _
    rw [hb', ok_bind]
    show (inputMaps pi ord t op n k r (i + 1) (start + numOf n k i) >>= _) = _
    rw [h1, ok_bind]
    rfl

/-- C86, feature map: with at most as many inputs as qubits, every input `i` is encoded by the feature map with the parameter
`φ_i` on its own qubits; all qubits are used, in order, and the numbers of qubits differ by at most one. -/
theorem C86_feature_map (ho : SetOrder ord) (pi : ℚ) (t : FeatureMap.FmType) (ht : t ≠ .other) (op : RotGate) {n k : ℕ}
    (hk : 0 < k) (hkn : k ≤ n) (hr : (FeatureMap.setRange pi t).1 ≠ (FeatureMap.setRange pi t).2) :
    ∃ (ps : List (List ℕ)) (bs : List (Block Prim)), featureMaps pi ord t (some op) n k = .ok (.comp .kron bs (some "FM")) ∧
      ps.length = k ∧ ps.flatten = List.range n ∧ (∀ p ∈ ps, p.length = n / k ∨ p.length = n / k + 1) ∧
      List.Forall₂ (fun (x : List ℕ × ℕ) b => FeatureMap.featureMap pi ord x.1.length
        { support := some x.1, param := "φ_" ++ toString x.2, op := some op, fmType := t } = .ok b) ps.zipIdx bs := by
  have hfl := parts_flatten n k hk k 0 0 (by omega) (by simp)
  obtain ⟨hidx, hparts⟩ := parts_spec n k k 0 0
  have hpos : ∀ i, 0 < numOf n k i := fun i => by
    have := Nat.div_pos hkn hk
    unfold numOf; split <;> omega
  obtain ⟨bs, h1, h2⟩ := inputMaps_ok (pi := pi) (ord := ord) (t := t) (op := some op) (n := n) (k := k) k 0 0 fun x hx => by
    obtain ⟨hl, hn⟩ := hparts x hx
    refine (FeatureMap.C46_feature_map_accepts ho pi _ _).2 ⟨by simp [inputArgs], by rw [hl]; exact hpos _, ?_, ?_, ht, ?_⟩
    · intro s hs
      have : x.2 = s := by simpa [inputArgs] using hs
      subst this
      exact ⟨rfl, hn⟩
    · exact hr
    · simp [inputArgs]
  have hnd : ((parts n k k 0 0).map Prod.snd).flatten.Nodup := by rw [hfl]; exact List.nodup_range'
  have hkron : kronOf (Prim.supp ord) ord bs = .ok (.comp .kron bs none) := by
    refine (kronOf_ok_iff _ _ ho _ _).2 ⟨rfl, ?_, ?_⟩
    · rintro rfl
      rw [List.forall₂_nil_right_iff] at h2
      rw [h2] at hidx
      have := congrArg List.length hidx
      simp at this
      omega
    · have hd : (parts n k k 0 0).Pairwise fun x y => x.2.Disjoint y.2 := by
        have := (List.nodup_flatten.1 hnd).2
        rwa [List.pairwise_map] at this
      refine forall₂_pairwise h2 hd fun x y v w hxy hv hw => ?_
      rw [Set.disjoint_left]
      intro q hq hq'
      exact hxy ((FeatureMap.featureMap_qubits ho hv rfl q).1 hq) ((FeatureMap.featureMap_qubits ho hw rfl q).1 hq')
  refine ⟨(parts n k k 0 0).map Prod.snd, bs, ?_, ?_, ?_, ?_, ?_⟩
  · rw [featureMaps, if_neg hk.ne', h1, ok_bind, hkron, ok_bind]; rfl
  · have := congrArg List.length hidx
    simpa using this
  · rw [hfl, List.range_eq_range', Nat.sub_zero]
  · intro p hp
    obtain ⟨x, hx, rfl⟩ := List.mem_map.1 hp
    rw [(hparts x hx).1, numOf]
    split <;> simp
  · have hz : ((parts n k k 0 0).map Prod.snd).zipIdx = (parts n k k 0 0).map fun x => (x.2, x.1) := by
      rw [List.zipIdx_eq_zip_range', List.length_map, show (parts n k k 0 0).length = k by
        have := congrArg List.length hidx
        simpa using this, ← hidx, List.zip_map']
    rw [hz, List.forall₂_map_left_iff]
    exact h2

/-- C86, feature map: without inputs there is a division by zero, and with more inputs than qubits an input without qubits,
whose empty kron is refused. -/
theorem C86_feature_map_refused (pi : ℚ) (t : FeatureMap.FmType) (op : Option RotGate) (n : ℕ) :
    featureMaps pi ord t op n 0 = .error .zeroDivisionError := by
  rw [featureMaps, if_pos rfl]

theorem inputMaps_parts {pi : ℚ} {t : FeatureMap.FmType} {op : Option RotGate} {n k : ℕ} (r i start : ℕ)
    {bs : List (Block Prim)} (h : inputMaps pi ord t op n k r i start = .ok bs) : ∀ x ∈ parts n k r i start,
      ∃ b, FeatureMap.featureMap pi ord x.2.length (inputArgs t op x) = .ok b := by
  induction r generalizing i start bs with
  | zero => intro x hx; cases hx
  | succ r ih =>
    rw [inputMaps] at h
    obtain ⟨b, hb, h⟩ := bind_ok h
    obtain ⟨rest, hrest, -⟩ := bind_ok h
    rw [parts]
    intro x hx
    rcases List.mem_cons.1 hx with rfl | hx
    · refine ⟨b, ?_⟩
      rw [List.length_range']
      exact hb
    · exact ih (i + 1) (start + numOf n k i) hrest x hx

/-- C86, feature map: it can only be built with at most as many inputs as qubits. -/
theorem C86_inputs (ho : SetOrder ord) {pi : ℚ} {t : FeatureMap.FmType} {op : Option RotGate} {n k : ℕ} {b : Block Prim}
    (h : featureMaps pi ord t op n k = .ok b) : 0 < k ∧ k ≤ n := by
  unfold featureMaps at h
  split at h
  · cases h
  next hk =>
    refine ⟨by omega, ?_⟩
    by_contra hlt
    obtain ⟨bs, hb, -⟩ := bind_ok h
    have hall := inputMaps_parts k 0 0 hb
    obtain ⟨hidx, hparts⟩ := parts_spec n k k 0 0
    have hn : n ∈ (parts n k k 0 0).map Prod.fst := by rw [hidx]; simp; omega
    obtain ⟨x, hx, he⟩ := List.mem_map.1 hn
    obtain ⟨c, hc⟩ := hall x hx
    have hp := ((FeatureMap.C46_feature_map_accepts ho pi _ _).1 ⟨c, hc⟩).pos
    rw [(hparts x hx).1, he, numOf, Nat.mod_eq_of_lt (by omega), if_neg (by omega), Nat.div_eq_of_lt (by omega)] at hp
    exact absurd hp (lt_irrefl 0)

/-! ## The observable -/

/-- C86, observable: the sum of `Z` over all qubits, weighted with the parameters `w0, w1, …` or not. -/
theorem C86_observable (m n : ℕ) (ρ : Env) (w : Bool) : sem (gateSem m ρ) ρ (deferredObs n w) =
    ((List.range n).map fun i => (if w then eval ρ (.var ("w" ++ toString i)) else 1) • (embed1 i (mat1 .Z) : Oper m)).sum := by
  cases w
  · simp only [deferredObs, Bool.false_eq_true, if_false, addOf, sem_add, List.map_map, one_smul]
    refine congrArg _ (List.map_congr_left fun i _ => ?_)
    simp only [Function.comp, sem_leaf, gateSem_den, gateDen]
  · simp only [deferredObs, if_true, addOf, sem_add, List.map_map]
    refine congrArg _ (List.map_congr_left fun i _ => ?_)
    simp only [Function.comp, sem_scale, sem_leaf, gateSem_den, gateDen]

/-! ## Examples -/

example : layerQubits 8 1 = [1, 3, 5, 7] ∧ layerQubits 8 2 = [3, 7] := by decide
example : (starts 8 0 1).map (pairAt 0) = [(1, 2), (3, 4), (5, 6)] ∧ (starts 8 1 1).map (pairAt 1) = [(3, 5)] := by decide
example : padQubits 3 7 2 8 = [1, 2, 4, 5] := by decide
example : starts 6 1 1 = [] := by decide

end Qadence.QCNN
