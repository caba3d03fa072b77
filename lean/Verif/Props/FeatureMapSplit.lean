import Verif.Props.FeatureMapGates

/-!
# Feature maps: several features (C46)
-/

namespace Qadence.FeatureMap

open Spec Block

variable {ord : List ℕ → List ℕ}

theorem cut_flatten (s : ℕ) (ks : List ℕ) : (cut s ks).flatten = List.range' s ks.sum := by
  induction ks generalizing s with
  | nil => simp [cut]
  | cons k ks ih =>
    rw [cut, List.flatten_cons, ih, List.sum_cons, ← List.range'_append_1]

theorem cut_lengths (s : ℕ) (ks : List ℕ) : (cut s ks).map List.length = ks := by
  induction ks generalizing s with
  | nil => rfl
  | cons k ks ih => rw [cut, List.map_cons, ih, List.length_range']

/-- C46, parallel encoding: the register is split into as many non-empty contiguous disjoint sections as there are features; they
cover the register and their sizes differ by at most one. More features than qubits are refused. -/
theorem C46_parallel_split (n k : ℕ) (hk : 0 < k) :
    (k ≤ n → ∃ parts, supportArrays n k .parallel = .ok parts ∧ Splits n k parts) ∧
    (n < k → supportArrays n k .parallel = .error .valueError) := by
  constructor
  · intro h
    refine ⟨arraySplit n k, by rw [supportArrays, if_pos h, if_neg hk.ne'], ?_⟩
    have hlen : (arraySplit n k).map List.length = List.replicate (n % k) (n / k + 1) ++ List.replicate (k - n % k) (n / k) :=
      cut_lengths _ _
    have hmod := Nat.mod_lt n hk
    have hmem : ∀ p ∈ arraySplit n k, p.length = n / k + 1 ∨ p.length = n / k := by
      intro p hp
      have : p.length ∈ (arraySplit n k).map List.length := List.mem_map_of_mem hp
      rw [hlen, List.mem_append, List.mem_replicate, List.mem_replicate] at this
      rcases this with h | h
      · exact .inl h.2
      · exact .inr h.2
    refine ⟨?_, ?_, ?_, ?_⟩
    · have := congrArg List.length hlen
      simp only [List.length_map, List.length_append, List.length_replicate] at this
      omega
    · rw [arraySplit, cut_flatten, List.range_eq_range']
      congr 1
      simp only [List.sum_append, List.sum_replicate, smul_eq_mul]
      have h1 := Nat.mod_add_div n k
      have h2 : n % k * (n / k + 1) + (k - n % k) * (n / k) = n % k + k * (n / k) := by
        rw [Nat.sub_mul]
        have : n % k * (n / k) ≤ k * (n / k) := Nat.mul_le_mul_right _ hmod.le
        rw [Nat.mul_add, Nat.mul_one]
        omega
      omega
    · rintro p hp rfl
      have hq : 0 < n / k := Nat.div_pos h hk
      rcases hmem _ hp with h | h <;> simp at h <;> omega
    · intro p hp q hq
      rcases hmem _ hp with h | h <;> rcases hmem _ hq with h' | h' <;> omega
  · intro h
    rw [supportArrays, if_neg (by omega)]

/-- C46, series encoding: every feature gets the whole register. -/
theorem C46_series_support (n k : ℕ) : ∃ parts, supportArrays n k .series = .ok parts ∧ parts.length = k ∧
    ∀ p ∈ parts, p = List.range n := by
  refine ⟨_, rfl, by simp, ?_⟩
  intro p hp
  obtain ⟨_, _, rfl⟩ := List.mem_map.1 hp
  rfl

/-- C46, `get_fm_qubits`: in parallel the blocks of two features are disjoint, contiguous, inside the register and of the same
size. -/
theorem C46_fm_qubits_parallel {n k : ℕ} (hk : 0 < k) {i : ℕ} (hi : i < k) :
    ∃ s l, fmQubits .parallel i n k = .ok (List.range' s l) ∧ l = n / k ∧ s + l ≤ n ∧
      ∀ j < k, ∀ t, fmQubits .parallel j n k = .ok t → j ≠ i → List.Disjoint (List.range' s l) t := by
  have hq : ∀ j, (j + 1) * (n / k) - j * (n / k) = n / k := by
    intro j; rw [Nat.add_mul, Nat.one_mul, Nat.add_sub_cancel_left]
  have hf : ∀ j, fmQubits .parallel j n k = .ok (List.range' (j * (n / k)) (n / k)) := by
    intro j; rw [fmQubits]; simp only [if_neg hk.ne', hq]
  refine ⟨i * (n / k), n / k, hf i, rfl, ?_, ?_⟩
  · calc i * (n / k) + n / k = (i + 1) * (n / k) := by ring
      _ ≤ k * (n / k) := Nat.mul_le_mul_right _ hi
      _ ≤ n := Nat.mul_div_le n k
  · intro j hj t ht hji
    rw [hf j] at ht
    injection ht with ht
    subst ht
    intro x hx hx'
    rw [List.mem_range'_1] at hx hx'
    rcases lt_or_gt_of_ne hji with h | h
    · have : (j + 1) * (n / k) ≤ i * (n / k) := Nat.mul_le_mul_right _ h
      rw [Nat.add_mul] at this; omega
    · have : (i + 1) * (n / k) ≤ j * (n / k) := Nat.mul_le_mul_right _ h
      rw [Nat.add_mul] at this; omega

/-- The blocks of `get_fm_qubits` do not cover the register if the number of qubits is no multiple of the number of features, and
they are empty if there are fewer qubits than features. -/
theorem C46_fm_qubits_rest {n k : ℕ} (hk : 0 < k) :
    (∀ q, k * (n / k) ≤ q → ∀ i < k, ∀ t, fmQubits .parallel i n k = .ok t → q ∉ t) ∧
    (n < k → ∀ i < k, fmQubits .parallel i n k = .ok []) := by
  have hq : ∀ j, (j + 1) * (n / k) - j * (n / k) = n / k := by
    intro j; rw [Nat.add_mul, Nat.one_mul, Nat.add_sub_cancel_left]
  have hf : ∀ j, fmQubits .parallel j n k = .ok (List.range' (j * (n / k)) (n / k)) := by
    intro j; rw [fmQubits]; simp only [if_neg hk.ne', hq]
  constructor
  · intro q hq i hi t ht hm
    rw [hf i] at ht
    injection ht with ht
    subst ht
    rw [List.mem_range'_1] at hm
    have : (i + 1) * (n / k) ≤ k * (n / k) := Nat.mul_le_mul_right _ hi
    rw [Nat.add_mul] at this; omega
  · intro h i _
    rw [hf i, Nat.div_eq_of_lt h]; simp

/-! ### Rounds of uploads -/

theorem round_spec {fs : List String} (hn : fs.Nodup) (u : String → ℤ) :
    (round u fs).1 = fs.filter (fun f => decide (u f > 0)) ∧
    ∀ g, (round u fs).2 g = if g ∈ fs then u g - 1 else u g := by
  induction fs generalizing u with
  | nil => simp [round]
  | cons f fs ih =>
    obtain ⟨h1, h2⟩ := List.nodup_cons.1 hn
    obtain ⟨i1, i2⟩ := ih h2 fun g => if g = f then u f - 1 else u g
    have e : fs.filter (fun g => decide ((if g = f then u f - 1 else u g) > 0)) = fs.filter (fun g => decide (u g > 0)) := by
      refine List.filter_congr fun g hg => ?_
      rw [if_neg (by rintro rfl; exact h1 hg)]
    rw [e] at i1
    have e2 : ∀ g, (if g ∈ fs then (if g = f then u f - 1 else u g) - 1 else (if g = f then u f - 1 else u g)) =
        if g ∈ f :: fs then u g - 1 else u g := by
      intro g
      by_cases hg : g = f
      · subst hg; simp [h1]
      · simp [hg]
    rw [round]
    split
    · rename_i hu
      refine ⟨?_, fun g => ?_⟩
      · rw [List.filter_cons_of_pos (by simpa using hu), ← i1]
      · rw [← e2 g]; exact i2 g
    · rename_i hu
      refine ⟨?_, fun g => ?_⟩
      · rw [List.filter_cons_of_neg (by simpa using hu), ← i1]
      · rw [← e2 g]; exact i2 g

theorem rounds_spec {fs : List String} (hn : fs.Nodup) (m : ℕ) (u : String → ℤ) :
    rounds fs m u = (List.range m).map fun (i : ℕ) => fs.filter (fun f => decide ((i : ℤ) < u f)) := by
  induction m generalizing u with
  | zero => rfl
  | succ m ih =>
    obtain ⟨h1, h2⟩ := round_spec hn u
    rw [rounds, h1, ih, List.range_succ_eq_map, List.map_cons, List.map_map]
    congr 1
    refine List.map_congr_left fun i _ => List.filter_congr fun f hf => ?_
    rw [h2, if_pos hf]
    simp only [decide_eq_decide]
    push_cast
    omega

theorem foldl_max (c : Config) (fs : List String) (a : ℤ) :
    a ≤ fs.foldl (fun m f => max m (c.repeats f + 1)) a ∧
    (∀ f ∈ fs, c.repeats f + 1 ≤ fs.foldl (fun m f => max m (c.repeats f + 1)) a) ∧
    (fs.foldl (fun m f => max m (c.repeats f + 1)) a = a ∨
      ∃ f ∈ fs, fs.foldl (fun m f => max m (c.repeats f + 1)) a = c.repeats f + 1) := by
  induction fs generalizing a with
  | nil => simp
  | cons f fs ih =>
    obtain ⟨h1, h2, h3⟩ := ih (max a (c.repeats f + 1))
    refine ⟨(le_max_left _ _).trans h1, ?_, ?_⟩
    · intro g hg
      rcases List.mem_cons.1 hg with rfl | hg
      · exact (le_max_right _ _).trans h1
      · exact h2 g hg
    · rw [List.foldl_cons]
      rcases h3 with h3 | ⟨g, hg, h3⟩
      · rw [h3]
        rcases max_choice a (c.repeats f + 1) with h | h
        · exact .inl h
        · exact .inr ⟨f, by simp, h⟩
      · exact .inr ⟨g, by simp [hg], h3⟩

theorem maxUploads_spec {c : Config} (h0 : c.inputs ≠ []) :
    ∃ m, maxUploads c = .ok m ∧ (∀ f ∈ c.inputs, c.repeats f + 1 ≤ m) ∧ ∃ f ∈ c.inputs, m = c.repeats f + 1 := by
  unfold maxUploads
  cases h : c.inputs with
  | nil => exact absurd h h0
  | cons f fs =>
    obtain ⟨h1, h2, h3⟩ := foldl_max c fs (c.repeats f + 1)
    refine ⟨_, rfl, ?_, ?_⟩
    · intro g hg
      rcases List.mem_cons.1 hg with rfl | hg
      · exact h1
      · exact h2 g hg
    · rcases h3 with h3 | ⟨g, hg, h3⟩
      · exact ⟨f, by simp, h3⟩
      · exact ⟨g, by simp [hg], h3⟩

theorem count_range_lt (m : ℕ) (k : ℤ) (hk : 0 ≤ k) (hm : k ≤ m) :
    ((List.range m).countP fun i : ℕ => decide ((i : ℤ) < k) : ℤ) = k := by
  obtain ⟨k, rfl⟩ := Int.eq_ofNat_of_zero_le hk
  have : k ≤ m := by simpa using hm
  obtain ⟨d, rfl⟩ := Nat.exists_eq_add_of_le this
  rw [List.range_add, List.countP_append, List.countP_map]
  have h1 : (List.range k).countP (fun i : ℕ => decide ((i : ℤ) < k)) = k := by
    rw [List.countP_eq_length.2 (by simp), List.length_range]
  have h2 : (List.range d).countP ((fun i : ℕ => decide ((i : ℤ) < k)) ∘ fun x => k + x) = 0 := by
    rw [List.countP_eq_zero]
    intro i _
    simp
  rw [h1, h2]; simp

theorem count_flatten_filter {fs : List String} (hn : fs.Nodup) (l : List ℕ) (p : ℕ → String → Bool) (f : String) (hf : f ∈ fs) :
    ((l.map fun i => fs.filter (p i)).flatten).count f = l.countP fun i => p i f := by
  induction l with
  | nil => rfl
  | cons i l ih =>
    rw [List.map_cons, List.flatten_cons, List.count_append, ih, List.countP_cons]
    by_cases hp : p i f = true
    · rw [if_pos hp, List.count_filter hp, List.count_eq_one_of_mem hn hf, Nat.add_comm]
    · rw [if_neg hp, List.count_eq_zero_of_not_mem (by simp [hp])]; omega

/-- The rounds of a configuration with different features: every feature is uploaded `num_repeats + 1` times, at most once a
round; no round is empty. -/
theorem C46_uploads {c : Config} (hn : c.inputs.Nodup) (h0 : c.inputs ≠ []) (hr : ∀ f ∈ c.inputs, 0 ≤ c.repeats f) :
    ∃ m, maxUploads c = .ok m ∧
      (∀ f ∈ c.inputs, ((c.rounds m).flatten.count f : ℤ) = c.repeats f + 1) ∧
      ∀ l ∈ c.rounds m, l.Sublist c.inputs ∧ l ≠ [] := by
  obtain ⟨m, h1, h2, g, hg, h3⟩ := maxUploads_spec h0
  have hm : 0 ≤ m := by have := hr g hg; omega
  refine ⟨m, h1, ?_, ?_⟩
  · intro f hf
    rw [Config.rounds, rounds_spec hn, count_flatten_filter hn _ _ f hf,
      count_range_lt _ _ (by have := hr f hf; omega) (by rw [Int.toNat_of_nonneg hm]; exact h2 f hf)]
  · intro l hl
    rw [Config.rounds, rounds_spec hn] at hl
    obtain ⟨i, hi, rfl⟩ := List.mem_map.1 hl
    refine ⟨List.filter_sublist, fun h => ?_⟩
    have := List.filter_eq_nil_iff.1 h g hg
    have hi := List.mem_range.1 hi
    simp only [decide_eq_true_eq] at this
    omega

/-! ### Encoding -/

theorem supportOf_zip {ks : List String} (hn : ks.Nodup) {ss : List (List ℕ)} (hl : ss.length = ks.length) {i : ℕ}
    (hi : i < ks.length) : supportOf (ks.zip ss) ks[i] = some (ss[i]'(by omega)) := by
  induction ks generalizing ss i with
  | nil => simp at hi
  | cons k ks ih =>
    cases ss with
    | nil => simp at hl
    | cons s ss =>
      obtain ⟨h1, h2⟩ := List.nodup_cons.1 hn
      have hnone : ∀ (l : List (String × List ℕ)) (f : String), f ∉ l.map Prod.fst → supportOf l f = none := by
        intro l f hf
        induction l with
        | nil => rfl
        | cons x l ih =>
          obtain ⟨a, b⟩ := x
          simp only [List.map_cons, List.mem_cons, not_or] at hf
          rw [supportOf, ih hf.2, if_neg (Ne.symm hf.1)]
          rfl
      cases i with
      | zero =>
        simp only [List.zip_cons_cons, supportOf, List.getElem_cons_zero, if_pos]
        rw [hnone]
        · rfl
        · intro hm
          obtain ⟨x, hx, he⟩ := List.mem_map.1 hm
          exact h1 (he ▸ (List.of_mem_zip hx).1)
      | succ i =>
        simp only [List.zip_cons_cons, supportOf, List.getElem_cons_succ]
        rw [ih h2 (by simpa using hl) (by simpa using hi)]
        rfl

theorem featureMap_qubits (ho : SetOrder ord) {pi : ℚ} {n : ℕ} {a : Args} {b : Block Prim} (h : featureMap pi ord n a = .ok b)
    {s : List ℕ} (hs : a.support = some s) (q : ℕ) : q ∈ qubits (Prim.supp ord) b ↔ q ∈ s := by
  obtain ⟨sup, op, scaled, tf, rs, rfl, -, -, -, -, -, -, -, rfl⟩ := (featureMap_spec ho _ _ _ _).1 h
  rw [mem_qubits_comp, hs, Option.getD_some]
  have : ∀ x : Set ℕ, x ∈ (gates op (a.multiplier.getD (.num 1 0)) rs.1 tf scaled a.paramPrefix 0 s).map
      (qubits (Prim.supp ord)) ↔ x ∈ s.map fun q => {q} := by
    intro x; rw [gates_qubits]
  constructor
  · rintro ⟨b, hb, hq⟩
    obtain ⟨y, hy, e⟩ := List.mem_map.1 ((this _).1 (List.mem_map_of_mem hb))
    rw [← e] at hq
    rw [Set.mem_singleton_iff] at hq
    exact hq ▸ hy
  · intro hq
    obtain ⟨b, hb, e⟩ := List.mem_map.1 ((this {q}).2 (List.mem_map.2 ⟨q, hq, rfl⟩))
    exact ⟨b, hb, by rw [e]; rfl⟩

theorem flatten_disjoint {n k : ℕ} {parts : List (List ℕ)} (h : Splits n k parts) {i j : ℕ} (hij : i ≠ j)
    {p q : List ℕ} (hp : parts[i]? = some p) (hq : parts[j]? = some q) : List.Disjoint p q := by
  have hn : parts.flatten.Nodup := by rw [h.all]; exact List.nodup_range
  have hd := (List.nodup_flatten.1 hn).2
  rw [List.pairwise_iff_getElem] at hd
  obtain ⟨hi, rfl⟩ := List.getElem?_eq_some_iff.1 hp
  obtain ⟨hj, rfl⟩ := List.getElem?_eq_some_iff.1 hq
  rcases lt_or_gt_of_ne hij with hlt | hlt
  · exact hd i j hi hj hlt
  · exact (hd j i hj hi hlt).symm

theorem mapM_forall₂ {α β : Type} {f : α → Except PyErr β} {l : List α} {m : List β} (h : l.mapM f = .ok m) :
    List.Forall₂ (fun a b => f a = .ok b) l m := by
  induction l generalizing m with
  | nil =>
    rw [List.mapM_nil] at h
    have := pure_ok h
    subst this; exact .nil
  | cons a l ih =>
    rw [List.mapM_cons] at h
    obtain ⟨b, ha, h⟩ := bind_ok h
    obtain ⟨bs, hl, h⟩ := bind_ok h
    have := pure_ok h
    subst this
    exact .cons ha (ih hl)

theorem forall₂_mapM {α β : Type} {f : α → Except PyErr β} {l : List α} {m : List β}
    (h : List.Forall₂ (fun a b => f a = .ok b) l m) : l.mapM f = .ok m := by
  induction h with
  | nil => rfl
  | cons h _ ih => rw [List.mapM_cons, h, ok_bind, ih, ok_bind]; rfl

/-- The features of a configuration can be encoded. -/
structure Encodable (pi : ℚ) (c : Config) : Prop where
  nodup : c.inputs.Nodup
  nonempty : c.inputs ≠ []
  repeats : ∀ f ∈ c.inputs, 0 ≤ c.repeats f
  op : c.op ≠ none
  range : ∀ f ∈ c.inputs, ((c.featureRange f).getD (setRange pi (c.basis f))).1 ≠ ((c.featureRange f).getD (setRange pi (c.basis f))).2
  basis : ∀ f ∈ c.inputs, c.basis f ≠ .other
  reupload : ∀ f ∈ c.inputs, c.reupload f ≠ .other

/-- The block `b` is the feature map of the feature `f` on the qubits `p` with the settings of the configuration. -/
def Encodes (pi : ℚ) (ord : List ℕ → List ℕ) (c : Config) (p : List ℕ) (f : String) (b : Block Prim) : Prop :=
  ∃ a : Args, featureMap pi ord p.length a = .ok b ∧ a.support = some p ∧ a.param = f ∧ a.op = c.op ∧ a.fmType = c.basis f ∧
    a.reupload = c.reupload f ∧ a.featureRange = c.featureRange f ∧ a.targetRange = c.targetRange f ∧ a.multiplier = none ∧
    a.paramPrefix = c.paramPrefix.map fun s => s ++ "_" ++ f

theorem encodes_args {pi : ℚ} {c : Config} {p : List ℕ} {f : String} {b : Block Prim}
    (h : featureMap pi ord p.length (c.args p f) = .ok b) : Encodes pi ord c p f b :=
  ⟨_, h, rfl, rfl, rfl, rfl, rfl, rfl, rfl, rfl, rfl⟩

/-- `f` is encoded on the section of its number by the block `b`. -/
def EncodedOn (pi : ℚ) (ord : List ℕ → List ℕ) (c : Config) (parts : List (List ℕ)) (f : String) (b : Block Prim) : Prop :=
  ∃ (i : ℕ) (p : List ℕ), c.inputs[i]? = some f ∧ parts[i]? = some p ∧ Encodes pi ord c p f b

theorem encodes_qubits (ho : SetOrder ord) {pi : ℚ} {c : Config} {p : List ℕ} {f : String} {b : Block Prim}
    (h : Encodes pi ord c p f b) (q : ℕ) : q ∈ qubits (Prim.supp ord) b ↔ q ∈ p := by
  obtain ⟨a, h, hs, -⟩ := h
  exact featureMap_qubits ho h hs q

theorem encode_one (ho : SetOrder ord) {pi : ℚ} {c : Config} (hc : Encodable pi c) {parts : List (List ℕ)}
    (hl : parts.length = c.inputs.length) (hne : ∀ p ∈ parts, p ≠ []) (hnd : ∀ p ∈ parts, p.Nodup) {f : String}
    (hf : f ∈ c.inputs) : ∃ p b, supportOf (c.inputs.zip parts) f = some p ∧ p ∈ parts ∧
      featureMap pi ord p.length (c.args p f) = .ok b ∧ EncodedOn pi ord c parts f b := by
  obtain ⟨i, hi, rfl⟩ := List.getElem_of_mem hf
  have hs := supportOf_zip hc.nodup hl hi
  have hm : parts[i]'(by omega) ∈ parts := List.getElem_mem _
  have hacc : Accepts pi (parts[i]'(by omega)).length (c.args (parts[i]'(by omega)) c.inputs[i]) := by
    refine ⟨hc.op, List.length_pos_iff.2 (hne _ hm), ?_, hc.range _ hf, hc.basis _ hf, hc.reupload _ hf⟩
    intro s hs
    injection hs with hs
    subst hs
    exact ⟨rfl, hnd _ hm⟩
  obtain ⟨b, hb⟩ := (C46_feature_map_accepts ho _ _ _).2 hacc
  exact ⟨_, b, hs, hm, hb, i, _, List.getElem?_eq_getElem hi, List.getElem?_eq_getElem (by omega), encodes_args hb⟩

/-- C46, parallel encoding: the register is split into sections, one for each feature; every block is a tensor product of feature
maps of different features, each on its section, and every feature is encoded `num_repeats + 1` times. -/
theorem C46_encode_parallel (ho : SetOrder ord) {pi : ℚ} {n : ℕ} {c : Config} (hc : Encodable pi c) (hk : c.inputs.length ≤ n) :
    ∃ parts rounds bs, encodeParallel pi ord n c = .ok bs ∧ Splits n c.inputs.length parts ∧
      (∀ f ∈ c.inputs, (rounds.flatten.count f : ℤ) = c.repeats f + 1) ∧
      (∀ l ∈ rounds, l.Sublist c.inputs) ∧
      List.Forall₂ (fun l b => ∃ fs, b = Block.comp .kron fs none ∧ List.Forall₂ (EncodedOn pi ord c parts) l fs ∧
        fs.Pairwise (fun a b => Disjoint (qubits (Prim.supp ord) a) (qubits (Prim.supp ord) b))) rounds bs := by
  obtain ⟨parts, hp, hs⟩ := (C46_parallel_split n c.inputs.length (List.length_pos_iff.2 hc.nonempty)).1 hk
  obtain ⟨m, hm, hu, hr⟩ := C46_uploads hc.nodup hc.nonempty hc.repeats
  have hnd : ∀ p ∈ parts, p.Nodup := by
    have hn : parts.flatten.Nodup := by rw [hs.all]; exact List.nodup_range
    exact (List.nodup_flatten.1 hn).1
  have hlayer : ∀ l ∈ c.rounds m, ∃ b fs, (do
      let bs ← l.mapM fun f =>
        match supportOf (c.inputs.zip parts) f with
        | some s => featureMap pi ord s.length (c.args s f)
        | none => .error .keyError
      kronOf (Prim.supp ord) ord bs) = .ok b ∧ b = Block.comp .kron fs none ∧
      List.Forall₂ (EncodedOn pi ord c parts) l fs ∧
        fs.Pairwise (fun a b => Disjoint (qubits (Prim.supp ord) a) (qubits (Prim.supp ord) b)) := by
    intro l hl
    obtain ⟨hsub, hne⟩ := hr l hl
    have hex : ∃ fs, List.Forall₂ (fun f b => (match supportOf (c.inputs.zip parts) f with
        | some s => featureMap pi ord s.length (c.args s f)
        | none => .error .keyError) = .ok b ∧ EncodedOn pi ord c parts f b) l fs := by
      have : ∀ f ∈ l, ∃ b, (match supportOf (c.inputs.zip parts) f with
        | some s => featureMap pi ord s.length (c.args s f)
        | none => .error .keyError) = .ok b ∧ EncodedOn pi ord c parts f b := by
        intro f hf
        obtain ⟨p, b, h1, h2, h3, h4⟩ := encode_one ho hc hs.count hs.nonempty hnd (hsub.subset hf)
        exact ⟨b, by rw [h1]; exact h3, h4⟩
      clear hne hsub hl
      induction l with
      | nil => exact ⟨[], .nil⟩
      | cons f l ih =>
        obtain ⟨b, hb⟩ := this f (by simp)
        obtain ⟨fs, hfs⟩ := ih fun g hg => this g (by simp [hg])
        exact ⟨b :: fs, .cons hb hfs⟩
    obtain ⟨fs, hfs⟩ := hex
    have h1 : l.mapM (fun f =>
        match supportOf (c.inputs.zip parts) f with
        | some s => featureMap pi ord s.length (c.args s f)
        | none => .error .keyError) = .ok fs := forall₂_mapM (hfs.imp fun _ _ h => h.1)
    have h2 : List.Forall₂ (EncodedOn pi ord c parts) l fs := hfs.imp fun _ _ h => h.2
    have h3 : fs.Pairwise (fun a b => Disjoint (qubits (Prim.supp ord) a) (qubits (Prim.supp ord) b)) := by
      have hnl : l.Nodup := hsub.nodup hc.nodup
      rw [List.pairwise_iff_getElem]
      intro a b ha hb hab
      have hlen := h2.length_eq
      obtain ⟨i, p, hi1, hi2, hi3⟩ := List.Forall₂.get h2 (i := a) (by omega) ha
      obtain ⟨j, q, hj1, hj2, hj3⟩ := List.Forall₂.get h2 (i := b) (by omega) hb
      have hij : i ≠ j := by
        rintro rfl
        rw [hi1] at hj1
        injection hj1 with hj1
        have := (hnl.getElem_inj_iff (hi := by omega) (hj := by omega)).1 hj1
        omega
      have hd := flatten_disjoint hs hij hi2 hj2
      rw [Set.disjoint_left]
      intro x hx hx'
      exact hd ((encodes_qubits ho hi3 x).1 hx) ((encodes_qubits ho hj3 x).1 hx')
    refine ⟨.comp .kron fs none, fs, ?_, rfl, h2, h3⟩
    rw [h1, ok_bind]
    refine (kronOf_ok_iff _ _ ho _ _).2 ⟨rfl, ?_, h3⟩
    rintro rfl
    exact hne (List.length_eq_zero_iff.1 h2.length_eq)
  have hall : ∃ bs, List.Forall₂ (fun l b => (do
      let bs ← l.mapM fun f =>
        match supportOf (c.inputs.zip parts) f with
        | some s => featureMap pi ord s.length (c.args s f)
        | none => .error .keyError
      kronOf (Prim.supp ord) ord bs) = .ok b ∧ ∃ fs, b = Block.comp .kron fs none ∧ List.Forall₂ (EncodedOn pi ord c parts) l fs ∧
        fs.Pairwise (fun a b => Disjoint (qubits (Prim.supp ord) a) (qubits (Prim.supp ord) b))) (c.rounds m) bs := by
    clear hr hu hm
    generalize c.rounds m = ls at *
    induction ls with
    | nil => exact ⟨[], .nil⟩
    | cons l ls ih =>
      obtain ⟨b, fs, hb, h⟩ := hlayer l (by simp)
      obtain ⟨bs, hbs⟩ := ih fun l' hl' => hlayer l' (by simp [hl'])
      exact ⟨b :: bs, .cons ⟨hb, fs, h⟩ hbs⟩
  obtain ⟨bs, hbs⟩ := hall
  refine ⟨parts, c.rounds m, bs, ?_, hs, hu, fun l hl => (hr l hl).1, hbs.imp fun _ _ h => h.2⟩
  rw [encodeParallel, hp, ok_bind, hm, ok_bind]
  exact forall₂_mapM (hbs.imp fun _ _ h => h.1)

/-- C46, series encoding: a chain of feature maps on the whole register, `num_repeats + 1` of every feature. -/
theorem C46_encode_series (ho : SetOrder ord) {pi : ℚ} {n : ℕ} (hn : 0 < n) {c : Config} (hc : Encodable pi c) :
    ∃ fs bs, encodeSeries pi ord n c = .ok bs ∧ (∀ f ∈ c.inputs, (fs.count f : ℤ) = c.repeats f + 1) ∧
      (∀ f ∈ fs, f ∈ c.inputs) ∧
      List.Forall₂ (Encodes pi ord c (List.range n)) fs bs := by
  obtain ⟨parts, hp, hl, hall⟩ := C46_series_support n c.inputs.length
  obtain ⟨m, hm, hu, hr⟩ := C46_uploads hc.nodup hc.nonempty hc.repeats
  have hone : ∀ f ∈ c.inputs, ∃ b, (match supportOf (c.inputs.zip parts) f with
      | some s => featureMap pi ord n (c.args s f)
      | none => .error .keyError) = .ok b ∧ featureMap pi ord n (c.args (List.range n) f) = .ok b := by
    intro f hf
    obtain ⟨p, b, h1, h2, h3, -⟩ := encode_one ho hc hl (by
      intro p hp; rw [hall p hp]; simp; omega) (by intro p hp; rw [hall p hp]; exact List.nodup_range) hf
    have := hall p h2
    subst this
    rw [List.length_range] at h3
    exact ⟨b, by rw [h1]; exact h3, h3⟩
  have hmem : ∀ f ∈ (c.rounds m).flatten, f ∈ c.inputs := by
    intro f hf
    obtain ⟨l, hl, hf⟩ := List.mem_flatten.1 hf
    exact (hr l hl).1.subset hf
  have hex : ∃ bs, List.Forall₂ (fun f b => (match supportOf (c.inputs.zip parts) f with
      | some s => featureMap pi ord n (c.args s f)
      | none => .error .keyError) = .ok b ∧ featureMap pi ord n (c.args (List.range n) f) = .ok b) (c.rounds m).flatten bs := by
    have : ∀ f ∈ (c.rounds m).flatten, _ := fun f hf => hone f (hmem f hf)
    clear hr hu hm hmem
    generalize (c.rounds m).flatten = ls at *
    induction ls with
    | nil => exact ⟨[], .nil⟩
    | cons f l ih =>
      obtain ⟨b, hb⟩ := this f (by simp)
      obtain ⟨fs, hfs⟩ := ih fun g hg => this g (by simp [hg])
      exact ⟨b :: fs, .cons hb hfs⟩
  obtain ⟨bs, hbs⟩ := hex
  refine ⟨_, bs, ?_, hu, hmem, hbs.imp fun _ _ h => encodes_args (by rw [List.length_range]; exact h.2)⟩
  rw [encodeSeries, hp, ok_bind, hm, ok_bind]
  exact forall₂_mapM (hbs.imp fun _ _ h => h.1)

/-- C46, `build_idx_fms`: with at least as many qubits as features the maps of different features act on different qubits of the
register; with fewer qubits it fails. -/
theorem C46_build_idx_fms (ho : SetOrder ord) (pi : ℚ) (basis : FmType) (hb : basis = .fourier ∨ basis = .chebyshev)
    (op : RotGate) {k n : ℕ} (hk : 0 < k) (rs : Reupload) (hrs : rs = .constant ∨ rs = .tower ∨ rs = .exp) :
    (k ≤ n → ∃ bs, buildIdxFms pi ord basis op .parallel k n rs = .ok bs ∧ bs.length = k ∧
      (∀ b ∈ bs, qubits (Prim.supp ord) b ⊆ {q | q < n}) ∧
      bs.Pairwise (fun a b => Disjoint (qubits (Prim.supp ord) a) (qubits (Prim.supp ord) b))) ∧
    (n < k → buildIdxFms pi ord basis op .parallel k n rs = .error .notImplementedError) := by
  have hf : ∀ i < k, ∃ s, fmQubits .parallel i n k = .ok (List.range' s (n / k)) ∧ s = i * (n / k) ∧ s + n / k ≤ n := by
    intro i hi
    have hq : (i + 1) * (n / k) - i * (n / k) = n / k := by rw [Nat.add_mul, Nat.one_mul, Nat.add_sub_cancel_left]
    refine ⟨i * (n / k), by rw [fmQubits]; simp only [if_neg hk.ne', hq], rfl, ?_⟩
    calc i * (n / k) + n / k = (i + 1) * (n / k) := by ring
      _ ≤ k * (n / k) := Nat.mul_le_mul_right _ hi
      _ ≤ n := Nat.mul_div_le n k
  have hone : ∀ (i : ℕ) (qs : List ℕ), ∃ g : ℕ × ℕ → Expr, (qs.zipIdx.mapM fun (q : ℕ × ℕ) => do
      let s ← generatorPrefactor pi rs q.2
      let e ← basisFunc basis (.var ("x" ++ toString i))
      return Block.leaf (Prim.gate (.rot op q.1 (.mul (.num s 0) e)) none) none) =
      .ok (qs.zipIdx.map fun (q : ℕ × ℕ) => Block.leaf (Prim.gate (.rot op q.1 (g q)) none) none) := by
    intro i qs
    have h1 : ∃ w : ℕ → ℚ, ∀ j, generatorPrefactor pi rs j = .ok (w j) := by
      rcases hrs with rfl | rfl | rfl
      · exact ⟨fun _ => 1, fun _ => rfl⟩
      · exact ⟨fun j => j + 1, fun _ => rfl⟩
      · exact ⟨fun j => 2 * pi / 2 ^ (j + 1), fun _ => rfl⟩
    have h2 : ∃ e, basisFunc basis (.var ("x" ++ toString i)) = .ok e := by
      rcases hb with rfl | rfl <;> exact ⟨_, rfl⟩
    obtain ⟨w, hw⟩ := h1
    obtain ⟨e, he⟩ := h2
    refine ⟨fun q => .mul (.num (w q.2) 0) e, mapM_ok_map fun q _ => ?_⟩
    rw [hw, ok_bind, he, ok_bind]
    rfl
  have hdisj : ∀ (s l : ℕ) (g : ℕ × ℕ → Expr), (((List.range' s l).zipIdx.map fun (q : ℕ × ℕ) =>
      (Block.leaf (Prim.gate (.rot op q.1 (g q)) none) none : Block Prim))).Pairwise
        (fun a b => Disjoint (qubits (Prim.supp ord) a) (qubits (Prim.supp ord) b)) := by
    intro s l g
    rw [List.pairwise_map]
    have hz : ((List.range' s l).zipIdx.map Prod.fst).Nodup := by
      rw [List.zipIdx_map_fst]; exact List.nodup_range'
    rw [List.Nodup, List.pairwise_map] at hz
    refine hz.imp fun {a b} hab => ?_
    rw [qubits_leaf, qubits_leaf, Set.disjoint_left]
    intro q hq hq'
    simp only [Prim.supp, Gate.supp, List.mem_singleton, Set.mem_setOf_eq] at hq hq'
    exact hab (hq.symm.trans hq')
  have hqs : ∀ (s l : ℕ) (g : ℕ × ℕ → Expr) (q : ℕ), q ∈ qubits (Prim.supp ord) (Block.comp .kron ((List.range' s l).zipIdx.map
      fun (q : ℕ × ℕ) => (Block.leaf (Prim.gate (.rot op q.1 (g q)) none) none : Block Prim)) none) → s ≤ q ∧ q < s + l := by
    intro s l g q hq
    rw [mem_qubits_comp] at hq
    obtain ⟨b, hb, hq⟩ := hq
    obtain ⟨x, hx, rfl⟩ := List.mem_map.1 hb
    rw [qubits_leaf] at hq
    simp only [Prim.supp, Gate.supp, List.mem_singleton, Set.mem_setOf_eq] at hq
    subst hq
    have : x.1 ∈ (List.range' s l).zipIdx.map Prod.fst := List.mem_map_of_mem hx
    rw [List.zipIdx_map_fst, List.mem_range'_1] at this
    exact this
  constructor
  · intro hkn
    have hl : 0 < n / k := Nat.div_pos hkn hk
    have hstep : ∀ i < k, ∃ b, (do
        let qs ← fmQubits .parallel i n k
        let bs ← qs.zipIdx.mapM fun (q : ℕ × ℕ) => do
          let s ← generatorPrefactor pi rs q.2
          let e ← basisFunc basis (.var ("x" ++ toString i))
          return Block.leaf (Prim.gate (.rot op q.1 (.mul (.num s 0) e)) none) none
        kronOf (Prim.supp ord) ord bs) = .ok b ∧ ∀ q ∈ qubits (Prim.supp ord) b, i * (n / k) ≤ q ∧ q < i * (n / k) + n / k := by
      intro i hi
      obtain ⟨s, hs, rfl, _⟩ := hf i hi
      obtain ⟨g, hg⟩ := hone i (List.range' (i * (n / k)) (n / k))
      refine ⟨_, ?_, hqs (i * (n / k)) (n / k) g⟩
      rw [hs, ok_bind, hg, ok_bind]
      refine (kronOf_ok_iff _ _ ho _ _).2 ⟨rfl, ?_, hdisj _ _ _⟩
      rw [← List.length_pos_iff]
      simpa using hl
    haveI : Nonempty (Block Prim) := ⟨.comp .chain [] none⟩
    choose! F hF hQ using hstep
    refine ⟨(List.range k).map F, ?_, by simp, ?_, ?_⟩
    · rw [buildIdxFms]
      exact mapM_ok_map fun i hi => hF i (List.mem_range.1 hi)
    · intro b hb q hq
      obtain ⟨i, hi, rfl⟩ := List.mem_map.1 hb
      have hi := List.mem_range.1 hi
      obtain ⟨s, -, rfl, hs⟩ := hf i hi
      have := hQ i hi q hq
      show q < n
      omega
    · rw [List.pairwise_map]
      refine List.pairwise_lt_range.imp_of_mem fun {i j} hi hj hij => ?_
      have hi := List.mem_range.1 hi
      have hj := List.mem_range.1 hj
      rw [Set.disjoint_left]
      intro q h1 h2
      have h1 := hQ i hi q h1
      have h2 := hQ j hj q h2
      have : (i + 1) * (n / k) ≤ j * (n / k) := Nat.mul_le_mul_right _ hij
      rw [Nat.add_mul] at this
      omega
  · intro hnk
    obtain ⟨k, rfl⟩ : ∃ k', k = k' + 1 := ⟨k - 1, by omega⟩
    obtain ⟨s, hs, -⟩ := hf 0 hk
    rw [Nat.div_eq_of_lt hnk] at hs
    rw [buildIdxFms, List.range_succ_eq_map, List.mapM_cons, hs]
    rfl

/-- C46, `build_idx_fms`: the map of feature `x{i}` rotates qubit number `j` of its qubits by `w j * F x{i}`, with `w` equal to 1,
`j + 1` or `2 pi / 2 ^ (j + 1)` and `F` the identity or twice the inverse cosine. -/
theorem C46_build_idx_operator (ho : SetOrder ord) {pi : ℚ} {basis : FmType} {op : RotGate} {st : Multivariate} {k n : ℕ}
    {rs : Reupload} {bs : List (Block Prim)} (h : buildIdxFms pi ord basis op st k n rs = .ok bs) (N : ℕ) (ρ : Env)
    {w : ℕ → ℚ} (hw : (rs = .constant ∧ ∀ j, w j = 1) ∨ (rs = .tower ∧ ∀ j, w j = j + 1) ∨
      (rs = .exp ∧ ∀ j, w j = 2 * pi / 2 ^ (j + 1)))
    {F : ℂ → ℂ} (hF : (basis = .fourier ∧ F = id) ∨ (basis = .chebyshev ∧ F = fun z => 2 * ρ.fn "acos" z)) :
    bs.length = k ∧ ∀ i (hi : i < bs.length), ∃ qs, fmQubits st i n k = .ok qs ∧
      (sem (primSem N ρ ord ho) ρ bs[i] : Oper N) = opProd (qs.zipIdx.map fun q : ℕ × ℕ =>
        embed1 q.1 (matRot ((w q.2 : ℝ) * F (ρ.var ("x" ++ toString i))) op)) := by
  have h2 := mapM_forall₂ h
  have hlen := h2.length_eq
  rw [List.length_range] at hlen
  refine ⟨hlen.symm, fun i hi => ?_⟩
  have hi' := h2.get (i := i) (by simpa [hlen] using hi) hi
  simp only [List.get_eq_getElem, List.getElem_range] at hi'
  obtain ⟨qs, h3, hi'⟩ := bind_ok hi'
  obtain ⟨gs, h4, hi'⟩ := bind_ok hi'
  obtain ⟨h5, -, -⟩ := (kronOf_ok_iff _ _ ho _ _).1 hi'
  refine ⟨qs, h3, ?_⟩
  rw [h5, sem_kron]
  have h1 : ∀ j, generatorPrefactor pi rs j = .ok (w j) := by
    rcases hw with ⟨rfl, hw⟩ | ⟨rfl, hw⟩ | ⟨rfl, hw⟩ <;> intro j <;> rw [hw] <;> rfl
  have h6 : ∃ e, basisFunc basis (.var ("x" ++ toString i)) = .ok e ∧ eval ρ e = F (ρ.var ("x" ++ toString i)) := by
    rcases hF with ⟨rfl, rfl⟩ | ⟨rfl, rfl⟩
    · exact ⟨_, rfl, rfl⟩
    · refine ⟨_, rfl, ?_⟩
      rw [eval, eval_real]
      norm_num [eval]
  obtain ⟨e, he, hev⟩ := h6
  have h7 : gs = qs.zipIdx.map fun q : ℕ × ℕ => Block.leaf (Prim.gate (.rot op q.1 (.mul (.num (w q.2) 0) e)) none) none := by
    have := mapM_ok_map (l := qs.zipIdx) (g := fun q : ℕ × ℕ =>
      Block.leaf (Prim.gate (.rot op q.1 (.mul (.num (w q.2) 0) e)) none) none) (f := fun (q : ℕ × ℕ) => do
      let s ← generatorPrefactor pi rs q.2
      let e ← basisFunc basis (.var ("x" ++ toString i))
      return Block.leaf (Prim.gate (.rot op q.1 (.mul (.num s 0) e)) none) none) (by
        intro q _
        rw [h1, ok_bind, he, ok_bind]
        rfl)
    rw [this] at h4
    injection h4 with h4
    exact h4.symm
  rw [h7, List.map_map]
  refine congrArg opProd (List.map_congr_left fun q _ => ?_)
  rw [Function.comp_apply, sem_leaf]
  show embed1 q.1 (matRot (eval ρ _) op) = _
  rw [eval, eval_real, hev]

/-! ### Strategy of a configuration (C65) -/

/-- C65, partial: an operation which fits the strategy is used with it, and missing operations are filled in. -/
theorem C65_strategy_partial (m : Multivariate) (k : ℕ) (s : Strategy) (op : Operation) {s' : Strategy} {op' : Operation}
    (h : postInit m k s op = .ok (s', op'))
    (hop : op = .none ∨ (s = .digital ∧ op = .digitalClass) ∨ (s = .analog ∧ op = .analogClass) ∨ (s = .rydberg ∧ op = .digitalClass)) :
    (op ≠ .none → op' = op) ∧ (s' = .digital → op' = .digitalClass) ∧ (s' = .analog → op' = .analogClass) ∧
      (s' = .rydberg → op' = .none) := by
  unfold postInit at h
  split at h
  · cases h
  · rcases hop with rfl | ⟨rfl, rfl⟩ | ⟨rfl, rfl⟩ | ⟨rfl, rfl⟩
    · injection h with h
      cases s <;> (simp only [Prod.mk.injEq] at h; obtain ⟨rfl, rfl⟩ := h; simp)
    all_goals
      injection h with h
      simp only [Operation.isAnalogInstance, Operation.isParametricInstance, Prod.mk.injEq] at h
      obtain ⟨rfl, rfl⟩ := h
      simp

/-- C65 is false: an analog operation with the digital (default) or the Rydberg strategy is kept with the digital strategy, a
digital operation with the analog strategy. The digital strategy then refuses the analog operation. -/
theorem C65_counterexample_strategy (k : ℕ) (pi : ℚ) (n : ℕ) (a : Args) (hop : a.op = none) :
    postInit .series k .digital .analogClass = .ok (.digital, .analogClass) ∧
    postInit .series k .rydberg .analogClass = .ok (.digital, .analogClass) ∧
    postInit .series k .analog .digitalClass = .ok (.analog, .digitalClass) ∧
    featureMap pi ord n a = .error .valueError := by
  refine ⟨rfl, rfl, rfl, ?_⟩
  rw [featureMap]
  split
  · rw [featureMapOn, hop]
  · split
    · rfl
    · rw [featureMapOn, hop]

/-! ### Examples -/

/-- Seven qubits and three features give sections of three, two and two qubits. -/
example : supportArrays 7 3 .parallel = .ok [[0, 1, 2], [3, 4], [5, 6]] := by rfl

/-- `get_fm_qubits` leaves qubit 6 of seven idle. -/
example : fmQubits .parallel 2 7 3 = .ok [4, 5] := by rfl

/-- The condition on the factor holds for the feature range `(2, 5)` and the target range `(-1, 1)`. -/
example : (∃ e, scaling 3 .chebyshev "x" (some (2, 5)) (some (-1, 1)) = .ok e) ∧
    (|(max (-1 : ℚ) 1 - min (-1) 1) - (max 2 5 - min 2 5)| = 0 ∨ |(max (-1 : ℚ) 1 - min (-1) 1) - (max 2 5 - min 2 5)| >
        1 / 10 ^ 9 * max (max (-1 : ℚ) 1 - min (-1) 1) (max 2 5 - min 2 5)) := by
  refine ⟨(C46_scaling_degenerate 3 .chebyshev "x" (2, 5) (-1, 1)).2 (by norm_num), .inr ?_⟩
  norm_num [abs_of_neg]

/-- Two features on five qubits, the second one uploaded three times. -/
def demoConfig : Config where
  inputs := ["t", "x"]
  op := some .RY
  basis := fun f => if f = "t" then .fourier else .chebyshev
  reupload := fun f => if f = "t" then .tower else .custom fun i => 3 * i
  featureRange := fun f => if f = "t" then some (0, 10) else none
  targetRange := fun _ => none
  repeats := fun f => if f = "t" then 0 else 2
  paramPrefix := some "w"

theorem demoConfig_encodable : Encodable 3 demoConfig := by
  refine ⟨by decide, by decide, ?_, by simp [demoConfig], ?_, ?_, ?_⟩ <;> intro f hf <;>
    (rcases List.mem_cons.1 hf with rfl | hf) <;> try rcases List.mem_singleton.1 hf with rfl
  all_goals simp [demoConfig, setRange]
  all_goals norm_num

example : maxUploads demoConfig = .ok 3 ∧ demoConfig.rounds 3 = [["t", "x"], ["x"], ["x"]] := by decide

example : ∃ bs, encodeParallel 3 demoOrd 5 demoConfig = .ok bs := by
  obtain ⟨_, _, bs, h, -⟩ := C46_encode_parallel demoOrd_setOrder demoConfig_encodable (n := 5) (by decide)
  exact ⟨bs, h⟩

/-- The operators of a feature map with trainable factors. -/
example : ∃ b, featureMap 3 demoOrd 2 { support := some [4, 1], fmType := .chebyshev, paramPrefix := some "w", op := some .RX } = .ok b ∧
    Transforms ⟨fun _ => 1, fun _ z => z⟩ (fun z => z) .chebyshev := by
  obtain ⟨b, hb⟩ := (C46_feature_map_accepts demoOrd_setOrder 3 2
    { support := some [4, 1], fmType := .chebyshev, paramPrefix := some "w", op := some .RX }).2
    ⟨by simp, by norm_num, by rintro s hs; injection hs with hs; subst hs; decide, by norm_num [setRange], by simp, by simp⟩
  exact ⟨b, hb, rfl⟩

end Qadence.FeatureMap
