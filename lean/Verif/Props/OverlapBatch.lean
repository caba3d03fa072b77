import Mathlib.Tactic
import Verif.Model.OverlapBatch
import Verif.Proofs.PyDict
import Verif.Proofs.Except

/-!
# C69: batches of parameter values in `Overlap`
-/

namespace Qadence

open OverlapBatch

/-! ## Lists -/

theorem flatten_replicate_getElem? {α : Type} (vs : List α) (nk k i : ℕ) (hk : k < nk) (hi : i < vs.length) :
    (List.replicate nk vs).flatten[k * vs.length + i]? = vs[i]? := by
  induction nk generalizing k with
  | zero => omega
  | succ nk ih =>
    rw [List.replicate_succ, List.flatten_cons]
    cases k with
    | zero => rw [Nat.zero_mul, Nat.zero_add, List.getElem?_append_left hi]
    | succ k =>
      rw [List.getElem?_append_right (by nlinarith), show (k + 1) * vs.length + i - vs.length = k * vs.length + i by
        rw [Nat.succ_mul]; omega]
      exact ih k (by omega)

theorem flatten_blocks_getElem? (s nk nb k i : ℕ) (hk : k < nk) (hi : i < nb) :
    (((List.range' s nk).map fun j => List.replicate nb j).flatten)[k * nb + i]? = some (s + k) := by
  induction nk generalizing k s with
  | zero => omega
  | succ nk ih =>
    rw [List.range'_succ, List.map_cons, List.flatten_cons]
    cases k with
    | zero => rw [Nat.zero_mul, Nat.zero_add, List.getElem?_append_left (by simpa using hi), List.getElem?_replicate, if_pos hi]; simp
    | succ k =>
      rw [List.getElem?_append_right (by rw [List.length_replicate]; nlinarith), List.length_replicate,
        show (k + 1) * nb + i - nb = k * nb + i by rw [Nat.succ_mul]; omega, ih (s + 1) k (by omega)]
      congr 1
      omega

theorem length_flatten_replicate {α : Type} (vs : List α) (nk : ℕ) : (List.replicate nk vs).flatten.length = nk * vs.length := by
  simp

theorem blocks_length (nk nb : ℕ) : ((List.range nk).map fun j => List.replicate nb j).flatten.length = nk * nb := by
  rw [List.length_flatten, List.map_map]
  have : (List.length ∘ fun j : ℕ => List.replicate nb j) = fun _ => nb := by funext j; simp
  rw [this]
  simp

/-- The ket indices of the grid. -/
def ketIdx (nk nb : ℕ) : List ℕ := ((List.range nk).map fun j => List.replicate nb j).flatten

theorem ketIdx_getElem? (nk nb k i : ℕ) (hk : k < nk) (hi : i < nb) : (ketIdx nk nb)[k * nb + i]? = some k := by
  have := flatten_blocks_getElem? 0 nk nb k i hk hi
  rw [← List.range_eq_range', Nat.zero_add] at this
  exact this

theorem ketIdx_lt {nk nb j : ℕ} (h : j ∈ ketIdx nk nb) : j < nk := by
  rw [ketIdx, List.mem_flatten] at h
  obtain ⟨l, hl, hj⟩ := h
  obtain ⟨i, hi, rfl⟩ := List.mem_map.1 hl
  rw [List.mem_replicate] at hj
  rw [hj.2]
  exact List.mem_range.1 hi

/-- All positions of the flat grid are of the form `k * nb + i`. -/
theorem grid_ext {α : Type} {nk nb : ℕ} {a b : List α} (ha : a.length = nk * nb) (hb : b.length = nk * nb)
    (h : ∀ k < nk, ∀ i < nb, a[k * nb + i]? = b[k * nb + i]?) : a = b := by
  apply List.ext_getElem?
  intro j
  by_cases hj : j < nk * nb
  · have hnb : 0 < nb := by
      rcases Nat.eq_zero_or_pos nb with h0 | h0
      · rw [h0, Nat.mul_zero] at hj; omega
      · exact h0
    have h1 : j / nb < nk := by rw [Nat.div_lt_iff_lt_mul hnb]; exact hj
    have := h (j / nb) h1 (j % nb) (Nat.mod_lt _ hnb)
    rwa [show j / nb * nb + j % nb = j by rw [Nat.mul_comm]; exact Nat.div_add_mod j nb] at this
  · rw [List.getElem?_eq_none (by omega), List.getElem?_eq_none (by omega)]

theorem reshapeT_grid {nk nb : ℕ} {l : List ℝ} (G : ℕ → ℕ → ℝ) (hl : l.length = nk * nb)
    (h : ∀ k < nk, ∀ i < nb, l[k * nb + i]? = some (G i k)) :
    reshapeT nk nb l = .ok ((List.range nb).map fun i => (List.range nk).map fun k => G i k) := by
  rw [reshapeT, if_pos hl]
  congr 1
  refine List.map_congr_left fun i hi => List.map_congr_left fun k hk => ?_
  rw [List.getD_eq_getElem?_getD, h k (List.mem_range.1 hk) i (List.mem_range.1 hi)]
  rfl

/-! ## Rows -/

theorem mapM_pair (names : List String) (d : Batch) (g : String → List ℝ) (h : ∀ x ∈ names, d.get? x = some (g x)) :
    names.mapM (lookup d) = .ok (names.map fun x => (x, g x)) :=
  mapM_ok_map fun x hx => by rw [lookup, h x hx]

theorem foldl_max_const {α : Type} (l : List α) (f : α → ℕ) (B a : ℕ) (ha : a ≤ B) (h : ∀ x ∈ l, f x = B) (hne : l ≠ [] ∨ a = B) :
    (l.map f).foldl max a = B := by
  induction l generalizing a with
  | nil =>
    rcases hne with h | h
    · exact absurd rfl h
    · exact h
  | cons x l ih =>
    rw [List.map_cons, List.foldl_cons, h x (by simp), max_eq_right ha]
    exact ih B le_rfl (fun y hy => h y (by simp [hy])) (.inr rfl)

/-- Rows of a batch in which all values have the same positive length. -/
theorem rows_eq {names : List String} {d : Batch} (g : String → List ℝ) (B : ℕ) (hB : 0 < B) (hne : names ≠ [])
    (h : ∀ x ∈ names, d.get? x = some (g x)) (hl : ∀ x ∈ names, (g x).length = B) :
    ∃ rs, rows names d = .ok rs ∧ rs.length = B ∧ ∀ i < B, ∃ ρ, rs[i]? = some ρ ∧ ∀ x ∈ names, PyDict.get? ρ x = (g x)[i]? := by
  have hsz : ((names.map fun x => (x, g x)).map fun kv => kv.2.length).foldl max 1 = B := by
    rw [List.map_map]
    exact foldl_max_const names _ B 1 hB (fun x hx => hl x hx) (.inl hne)
  refine ⟨(List.range B).map fun i => (names.map fun x => (x, g x)).map fun kv =>
      (kv.1, if kv.2.length = 1 then kv.2.getD 0 0 else kv.2.getD i 0), ?_, ?_, ?_⟩
  · rw [rows, mapM_pair names d g h, ok_bind]
    simp only
    rw [hsz, if_pos]
    · rfl
    · intro kv hkv
      obtain ⟨x, hx, rfl⟩ := List.mem_map.1 hkv
      exact .inr (hl x hx)
  · simp
  · intro i hi
    refine ⟨_, by rw [List.getElem?_map, List.getElem?_range hi]; rfl, ?_⟩
    intro x hx
    simp only [List.map_map]
    have key : ∀ l : List String, x ∈ l → (∀ y ∈ l, (g y).length = B) → PyDict.get? (l.map ((fun kv : String × List ℝ =>
        (kv.1, if kv.2.length = 1 then kv.2.getD 0 0 else kv.2.getD i 0)) ∘ fun x => (x, g x))) x = (g x)[i]? := by
      intro l hxl hl
      induction l with
      | nil => simp at hxl
      | cons y l ih =>
        rw [List.map_cons, Function.comp_apply, PyDict.get?]
        by_cases hy : y = x
        · rw [if_pos hy]
          subst hy
          have hlen := hl y (by simp)
          have hlt : i < (g y).length := by omega
          rw [List.getElem?_eq_getElem hlt]
          simp only
          congr 1
          by_cases h1 : (g y).length = 1
          · have : i = 0 := by omega
            subst this
            rw [if_pos h1, List.getD_eq_getElem?_getD, List.getElem?_eq_getElem hlt]; rfl
          · rw [if_neg h1, List.getD_eq_getElem?_getD, List.getElem?_eq_getElem hlt]; rfl
        · rw [if_neg hy]
          exact ih ((List.mem_cons.1 hxl).resolve_left fun e => hy e.symm) fun z hz => hl z (by simp [hz])
    exact key names hx hl

theorem broadcast_eq (f : Row → Row → ℝ) {a b : List Row} (h : a.length = b.length) : broadcast f a b = .ok (List.zipWith f a b) := by
  unfold broadcast
  rw [if_pos h]

/-! ## The grid -/

/-- The value of the overlap depends on one feature parameter `x` of the bra and another one `y` of the ket. -/
structure TwoFeatures (C : Circuits) (x y : String) (O : ℝ → ℝ → ℝ) : Prop where
  bra : C.braNames = [x]
  ket : C.ketNames = [y]
  ne : x ≠ y
  ov : ∀ ρ σ v w, PyDict.get? ρ x = some v → PyDict.get? σ y = some w → C.ov ρ σ = O v w
  hadamard : ∀ ρ, C.re ρ + C.im ρ = C.ov ρ ρ

/-- What `_process_param_values` passes on for two different feature parameters. -/
def gridValues (m : Method) (x y : String) (a b : List ℝ) : Batch × Option Batch :=
  match m with
  | .exact | .jensenShannon => ([(x, a)], some [(y, b)])
  | .computeUncompute | .swapTest => ([(x, a), (y, b)], none)
  | .hadamardTest => ([(x, a), (y, b)], some [(x, a), (y, b)])

/-- **C69**: for two different feature parameters, all methods return the matrix of the overlaps of every bra with every ket,
with one row per bra and one column per ket. -/
theorem C69_grid {C : Circuits} {x y : String} {O : ℝ → ℝ → ℝ} (hC : TwoFeatures C x y O) (m : Method) {vs ws : List ℝ}
    (hv : vs ≠ []) (hw : ws ≠ []) :
    forward C m [(x, .vec vs)] [(y, .vec ws)] = .ok (vs.map fun v => ws.map fun w => O v w) := by
  obtain ⟨h1, h2, hne, hov, hhad⟩ := hC
  have hvl : 0 < vs.length := List.length_pos_iff.2 hv
  have hwl : 0 < ws.length := List.length_pos_iff.2 hw
  have hu : union [x] [y] = [x, y] := by simp [union, hne]
  have hu2 : union [x, y] [] = [x, y] := by simp [union, hne]
  have hu3 : union [x, y] [x, y] = [x, y] := by simp [union, hne]
  have hcount : (union (featNames C m).1 (featNames C m).2).length = 2 := by
    cases m <;> simp only [featNames, h1, h2, hu, hu2, hu3] <;> rfl
  let A := (List.replicate ws.length vs).flatten
  let Bk := (ketIdx ws.length vs.length).map fun j => ws.getD j 0
  have hA : A.length = ws.length * vs.length := length_flatten_replicate vs ws.length
  have hB : Bk.length = ws.length * vs.length := by
    simp only [Bk, List.length_map]; exact blocks_length _ _
  have hAi : ∀ k < ws.length, ∀ i < vs.length, A[k * vs.length + i]? = vs[i]? :=
    fun k hk i hi => flatten_replicate_getElem? vs ws.length k i hk hi
  have hBi : ∀ k < ws.length, ∀ i < vs.length, Bk[k * vs.length + i]? = ws[k]? := by
    intro k hk i hi
    simp only [Bk, List.getElem?_map]
    rw [ketIdx_getElem? _ _ k i hk hi, Option.map_some, List.getD_eq_getElem?_getD, List.getElem?_eq_getElem hk]
    rfl
  have hpos : 0 < ws.length * vs.length := Nat.mul_pos hwl hvl
  have hket : (ketIdx ws.length vs.length).mapM (entry ws) = .ok Bk :=
    mapM_ok_map fun j hj => by
      rw [entry, List.getElem?_eq_getElem (ketIdx_lt hj)]
      simp only
      rw [List.getD_eq_getElem?_getD, List.getElem?_eq_getElem (ketIdx_lt hj)]
      rfl
  have hproc : processParamValues C m [(x, .vec vs)] [(y, .vec ws)] = .ok (gridValues m x y A Bk) := by
    rw [processParamValues]
    simp only [hcount, List.map_cons, List.map_nil, PT.flat, batchSize, if_true]
    rw [List.mapM_cons]
    simp only [List.mapM_nil]
    have e : ((List.range ws.length).map fun i => List.replicate vs.length i).flatten = ketIdx ws.length vs.length := rfl
    rw [e, hket]
    cases m <;> simp [ok_bind, pure_eq_ok, PyDict.merge, PyDict.set, hne, A, gridValues]
  -- rows of the single and of the merged dictionaries
  let g : String → List ℝ := fun z => if z = x then A else Bk
  have hgx : g x = A := if_pos rfl
  have hgy : g y = Bk := if_neg (Ne.symm hne)
  obtain ⟨ra, ra1, ra2, ra3⟩ := rows_eq (names := [x]) (d := [(x, A)]) g _ hpos (by simp)
    (by intro z hz; rw [List.mem_singleton] at hz; subst hz; rw [hgx]; simp [PyDict.get?])
    (by intro z hz; rw [List.mem_singleton] at hz; subst hz; rw [hgx]; exact hA)
  obtain ⟨rb, rb1, rb2, rb3⟩ := rows_eq (names := [y]) (d := [(y, Bk)]) g _ hpos (by simp)
    (by intro z hz; rw [List.mem_singleton] at hz; subst hz; rw [hgy]; simp [PyDict.get?])
    (by intro z hz; rw [List.mem_singleton] at hz; subst hz; rw [hgy]; exact hB)
  obtain ⟨rm, rm1, rm2, rm3⟩ := rows_eq (names := [x, y]) (d := [(x, A), (y, Bk)]) g _ hpos (by simp)
    (by
      intro z hz
      simp only [List.mem_cons, List.not_mem_nil, or_false] at hz
      rcases hz with rfl | rfl
      · rw [hgx]; simp [PyDict.get?]
      · rw [hgy]; simp [PyDict.get?, hne])
    (by
      intro z hz
      simp only [List.mem_cons, List.not_mem_nil, or_false] at hz
      rcases hz with rfl | rfl
      · rw [hgx]; exact hA
      · rw [hgy]; exact hB)
  have hlt : ∀ k < ws.length, ∀ i < vs.length, k * vs.length + i < ws.length * vs.length := by
    intro k hk i hi
    calc k * vs.length + i < k * vs.length + vs.length := by omega
      _ = (k + 1) * vs.length := by ring
      _ ≤ ws.length * vs.length := Nat.mul_le_mul_right _ hk
  have hpair : ∀ k < ws.length, ∀ i < vs.length, (List.zipWith C.ov ra rb)[k * vs.length + i]? = some (O (vs.getD i 0) (ws.getD k 0)) := by
    intro k hk i hi
    obtain ⟨ρ, e1, e2⟩ := ra3 _ (hlt k hk i hi)
    obtain ⟨σ, e3, e4⟩ := rb3 _ (hlt k hk i hi)
    have e5 := e2 x (by simp)
    have e6 := e4 y (by simp)
    rw [hgx, hAi k hk i hi, List.getElem?_eq_getElem hi] at e5
    rw [hgy, hBi k hk i hi, List.getElem?_eq_getElem hk] at e6
    rw [List.getElem?_zipWith_eq_some]
    refine ⟨ρ, σ, e1, e3, ?_⟩
    rw [hov ρ σ _ _ e5 e6, List.getD_eq_getElem?_getD, List.getD_eq_getElem?_getD, List.getElem?_eq_getElem hi, List.getElem?_eq_getElem hk]
    rfl
  have hmerged : ∀ k < ws.length, ∀ i < vs.length, (rm.map fun ρ => C.ov ρ ρ)[k * vs.length + i]? = some (O (vs.getD i 0) (ws.getD k 0)) := by
    intro k hk i hi
    obtain ⟨ρ, e1, e2⟩ := rm3 _ (hlt k hk i hi)
    have e5 := e2 x (by simp)
    have e6 := e2 y (by simp)
    rw [hgx, hAi k hk i hi, List.getElem?_eq_getElem hi] at e5
    rw [hgy, hBi k hk i hi, List.getElem?_eq_getElem hk] at e6
    rw [List.getElem?_map, e1, Option.map_some, hov ρ ρ _ _ e5 e6, List.getD_eq_getElem?_getD, List.getD_eq_getElem?_getD,
      List.getElem?_eq_getElem hi, List.getElem?_eq_getElem hk]
    rfl
  have hfn : ∃ o, overlapFn C m (gridValues m x y A Bk) = .ok o ∧ o.length = ws.length * vs.length ∧
      ∀ k < ws.length, ∀ i < vs.length, o[k * vs.length + i]? = some (O (vs.getD i 0) (ws.getD k 0)) := by
    cases m with
    | exact =>
      refine ⟨List.zipWith C.ov ra rb, ?_, by simp [ra2, rb2], hpair⟩
      simp only [gridValues, overlapFn, h1, h2, Option.getD_some]
      rw [ra1, ok_bind, rb1, ok_bind, broadcast_eq _ (by rw [ra2, rb2])]
    | jensenShannon =>
      refine ⟨List.zipWith C.ov ra rb, ?_, by simp [ra2, rb2], hpair⟩
      simp only [gridValues, overlapFn, h1, h2, Option.getD_some]
      rw [ra1, ok_bind, rb1, ok_bind]
      rfl
    | computeUncompute =>
      refine ⟨rm.map fun ρ => C.ov ρ ρ, ?_, by simp [rm2], hmerged⟩
      simp only [gridValues, overlapFn, h1, h2, hu]
      rw [rm1, ok_bind]
      rfl
    | swapTest =>
      refine ⟨rm.map fun ρ => C.ov ρ ρ, ?_, by simp [rm2], hmerged⟩
      simp only [gridValues, overlapFn, h1, h2, hu]
      rw [rm1, ok_bind]
      rfl
    | hadamardTest =>
      refine ⟨rm.map fun ρ => C.ov ρ ρ, ?_, by simp [rm2], hmerged⟩
      simp only [gridValues, overlapFn, h1, h2, hu, Option.getD_some]
      rw [rm1, ok_bind, ok_bind, broadcast_eq _ rfl, List.zipWith_self]
      congr 1
      exact List.map_congr_left fun ρ _ => hhad ρ
  obtain ⟨o, o1, o2, o3⟩ := hfn
  rw [forward, hproc, ok_bind, o1, ok_bind, hcount, if_neg (by omega)]
  simp only [firstLen, ok_bind]
  rw [Nat.max_eq_left hwl, Nat.max_eq_left hvl, reshapeT_grid (fun i k => O (vs.getD i 0) (ws.getD k 0)) o2 o3]
  congr 1
  apply List.ext_getElem
  · simp
  · intro i hi1 hi2
    simp only [List.length_map, List.length_range] at hi1
    simp only [List.getElem_map, List.getElem_range]
    apply List.ext_getElem
    · simp
    · intro k hk1 hk2
      simp only [List.length_map, List.length_range] at hk1
      simp only [List.getElem_map, List.getElem_range]
      rw [List.getD_eq_getElem?_getD, List.getD_eq_getElem?_getD, List.getElem?_eq_getElem hi1, List.getElem?_eq_getElem hk1]
      rfl

/-! ## One feature parameter -/

/-- Bra and ket share their only feature parameter, or have none. -/
structure OneFeature (C : Circuits) (x : String) (O : ℝ → ℝ → ℝ) : Prop where
  bra : C.braNames = [x]
  ket : C.ketNames = [x]
  ov : ∀ ρ σ v w, PyDict.get? ρ x = some v → PyDict.get? σ x = some w → C.ov ρ σ = O v w

theorem rows_single {x : String} {vs : List ℝ} (hv : vs ≠ []) : rows [x] [(x, vs)] = .ok (vs.map fun v => [(x, v)]) := by
  have hl : 0 < vs.length := List.length_pos_iff.2 hv
  obtain ⟨rs, h1, h2, h3⟩ := rows_eq (names := [x]) (d := [(x, vs)]) (fun _ => vs) vs.length hl (by simp)
    (by intro z hz; rw [List.mem_singleton] at hz; subst hz; simp [PyDict.get?]) (by simp)
  rw [rows, mapM_pair [x] [(x, vs)] (fun _ => vs) (by intro z hz; rw [List.mem_singleton] at hz; subst hz; simp [PyDict.get?]), ok_bind]
  simp only [List.map_cons, List.map_nil, List.foldl_cons, List.foldl_nil, Nat.max_eq_right hl]
  rw [if_pos (by simp)]
  show Except.ok _ = Except.ok _
  congr 1
  apply List.ext_getElem
  · simp
  · intro i hi1 hi2
    simp only [List.length_map, List.length_range] at hi1
    simp only [List.getElem_map, List.getElem_range]
    by_cases h : vs.length = 1
    · have : i = 0 := by omega
      subst this
      rw [if_pos h, List.getD_eq_getElem?_getD, List.getElem?_eq_getElem hi1]; rfl
    · rw [if_neg h, List.getD_eq_getElem?_getD, List.getElem?_eq_getElem hi1]; rfl

theorem one_count {C : Circuits} {x : String} (h1 : C.braNames = [x]) (h2 : C.ketNames = [x]) (m : Method) :
    (union (featNames C m).1 (featNames C m).2).length = 1 := by
  cases m <;> simp [featNames, h1, h2, union]

theorem one_process {C : Circuits} {x : String} (h1 : C.braNames = [x]) (h2 : C.ketNames = [x]) (m : Method) {vs ws : List ℝ}
    (h : vs.length = ws.length) : processParamValues C m [(x, .vec vs)] [(x, .vec ws)] = .ok ([(x, vs)], some [(x, ws)]) := by
  rw [processParamValues]
  simp only [one_count h1 h2 m, List.map_cons, List.map_nil, PT.flat, batchSize]
  rw [if_neg (by omega), if_pos (by omega), if_pos (.inl h)]
  rfl

/-- **C69**: for a shared feature parameter, the exact method and the Jensen-Shannon method return the column of the overlaps of
corresponding bras and kets. -/
theorem C69_pairs {C : Circuits} {x : String} {O : ℝ → ℝ → ℝ} (hC : OneFeature C x O) {m : Method}
    (hm : m = .exact ∨ m = .jensenShannon) {vs ws : List ℝ} (hv : vs ≠ []) (h : vs.length = ws.length) :
    forward C m [(x, .vec vs)] [(x, .vec ws)] = .ok ((List.zipWith O vs ws).map fun o => [o]) := by
  obtain ⟨h1, h2, hov⟩ := hC
  have hw : ws ≠ [] := by rw [← List.length_pos_iff, ← h]; exact List.length_pos_iff.2 hv
  have hz : List.zipWith C.ov (vs.map fun v => [(x, v)]) (ws.map fun v => [(x, v)]) = List.zipWith O vs ws := by
    rw [List.zipWith_map]
    congr 1
    funext v w
    exact hov _ _ v w (by simp [PyDict.get?]) (by simp [PyDict.get?])
  have hfn : overlapFn C m ([(x, vs)], some [(x, ws)]) = .ok (List.zipWith O vs ws) := by
    rcases hm with rfl | rfl
    · simp only [overlapFn, h1, h2, Option.getD_some]
      rw [rows_single hv, ok_bind, rows_single hw, ok_bind, broadcast_eq _ (by simpa using h), hz]
    · simp only [overlapFn, h1, h2, Option.getD_some]
      rw [rows_single hv, ok_bind, rows_single hw, ok_bind, hz]
      rfl
  rw [forward, one_process h1 h2 m h, ok_bind, hfn, ok_bind, one_count h1 h2 m, if_pos (by omega)]
  rfl

/-- **C69**: batches of different sizes are rejected for a shared feature parameter. -/
theorem C69_sizes {C : Circuits} {x : String} (h1 : C.braNames = [x]) (h2 : C.ketNames = [x]) (m : Method) {vs ws : List ℝ}
    (hv : vs ≠ []) (hw : ws ≠ []) (h : vs.length ≠ ws.length) :
    forward C m [(x, .vec vs)] [(x, .vec ws)] = .error .valueError := by
  have a := List.length_pos_iff.2 hv
  have b := List.length_pos_iff.2 hw
  rw [forward, processParamValues]
  simp only [one_count h1 h2 m, List.map_cons, List.map_nil, PT.flat, batchSize]
  rw [if_neg (by omega), if_pos (by omega), if_neg (by omega)]
  rfl

/-- **C69** does not hold for a shared feature parameter and the methods that merge both circuits: the values for the ket are
ignored, and the overlaps of every bra with the ket *at the values of the bra* are returned. -/
theorem C69_counterexample_shared {C : Circuits} {x : String} {O : ℝ → ℝ → ℝ} (hC : OneFeature C x O) {m : Method}
    (hm : m = .computeUncompute ∨ m = .swapTest) {vs ws : List ℝ} (hv : vs ≠ []) (h : vs.length = ws.length) :
    forward C m [(x, .vec vs)] [(x, .vec ws)] = .ok (vs.map fun v => [O v v]) := by
  obtain ⟨h1, h2, hov⟩ := hC
  have hu : union [x] [x] = [x] := by simp [union]
  have hfn : overlapFn C m ([(x, vs)], some [(x, ws)]) = .ok (vs.map fun v => O v v) := by
    rcases hm with rfl | rfl <;>
    · simp only [overlapFn, h1, h2, hu]
      rw [rows_single hv, ok_bind, List.map_map]
      show Except.ok _ = Except.ok _
      congr 1
      refine List.map_congr_left fun v _ => hov _ _ v v (by simp [PyDict.get?]) (by simp [PyDict.get?])
  rw [forward, one_process h1 h2 m h, ok_bind, hfn, ok_bind, one_count h1 h2 m, if_pos (by omega)]
  show Except.ok _ = Except.ok _
  rw [List.map_map]
  rfl

/-- **C69** does not hold for a shared feature parameter and the Hadamard test: the real part is computed for the values of the
bra, the imaginary part for the values of the ket. -/
theorem C69_counterexample_hadamard {C : Circuits} {x : String} {R I : ℝ → ℝ} (h1 : C.braNames = [x]) (h2 : C.ketNames = [x])
    (hr : ∀ ρ v, PyDict.get? ρ x = some v → C.re ρ = R v) (hi : ∀ ρ v, PyDict.get? ρ x = some v → C.im ρ = I v)
    {vs ws : List ℝ} (hv : vs ≠ []) (h : vs.length = ws.length) :
    forward C .hadamardTest [(x, .vec vs)] [(x, .vec ws)] = .ok ((List.zipWith (fun v w => R v + I w) vs ws).map fun o => [o]) := by
  have hw : ws ≠ [] := by rw [← List.length_pos_iff, ← h]; exact List.length_pos_iff.2 hv
  have hu : union [x] [x] = [x] := by simp [union]
  rw [forward, one_process h1 h2 _ h, ok_bind, one_count h1 h2 _]
  simp only [overlapFn, h1, h2, hu, Option.getD_some]
  rw [rows_single hv, ok_bind, rows_single hw, ok_bind, broadcast_eq _ (by simpa using h), ok_bind, List.zipWith_map]
  show Except.ok _ = Except.ok _
  congr 3
  funext v w
  rw [hr _ v (by simp [PyDict.get?]), hi _ w (by simp [PyDict.get?])]

/-! ## A feature parameter on one side -/

/-- **C69**: if only the bra depends on a feature parameter, the exact method returns the column of its overlaps with the ket. -/
theorem C69_bra_only {C : Circuits} {x : String} {O : ℝ → ℝ} (h1 : C.braNames = [x]) (h2 : C.ketNames = [])
    (hov : ∀ ρ σ v, PyDict.get? ρ x = some v → C.ov ρ σ = O v) {vs : List ℝ} (hv : vs ≠ []) :
    forward C .exact [(x, .vec vs)] [] = .ok (vs.map fun v => [O v]) := by
  have hc : (union (featNames C .exact).1 (featNames C .exact).2).length = 1 := by simp [featNames, h1, h2, union]
  have hp : processParamValues C .exact [(x, .vec vs)] [] = .ok ([(x, vs)], some []) := by
    rw [processParamValues]
    simp only [hc, List.map_cons, List.map_nil, PT.flat, batchSize]
    rw [if_neg (by omega), if_pos (by omega), if_pos (by simp)]
    rfl
  rw [forward, hp, ok_bind, hc]
  simp only [overlapFn, h1, h2, Option.getD_some]
  have hr : rows [] [] = .ok [[]] := rfl
  rw [rows_single hv, ok_bind, hr, ok_bind]
  have hb : broadcast C.ov (vs.map fun v => [(x, v)]) [[]] = .ok (vs.map O) := by
    unfold broadcast
    match vs, hv with
    | [v], _ =>
      simp only [List.map_cons, List.map_nil, List.length_cons, List.length_nil, if_true, List.zipWith_cons_cons, List.zipWith_nil_left]
      rw [hov _ _ v (by simp [PyDict.get?])]
    | v :: w :: vs, _ =>
      rw [if_neg (by simp)]
      simp only [List.map_cons]
      rw [hov _ _ v (by simp [PyDict.get?]), hov _ _ w (by simp [PyDict.get?]), List.map_map]
      congr 3
      exact List.map_congr_left fun u _ => hov _ _ u (by simp [PyDict.get?])
  rw [hb, ok_bind]
  show Except.ok _ = Except.ok _
  rw [List.map_map]
  rfl

/-- The Jensen-Shannon method pairs the samples of bra and ket with `zip`: all values of the bra but the first one are lost if only
the bra depends on a feature parameter. -/
theorem C69_counterexample_zip {C : Circuits} {x : String} {O : ℝ → ℝ} (h1 : C.braNames = [x]) (h2 : C.ketNames = [])
    (hov : ∀ ρ σ v, PyDict.get? ρ x = some v → C.ov ρ σ = O v) (v : ℝ) (vs : List ℝ) :
    forward C .jensenShannon [(x, .vec (v :: vs))] [] = .ok [[O v]] := by
  have hc : (union (featNames C .jensenShannon).1 (featNames C .jensenShannon).2).length = 1 := by simp [featNames, h1, h2, union]
  have hp : processParamValues C .jensenShannon [(x, .vec (v :: vs))] [] = .ok ([(x, v :: vs)], some []) := by
    rw [processParamValues]
    simp only [hc, List.map_cons, List.map_nil, PT.flat, batchSize]
    rw [if_neg (by omega), if_pos (by omega), if_pos (by simp)]
    rfl
  rw [forward, hp, ok_bind, hc]
  simp only [overlapFn, h1, h2, Option.getD_some]
  have hr : rows [] [] = .ok [[]] := rfl
  rw [rows_single (by simp), ok_bind, hr, ok_bind]
  show Except.ok _ = Except.ok _
  simp only [List.map_cons, List.zipWith_cons_cons, List.zipWith_nil_right, List.map_nil]
  rw [hov _ _ v (by simp [PyDict.get?])]

/-- If only the ket depends on a feature parameter, the methods that merge both circuits do not find its value. -/
theorem C69_counterexample_ket_only {C : Circuits} {y : String} (h1 : C.braNames = []) (h2 : C.ketNames = [y]) {m : Method}
    (hm : m = .computeUncompute ∨ m = .swapTest ∨ m = .hadamardTest) (ws : List ℝ) :
    forward C m [] [(y, .vec ws)] = .error .keyError := by
  have hu : union [] [y] = [y] := by simp [union]
  have hc : (union (featNames C m).1 (featNames C m).2).length = 1 := by
    rcases hm with rfl | rfl | rfl <;> simp [featNames, h1, h2, union]
  have hp : processParamValues C m [] [(y, .vec ws)] = .ok ([], some [(y, ws)]) := by
    rw [processParamValues]
    simp only [hc, List.map_cons, List.map_nil, PT.flat, batchSize]
    rw [if_neg (by omega), if_pos (by omega), if_pos (by simp)]
    rfl
  have hr : rows [y] [] = .error .keyError := rfl
  rw [forward, hp, ok_bind]
  rcases hm with rfl | rfl | rfl <;> simp only [overlapFn, h1, h2, hu, hr] <;> rfl

/-- If only the bra depends on a feature parameter, the Hadamard test does not find its value for the imaginary part. -/
theorem C69_counterexample_bra_only {C : Circuits} {x : String} (h1 : C.braNames = [x]) (h2 : C.ketNames = []) {vs : List ℝ}
    (hv : vs ≠ []) : forward C .hadamardTest [(x, .vec vs)] [] = .error .keyError := by
  have hu : union [x] [] = [x] := by simp [union]
  have hc : (union (featNames C .hadamardTest).1 (featNames C .hadamardTest).2).length = 1 := by
    simp [featNames, h1, h2, union]
  have hp : processParamValues C .hadamardTest [(x, .vec vs)] [] = .ok ([(x, vs)], some []) := by
    rw [processParamValues]
    simp only [hc, List.map_cons, List.map_nil, PT.flat, batchSize]
    rw [if_neg (by omega), if_pos (by omega), if_pos (by simp)]
    rfl
  have hr : rows [x] [] = .error .keyError := rfl
  rw [forward, hp, ok_bind]
  simp only [overlapFn, h1, h2, hu, Option.getD_some]
  rw [rows_single hv, ok_bind, hr]
  rfl

/-- **C69**: circuits with three or more feature parameters are rejected. -/
theorem C69_many {C : Circuits} {m : Method} (bra ket : PyDict String PT)
    (h : 2 < (union (featNames C m).1 (featNames C m).2).length) : forward C m bra ket = .error .valueError := by
  rw [forward, processParamValues]
  simp only
  rw [if_neg (by omega), if_neg (by omega)]
  rfl

/-- The batch sizes are taken from the tensors as given: values without a batch dimension, which are accepted for a single feature
parameter, fail for two feature parameters. -/
theorem C69_counterexample_scalar {C : Circuits} {x y : String} {O : ℝ → ℝ → ℝ} (hC : TwoFeatures C x y O) (m : Method) (v w : ℝ) :
    forward C m [(x, .scalar v)] [(y, .scalar w)] = .error .typeError := by
  have key := C69_grid hC m (vs := [v]) (ws := [w]) (by simp) (by simp)
  have hp : processParamValues C m [(x, .scalar v)] [(y, .scalar w)] = processParamValues C m [(x, .vec [v])] [(y, .vec [w])] := by
    simp only [processParamValues, List.map_cons, List.map_nil, PT.flat]
  have hcount : (union (featNames C m).1 (featNames C m).2).length = 2 := by
    have := hC.ne
    cases m <;> simp [featNames, hC.bra, hC.ket, union, this]
  rw [forward] at key
  rw [forward, hp]
  cases h : processParamValues C m [(x, .vec [v])] [(y, .vec [w])] with
  | error e => rw [h] at key; cases key
  | ok p =>
    rw [h, ok_bind] at key
    rw [ok_bind]
    cases ho : overlapFn C m p with
    | error e => rw [ho] at key; cases key
    | ok o =>
      rw [ok_bind, hcount, if_neg (by omega)]
      rfl

/-! ## Examples -/

/-- Overlap of `RX(x)|0>` with `RX(y)|0>`. -/
noncomputable def demoPair : Circuits where
  braNames := ["x"]
  ketNames := ["y"]
  ov := fun ρ σ => Real.cos (((PyDict.get? ρ "x").getD 0 - (PyDict.get? σ "y").getD 0) / 2) ^ 2
  re := fun ρ => Real.cos (((PyDict.get? ρ "x").getD 0 - (PyDict.get? ρ "y").getD 0) / 2) ^ 2
  im := fun _ => 0

example : TwoFeatures demoPair "x" "y" fun v w => Real.cos ((v - w) / 2) ^ 2 where
  bra := rfl
  ket := rfl
  ne := by decide
  ov := fun ρ σ v w h1 h2 => by simp [demoPair, h1, h2]
  hadamard := fun ρ => by simp [demoPair]

/-- Overlap of `RX(x)|0>` with `RX(x)|0>`. -/
noncomputable def demoShared : Circuits where
  braNames := ["x"]
  ketNames := ["x"]
  ov := fun ρ σ => Real.cos (((PyDict.get? ρ "x").getD 0 - (PyDict.get? σ "x").getD 0) / 2) ^ 2
  re := fun _ => 1
  im := fun _ => 0

theorem demoShared_one : OneFeature demoShared "x" fun v w => Real.cos ((v - w) / 2) ^ 2 where
  bra := rfl
  ket := rfl
  ov := fun ρ σ v w h1 h2 => by simp [demoShared, h1, h2]

/-- The overlap of `RX(0)|0>` with `RX(π)|0>` is 0 for the exact method and 1 for compute-uncompute. -/
example : forward demoShared .exact [("x", .vec [0])] [("x", .vec [Real.pi])] = .ok [[0]] ∧
    forward demoShared .computeUncompute [("x", .vec [0])] [("x", .vec [Real.pi])] = .ok [[1]] := by
  constructor
  · rw [C69_pairs demoShared_one (.inl rfl) (vs := [0]) (ws := [Real.pi]) (by simp) rfl]
    simp [neg_div]
  · rw [C69_counterexample_shared demoShared_one (.inl rfl) (vs := [0]) (ws := [Real.pi]) (by simp) rfl]
    simp

end Qadence
