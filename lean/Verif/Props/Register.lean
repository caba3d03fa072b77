import Mathlib.Tactic
import Verif.Model.Register
import Verif.Proofs.Except
import Verif.Proofs.BlockSem
import Verif.Props.Padding

/-!
# C39: geometry of registers
-/

namespace Qadence

namespace Spec

/-- Euclidean distance in the plane. -/
noncomputable def euclid (p q : ℝ × ℝ) : ℝ := Real.sqrt ((p.1 - q.1) ^ 2 + (p.2 - q.2) ^ 2)

/-- The nodes of the register are different and lie at the points `P`. -/
def Planar (r : Register) (P : ℕ → ℝ × ℝ) : Prop :=
  r.labels.Nodup ∧ ∀ n ∈ r.nodes, n.2 = some [(P n.1).1, (P n.1).2]

theorem euclid_symm (p q : ℝ × ℝ) : euclid p q = euclid q p := by
  unfold euclid
  congr 1
  ring

theorem euclid_smul (f : ℝ) (p q : ℝ × ℝ) : euclid (f • p) (f • q) = |f| * euclid p q := by
  unfold euclid
  have : ((f • p).1 - (f • q).1) ^ 2 + ((f • p).2 - (f • q).2) ^ 2 =
      f ^ 2 * ((p.1 - q.1) ^ 2 + (p.2 - q.2) ^ 2) := by
    simp only [Prod.smul_fst, Prod.smul_snd, smul_eq_mul]
    ring
  rw [this, Real.sqrt_mul (sq_nonneg f), Real.sqrt_sq_eq_abs]

theorem euclid_nonneg (p q : ℝ × ℝ) : 0 ≤ euclid p q := Real.sqrt_nonneg _

theorem euclid_eq_zero {p q : ℝ × ℝ} : euclid p q = 0 ↔ p = q := by
  unfold euclid
  rw [Real.sqrt_eq_zero (by positivity)]
  constructor
  · intro h
    have h1 : (p.1 - q.1) ^ 2 = 0 := by nlinarith [sq_nonneg (p.1 - q.1), sq_nonneg (p.2 - q.2)]
    have h2 : (p.2 - q.2) ^ 2 = 0 := by nlinarith [sq_nonneg (p.1 - q.1), sq_nonneg (p.2 - q.2)]
    exact Prod.ext (sub_eq_zero.1 (pow_eq_zero_iff (two_ne_zero) |>.1 h1))
      (sub_eq_zero.1 (pow_eq_zero_iff (two_ne_zero) |>.1 h2))
  · rintro rfl
    simp

end Spec

namespace Register

open Spec

variable {ord : List ℕ → List ℕ} {r : Register} {P : ℕ → ℝ × ℝ}

theorem mem_allNodePairs (ho : Block.SetOrder ord) (i j : ℕ) :
    (i, j) ∈ r.allNodePairs ord ↔ i ∈ r.labels ∧ j ∈ r.labels ∧ i < j := by
  unfold allNodePairs support
  rw [List.mem_filter, List.pair_mem_product, (ho _).2, (ho _).2]
  simp [and_assoc]

theorem allNodePairs_nodup (ho : Block.SetOrder ord) : (r.allNodePairs ord).Nodup :=
  ((ho _).1.product (ho _).1).filter _

theorem coord_ok (h : Planar r P) {i : ℕ} (hi : i ∈ r.labels) : coord r i = .ok [(P i).1, (P i).2] := by
  obtain ⟨ns, es⟩ := r
  obtain ⟨h1, h2⟩ := h
  unfold coord
  simp only [labels] at *
  induction ns with
  | nil => simp at hi
  | cons n ns ih =>
    obtain ⟨k, p⟩ := n
    have hp := h2 (k, p) (by simp)
    simp only at hp
    subst hp
    rw [List.lookup_cons]
    by_cases e : i = k
    · subst e
      simp
    · have : (i == k) = false := by simpa using e
      rw [this]
      simp only [List.map_cons, List.nodup_cons, List.mem_cons] at h1 hi
      exact ih (hi.resolve_left e) h1.2 (fun n hn => h2 n (by simp [hn]))

theorem pairDist_ok (h : Planar r P) {e : ℕ × ℕ} (h1 : e.1 ∈ r.labels) (h2 : e.2 ∈ r.labels) :
    pairDist r e = .ok (euclid (P e.1) (P e.2)) := by
  unfold pairDist
  rw [coord_ok h h1, coord_ok h h2, ok_bind, ok_bind]
  simp [dist, euclid]

theorem distances_ok (ho : Block.SetOrder ord) (h : Planar r P) :
    distances ord r = .ok ((r.allNodePairs ord).map fun e => (e, euclid (P e.1) (P e.2))) := by
  refine mapM_ok_map fun e he => ?_
  obtain ⟨i, j⟩ := e
  obtain ⟨h1, h2, -⟩ := (mem_allNodePairs ho i j).1 he
  rw [pairDist_ok h h1 h2]
  rfl

theorem minValue_spec {l : List ℝ} (h : l ≠ []) : minValue l ∈ l ∧ ∀ x ∈ l, minValue l ≤ x := by
  cases l with
  | nil => exact absurd rfl h
  | cons d ds =>
    clear h
    simp only [minValue]
    induction ds generalizing d with
    | nil => simp
    | cons a ds ih =>
      obtain ⟨i1, i2⟩ := ih (min d a)
      rw [List.foldl_cons]
      constructor
      · rcases List.mem_cons.1 i1 with e | e
        · rw [e]
          rcases min_choice d a with e | e <;> rw [e] <;> simp
        · simp [e]
      · intro x hx
        have h0 := i2 (min d a) (by simp)
        simp only [List.mem_cons] at hx
        rcases hx with rfl | rfl | hx
        · exact h0.trans (min_le_left _ _)
        · exact h0.trans (min_le_right _ _)
        · exact i2 x (by simp [hx])

theorem minValue_unique {l : List ℝ} {m : ℝ} (h1 : m ∈ l) (h2 : ∀ x ∈ l, m ≤ x) : minValue l = m := by
  have := minValue_spec (List.ne_nil_of_mem h1)
  exact le_antisymm (this.2 m h1) (h2 _ this.1)

theorem scale_ok (h : Planar r P) (d s : ℝ) :
    ∃ r', scaleNodePositions r d s = .ok r' ∧ r'.labels = r.labels ∧ r'.edges = r.edges ∧
      Planar r' (fun i => (s / d) • P i) := by
  refine ⟨{ r with nodes := r.nodes.map fun n => (n.1, some [(s / d) * (P n.1).1, (s / d) * (P n.1).2]) }, ?_, ?_, rfl, ?_, ?_⟩
  · unfold scaleNodePositions
    have : (r.nodes.mapM fun n => do
        let p ← scalePos (s / d) n.2
        return (n.1, p)) =
        .ok (r.nodes.map fun n => (n.1, some [(s / d) * (P n.1).1, (s / d) * (P n.1).2])) := by
      refine mapM_ok_map fun n hn => ?_
      rw [h.2 n hn]
      simp only [scalePos, ok_bind, mul_comm]
      rfl
    simp only [this, ok_bind]
    rfl
  · simp [labels, Function.comp_def]
  · simpa [labels, Function.comp_def] using h.1
  · intro n hn
    obtain ⟨m, -, rfl⟩ := List.mem_map.1 hn
    rfl

theorem allNodePairs_congr {r' : Register} (h : r'.labels = r.labels) :
    r'.allNodePairs ord = r.allNodePairs ord := by
  simp [allNodePairs, support, h]

end Register

open Spec Register

variable {ord : List ℕ → List ℕ}

/-- Every unordered pair of nodes occurs exactly once among the pairs whose distances are listed. -/
theorem C39_pairs_once (ho : Block.SetOrder ord) (r : Register) :
    (r.allNodePairs ord).Nodup ∧
      ∀ i j, i ∈ r.labels → j ∈ r.labels → i ≠ j →
        ((i, j) ∈ r.allNodePairs ord ∧ (j, i) ∉ r.allNodePairs ord) ∨
        ((j, i) ∈ r.allNodePairs ord ∧ (i, j) ∉ r.allNodePairs ord) := by
  refine ⟨allNodePairs_nodup ho, fun i j hi hj hij => ?_⟩
  simp only [mem_allNodePairs ho]
  rcases Nat.lt_or_gt_of_ne hij with h | h
  · exact Or.inl ⟨⟨hi, hj, h⟩, fun h' => absurd h'.2.2 (by omega)⟩
  · exact Or.inr ⟨⟨hj, hi, h⟩, fun h' => absurd h'.2.2 (by omega)⟩

/-- `distances` lists for every pair of nodes the Euclidean distance, which is symmetric. -/
theorem C39_distances (ho : Block.SetOrder ord) {r : Register} {P : ℕ → ℝ × ℝ} (h : Planar r P) :
    ∃ ds, distances ord r = .ok ds ∧ ds.map Prod.fst = r.allNodePairs ord ∧
      ∀ i j d, ((i, j), d) ∈ ds → i < j ∧ d = euclid (P i) (P j) ∧ d = euclid (P j) (P i) := by
  refine ⟨_, distances_ok ho h, by simp [Function.comp_def], fun i j d hd => ?_⟩
  obtain ⟨e, he, e'⟩ := List.mem_map.1 hd
  obtain ⟨a, b⟩ := e
  simp only [Prod.mk.injEq] at e'
  obtain ⟨⟨rfl, rfl⟩, rfl⟩ := e'
  exact ⟨((mem_allNodePairs ho _ _).1 he).2.2, rfl, euclid_symm _ _⟩

/-- `rescale_coords(f)` keeps nodes and edges and multiplies every distance by `|f|`. -/
theorem C39_rescale (ho : Block.SetOrder ord) {r : Register} {P : ℕ → ℝ × ℝ} (h : Planar r P) (f : ℝ) :
    ∃ r' ds, rescaleCoords ord r f = .ok r' ∧ r'.labels = r.labels ∧ r'.edges = r.edges ∧
      distances ord r = .ok ds ∧ distances ord r' = .ok (ds.map fun e => (e.1, |f| * e.2)) := by
  obtain ⟨r', h1, h2, h3, h4⟩ := scale_ok h 1 f
  refine ⟨r', _, ?_, h2, h3, distances_ok ho h, ?_⟩
  · rw [rescaleCoords, h1, ok_bind]
    rfl
  · rw [distances_ok ho h4, allNodePairs_congr h2]
    simp [Function.comp_def, euclid_smul]

/-- A register built with a spacing has this spacing as its smallest distance, whenever there are at least two nodes
and no two of them coincide; all distances are scaled by the same factor, nodes and edges are kept. -/
theorem C39_spacing (ho : Block.SetOrder ord) {g : Register} {P : ℕ → ℝ × ℝ} (h : Planar g P)
    (h2 : ∃ i ∈ g.labels, ∃ j ∈ g.labels, i ≠ j)
    (hd : ∀ i ∈ g.labels, ∀ j ∈ g.labels, i ≠ j → P i ≠ P j) {s : ℝ} (hs : 0 < s) :
    ∃ (r : Register) (f : ℝ), init ord g (some s) = .ok r ∧ r.labels = g.labels ∧ r.edges = g.edges ∧ 0 < f ∧
      Planar r (fun i => f • P i) ∧ minDistance ord r = .ok s ∧
      (∀ i ∈ r.labels, ∀ j ∈ r.labels, i ≠ j → s ≤ euclid (f • P i) (f • P j)) ∧
      ∃ i ∈ r.labels, ∃ j ∈ r.labels, i ≠ j ∧ euclid (f • P i) (f • P j) = s := by
  set l := (g.allNodePairs ord).map fun e => euclid (P e.1) (P e.2) with hl
  have hmin : minDistance ord g = .ok (minValue l) := by
    simp only [minDistance, distances_ok ho h, ok_bind, pure_eq_ok, List.map_map, hl]
    rfl
  have hmem : ∀ i ∈ g.labels, ∀ j ∈ g.labels, i ≠ j → euclid (P i) (P j) ∈ l := by
    intro i hi j hj hij
    rcases Nat.lt_or_gt_of_ne hij with hlt | hlt
    · exact List.mem_map.2 ⟨(i, j), (mem_allNodePairs ho i j).2 ⟨hi, hj, hlt⟩, rfl⟩
    · exact List.mem_map.2 ⟨(j, i), (mem_allNodePairs ho j i).2 ⟨hj, hi, hlt⟩, euclid_symm _ _⟩
  obtain ⟨a, ha, b, hb, hab⟩ := h2
  have hne : l ≠ [] := List.ne_nil_of_mem (hmem a ha b hb hab)
  obtain ⟨m1, m2⟩ := minValue_spec hne
  obtain ⟨e, he, hev⟩ := List.mem_map.1 m1
  obtain ⟨he1, he2, he3⟩ := (mem_allNodePairs ho e.1 e.2).1 he
  have hpos : 0 < minValue l := by
    rw [← hev]
    refine lt_of_le_of_ne (euclid_nonneg _ _) fun h0 => ?_
    exact hd _ he1 _ he2 he3.ne (euclid_eq_zero.1 h0.symm)
  obtain ⟨r, r1, r2, r3, r4⟩ := scale_ok h (minValue l) s
  have hf : 0 < s / minValue l := div_pos hs hpos
  have habs : |s / minValue l| = s / minValue l := abs_of_pos hf
  have hval : ∀ i j, euclid ((s / minValue l) • P i) ((s / minValue l) • P j) = s / minValue l * euclid (P i) (P j) := by
    intro i j
    rw [euclid_smul, habs]
  have hle : ∀ i ∈ r.labels, ∀ j ∈ r.labels, i ≠ j →
      s ≤ euclid ((s / minValue l) • P i) ((s / minValue l) • P j) := by
    intro i hi j hj hij
    rw [r2] at hi hj
    rw [hval]
    have := m2 _ (hmem i hi j hj hij)
    calc s = s / minValue l * minValue l := by field_simp
      _ ≤ _ := mul_le_mul_of_nonneg_left this hf.le
  have heq : euclid ((s / minValue l) • P e.1) ((s / minValue l) • P e.2) = s := by
    rw [hval, hev]
    field_simp
  refine ⟨r, s / minValue l, ?_, r2, r3, hf, r4, ?_, hle, e.1, r2 ▸ he1, e.2, r2 ▸ he2, he3.ne, heq⟩
  · simp only [init, hmin, ok_bind, ne_eq, hpos.ne', not_false_eq_true, if_true, r1]
  · simp only [minDistance, distances_ok ho r4, ok_bind, pure_eq_ok, List.map_map]
    congr 1
    refine minValue_unique (List.mem_map.2 ⟨e, ?_, heq⟩) fun x hx => ?_
    · rw [allNodePairs_congr r2]
      exact he
    · obtain ⟨e', he', rfl⟩ := List.mem_map.1 hx
      obtain ⟨q1, q2, q3⟩ := (mem_allNodePairs ho e'.1 e'.2).1 he'
      exact hle _ q1 _ q2 q3.ne

theorem lineGraph_planar (n : ℕ) : Planar (lineGraph n) (fun i => ((i : ℝ), 0)) := by
  refine ⟨?_, fun k hk => ?_⟩
  · simp [labels, lineGraph, Function.comp_def, List.nodup_range]
  · obtain ⟨i, -, rfl⟩ := List.mem_map.1 hk
    rfl

theorem lineGraph_labels (n : ℕ) : (lineGraph n).labels = List.range n := by
  simp [labels, lineGraph, Function.comp_def]

/-- The graph of `from_coordinates` puts node `i` at the `i`-th coordinate. -/
theorem coordGraph_planar (cs : List (ℝ × ℝ)) :
    let g : Register := { nodes := (cs.map fun p => [p.1, p.2]).zipIdx.map (fun c => (c.2, some c.1)), edges := [] }
    g.labels = List.range cs.length ∧ Planar g (fun i => cs.getD i 0) := by
  intro g
  have h1 : g.labels = List.range cs.length := by
    simp only [labels, g, List.map_map]
    apply List.ext_getElem <;> simp
  refine ⟨h1, by rw [h1]; exact List.nodup_range, fun k hk => ?_⟩
  obtain ⟨⟨c, i⟩, hc, rfl⟩ := List.mem_map.1 hk
  rw [List.mem_zipIdx_iff_getElem?] at hc
  simp only [List.getElem?_map, Option.map_eq_some_iff] at hc
  obtain ⟨q, hq, rfl⟩ := hc
  simp [List.getD_eq_getElem?_getD, hq]

/-- `Register.from_coordinates(coords)`: one node per coordinate, numbered from 0 in the given order, at the given
place, without links. -/
theorem C39_from_coordinates (cs : List (ℝ × ℝ)) :
    ∃ r, fromCoordinates ord (cs.map fun p => [p.1, p.2]) none = .ok r ∧ r.labels = List.range cs.length ∧
      Planar r (fun i => cs.getD i 0) ∧ r.edges = [] :=
  ⟨_, rfl, (coordGraph_planar cs).1, (coordGraph_planar cs).2, rfl⟩

/-- `Register.from_coordinates(coords, spacing=s)` for different places: as before, but all coordinates are multiplied
with one positive factor for which the smallest distance is `s`. -/
theorem C39_from_coordinates_spacing (ho : Block.SetOrder ord) {cs : List (ℝ × ℝ)} (hl : 2 ≤ cs.length) (hd : cs.Nodup)
    {s : ℝ} (hs : 0 < s) :
    ∃ (r : Register) (f : ℝ), fromCoordinates ord (cs.map fun p => [p.1, p.2]) (some s) = .ok r ∧
      r.labels = List.range cs.length ∧ 0 < f ∧ Planar r (fun i => f • cs.getD i 0) ∧ minDistance ord r = .ok s := by
  obtain ⟨h1, h2⟩ := coordGraph_planar cs
  obtain ⟨r, f, a1, a2, -, a4, a5, a6, -⟩ := C39_spacing ho h2
    ⟨0, by rw [h1]; exact List.mem_range.2 (by omega), 1, by rw [h1]; exact List.mem_range.2 (by omega), by decide⟩
    (fun i hi j hj hij h => by
      rw [h1, List.mem_range] at hi hj
      simp only [List.getD_eq_getElem?_getD, List.getElem?_eq_getElem hi, List.getElem?_eq_getElem hj,
        Option.getD_some] at h
      exact hij (hd.getElem_inj_iff.1 h)) hs
  exact ⟨r, f, a1, a2.trans h1, a4, a5, a6⟩

/-- `Register.line(n, spacing)`: nodes `i` and `j` are at distance `spacing * |i - j|`, neighbours are linked. -/
theorem C39_line (ho : Block.SetOrder ord) {n : ℕ} (hn : 2 ≤ n) {s : ℝ} (hs : 0 < s) :
    ∃ r P, line ord n s = .ok r ∧ r.labels = List.range n ∧ Planar r P ∧
      (∀ i j, (i, j) ∈ r.edges ↔ i + 1 < n ∧ j = i + 1) ∧ minDistance ord r = .ok s ∧
      ∀ i j, euclid (P i) (P j) = s * |(i : ℝ) - j| := by
  have hbase : ∀ i j : ℕ, euclid ((i : ℝ), (0 : ℝ)) ((j : ℝ), 0) = |(i : ℝ) - j| := by
    intro i j
    simp [euclid, Real.sqrt_sq_eq_abs]
  obtain ⟨r, f, h1, h2, h3, h4, h5, h6, h7, i, hi, j, hj, hij, h8⟩ := C39_spacing ho (lineGraph_planar n)
    ⟨0, by rw [lineGraph_labels]; exact List.mem_range.2 (by omega), 1,
      by rw [lineGraph_labels]; exact List.mem_range.2 (by omega), by decide⟩
    (fun i _ j _ hij h => hij (by exact_mod_cast (Prod.mk.inj h).1)) hs
  have hfs : f = s := by
    have a := h7 0 (by rw [h2, lineGraph_labels]; exact List.mem_range.2 (by omega)) 1
      (by rw [h2, lineGraph_labels]; exact List.mem_range.2 (by omega)) (by decide)
    rw [euclid_smul, abs_of_pos h4, hbase] at a h8
    have b : (1 : ℝ) ≤ |(i : ℝ) - j| := by
      have : (1 : ℤ) ≤ |(i : ℤ) - j| := Int.one_le_abs (by omega)
      exact_mod_cast this
    have a' : s ≤ f := by simpa using a
    nlinarith
  subst hfs
  refine ⟨r, _, h1, h2.trans (lineGraph_labels n), h5, fun i j => ?_, h6, fun i j => ?_⟩
  · rw [h3]
    simp only [lineGraph, List.mem_iff_getElem?]
    constructor
    · rintro ⟨k, hk⟩
      rw [List.getElem?_zip_eq_some] at hk
      obtain ⟨k1, k2⟩ := hk
      have hk : k < n - 1 := by
        by_contra hc
        rw [List.getElem?_eq_none (by simpa using hc)] at k1
        simp at k1
      rw [List.getElem?_range' hk] at k2
      rw [List.getElem?_range hk] at k1
      simp at k1 k2
      omega
    · rintro ⟨k1, k2⟩
      refine ⟨i, ?_⟩
      rw [List.getElem?_zip_eq_some]
      have : i < n - 1 := by omega
      rw [List.getElem?_range this, List.getElem?_range' this]
      subst k2
      simp [Nat.add_comm]
  · rw [euclid_smul, abs_of_pos h4, hbase]

/-- A register with two coincident nodes keeps its coordinates: the spacing is not applied. -/
theorem C39_coincident_nodes_ignore_spacing (ho : Block.SetOrder ord) {g : Register} {P : ℕ → ℝ × ℝ} (h : Planar g P)
    (hc : ∃ i ∈ g.labels, ∃ j ∈ g.labels, i ≠ j ∧ P i = P j) (s : ℝ) : init ord g (some s) = .ok g := by
  obtain ⟨i, hi, j, hj, hij, he⟩ := hc
  have hz : minDistance ord g = .ok 0 := by
    simp only [minDistance, distances_ok ho h, ok_bind, pure_eq_ok, List.map_map]
    congr 1
    refine minValue_unique ?_ fun x hx => ?_
    · rcases Nat.lt_or_gt_of_ne hij with hlt | hlt
      · exact List.mem_map.2 ⟨(i, j), (mem_allNodePairs ho i j).2 ⟨hi, hj, hlt⟩, euclid_eq_zero.2 he⟩
      · exact List.mem_map.2 ⟨(j, i), (mem_allNodePairs ho j i).2 ⟨hj, hi, hlt⟩, euclid_eq_zero.2 he.symm⟩
    · obtain ⟨e, -, rfl⟩ := List.mem_map.1 hx
      exact euclid_nonneg _ _
  simp only [init, hz, ok_bind, ne_eq, not_true_eq_false, if_false]
  rfl

/-- A concrete register: three nodes on a triangle. -/
noncomputable example : Planar { nodes := [(0, some [0, 0]), (4, some [3, 4]), (2, some [1, 0])], edges := [(0, 4)] }
    (fun i => if i = 4 then (3, 4) else if i = 2 then (1, 0) else (0, 0)) := by
  refine ⟨by decide, ?_⟩
  simp

end Qadence
