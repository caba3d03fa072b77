import Mathlib.Data.List.Sort
import Mathlib.Analysis.Complex.ExponentialBounds
import Verif.Props.ShadowRun

/-!
# C60 (classical shadows): medians, numbers of snapshots, defects
-/

namespace Qadence.Shadow

open Spec Measure Block Matrix

variable {n N : ℕ}

/-! ### Medians -/

theorem sorted_countP_le {ys : List ℚ} (h : ys.Pairwise (· ≤ ·)) {i : ℕ} (hi : i < ys.length) :
    i + 1 ≤ ys.countP (fun y => decide (y ≤ ys[i])) ∧ ys.length - i ≤ ys.countP (fun y => decide (ys[i] ≤ y)) := by
  constructor
  · have h1 : (ys.take (i + 1)).countP (fun y => decide (y ≤ ys[i])) = (ys.take (i + 1)).length := by
      rw [List.countP_eq_length]
      intro y hy
      obtain ⟨j, hj, rfl⟩ := List.mem_iff_getElem.1 hy
      rw [List.length_take] at hj
      rw [List.getElem_take]
      rcases Nat.lt_or_ge j i with h' | h'
      · simpa using List.pairwise_iff_getElem.1 h j i (by omega) hi h'
      · have : j = i := by omega
        subst this; simp
    have h2 := (List.take_sublist (i + 1) ys).countP_le (p := fun y => decide (y ≤ ys[i]))
    rw [h1, List.length_take] at h2
    omega
  · have h1 : (ys.drop i).countP (fun y => decide (ys[i] ≤ y)) = (ys.drop i).length := by
      rw [List.countP_eq_length]
      intro y hy
      obtain ⟨j, hj, rfl⟩ := List.mem_iff_getElem.1 hy
      rw [List.length_drop] at hj
      rw [List.getElem_drop]
      rcases Nat.eq_zero_or_pos j with h' | h'
      · subst h'; simp
      · simpa using List.pairwise_iff_getElem.1 h i (i + j) hi (by omega) (by omega)
    have h2 := (List.drop_sublist i ys).countP_le (p := fun y => decide (ys[i] ≤ y))
    rw [h1, List.length_drop] at h2
    exact h2

/-- **C60**: `torch.median` of a non-empty list is its lower median. -/
theorem C60_median {xs : List ℚ} (h : xs ≠ []) : ∃ x, lowerMedian xs = .ok x ∧ IsLowerMedian xs x := by
  set ys := xs.mergeSort (fun a b => decide (a ≤ b)) with hys
  have hp : ys.Perm xs := List.mergeSort_perm _ _
  have hs : ys.Pairwise (· ≤ ·) := by
    have := List.pairwise_mergeSort (le := fun a b : ℚ => decide (a ≤ b)) (by intro a b c; simpa using le_trans)
      (by intro a b; simpa using le_total a b) xs
    simpa using this
  have hl : ys.length = xs.length := hp.length_eq
  have hpos : 0 < xs.length := List.length_pos_iff.2 h
  have hi : (xs.length - 1) / 2 < ys.length := by omega
  refine ⟨ys[(xs.length - 1) / 2], ?_, ?_⟩
  · rw [lowerMedian, ← hys, List.getElem?_eq_getElem hi]
  · obtain ⟨h1, h2⟩ := sorted_countP_le hs hi
    refine ⟨hp.mem_iff.1 (List.getElem_mem _), ?_, ?_⟩
    · rw [← hp.countP_eq]; omega
    · rw [← hp.countP_eq]; omega

/-- There is only one lower median. -/
theorem lowerMedian_unique {xs : List ℚ} {x y : ℚ} (hx : IsLowerMedian xs x) (hy : IsLowerMedian xs y) : x = y := by
  have key : ∀ x y, IsLowerMedian xs x → IsLowerMedian xs y → ¬ x < y := by
    intro x y hx hy hlt
    have h1 := hx.below
    have h2 := hy.above
    have h3 : xs.countP (fun z => decide (z ≤ x)) + xs.countP (fun z => decide (y ≤ z)) ≤ xs.length := by
      have e : xs.countP (fun z => decide (y ≤ z)) ≤ xs.countP (fun z => !decide (z ≤ x)) := by
        apply List.countP_mono_left
        intro z _ hz
        simp only [decide_eq_true_eq] at hz
        simp only [Bool.not_eq_true', decide_eq_false_iff_not, not_le]
        exact lt_of_lt_of_le hlt hz
      have := List.length_eq_countP_add_countP (fun z => decide (z ≤ x)) (l := xs)
      have e2 : xs.countP (fun a => decide ¬(decide (a ≤ x)) = true) = xs.countP (fun z => !decide (z ≤ x)) := by
        congr 1; funext z; by_cases hz : z ≤ x <;> simp [hz]
      omega
    omega
  rcases lt_trichotomy x y with h | h | h
  · exact absurd h (key x y hx hy)
  · exact h
  · exact absurd h (key y x hy hx)

example : lowerMedian [3, 1, 2, 5] = .ok 2 := by
  obtain ⟨x, h1, h2⟩ := C60_median (xs := [3, 1, 2, 5]) (by simp)
  have : IsLowerMedian [3, 1, 2, 5] 2 := ⟨by decide, by decide +kernel, by decide +kernel⟩
  rw [h1, lowerMedian_unique h2 this]

/-! ### Estimates of observables -/

/-- A term whose estimate is meant by the protocol: a word written in the order of its support, or a single identity. -/
inductive Term (ord : List ℕ → List ℕ) (n : ℕ) : Block Gate → List (FixedGate × ℕ) → Prop
  | word {term ls} : Word n term ls → support Gate.supp ord term = ls.map Prod.snd → Term ord n term ls
  | identity {q t} : Term ord n (.leaf (.fixed .I q) t) []

theorem groupMean_abs (ls : List (FixedGate × ℕ)) (b : Fin N → Fin n → Fin 3) (o : Fin N → St n) (g : Finset (Fin N)) :
    |groupMean ls b o g| ≤ 1 := by
  classical
  unfold groupMean
  rw [abs_div, Nat.abs_cast]
  apply div_le_one_of_le₀ _ (Nat.cast_nonneg _)
  refine (Finset.abs_sum_le_sum_abs _ _).trans ?_
  rw [Finset.card_eq_sum_ones, Nat.cast_sum]
  apply Finset.sum_le_sum
  intro i _
  rw [result, parity]
  push_cast
  rw [abs_pow]
  simp

/-- Estimate of one term. -/
theorem estimate_term {ord : List ℕ → List ℕ} {term : Block Gate} {ls : List (FixedGate × ℕ)} (h : Term ord n term ls)
    {K : ℕ} (hK : 0 < K) (hN : K ≤ N) (b : Fin N → Fin n → Fin 3) (o : Fin N → St n) :
    ∃ xs m, estimators ord N K (List.ofFn fun i => List.ofFn (b i)) (List.ofFn fun i => signs (List.ofFn (o i))) term = .ok xs ∧
      lowerMedian xs = .ok m ∧ IsLowerMedian ((List.range K).map fun k => groupMean ls b o (group N (N / K) k)) m := by
  have hne : ((List.range K).map fun k => groupMean ls b o (group N (N / K) k)) ≠ [] := by
    simp; omega
  cases h with
  | word hw hord =>
    obtain ⟨m, h1, h2⟩ := C60_median hne
    exact ⟨_, m, C60_estimators hw hord hK b o, h1, h2⟩
  | identity =>
    refine ⟨[1], 1, rfl, by decide +kernel, ?_⟩
    have e : ((List.range K).map fun k => groupMean [] b o (group N (N / K) k)) = List.replicate K 1 := by
      apply List.eq_replicate_iff.2
      refine ⟨by simp, ?_⟩
      intro x hx
      obtain ⟨k, hk, rfl⟩ := List.mem_map.1 hx
      have hcard := (C60_groups N hK).1 k (List.mem_range.1 hk)
      have hM : ∀ c : Fin n → Fin 3, Measured [] c := by intro c p hp; simp [nontrivial] at hp
      classical
      unfold groupMean
      rw [Finset.filter_true_of_mem fun i _ => hM (b i), hcard]
      have hr : ∀ x : St n, result [] x = 1 := by intro x; simp [result, nontrivial, parity]
      simp only [hr, Finset.sum_const, hcard]
      have : ((N / K : ℕ) : ℚ) ≠ 0 := by
        have := Nat.div_pos hN hK
        exact_mod_cast this.ne'
      simp [this]
    rw [e]
    refine ⟨by simp; omega, ?_, ?_⟩
    · simp [List.countP_replicate]; omega
    · simp [List.countP_replicate]; omega

/-- **C60**: for every observable which is a combination of words written in the order of their supports, the estimate is the
combination of the medians of the group means, with the same coefficients; each of the medians lies between -1 and 1. -/
theorem C60_estimate {ord : List ℕ → List ℕ} (value : Expr → ℂ) {obs : Block Gate}
    (letters : Block Gate → List (FixedGate × ℕ)) (hterms : ∀ t ∈ unroll obs, Term ord n t.1 (letters t.1))
    {K : ℕ} (hK : 0 < K) (hN : K ≤ N) (b : Fin N → Fin n → Fin 3) (o : Fin N → St n) :
    ∃ med : Block Gate → ℚ,
      estimate ord value N K (List.ofFn fun i => List.ofFn (b i)) obs (List.ofFn fun i => signs (List.ofFn (o i))) =
        .ok ((unroll obs).map fun t => (med t.1 : ℂ) * value t.2).sum ∧
      ∀ t ∈ unroll obs, |med t.1| ≤ 1 ∧
        IsLowerMedian ((List.range K).map fun k => groupMean (letters t.1) b o (group N (N / K) k)) (med t.1) := by
  classical
  have hex : ∀ t : Block Gate, ∃ m : ℚ, t ∈ (unroll obs).map Prod.fst → ∃ xs,
      estimators ord N K (List.ofFn fun i => List.ofFn (b i)) (List.ofFn fun i => signs (List.ofFn (o i))) t = .ok xs ∧
      lowerMedian xs = .ok m ∧ IsLowerMedian ((List.range K).map fun k => groupMean (letters t) b o (group N (N / K) k)) m := by
    intro t
    by_cases ht : t ∈ (unroll obs).map Prod.fst
    · obtain ⟨t', ht', rfl⟩ := List.mem_map.1 ht
      obtain ⟨xs, m, h1, h2, h3⟩ := estimate_term (hterms t' ht') hK hN b o
      exact ⟨m, fun _ => ⟨xs, h1, h2, h3⟩⟩
    · exact ⟨0, fun h => absurd h ht⟩
  choose med hmed using hex
  refine ⟨med, ?_, ?_⟩
  · rw [estimate, mapM_ok_map (g := fun t : Block Gate × Expr => (med t.1 : ℂ) * value t.2), ok_bind, pure_eq_ok]
    intro t ht
    obtain ⟨xs, h1, h2, -⟩ := hmed t.1 (List.mem_map.2 ⟨t, ht, rfl⟩)
    rw [h1, ok_bind, h2, ok_bind, pure_eq_ok]
  · intro t ht
    obtain ⟨xs, -, -, h3⟩ := hmed t.1 (List.mem_map.2 ⟨t, ht, rfl⟩)
    refine ⟨?_, h3⟩
    obtain ⟨k, -, hk⟩ := List.mem_map.1 h3.mem
    rw [← hk]
    exact groupMean_abs _ _ _ _

/-- **C60**: the estimates of several observables and elements of a batch: one row for every element, one column for every
observable, all from the same snapshots. -/
theorem C60_layout {ord : List ℕ → List ℕ} {value : Expr → ℂ} {K : ℤ} {ids : List (List (Fin 3))} {batch : List (List (List ℤ))}
    {observables : List (Block Gate)} {f : Block Gate → List (List ℤ) → ℂ}
    (h : ∀ obs ∈ observables, ∀ s ∈ batch, estimate ord value N K ids obs s = .ok (f obs s)) :
    estimations ord value N K ids batch observables = .ok (batch.map fun s => observables.map fun obs => f obs s) := by
  rw [estimations, mapM_ok_map (g := fun obs => batch.map (f obs)), ok_bind, pure_eq_ok]
  · congr 1
    apply List.ext_getElem
    · simp
    · intro i h1 h2
      simp only [List.length_map, List.length_range] at h1
      simp [List.getD_eq_getElem?_getD, List.getElem?_eq_getElem h1]
  · intro obs hobs
    exact mapM_ok_map fun s hs => h obs hobs s hs

/-! ### Numbers of snapshots and groups -/

theorem pyRound_near (x : ℝ) : |(pyRound x : ℝ) - x| ≤ 1 / 2 := by
  have h1 := Int.floor_add_fract x
  have h2 := Int.fract_nonneg x
  have h3 := Int.fract_lt_one x
  unfold pyRound
  rw [abs_le]
  split
  · constructor <;> linarith
  · split
    · push_cast; constructor <;> linarith
    · have : Int.fract x = 1 / 2 := by
        apply le_antisymm <;> linarith
      split
      · constructor <;> linarith
      · push_cast; constructor <;> linarith

theorem pyMax_spec (x : ℕ) (xs : List ℕ) : ∃ m, pyMax (x :: xs) = .ok m ∧ m ∈ x :: xs ∧ ∀ y ∈ x :: xs, y ≤ m := by
  refine ⟨xs.foldl max x, rfl, ?_⟩
  induction xs generalizing x with
  | nil => simp
  | cons y ys ih =>
    obtain ⟨h1, h2⟩ := ih (max x y)
    rw [List.foldl_cons]
    constructor
    · rcases List.mem_cons.1 h1 with h | h
      · rw [h]
        rcases max_choice x y with e | e <;> rw [e] <;> simp
      · simp [h]
    · intro z hz
      have hx := h2 (max x y) (by simp)
      rcases List.mem_cons.1 hz with rfl | hz
      · exact (le_max_left _ _).trans hx
      · rcases List.mem_cons.1 hz with rfl | hz
        · exact (le_max_right _ _).trans hx
        · exact h2 z (by simp [hz])

/-- The weight of a word is the number of its letters other than the identity. -/
theorem termWeight_word {term : Block Gate} {ls : List (FixedGate × ℕ)} (h : Word n term ls) :
    termWeight term = (nontrivial ls).length := by
  have hg : ∀ p : FixedGate × ℕ, (p.1 = .X ∨ p.1 = .Y ∨ p.1 = .Z ∨ p.1 = .I) → isXYZ (.fixed p.1 p.2) = decide (p.1 ≠ .I) := by
    rintro ⟨g, q⟩ h
    rcases h with h | h | h | h <;> simp only at h <;> subst h <;> rfl
  rcases h.parts with ⟨p, h1, rfl, hI⟩ | ⟨k, bs, t, rfl, hk, h1⟩
  · obtain ⟨⟨t, rfl⟩, hp⟩ := letter_some h1
    simp [termWeight, hg p hp, hI, nontrivial]
  · rw [termWeight, primitiveBlocks]
    clear hk h
    induction bs generalizing ls with
    | nil =>
      have : ls = [] := by simpa using h1.symm
      subst this; rfl
    | cons b bs ih =>
      cases ls with
      | nil => simp at h1
      | cons p ls =>
        simp only [List.map_cons, List.cons.injEq] at h1
        obtain ⟨⟨t, rfl⟩, hp⟩ := letter_some h1.1
        rw [primitiveBlocksList, List.countP_append, ih h1.2]
        simp only [primitiveBlocks, List.countP_cons, List.countP_nil, hg p hp, nontrivial, List.filter_cons]
        by_cases hI : p.1 = .I
        · simp [hI]
        · simp [hI]; omega

theorem termWeight_term {ord : List ℕ → List ℕ} {term : Block Gate} {ls : List (FixedGate × ℕ)} (h : Term ord n term ls) :
    termWeight term = (nontrivial ls).length := by
  cases h with
  | word hw _ => exact termWeight_word hw
  | identity => rfl

/-- **C60**: the numbers of snapshots and of groups are the documented ones (up to rounding): `34·3^k/ε²` and `2·log(2L/δ)`, where
`k` is the greatest number of letters of a term of the observables. For `δ ≤ 1` there is at least one group. -/
theorem C60_numbers {ord : List ℕ → List ℕ} {observables : List (Block Gate)} (hne : observables ≠ [])
    (letters : Block Gate → List (FixedGate × ℕ))
    (hobs : ∀ obs ∈ observables, unroll obs ≠ [] ∧ ∀ t ∈ unroll obs, Term ord n t.1 (letters t.1))
    {accuracy confidence : ℝ} (ha : accuracy ≠ 0) (hc : 0 < confidence) :
    ∃ (k : ℕ) (bigN bigK : ℤ), numberOfSamples observables (some accuracy) (some confidence) = .ok (bigN, bigK) ∧
      (∃ obs ∈ observables, ∃ t ∈ unroll obs, (nontrivial (letters t.1)).length = k) ∧
      (∀ obs ∈ observables, ∀ t ∈ unroll obs, (nontrivial (letters t.1)).length ≤ k) ∧
      |(bigN : ℝ) - 34 * 3 ^ k / accuracy ^ 2| ≤ 1 / 2 ∧
      |(bigK : ℝ) - 2 * Real.log (2 * observables.length / confidence)| ≤ 1 / 2 ∧ (confidence ≤ 1 → 1 ≤ bigK) := by
  have hw : ∀ obs ∈ observables, ∃ m, maxObservableWeight obs = .ok m ∧
      (∃ t ∈ unroll obs, (nontrivial (letters t.1)).length = m) ∧ ∀ t ∈ unroll obs, (nontrivial (letters t.1)).length ≤ m := by
    intro obs hobs'
    obtain ⟨h1, h2⟩ := hobs obs hobs'
    have e : (unroll obs).map (fun t => termWeight t.1) = (unroll obs).map fun t => (nontrivial (letters t.1)).length :=
      List.map_congr_left fun t ht => termWeight_term (h2 t ht)
    rw [maxObservableWeight, e]
    cases hu : unroll obs with
    | nil => exact absurd hu h1
    | cons t ts =>
      obtain ⟨m, m1, m2, m3⟩ := pyMax_spec (nontrivial (letters t.1)).length (ts.map fun t => (nontrivial (letters t.1)).length)
      refine ⟨m, m1, ?_, ?_⟩
      · rw [← List.map_cons (f := fun t : Block Gate × Expr => (nontrivial (letters t.1)).length)] at m2
        obtain ⟨t', ht', e⟩ := List.mem_map.1 m2
        exact ⟨t', ht', e⟩
      · intro t' ht'
        apply m3
        rw [← List.map_cons (f := fun t : Block Gate × Expr => (nontrivial (letters t.1)).length)]
        exact List.mem_map.2 ⟨t', ht', rfl⟩
  obtain ⟨ws, hws⟩ := mapM_ok_of_forall (f := maxObservableWeight) (l := observables) fun obs ho => by
    obtain ⟨m, hm, -⟩ := hw obs ho
    exact ⟨m, hm⟩
  obtain ⟨hm1, hm2⟩ := mapM_ok_mem hws
  cases hws' : ws with
  | nil =>
    obtain ⟨obs, hmem⟩ := List.exists_mem_of_ne_nil _ hne
    obtain ⟨w, hw', -⟩ := hm1 obs hmem
    rw [hws'] at hw'; simp at hw'
  | cons w ws' =>
    obtain ⟨k, k1, k2, k3⟩ := pyMax_spec w ws'
    rw [hws'] at hws hm1 hm2
    have hmax : maximalWeight observables = .ok k := by rw [maximalWeight, hws, ok_bind, k1]
    refine ⟨k, _, _, ?_, ?_, ?_, pyRound_near _, pyRound_near _, ?_⟩
    · rw [numberOfSamples, hmax, ok_bind, snapshotNumber, if_neg ha, ok_bind, groupNumber, if_neg hc.ne', if_neg (not_lt.2 hc.le),
        ok_bind, pure_eq_ok, mul_comm (34 : ℝ)]
    · obtain ⟨obs, ho, he⟩ := hm2 k k2
      obtain ⟨m, m1, ⟨t, ht, m2⟩, -⟩ := hw obs ho
      rw [he] at m1
      cases m1
      exact ⟨obs, ho, t, ht, m2⟩
    · intro obs ho t ht
      obtain ⟨m, m1, -, m3⟩ := hw obs ho
      obtain ⟨m', hm', e⟩ := hm1 obs ho
      rw [e] at m1
      cases m1
      exact (m3 t ht).trans (k3 m hm')
    · intro hle
      have hL : (1 : ℝ) ≤ observables.length := by
        have := List.length_pos_iff.2 hne
        exact_mod_cast this
      have h2 : (2 : ℝ) ≤ 2 * observables.length / confidence := by
        rw [le_div_iff₀ hc]
        nlinarith
      have h3 : Real.log 2 ≤ Real.log (2 * observables.length / confidence) := Real.log_le_log (by norm_num) h2
      have h4 := Real.log_two_gt_d9
      have h5 := pyRound_near (2 * Real.log (2 * observables.length / confidence))
      rw [abs_le] at h5
      have : (0 : ℝ) < pyRound (2 * Real.log (2 * observables.length / confidence)) := by linarith [h5.1]
      have : (0 : ℤ) < pyRound (2 * Real.log (2 * observables.length / confidence)) := by exact_mod_cast this
      omega

/-! ### Examples -/

/-- Python's order of small sets of small integers. -/
def ascending (l : List ℕ) : List ℕ := (List.range (l.foldl max 0 + 1)).filter fun q => q ∈ l

theorem foldl_max_le (l : List ℕ) (a : ℕ) : a ≤ l.foldl max a ∧ ∀ q ∈ l, q ≤ l.foldl max a := by
  induction l generalizing a with
  | nil => simp
  | cons x xs ih =>
    obtain ⟨h1, h2⟩ := ih (max a x)
    rw [List.foldl_cons]
    refine ⟨(le_max_left _ _).trans h1, ?_⟩
    intro q hq
    rcases List.mem_cons.1 hq with rfl | hq
    · exact (le_max_right _ _).trans h1
    · exact h2 q hq

theorem ascending_order : SetOrder ascending := by
  intro l
  refine ⟨List.nodup_range.filter _, fun q => ?_⟩
  rw [ascending, List.mem_filter, List.mem_range]
  constructor
  · rintro ⟨-, h⟩; simpa using h
  · intro h
    have := (foldl_max_le l 0).2 q h
    exact ⟨by omega, by simpa using h⟩

/-- The word X on 0, identity on 1, Z on 2. -/
theorem word_example : Word 3 (.comp .kron [fx .X 0, fx .I 1, fx .Z 2] none) [(.X, 0), (.I, 1), (.Z, 2)] ∧
    support Gate.supp ascending (.comp .kron [fx .X 0, fx .I 1, fx .Z 2] none) = [0, 1, 2] :=
  ⟨⟨Or.inr ⟨.kron, _, _, rfl, by decide, rfl⟩, by decide, by decide⟩, by decide⟩

/-- The hypotheses of `C60_mean_partial` for this word and a circuit with an X. -/
example : ∃ (c : Circuit Prim) (ψ : St c.nReg → ℂ), c.nReg = 3 ∧ (∀ q ∈ qubits (Prim.supp ascending) c.block, q < c.nReg) ∧
    Circuit.new (Prim.supp ascending) (Prim.nQubits ascending) ascending c.nReg [c.block] = .ok c ∧
    ∀ ρ, ∑ x, ‖prepared ascending_order c ρ ψ x‖ ^ 2 = 1 := by
  refine ⟨⟨3, chainOf []⟩, basisState (fun _ => false), rfl, ?_, by rfl, ?_⟩
  · intro q hq
    rw [chainOf, mem_qubits_comp] at hq
    simp at hq
  · intro ρ
    rw [prepared, sem_empty, Matrix.one_mulVec, basisState_norm]

/-! ### Defects -/

/-- **C60** (defect): the estimator is biased towards zero. For Z on the first of two qubits in the state |00> and groups of one
snapshot, its mean value is 1/3 and not 1. -/
theorem C60_counterexample_biased (native : Bool) (ρ : Env) :
    let c : Circuit Prim := ⟨2, chainOf []⟩
    let ψ : St 2 → ℂ := basisState fun _ => false
    expct (sem (gateSem 2 ρ) ρ (fx .Z 0)) (prepared ascending_order c ρ ψ) = 1 ∧
    ∃ (circ : (Fin 2 → Fin 3) → Circuit Prim) (est : (Fin 1 → Fin 2 → Fin 3) → (Fin 1 → St 2) → List ℚ),
      (∀ b, snapshotCircuit ascending native c (List.ofFn b) = .ok (circ b)) ∧
      (∀ b o, estimators ascending 1 1 (List.ofFn fun i => List.ofFn (b i)) (List.ofFn fun i => signs (List.ofFn (o i))) (fx .Z 0) =
        .ok (est b o)) ∧
      ∑ b : Fin 1 → Fin 2 → Fin 3, ∑ o : Fin 1 → St 2,
        (∏ i, ((1 / 3 : ℂ) ^ 2 * outcomeProb ascending_order native c ρ ψ (circ (b i)) (o i))) * (est b o).getD 0 0 = 1 / 3 := by
  intro c ψ
  have hq : ∀ q ∈ qubits (Prim.supp ascending) c.block, q < c.nReg := by
    intro q hq
    change q ∈ qubits (Prim.supp ascending) (chainOf []) at hq
    rw [chainOf, mem_qubits_comp] at hq
    simp at hq
  have hprep : prepared ascending_order c ρ ψ = ψ := by
    change sem (primSem 2 ρ ascending ascending_order) ρ (chainOf []) *ᵥ ψ = ψ
    rw [sem_empty, Matrix.one_mulVec]
  have hval : expct (sem (gateSem 2 ρ) ρ (fx .Z 0)) (prepared ascending_order c ρ ψ) = 1 := by
    have e : sem (gateSem 2 ρ) ρ (fx .Z 0) = embed1 0 (mat1 .Z) := by rw [sem_leaf]; rfl
    rw [hprep, expct_basis, e, embed1_Z_apply 0 (by decide)]
    simp [bit]
  refine ⟨hval, ?_⟩
  have hw : Word 2 (fx .Z 0) [(.Z, 0)] := ⟨Or.inl ⟨(.Z, 0), rfl, rfl, by decide⟩, by decide, by decide⟩
  obtain ⟨circ, est, h1, h2, h3⟩ := C60_mean_partial ascending_order native (c := c) (by decide) hq rfl ρ (ψ := ψ)
    (by rw [hprep]; exact basisState_norm _) hw (by decide) 1 (K := 1)
  refine ⟨circ, est, h1, fun b o => h2 b o (by decide), ?_⟩
  have := h3 0 (by decide)
  change _ = _ * expct (sem (gateSem 2 ρ) ρ (fx .Z 0)) (prepared ascending_order c ρ ψ) at this
  rw [hval] at this
  refine Eq.trans this ?_
  have e : (nontrivial [((.Z : FixedGate), 0)]).length = 1 := by decide
  rw [e]
  norm_num

/-- **C60** (defect): letters are compared in the order in which they are written, columns in the order of the support. With
Z(1) before X(0) the letters are exchanged: the estimators are those of another observable, for all samples. -/
theorem C60_counterexample_order (N : ℕ) (K : ℤ) (ids : List (List (Fin 3))) (samples : List (List ℤ)) :
    estimators ascending N K ids samples (.comp .kron [fx .Z 1, fx .X 0] none) =
      estimators ascending N K ids samples (.comp .kron [fx .Z 0, fx .X 1] none) := rfl

/-- **C60** (defect): a letter repeated on a qubit counts once; `Z(0) * Z(0)`, which is the identity, is estimated as `Z(0)`. -/
theorem C60_counterexample_repeated {N : ℕ} (b : Fin N → Fin n → Fin 3) (K : ℤ) (samples : List (List ℤ)) :
    estimators ascending N K (List.ofFn fun i => List.ofFn (b i)) samples (.comp .chain [fx .Z 0, fx .Z 0] none) =
      estimators ascending N K (List.ofFn fun i => List.ofFn (b i)) samples (fx .Z 0) := by
  have hrow : ∀ row : List (Fin 3), (do let r ← pick [0] row; rowMatches [2, 2] r) = (do let r ← pick [0] row; rowMatches [2] r) := by
    intro row
    cases row with
    | nil => rfl
    | cons a row =>
      have : pick [0] (a :: row) = .ok [a] := rfl
      rw [this, ok_bind, ok_bind]
      simp [rowMatches, eq_comm]
  have ht : ∀ ids smp, groupTrace [2, 2] [0] ids smp = groupTrace [2] [0] ids smp := by
    intro ids smp
    unfold groupTrace
    simp only [hrow]
  have e1 : target ascending (.comp .chain [fx .Z 0, fx .Z 0] none) = .ok (some ([2, 2], [0])) := by rfl
  have e2 : target ascending (fx .Z 0) = .ok (some ([2], [0])) := by rfl
  rw [estimators, estimators, e1, e2, ok_bind, ok_bind]
  simp only [ht]

/-- **C60** (defect): nested scale factors count as weight 0, and cannot be estimated. -/
theorem C60_counterexample_scaled (s t : Expr) (N : ℕ) (K : ℤ) (ids : List (List (Fin 3))) (samples : List (List ℤ)) :
    maxObservableWeight (.scale (.scale (.comp .kron [fx .X 0, fx .Z 1] none) s none) t none) = .ok 0 ∧
      estimate ascending (fun _ => 1) N K ids (.scale (.scale (.comp .kron [fx .X 0, fx .Z 1] none) s none) t none) samples =
        .error .valueError := ⟨rfl, rfl⟩

/-- **C60**: with accuracy and confidence given, a size of the shadow replaces the number of snapshots, but not the number of groups, and
without it both numbers are the computed ones. -/
theorem C60_plan {observables : List (Block Gate)} {accuracy confidence : ℝ} {bigN bigK : ℤ}
    (h : numberOfSamples observables (some accuracy) (some confidence) = .ok (bigN, bigK)) (s : ℕ) :
    plan observables none (some accuracy) (some confidence) = .ok (bigN, bigK) ∧
      plan observables (some s) (some accuracy) (some confidence) = .ok ((s : ℤ), bigK) := by
  constructor <;> rw [plan, h] <;> rfl

/-- **C60** (defect): a size of the shadow without an accuracy is documented but raises a TypeError; the KeyErrors for missing
options are never raised. -/
theorem C60_counterexample_options (observables : List (Block Gate)) {k : ℕ} (hk : maximalWeight observables = .ok k) (s : Option ℕ)
    (confidence accuracy : ℝ) (ha : accuracy ≠ 0) :
    plan observables s none (some confidence) = .error .typeError ∧ plan observables s (some accuracy) none = .error .typeError := by
  constructor
  · rw [plan, numberOfSamples, hk]; rfl
  · rw [plan, numberOfSamples, hk, ok_bind, snapshotNumber, if_neg ha]; rfl

/-- **C60** (defect): the reference asks for `N` snapshots in each of the `K` groups; the code splits `N` snapshots. With accuracy and
confidence 1/10 and the observable Z(0) there are 6 groups of 1700 snapshots instead of 10200. -/
theorem C60_counterexample_group_size :
    numberOfSamples [fx .Z 0] (some (1 / 10)) (some (1 / 10)) = .ok (10200, 6) ∧ (group 10200 (10200 / 6) 0).card = 1700 := by
  constructor
  · have h1 : maximalWeight [fx .Z 0] = .ok 1 := by decide
    have h2 : pyRound (3 ^ 1 * 34 / (1 / 10) ^ 2) = 10200 := by
      have : (3 ^ 1 * 34 / (1 / 10) ^ 2 : ℝ) = ((10200 : ℤ) : ℝ) := by norm_num
      rw [this, pyRound, Int.fract_intCast, if_pos (by norm_num), Int.floor_intCast]
    have h3 : pyRound (2 * Real.log (2 * (1 : ℕ) / (1 / 10))) = 6 := by
      have e : (2 * ((1 : ℕ) : ℝ) / (1 / 10)) = 20 := by norm_num
      rw [e]
      have l2 := Real.log_two_gt_d9
      have l2' := Real.log_two_lt_d9
      have ha : Real.log 16 = 4 * Real.log 2 := by
        rw [show (16 : ℝ) = 2 ^ 4 by norm_num, Real.log_pow]; norm_num
      have hb : Real.log 16 < Real.log 20 := Real.log_lt_log (by norm_num) (by norm_num)
      have hc : Real.log 20 < 3.25 := by
        have : 2 * Real.log 20 < 9 * Real.log 2 := by
          have : 2 * Real.log 20 = Real.log 400 := by
            rw [show (400 : ℝ) = 20 ^ 2 by norm_num, Real.log_pow]; norm_num
          rw [this]
          have : 9 * Real.log 2 = Real.log 512 := by
            rw [show (512 : ℝ) = 2 ^ 9 by norm_num, Real.log_pow]; norm_num
          rw [this]
          exact Real.log_lt_log (by norm_num) (by norm_num)
        linarith
      have := pyRound_near (2 * Real.log 20)
      rw [abs_le] at this
      have u1 : (5 : ℝ) < pyRound (2 * Real.log 20) := by linarith [this.1]
      have u2 : (pyRound (2 * Real.log 20) : ℝ) < 7 := by linarith [this.2]
      have u1 : (5 : ℤ) < pyRound (2 * Real.log 20) := by exact_mod_cast u1
      have u2 : pyRound (2 * Real.log 20) < 7 := by exact_mod_cast u2
      omega
    rw [numberOfSamples, h1, ok_bind, snapshotNumber, if_neg (by norm_num), h2, ok_bind, groupNumber, if_neg (by norm_num),
      if_neg (by norm_num)]
    simp only [List.length_singleton]
    rw [h3]; rfl
  · exact (C60_groups 10200 (K := 6) (by decide)).1 0 (by decide)

end Qadence.Shadow
