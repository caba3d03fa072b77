import Mathlib.Tactic
import Verif.Model.DAQC

/-!
# C45: the pair index and the sign matrix of the digital-analog transform
-/

namespace Qadence.DAQC

theorem two_ixMap (n a b : ℤ) : 2 * ixMap n a b = 2 * n * (a - 1) - a * (a + 1) + 2 * b := by
  have h : 2 * (a * (a + 1) / 2) = a * (a + 1) := Int.mul_ediv_cancel' (Int.even_mul_succ_self a).two_dvd
  unfold ixMap
  linarith [h]

theorem two_flatSize (n : ℕ) : (2 * flatSize n : ℤ) = n * (n - 1) := by
  unfold flatSize
  have h : 2 ∣ n * (n - 1) := (Nat.even_mul_pred_self n).two_dvd
  obtain ⟨c, hc⟩ := h
  rw [hc, Nat.mul_div_cancel_left _ (by norm_num)]
  cases n with
  | zero => simp at hc ⊢; omega
  | succ m =>
    simp only [Nat.add_sub_cancel] at hc
    push_cast
    have : ((m + 1 : ℕ) : ℤ) * (m : ℕ) = 2 * c := by exact_mod_cast hc
    push_cast at this
    linarith

/-- Pairs `a < b` of numbers 1, ..., n. -/
def IsPair (n : ℤ) (p : ℤ × ℤ) : Prop := 1 ≤ p.1 ∧ p.1 < p.2 ∧ p.2 ≤ n

theorem ix_range {n : ℕ} {p : ℤ × ℤ} (h : IsPair n p) : 1 ≤ ixMap n p.1 p.2 ∧ ixMap n p.1 p.2 ≤ flatSize n := by
  obtain ⟨h1, h2, h3⟩ := h
  have e := two_ixMap n p.1 p.2
  have f := two_flatSize n
  constructor
  · nlinarith [mul_nonneg (by linarith : (0 : ℤ) ≤ p.1 - 1) (by linarith : (0 : ℤ) ≤ (n : ℤ) - p.1)]
  · nlinarith [mul_nonneg (by linarith : (0 : ℤ) ≤ (n : ℤ) - 1 - p.1) (by linarith : (0 : ℤ) ≤ (n : ℤ) - p.1)]

theorem ix_lt {n : ℕ} {p q : ℤ × ℤ} (hp : IsPair n p) (hq : IsPair n q) (h : p.1 < q.1) :
    ixMap n p.1 p.2 < ixMap n q.1 q.2 := by
  obtain ⟨h1, h2, h3⟩ := hp
  obtain ⟨g1, g2, g3⟩ := hq
  have e := two_ixMap n p.1 p.2
  have f := two_ixMap n q.1 q.2
  nlinarith [mul_nonneg (by linarith : (0 : ℤ) ≤ q.1 - p.1 - 1) (by linarith : (0 : ℤ) ≤ 2 * (n : ℤ) - q.1 - p.1 - 1)]

theorem ix_inj {n : ℕ} {p q : ℤ × ℤ} (hp : IsPair n p) (hq : IsPair n q) (h : ixMap n p.1 p.2 = ixMap n q.1 q.2) :
    p = q := by
  have h1 : p.1 = q.1 := by
    rcases lt_trichotomy p.1 q.1 with h' | h' | h'
    · exact absurd h (ix_lt hp hq h').ne
    · exact h'
    · exact absurd h (ix_lt hq hp h').ne'
  have h2 : p.2 = q.2 := by
    have e := two_ixMap n p.1 p.2
    have f := two_ixMap n q.1 q.2
    rw [h1] at e h
    linarith
  exact Prod.ext h1 h2

/-- Every position is the position of a pair. -/
theorem ix_surj (n : ℕ) (i : ℤ) (h1 : 1 ≤ i) (h2 : i ≤ flatSize n) : ∃ p, IsPair n p ∧ ixMap n p.1 p.2 = i := by
  -- the last row whose first position is at most `i`
  have f := two_flatSize n
  have key : ∀ k : ℕ, (k : ℤ) < n → ixMap n (k + 1) (k + 2) > i → ∃ p, IsPair n p ∧ ixMap n p.1 p.2 = i := by
    intro k
    induction k with
    | zero =>
      intro hk hgt
      have e := two_ixMap n ((0 : ℕ) + 1) ((0 : ℕ) + 2)
      push_cast at e hgt
      norm_num at e
      have : ixMap n (0 + 1) (0 + 2) = 1 := by norm_num; linarith
      linarith
    | succ k ih =>
      intro hk hgt
      by_cases h : ixMap n (k + 1) (k + 2) > i
      · exact ih (by push_cast at hk; linarith) h
      · have e := two_ixMap n (k + 1) (k + 2)
        have e' := two_ixMap n ((k + 1 : ℕ) + 1) ((k + 1 : ℕ) + 2)
        push_cast at hk hgt e'
        refine ⟨(k + 1, k + 2 + (i - ixMap n (k + 1) (k + 2))), ⟨by simp, by simp only; linarith, ?_⟩, ?_⟩
        · simp only
          nlinarith
        · simp only
          have e2 := two_ixMap n (k + 1) (k + 2 + (i - ixMap n (k + 1) (k + 2)))
          linarith
  rcases Nat.lt_or_ge n 2 with hn | hn
  · exfalso
    interval_cases n <;> simp [flatSize] at h2 <;> omega
  · refine key (n - 1) (by omega) ?_
    have e := two_ixMap n ((n - 1 : ℕ) + 1) ((n - 1 : ℕ) + 2)
    rw [Nat.cast_sub (by omega)] at e ⊢
    push_cast at e ⊢
    nlinarith

/-- **C45**: the index map is a bijection from the pairs `a < b` in 1, ..., n onto 1, ..., n (n - 1) / 2. -/
theorem C45_ix_map (n : ℕ) : Set.BijOn (fun p : ℤ × ℤ => ixMap n p.1 p.2) {p | IsPair n p} (Set.Icc 1 (flatSize n)) :=
  ⟨fun _ hp => ix_range hp, fun _ hp _ hq h => ix_inj hp hq h, fun i hi => by
    obtain ⟨p, hp, he⟩ := ix_surj n i hi.1 hi.2
    exact ⟨p, hp, he⟩⟩

example : IsPair 3 (1, 3) ∧ ixMap 3 1 3 = 2 := by unfold IsPair; decide

theorem mem_pairs {n : ℕ} {p : ℕ × ℕ} : p ∈ pairs n ↔ 1 ≤ p.1 ∧ p.1 < p.2 ∧ p.2 ≤ n := by
  unfold pairs
  simp only [List.mem_flatMap, List.mem_range'_1, List.mem_map]
  constructor
  · rintro ⟨m, hm, k, hk, rfl⟩
    simp only
    omega
  · rintro ⟨h1, h2, h3⟩
    exact ⟨p.2, by omega, p.1, by omega, rfl⟩

theorem isPair_of_mem {n : ℕ} {p : ℕ × ℕ} (h : p ∈ pairs n) : IsPair n ((p.1 : ℤ), (p.2 : ℤ)) := by
  rw [mem_pairs] at h
  refine ⟨?_, ?_, ?_⟩ <;> simp only <;> omega

theorem pos_lt {n : ℕ} {p : ℕ × ℕ} (h : p ∈ pairs n) : pos n p < flatSize n := by
  have := ix_range (isPair_of_mem h)
  unfold pos
  simp only at this
  omega

theorem pos_inj {n : ℕ} {p q : ℕ × ℕ} (hp : p ∈ pairs n) (hq : q ∈ pairs n) (h : pos n p = pos n q) : p = q := by
  have h1 := ix_range (isPair_of_mem hp)
  have h2 := ix_range (isPair_of_mem hq)
  have := ix_inj (isPair_of_mem hp) (isPair_of_mem hq) (by unfold pos at h; simp only at h1 h2 ⊢; omega)
  have e1 := congrArg Prod.fst this
  have e2 := congrArg Prod.snd this
  simp only at e1 e2
  exact Prod.ext (by omega) (by omega)

theorem pos_surj {n i : ℕ} (h : i < flatSize n) : ∃ p ∈ pairs n, pos n p = i := by
  obtain ⟨p, hp, he⟩ := ix_surj n (i + 1) (by omega) (by omega)
  obtain ⟨h1, h2, h3⟩ := hp
  refine ⟨(p.1.toNat, p.2.toNat), mem_pairs.2 ⟨by simp only; omega, by simp only; omega, by simp only; omega⟩, ?_⟩
  unfold pos
  simp only
  rw [Int.toNat_of_nonneg (by omega), Int.toNat_of_nonneg (by omega), he]
  omega

theorem pairs_nodup (n : ℕ) : (pairs n).Nodup := by
  unfold pairs
  rw [List.nodup_flatMap]
  constructor
  · intro m _
    refine List.Nodup.map (fun a b h => ?_) List.nodup_range'
    simpa using h
  · refine (List.nodup_range' (s := 2) (n := n - 1) (step := 1)).imp (fun {a b} hab => ?_) 
    intro x hx hy
    simp only [List.mem_map] at hx hy
    obtain ⟨_, _, rfl⟩ := hx
    obtain ⟨_, _, h⟩ := hy
    simp at h
    exact hab h.2.symm

/-! ### The sign matrix -/

theorem foldl_set2 {α : Type} (key : α → ℕ × ℕ) (val : α → ℚ) (l : List α) (M : ℕ → ℕ → ℚ)
    (hinj : ∀ a ∈ l, ∀ b ∈ l, key a = key b → val a = val b) {a : α} (ha : a ∈ l) :
    (l.foldl (fun M q => set2 M (key q).1 (key q).2 (val q)) M) (key a).1 (key a).2 = val a := by
  induction l using List.reverseRecOn generalizing a with
  | nil => cases ha
  | append_singleton l b ih =>
    rw [List.foldl_append, List.foldl_cons, List.foldl_nil, set2]
    by_cases h : key a = key b
    · rw [h, if_pos ⟨rfl, rfl⟩]
      exact (hinj a ha b (by simp) h).symm
    · rw [if_neg (fun e => h (Prod.ext e.1 e.2))]
      refine ih (fun a ha b hb => hinj a (by simp [ha]) b (by simp [hb])) ?_
      rcases List.mem_append.1 ha with h' | h'
      · exact h'
      · exact absurd (by rw [List.mem_singleton.1 h']) h

/-- Entries of the sign matrix. -/
theorem signMatrix_apply {n : ℕ} {p q : ℕ × ℕ} (hp : p ∈ pairs n) (hq : q ∈ pairs n) :
    signMatrix n (pos n q) (pos n p) = sign p.1 p.2 q.1 q.2 := by
  unfold signMatrix
  refine foldl_set2 (fun a : (ℕ × ℕ) × (ℕ × ℕ) => (pos n a.2, pos n a.1))
    (fun a => sign a.1.1 a.1.2 a.2.1 a.2.2) _ _ ?_ (a := (p, q)) ?_
  · rintro ⟨a, b⟩ ha ⟨c, d⟩ hc h
    simp only [List.mem_flatMap, List.mem_map, Prod.mk.injEq] at ha hc h
    obtain ⟨a', h1, b', h2, rfl, rfl⟩ := ha
    obtain ⟨c', h3, d', h4, rfl, rfl⟩ := hc
    rw [pos_inj h2 h4 h.1, pos_inj h1 h3 h.2]
  · simp only [List.mem_flatMap, List.mem_map, Prod.mk.injEq]
    exact ⟨p, hp, q, hq, rfl, rfl⟩

theorem sign_comm (a b c d : ℕ) : sign a b c d = sign c d a b := by
  unfold sign kd
  congr 1
  simp only [eq_comm (a := c), eq_comm (a := d)]
  omega

/-- The matrix passed to the linear solver. -/
def matM (n : ℕ) : Matrix (Fin (flatSize n)) (Fin (flatSize n)) ℚ := fun i j => signMatrix n i j

/-! ### Pairs counted from 0 -/

open Finset

/-- Pairs `j < k < n`. -/
def P (n : ℕ) : Finset (ℕ × ℕ) := (range n ×ˢ range n).filter fun p => p.1 < p.2

theorem mem_P {n : ℕ} {p : ℕ × ℕ} : p ∈ P n ↔ p.1 < p.2 ∧ p.2 < n := by
  simp only [P, mem_filter, mem_product, mem_range]
  omega

/-- The same pair counted from 1. -/
def up (p : ℕ × ℕ) : ℕ × ℕ := (p.1 + 1, p.2 + 1)

theorem up_mem {n : ℕ} {p : ℕ × ℕ} : up p ∈ pairs n ↔ p ∈ P n := by
  rw [mem_pairs, mem_P]
  simp only [up]
  omega

theorem up_inj {p q : ℕ × ℕ} (h : up p = up q) : p = q := by
  simp only [up, Prod.mk.injEq] at h
  exact Prod.ext (by omega) (by omega)

theorem exists_up {n : ℕ} {p : ℕ × ℕ} (h : p ∈ pairs n) : ∃ q ∈ P n, up q = p := by
  have h' := mem_pairs.1 h
  refine ⟨(p.1 - 1, p.2 - 1), ?_, ?_⟩
  · rw [mem_P]; simp only; omega
  · simp only [up]; exact Prod.ext (by simp only; omega) (by simp only; omega)

theorem sum_pairs {M : Type*} [AddCommMonoid M] (n : ℕ) (f : ℕ × ℕ → M) : ((pairs n).map f).sum = ∑ p ∈ P n, f (up p) := by
  rw [← List.sum_toFinset f (pairs_nodup n)]
  symm
  refine sum_nbij up (fun p hp => List.mem_toFinset.2 (up_mem.2 hp)) (fun a _ b _ h => up_inj h) ?_ (fun _ _ => rfl)
  intro p hp
  obtain ⟨q, hq, rfl⟩ := exists_up (List.mem_toFinset.1 hp)
  exact ⟨q, hq, rfl⟩

theorem sum_fin {M : Type*} [AddCommMonoid M] (n : ℕ) (f : ℕ → M) :
    ∑ i : Fin (flatSize n), f i = ∑ p ∈ P n, f (pos n (up p)) := by
  rw [← sum_range]
  symm
  refine sum_nbij (fun p => pos n (up p)) (fun p hp => mem_range.2 (pos_lt (up_mem.2 hp)))
    (fun a ha b hb h => up_inj (pos_inj (up_mem.2 ha) (up_mem.2 hb) h)) ?_ (fun _ _ => rfl)
  intro i hi
  obtain ⟨p, hp, rfl⟩ := pos_surj (mem_range.1 hi)
  obtain ⟨q, hq, rfl⟩ := exists_up hp
  exact ⟨q, hq, rfl⟩

/-- A double sum as a sum over pairs. -/
theorem sum_double {M : Type*} [AddCommMonoid M] (n : ℕ) (g : ℕ → ℕ → M) :
    ∑ j ∈ range n, ∑ k ∈ range n, g j k = ∑ p ∈ P n, (g p.1 p.2 + g p.2 p.1) + ∑ j ∈ range n, g j j := by
  rw [← sum_product', ← sum_filter_add_sum_filter_not _ (fun p : ℕ × ℕ => p.1 < p.2), sum_add_distrib, add_assoc]
  congr 1
  rw [← sum_filter_add_sum_filter_not (filter _ _) (fun p : ℕ × ℕ => p.2 < p.1)]
  congr 1
  · refine sum_nbij Prod.swap ?_ (fun a _ b _ h => Prod.swap_injective h) ?_ (fun _ _ => rfl)
    · intro p hp
      simp only [mem_filter, mem_product, mem_range] at hp
      rw [mem_P]
      simp only [Prod.fst_swap, Prod.snd_swap]
      omega
    · intro p hp
      have := mem_P.1 (mem_coe.1 hp)
      refine ⟨p.swap, ?_, by simp⟩
      simp only [coe_filter, mem_filter, mem_product, mem_range, Prod.fst_swap, Prod.snd_swap, Set.mem_setOf_eq]
      omega
  · symm
    refine sum_nbij (fun j => (j, j)) ?_ (fun a _ b _ h => (Prod.mk.inj h).1) ?_ (fun _ _ => rfl)
    · intro j hj
      simp only [mem_filter, mem_product, mem_range] at hj ⊢
      omega
    · rintro ⟨a, b⟩ hp
      simp only [coe_filter, mem_filter, mem_product, mem_range, Set.mem_setOf_eq] at hp
      obtain rfl : a = b := by omega
      exact ⟨a, by simpa using hp.1.1.1, rfl⟩

/-- The sign in terms of the number of common elements. -/
theorem sign_eq {p q : ℕ × ℕ} (hp : p.1 < p.2) (hq : q.1 < q.2) :
    sign p.1 p.2 q.1 q.2 = 1 - 2 * ((kd q.1 p.1 : ℚ) + kd q.1 p.2) - 2 * (kd q.2 p.1 + kd q.2 p.2) +
      4 * (if p = q then 1 else 0) := by
  unfold sign kd
  have h : p = q ↔ q.1 = p.1 ∧ q.2 = p.2 := by rw [Prod.ext_iff]; constructor <;> (rintro ⟨a, b⟩; exact ⟨a.symm, b.symm⟩)
  simp only [h]
  have n1 : p.1 ≠ p.2 := hp.ne
  have n2 : p.2 ≠ p.1 := hp.ne'
  by_cases h1 : q.1 = p.1 <;> by_cases h2 : q.1 = p.2 <;> by_cases h3 : q.2 = p.1 <;> by_cases h4 : q.2 = p.2 <;>
    first
    | (exfalso; omega)
    | (simp [h1, h2, h3, h4, n1, n2]; done)
    | (simp [h1, h2, h3, h4, n1, n2]; norm_num)

/-- The product of the sign matrix with a vector. -/
theorem matM_mulVec (n : ℕ) (v : Fin (flatSize n) → ℚ) {q : ℕ × ℕ} (hq : q ∈ P n) :
    (matM n).mulVec v ⟨pos n (up q), pos_lt (up_mem.2 hq)⟩ =
      ∑ p ∈ P n, sign p.1 p.2 q.1 q.2 * (if h : pos n (up p) < flatSize n then v ⟨pos n (up p), h⟩ else 0) := by
  have := sum_fin n (fun i => signMatrix n (pos n (up q)) i * (if h : i < flatSize n then v ⟨i, h⟩ else 0))
  rw [Matrix.mulVec, dotProduct]
  convert this using 1
  · apply sum_congr rfl
    intro i _
    simp [matM]
  · apply sum_congr rfl
    intro p hp
    rw [signMatrix_apply (up_mem.2 hp) (up_mem.2 hq)]
    congr 1
    simp [sign, kd, up]

/-- **C45**: the sign matrix is invertible for every number of qubits but 4. -/
theorem C45_invertible {n : ℕ} (h4 : n ≠ 4) : (matM n).det ≠ 0 := by
  rw [Ne, ← Matrix.exists_mulVec_eq_zero_iff]
  rintro ⟨v, hv, hMv⟩
  apply hv
  obtain ⟨u, hu⟩ : ∃ u : ℕ × ℕ → ℚ, u = fun p => if h : pos n (up p) < flatSize n then v ⟨pos n (up p), h⟩ else 0 := ⟨_, rfl⟩
  -- symmetric extension
  obtain ⟨U, hU⟩ : ∃ U : ℕ → ℕ → ℚ, U = fun j k => if j < k then u (j, k) else if k < j then u (k, j) else 0 := ⟨_, rfl⟩
  have hsym : ∀ j k, U j k = U k j := by
    intro j k
    rw [hU]
    rcases lt_trichotomy j k with h | h | h
    · simp [h, h.le, Nat.not_lt_of_lt h]
    · simp [h]
    · simp [h, Nat.not_lt_of_lt h]
  have hdiag : ∀ j, U j j = 0 := by intro j; simp [hU]
  have hUp : ∀ p ∈ P n, U p.1 p.2 = u p := by
    intro p hp
    simp [hU, (mem_P.1 hp).1]
  let s : ℕ → ℚ := fun j => ∑ k ∈ range n, U j k
  let S : ℚ := ∑ p ∈ P n, u p
  have hS : ∑ j ∈ range n, s j = 2 * S := by
    simp only [s]
    rw [sum_double, Finset.sum_eq_zero (fun j _ => hdiag j) (s := range n), add_zero]
    simp only [S, mul_sum]
    apply sum_congr rfl
    intro p hp
    rw [hsym p.2 p.1, hUp p hp]
    ring
  have hs : ∀ j ∈ range n, s j = ∑ p ∈ P n, ((kd j p.1 : ℚ) + kd j p.2) * u p := by
    intro j hj
    have := sum_double n (fun a b => (kd j a : ℚ) * U a b)
    have e : ∑ a ∈ range n, ∑ b ∈ range n, (kd j a : ℚ) * U a b = s j := by
      rw [Finset.sum_eq_single j]
      · simp [kd, s]
      · intro a _ ha
        simp [kd, ha.symm]
      · intro h; exact absurd hj h
    rw [e] at this
    rw [this]
    have z : ∑ a ∈ range n, (kd j a : ℚ) * U a a = 0 := sum_eq_zero fun a _ => by simp [hdiag]
    rw [z, add_zero]
    apply sum_congr rfl
    intro p hp
    rw [hsym p.2 p.1, hUp p hp]
    ring
  have heq : ∀ p ∈ P n, S - 2 * s p.1 - 2 * s p.2 + 4 * u p = 0 := by
    intro q hq
    have h := congrFun hMv ⟨pos n (up q), pos_lt (up_mem.2 hq)⟩
    rw [matM_mulVec n v hq, Pi.zero_apply] at h
    have hq' := mem_P.1 hq
    rw [hs q.1 (mem_range.2 (by omega)), hs q.2 (mem_range.2 (by omega))]
    have e4 : 4 * u q = ∑ p ∈ P n, 4 * (if p = q then 1 else 0) * u p := by
      rw [sum_eq_single q]
      · simp
      · intro b _ hb; simp [hb]
      · intro h; exact absurd hq h
    rw [e4]
    refine Eq.trans ?_ h
    simp only [S, mul_sum, ← sum_sub_distrib, ← sum_add_distrib]
    apply sum_congr rfl
    intro p hp
    rw [sign_eq (mem_P.1 hp).1 hq'.1]
    rw [hu]
    ring
  have hU' : ∀ j ∈ range n, ∀ k ∈ range n, j ≠ k → S - 2 * s j - 2 * s k + 4 * U j k = 0 := by
    intro j hj k hk hjk
    rcases Nat.lt_or_gt_of_ne hjk with h | h
    · have hp : (j, k) ∈ P n := mem_P.2 ⟨h, mem_range.1 hk⟩
      have := heq _ hp
      rw [← hUp _ hp] at this
      exact this
    · have hp : (k, j) ∈ P n := mem_P.2 ⟨h, mem_range.1 hj⟩
      have := heq _ hp
      rw [← hUp _ hp] at this
      rw [hsym j k]
      simp only at this
      linarith
  have hrow : ∀ j ∈ range n, (2 * (n : ℚ) - 8) * s j = (n - 5) * S := by
    intro j hj
    have h0 : ∑ k ∈ (range n).erase j, (S - 2 * s j - 2 * s k + 4 * U j k) = 0 :=
      sum_eq_zero fun k hk => hU' j hj k (mem_of_mem_erase hk) (ne_of_mem_erase hk).symm
    rw [sum_add_distrib, sum_sub_distrib, ← mul_sum, ← mul_sum, sum_const, card_erase_of_mem hj, card_range,
      sum_erase_eq_sub hj, sum_erase_eq_sub hj, hS, hdiag] at h0
    have hn : ((n - 1 : ℕ) : ℚ) = n - 1 := by
      rw [Nat.cast_sub (by have := mem_range.1 hj; omega)]; simp
    rw [nsmul_eq_mul, hn] at h0
    simp only [s] at h0 ⊢
    linarith
  have hS0 : S = 0 := by
    have h1 : ∑ j ∈ range n, (2 * (n : ℚ) - 8) * s j = n * ((n - 5) * S) := by
      rw [sum_congr rfl hrow]; simp
    rw [← mul_sum, hS] at h1
    have h2 : ((n : ℚ) ^ 2 - 9 * n + 16) * S = 0 := by linarith
    rcases mul_eq_zero.1 h2 with h | h
    · exfalso
      have h' : (n : ℤ) ^ 2 - 9 * n + 16 = 0 := by exact_mod_cast h
      have : n ≤ 7 := by
        by_contra hc
        have : (8 : ℤ) ≤ n := by omega
        nlinarith
      interval_cases n <;> norm_num at h'
    · exact h
  have hs0 : ∀ j ∈ range n, s j = 0 := by
    intro j hj
    have := hrow j hj
    rw [hS0, mul_zero] at this
    rcases mul_eq_zero.1 this with h | h
    · exfalso
      apply h4
      have : (n : ℚ) = 4 := by linarith
      exact_mod_cast this
    · exact h
  funext i
  obtain ⟨p, hp, he⟩ := pos_surj i.2
  obtain ⟨q, hq, rfl⟩ := exists_up hp
  have hq' := mem_P.1 hq
  have := heq q hq
  rw [hS0, hs0 q.1 (mem_range.2 (by omega)), hs0 q.2 (mem_range.2 (by omega))] at this
  have hz : u q = 0 := by linarith
  rw [hu] at hz
  simp only [he, Fin.is_lt, dif_pos, Fin.eta] at hz
  simpa using hz

/-- For 4 qubits it is singular: the transform is right to refuse. -/
theorem C45_singular_four : (matM 4).det = 0 := by
  rw [← Matrix.exists_mulVec_eq_zero_iff]
  refine ⟨![1, 0, 0, 0, 0, -1], ?_, ?_⟩
  · intro h
    have := congrFun h (⟨0, by decide⟩ : Fin (flatSize 4))
    exact absurd this (by decide +kernel)
  · decide +kernel

end Qadence.DAQC
