import Mathlib.Data.List.FinRange
import Verif.Model.Shadow
import Verif.Proofs.Shadow
import Verif.Props.Tomography

/-!
# C60 (classical shadows): groups and estimators
-/

namespace Qadence.Shadow

open Spec Measure Block

variable {n N : ℕ}

/-! ### Words -/

theorem letter_some {b : Block Gate} {p : FixedGate × ℕ} (h : letter b = some p) :
    (∃ t, b = .leaf (.fixed p.1 p.2) t) ∧ (p.1 = .X ∨ p.1 = .Y ∨ p.1 = .Z ∨ p.1 = .I) := by
  unfold letter at h
  split at h
  · next g q t =>
    split at h
    · next hg => cases h; exact ⟨⟨t, rfl⟩, hg⟩
    · cases h
  · cases h

theorem _root_.Qadence.Spec.Word.ofParts {term : Block Gate} {ls : List (FixedGate × ℕ)} (h : Word n term ls) : Letters n ls := by
  refine ⟨?_, h.inside, h.once⟩
  intro p hp
  rcases h.parts with ⟨p', h1, rfl, -⟩ | ⟨k, bs, t, -, -, h1⟩
  · rw [List.mem_singleton.1 hp]; exact (letter_some h1).2
  · have : some p ∈ bs.map letter := by rw [h1]; exact List.mem_map.2 ⟨p, hp, rfl⟩
    obtain ⟨b, -, hb⟩ := List.mem_map.1 this
    exact (letter_some hb).2

/-- The index looked for in the column of a letter. -/
def indexOf (p : FixedGate × ℕ) : Fin 3 := (basisOf p.1).getD 0

theorem pauliIndex_leaf {p : FixedGate × ℕ} (h : p.1 = .X ∨ p.1 = .Y ∨ p.1 = .Z ∨ p.1 = .I) (hI : p.1 ≠ .I) (t : Option String) :
    pauliIndex (.leaf (.fixed p.1 p.2) t) = .ok (indexOf p) := by
  obtain ⟨g, q⟩ := p
  rcases h with h | h | h | h <;> simp only at h hI <;> subst h
  · rfl
  · rfl
  · rfl
  · exact absurd rfl hI

/-- What `estimators` looks for in a word written in the order of the support. -/
theorem target_word (ord : List ℕ → List ℕ) {term : Block Gate} {ls : List (FixedGate × ℕ)} (h : Word n term ls)
    (hord : support Gate.supp ord term = ls.map Prod.snd) :
    target ord term = .ok (some ((nontrivial ls).map indexOf, (nontrivial ls).map Prod.snd)) := by
  rcases h.parts with ⟨p, h1, rfl, hI⟩ | ⟨k, bs, t, rfl, -, h1⟩
  · obtain ⟨⟨t, rfl⟩, hp⟩ := letter_some h1
    have e : nontrivial [p] = [p] := by simp [nontrivial, hI]
    have e2 : isFixed .I (Block.leaf (.fixed p.1 p.2) t) = false := by simp [isFixed, hI]
    rw [target, e2, if_neg (by simp), pauliIndex_leaf hp hI, ok_bind, e]
    rfl
  · have key : ∀ (bs : List (Block Gate)) (ls : List (FixedGate × ℕ)), bs.map letter = ls.map some →
        (bs.filter fun b => !isFixed .I b).mapM pauliIndex = .ok ((nontrivial ls).map indexOf) ∧
          (bs.filter fun b => isFixed .I b).mapM (firstQubit ord) = .ok ((ls.filter fun p => p.1 = .I).map Prod.snd) := by
      intro bs
      induction bs with
      | nil =>
        intro ls h
        have : ls = [] := by simpa using h.symm
        subst this
        exact ⟨rfl, rfl⟩
      | cons b bs ih =>
        intro ls h
        cases ls with
        | nil => simp at h
        | cons p ls =>
          simp only [List.map_cons, List.cons.injEq] at h
          obtain ⟨i1, i2⟩ := ih ls h.2
          obtain ⟨⟨t, rfl⟩, hp⟩ := letter_some h.1
          by_cases hI : p.1 = .I
          · have e : isFixed .I (Block.leaf (.fixed p.1 p.2) t) = true := by simp [isFixed, hI]
            constructor
            · rw [List.filter_cons, e, if_neg (by simp), i1]
              simp [nontrivial, hI]
            · rw [List.filter_cons, if_pos e, List.mapM_cons, i2]
              simp only [List.filter_cons, hI, decide_true, if_true]
              rfl
          · have e : isFixed .I (Block.leaf (.fixed p.1 p.2) t) = false := by simp [isFixed, hI]
            constructor
            · rw [List.filter_cons, e, if_pos (by simp), List.mapM_cons, i1, pauliIndex_leaf hp hI, ok_bind, ok_bind]
              simp [nontrivial, hI, pure_eq_ok]
            · rw [List.filter_cons, if_neg (by simp [e]), i2]
              simp [hI]
    obtain ⟨k1, k2⟩ := key bs ls h1
    have k3 : qubitIndicesForOp ord (.comp k bs t) (some .I) = .ok ((ls.filter fun p => p.1 = .I).map Prod.snd) := k2
    rw [target, k1, ok_bind, k3, ok_bind, hord, pure_eq_ok]
    congr 3
    rw [List.filter_map, nontrivial]
    congr 1
    apply List.filter_congr
    intro p hp
    simp only [Function.comp_apply, decide_eq_decide, List.mem_map, List.mem_filter, not_exists, not_and]
    constructor
    · intro hx hI
      exact hx p ⟨hp, by simpa using hI⟩ rfl
    · rintro hx p' ⟨hp', hI⟩ e
      have : p' = p := List.inj_on_of_nodup_map h.once hp' hp e
      subst this
      exact hx (by simpa using hI)

/-! ### Slices -/

theorem mem_slice {m k : ℕ} {i : Fin N} : i ∈ slice m k (List.finRange N) ↔ i ∈ group N m k := by
  rw [slice, List.mem_iff_getElem, group, Finset.mem_filter]
  constructor
  · rintro ⟨j, hj, e⟩
    rw [List.length_take, List.length_drop, List.length_finRange] at hj
    rw [List.getElem_take, List.getElem_drop, List.getElem_finRange] at e
    subst e
    simp only [Fin.val_cast, Finset.mem_univ, true_and]
    constructor
    · omega
    · rw [add_mul, one_mul]; omega
  · rintro ⟨-, h1, h2⟩
    rw [add_mul, one_mul] at h2
    refine ⟨i.val - k * m, ?_, ?_⟩
    · rw [List.length_take, List.length_drop, List.length_finRange]
      have := i.2
      omega
    · rw [List.getElem_take, List.getElem_drop, List.getElem_finRange]
      apply Fin.ext
      simp only [Fin.val_cast]
      omega

theorem slice_nodup (m k : ℕ) : (slice m k (List.finRange N)).Nodup :=
  List.Nodup.sublist ((List.take_sublist _ _).trans (List.drop_sublist _ _)) (List.nodup_finRange N)

theorem slice_map {α β : Type} (m k : ℕ) (f : α → β) (xs : List α) : slice m k (xs.map f) = (slice m k xs).map f := by
  rw [slice, slice, ← List.map_drop, ← List.map_take]

/-- **C60**: the groups are disjoint sets of snapshots, `K` groups of `N / K` snapshots each; fewer than `K` snapshots are not used. -/
theorem C60_groups (N : ℕ) {K : ℕ} (hK : 0 < K) :
    (∀ k < K, (group N (N / K) k).card = N / K) ∧ (∀ k l, k ≠ l → Disjoint (group N (N / K) k) (group N (N / K) l)) ∧
      ((Finset.range K).biUnion (group N (N / K))).card = K * (N / K) ∧ N - K * (N / K) < K := by
  have h1 : ∀ k < K, (group N (N / K) k).card = N / K := by
    intro k hk
    have hle : (k + 1) * (N / K) ≤ N := (Nat.mul_le_mul_right _ hk).trans (Nat.mul_div_le N K)
    have : (group N (N / K) k).map Fin.valEmbedding = Finset.Ico (k * (N / K)) ((k + 1) * (N / K)) := by
      ext i
      simp only [group, Finset.mem_map, Finset.mem_filter, Finset.mem_univ, true_and, Fin.valEmbedding_apply, Finset.mem_Ico]
      constructor
      · rintro ⟨a, ha, rfl⟩; exact ha
      · intro hi; exact ⟨⟨i, by omega⟩, hi, rfl⟩
    rw [← Finset.card_map Fin.valEmbedding, this, Nat.card_Ico, add_mul, one_mul, Nat.add_sub_cancel_left]
  have h2 : ∀ k l, k ≠ l → Disjoint (group N (N / K) k) (group N (N / K) l) := by
    intro k l hkl
    rw [Finset.disjoint_left]
    intro i hi hj
    simp only [group, Finset.mem_filter, Finset.mem_univ, true_and] at hi hj
    rcases Nat.lt_or_gt_of_ne hkl with h | h
    · have := Nat.mul_le_mul_right (N / K) (Nat.succ_le_of_lt h)
      simp only [Nat.succ_eq_add_one] at this
      omega
    · have := Nat.mul_le_mul_right (N / K) (Nat.succ_le_of_lt h)
      simp only [Nat.succ_eq_add_one] at this
      omega
  refine ⟨h1, h2, ?_, ?_⟩
  · rw [Finset.card_biUnion fun k _ l _ hkl => h2 k l hkl, Finset.sum_congr rfl fun k hk => h1 k (Finset.mem_range.1 hk)]
    simp
  · have := Nat.mod_add_div N K
    have := Nat.mod_lt N hK
    omega

example : (group 7 (7 / 3) 1) = {2, 3} := by decide

/-! ### Estimators -/

theorem pick_map {α β : Type} (support : List β) (row : List α) (f : β → ℕ) (g : β → α) (h : ∀ q ∈ support, row[f q]? = some (g q)) :
    pick (support.map f) row = .ok (support.map g) := by
  rw [pick]
  induction support with
  | nil => rfl
  | cons q qs ih =>
    rw [List.map_cons, List.mapM_cons, h q (by simp), ih fun q' hq' => h q' (by simp [hq'])]
    rfl

open Classical in
/-- The rows of the identifiers in which the word is measured. -/
theorem row_matches {ls : List (FixedGate × ℕ)} (h : Letters n ls) (b : Fin n → Fin 3) :
    (do let r ← pick ((nontrivial ls).map Prod.snd) (List.ofFn b)
        rowMatches ((nontrivial ls).map indexOf) r) = .ok (decide (Measured ls b)) := by
  have hin : ∀ p ∈ nontrivial ls, p.2 < n := fun p hp => h.inside p (nontrivial_mem.1 hp).1
  rw [pick_map (g := fun p => if hp : p.2 < n then b ⟨p.2, hp⟩ else 0), ok_bind]
  · unfold rowMatches
    rw [if_pos (by simp)]
    congr 1
    rw [decide_eq_decide, List.map_inj_left]
    constructor
    · intro he p hp
      refine ⟨hin p hp, ?_⟩
      obtain ⟨i, hi, -⟩ := h.basis hp
      have := he p hp
      rw [dif_pos (hin p hp)] at this
      rw [this, indexOf, hi]
      rfl
    · intro hm p hp
      obtain ⟨hlt, hb⟩ := hm p hp
      rw [dif_pos hlt, indexOf, hb]
      rfl
  · intro p hp
    rw [dif_pos (hin p hp), List.getElem?_ofFn, dif_pos (hin p hp)]

/-- The product of the signs. -/
theorem sign_product {ls : List (FixedGate × ℕ)} (h : Letters n ls) (x : St n) :
    (do let r ← pick ((nontrivial ls).map Prod.snd) (signs (List.ofFn x))
        return r.prod : Except PyErr ℤ) = .ok (result ls x) := by
  have hin : ∀ p ∈ nontrivial ls, p.2 < n := fun p hp => h.inside p (nontrivial_mem.1 hp).1
  rw [pick_map (g := fun p => 1 - 2 * (((List.ofFn x).getD p.2 false).toNat : ℤ)), ok_bind, pure_eq_ok, result]
  · congr 1
    clear hin
    induction nontrivial ls with
    | nil => simp [parity]
    | cons p ls ih =>
      rw [List.map_cons, List.prod_cons, ih, List.map_cons]
      unfold parity
      rw [List.countP_cons]
      cases (List.ofFn x).getD p.2 false <;> simp [pow_succ]
  · intro p hp
    rw [signs, List.getElem?_map, List.getD_eq_getElem?_getD, List.getElem?_ofFn, dif_pos (hin p hp)]
    rfl

open Classical in
theorem groupTrace_eq {ls : List (FixedGate × ℕ)} (h : Letters n ls) (b : Fin N → Fin n → Fin 3) (o : Fin N → St n) (m k : ℕ) :
    groupTrace ((nontrivial ls).map indexOf) ((nontrivial ls).map Prod.snd) (slice m k (List.ofFn fun i => List.ofFn (b i)))
      (slice m k (List.ofFn fun i => signs (List.ofFn (o i)))) = .ok (groupMean ls b o (group N m k)) := by
  set rows := slice m k (List.finRange N) with hrows
  have e1 : slice m k (List.ofFn fun i => List.ofFn (b i)) = rows.map fun i => List.ofFn (b i) := by
    rw [List.ofFn_eq_map, slice_map]
  have e2 : slice m k (List.ofFn fun i => signs (List.ofFn (o i))) = rows.map fun i => signs (List.ofFn (o i)) := by
    rw [List.ofFn_eq_map, slice_map]
  have e3 : (rows.map fun i => List.ofFn (b i)).mapM (fun row => do
      let r ← pick ((nontrivial ls).map Prod.snd) row
      rowMatches ((nontrivial ls).map indexOf) r) = .ok (rows.map fun i => decide (Measured ls (b i))) := by
    have := mapM_ok_map (l := rows.map fun i => List.ofFn (b i)) (f := fun row => do
      let r ← pick ((nontrivial ls).map Prod.snd) row
      rowMatches ((nontrivial ls).map indexOf) r) (g := fun row => decide (∃ i, row = List.ofFn (b i) ∧ Measured ls (b i))) ?_
    · rw [this, List.map_map]
      congr 1
      apply List.map_congr_left
      intro i _
      simp only [Function.comp_apply, decide_eq_decide]
      constructor
      · rintro ⟨j, hj, hm⟩
        rw [List.ofFn_injective hj]; exact hm
      · intro hm; exact ⟨i, rfl, hm⟩
    · intro row hrow
      obtain ⟨i, -, rfl⟩ := List.mem_map.1 hrow
      rw [row_matches h]
      congr 1
      rw [decide_eq_decide]
      constructor
      · intro hm; exact ⟨i, rfl, hm⟩
      · rintro ⟨j, hj, hm⟩
        rw [List.ofFn_injective hj]; exact hm
  have hfin : (rows.filter fun i => decide (Measured ls (b i))).toFinset = (group N m k).filter fun i => Measured ls (b i) := by
    ext i
    rw [List.mem_toFinset, List.mem_filter, Finset.mem_filter, hrows, mem_slice]
    simp
  have hnd : (rows.filter fun i => decide (Measured ls (b i))).Nodup := (slice_nodup m k).filter _
  have hcount : (rows.map fun i => decide (Measured ls (b i))).count true =
      ((group N m k).filter fun i => Measured ls (b i)).card := by
    rw [← hfin, List.toFinset_card_of_nodup hnd, List.count_eq_countP, List.countP_map, List.countP_eq_length_filter]
    congr 2
    funext i
    simp
  rw [groupTrace, e1, e2, e3, ok_bind, hcount]
  have hzip : (((rows.map fun i => signs (List.ofFn (o i))).zip (rows.map fun i => decide (Measured ls (b i)))).filter Prod.snd).map
      Prod.fst = (rows.filter fun i => decide (Measured ls (b i))).map fun i => signs (List.ofFn (o i)) := by
    clear hcount hnd hfin e1 e2 e3
    clear_value rows
    clear hrows
    induction rows with
    | nil => rfl
    | cons i rows ih =>
      rw [List.map_cons, List.map_cons, List.zip_cons_cons, List.filter_cons, List.filter_cons]
      split
      · rw [List.map_cons, List.map_cons, ih]
      · exact ih
  rw [hzip]
  split
  · have e4 : ((rows.filter fun i => decide (Measured ls (b i))).map fun i => signs (List.ofFn (o i))).mapM (fun s => (do
        let r ← pick ((nontrivial ls).map Prod.snd) s
        return r.prod : Except PyErr ℤ)) = .ok ((rows.filter fun i => decide (Measured ls (b i))).map fun i => result ls (o i)) := by
      clear hcount hnd hfin e1 e2 e3 hzip
      induction rows.filter fun i => decide (Measured ls (b i)) with
      | nil => rfl
      | cons i rs ih =>
        rw [List.map_cons, List.mapM_cons, sign_product h, ok_bind, ih]
        rfl
    rw [e4, ok_bind, pure_eq_ok, groupMean, ← hfin]
    congr 2
    rw [List.sum_toFinset _ hnd]
    clear hcount hnd hfin e1 e2 e3 hzip e4
    induction rows.filter fun i => decide (Measured ls (b i)) with
    | nil => simp
    | cons i rs ih => simp only [List.map_cons, List.sum_cons, Int.cast_add, ih]
  · next h0 =>
    rw [groupMean, Finset.card_eq_zero.1 (Nat.eq_zero_of_not_pos h0)]
    simp
    rfl

/-- **C60**: for a word whose letters are written in the order of its support, `estimators` returns for every group the mean of
the results of the snapshots in which all letters of the word are measured. -/
theorem C60_estimators {ord : List ℕ → List ℕ} {term : Block Gate} {ls : List (FixedGate × ℕ)} (h : Word n term ls)
    (hord : support Gate.supp ord term = ls.map Prod.snd) {K : ℕ} (hK : 0 < K) (b : Fin N → Fin n → Fin 3) (o : Fin N → St n) :
    estimators ord N K (List.ofFn fun i => List.ofFn (b i)) (List.ofFn fun i => signs (List.ofFn (o i))) term =
      .ok ((List.range K).map fun k => groupMean ls b o (group N (N / K) k)) := by
  rw [estimators, target_word ord h hord, ok_bind]
  simp only
  have hK' : ((K : ℤ) = 0) = False := by simp; omega
  rw [if_neg (by simp; omega), Int.toNat_natCast]
  exact mapM_ok_map fun k _ => groupTrace_eq h.ofParts b o _ k

end Qadence.Shadow
