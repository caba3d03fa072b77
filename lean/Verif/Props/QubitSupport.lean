import Mathlib.Data.Finset.Basic
import Mathlib.Data.Finset.Lattice.Lemmas
import Mathlib.Data.List.Nodup
import Mathlib.Tactic.Tauto
import Verif.Model.QubitSupport

/-!
# Property C19: the algebra of qubit supports
-/

namespace Qadence

namespace Spec

/-- What a Python set guarantees: every inserted element exactly once, in unspecified order. -/
def IsSetOrder (setOrder : List ℕ → List ℕ) : Prop :=
  ∀ l, (setOrder l).Nodup ∧ ∀ q, q ∈ setOrder l ↔ q ∈ l

/-- The qubits which a local support denotes. -/
def Denotes (s : QSupport) (Q : Finset ℕ) : Prop :=
  ∃ l, s = .loc l ∧ ∀ q, q ∈ l ↔ q ∈ Q

end Spec

open Spec QSupport

theorem QSupport.le_tupleMax {l : List ℕ} {q : ℕ} (h : q ∈ l) : q ≤ tupleMax l := by
  unfold tupleMax
  suffices ∀ (l : List ℕ) (a : ℕ), a ≤ l.foldl max a ∧ ∀ q ∈ l, q ≤ l.foldl max a from (this l 0).2 q h
  intro l
  induction l with
  | nil => simp
  | cons b l ih =>
    intro a
    have := ih (max a b)
    simp only [List.foldl_cons, List.mem_cons, forall_eq_or_imp]
    refine ⟨le_trans (le_max_left _ _) this.1, le_trans (le_max_right _ _) this.1, this.2⟩

theorem QSupport.tupleMax_mem {l : List ℕ} (h : l ≠ []) : tupleMax l ∈ l := by
  unfold tupleMax
  suffices ∀ (l : List ℕ) (a : ℕ), l.foldl max a = a ∨ l.foldl max a ∈ l by
    cases l with
    | nil => exact absurd rfl h
    | cons b l =>
      simp only [List.foldl_cons, Nat.zero_max, List.mem_cons]
      exact this l b
  intro l
  induction l with
  | nil => simp
  | cons b l ih =>
    intro a
    simp only [List.foldl_cons, List.mem_cons]
    rcases ih (max a b) with e | e
    · rw [e]
      rcases max_choice a b with e' | e' <;> rw [e'] <;> tauto
    · tauto

/-- C19: the sum of two local supports denotes the union of their qubits. -/
theorem C19_sum_of_local_supports_is_union (ord : List ℕ → List ℕ) (hord : IsSetOrder ord)
    (s t : QSupport) (S T : Finset ℕ) (hs : Denotes s S) (ht : Denotes t T) :
    Denotes (add ord s t) (S ∪ T) := by
  obtain ⟨ls, rfl, hls⟩ := hs
  obtain ⟨lt, rfl, hlt⟩ := ht
  unfold add
  by_cases h : QSupport.loc ls = QSupport.loc lt
  · rw [if_pos h]
    refine ⟨ls, rfl, fun q => ?_⟩
    have h : ls = lt := by simpa using h
    have h1 := hls q; have h2 := hlt q
    rw [← h] at h2
    rw [Finset.mem_union]
    tauto
  · rw [if_neg h]
    refine ⟨_, rfl, fun q => ?_⟩
    rw [(hord _).2, List.mem_append, Finset.mem_union, hls, hlt]

/-- C19: the sum has no duplicates as soon as the first summand has none. -/
theorem C19_sum_nodup (ord : List ℕ → List ℕ) (hord : IsSetOrder ord) (ls lt l : List ℕ)
    (hs : ls.Nodup) (h : add ord (.loc ls) (.loc lt) = .loc l) : l.Nodup := by
  unfold add at h
  split at h
  · simp at h; rw [← h]; exact hs
  · simp at h; rw [← h]; exact (hord _).1

/-- C19: commutative and associative on local supports, as sets of qubits. -/
theorem C19_local_comm_assoc (ord : List ℕ → List ℕ) (hord : IsSetOrder ord)
    (s t u : QSupport) (S T U : Finset ℕ) (hs : Denotes s S) (ht : Denotes t T) (hu : Denotes u U) :
    (Denotes (add ord s t) (S ∪ T) ∧ Denotes (add ord t s) (S ∪ T)) ∧
    (Denotes (add ord (add ord s t) u) (S ∪ T ∪ U) ∧
      Denotes (add ord s (add ord t u)) (S ∪ T ∪ U)) := by
  have hst := C19_sum_of_local_supports_is_union ord hord s t S T hs ht
  have htu := C19_sum_of_local_supports_is_union ord hord t u T U ht hu
  refine ⟨⟨hst, ?_⟩, ?_, ?_⟩
  · rw [Finset.union_comm]; exact C19_sum_of_local_supports_is_union ord hord t s T S ht hs
  · exact C19_sum_of_local_supports_is_union ord hord _ u _ U hst hu
  · rw [Finset.union_assoc]
    exact C19_sum_of_local_supports_is_union ord hord s _ S _ hs htu

/-- C19: adding a support to itself changes nothing. -/
theorem C19_idempotent (ord : List ℕ → List ℕ) (s : QSupport) : add ord s s = s := by
  simp [add]

/-- C19: "global" plus a non-empty local support is the full range up to the highest qubit, on either
side. -/
theorem C19_global_sum (ord : List ℕ → List ℕ) (l : List ℕ) (hl : l ≠ []) :
    ∃ m ∈ l, (∀ q ∈ l, q ≤ m) ∧ add ord .global (.loc l) = .loc (List.range (m + 1)) ∧
      add ord (.loc l) .global = .loc (List.range (m + 1)) := by
  refine ⟨tupleMax l, tupleMax_mem hl, fun q hq => le_tupleMax hq, ?_, ?_⟩ <;>
  · unfold add fill
    cases l with
    | nil => exact absurd rfl hl
    | cons a l => simp

/-- C19: `is_disjoint` of local supports is emptiness of the intersection. -/
theorem C19_is_disjoint (s t : QSupport) (S T : Finset ℕ) (hs : Denotes s S) (ht : Denotes t T) :
    isDisjoint s t = true ↔ S ∩ T = ∅ := by
  obtain ⟨ls, rfl, hls⟩ := hs
  obtain ⟨lt, rfl, hlt⟩ := ht
  simp only [isDisjoint, List.all_eq_true, Bool.not_eq_true', List.contains_eq_mem,
    decide_eq_false_iff_not, Finset.eq_empty_iff_forall_notMem, Finset.mem_inter, not_and]
  constructor
  · intro h q hq hq'
    exact h q ((hls q).2 hq) ((hlt q).2 hq')
  · intro h q hq hq'
    exact h q ((hls q).1 hq) ((hlt q).1 hq')

/-- C19: nothing is disjoint from "global". -/
theorem C19_global_never_disjoint (s : QSupport) :
    isDisjoint .global s = false ∧ isDisjoint s .global = false := by
  cases s <;> simp [isDisjoint]

/-- C19: the constructor accepts exactly the tuples of non-negative integers (or "global"). -/
theorem C19_constructor (l : List Int) :
    ((∀ q ∈ l, 0 ≤ q) → QSupport.new (l.map SupArg.int) = .ok (.loc (l.map Int.toNat))) ∧
    ((∃ q ∈ l, q < 0) → QSupport.new (l.map SupArg.int) = .error .valueError) := by
  have hc : ∀ l : List Int,
      ((∀ q ∈ l, 0 ≤ q) → checkAll (l.map SupArg.int) = .ok (some (l.map Int.toNat))) ∧
      ((∃ q ∈ l, q < 0) → checkAll (l.map SupArg.int) = .ok none) := by
    intro l
    induction l with
    | nil => simp [checkAll]
    | cons a l ih =>
      constructor
      · intro h
        simp only [List.mem_cons, forall_eq_or_imp] at h
        simp [checkAll, h.1, ih.1 h.2]
      · intro h
        by_cases ha : 0 ≤ a
        · have : ∃ q ∈ l, q < 0 := by
            obtain ⟨q, hq, hlt⟩ := h
            rcases List.mem_cons.1 hq with e | hq
            · omega
            · exact ⟨q, hq, hlt⟩
          simp [checkAll, ha, ih.2 this]
        · simp [checkAll, ha]
  unfold QSupport.new
  generalize depths (l.map SupArg.int) = n
  match l with
  | [] => cases n <;> simp [newAux, checkAll]
  | [a] =>
    constructor
    · intro h
      have : 0 ≤ a := h a (by simp)
      cases n <;> simp [newAux, this]
    · rintro ⟨q, hq, hlt⟩
      have : ¬ 0 ≤ a := by
        have : q = a := by simpa using hq
        omega
      cases n <;> simp [newAux, this]
  | a :: b :: l =>
    have h1 : newAux n ((a :: b :: l).map SupArg.int) =
        match checkAll ((a :: b :: l).map SupArg.int) with
        | .error e => .error e
        | .ok none => .error .valueError
        | .ok (some l) => .ok (.loc l) := by
      cases n <;> rfl
    rw [h1]
    constructor
    · intro h; rw [(hc _).1 h]
    · intro h; rw [(hc _).2 h]

/-- C19 fails for "global": the sum is not associative when a global support is involved. -/
theorem C19_counterexample_global_not_associative (ord : List ℕ → List ℕ) (hord : IsSetOrder ord) :
    ∃ s t : QSupport, ∃ l m : List ℕ,
      add ord (add ord .global s) t = .loc l ∧ add ord .global (add ord s t) = .loc m ∧
      3 ∈ m ∧ 3 ∉ l := by
  refine ⟨.loc [0], .loc [5], ord ([0] ++ [5]), List.range 6, ?_, ?_, by decide, ?_⟩
  · simp [add, fill, tupleMax]
  · have h2 : add ord (.loc [0]) (.loc [5]) = .loc (ord ([0] ++ [5])) := by simp [add]
    rw [h2]
    have hne : ord ([0] ++ [5]) ≠ [] := by
      intro e
      have := ((hord ([0] ++ [5])).2 0).2 (by simp)
      rw [e] at this; simp at this
    obtain ⟨m, hm, hmax, h3, -⟩ := C19_global_sum ord (ord ([0] ++ [5])) hne
    rw [h3]
    have h5 := hmax 5 (((hord _).2 5).2 (by simp))
    have h6 := ((hord _).2 m).1 hm
    have : m = 5 := by
      simp at h6
      omega
    rw [this]
  · intro h
    have := ((hord _).2 3).1 h
    simp at this

/-- The set-order hypothesis is satisfiable, and the sum of overlapping supports is as expected. -/
example : IsSetOrder List.dedup ∧
    add List.dedup (.loc [3, 1]) (.loc [1, 0]) = .loc [3, 1, 0] := by
  refine ⟨fun l => ⟨List.nodup_dedup l, fun q => List.mem_dedup⟩, by decide⟩

example : QSupport.new [.tuple [.int 2, .int 0]] = .ok (.loc [2, 0]) := by decide

end Qadence
