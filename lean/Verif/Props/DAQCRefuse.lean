import Mathlib.Tactic
import Verif.Props.DAQCMain
import Verif.Props.Padding

/-!
# C45: refusals, the default build Hamiltonian and the two defects
-/

namespace Qadence.DAQC

open Spec Block Finset Matrix

variable {n : ℕ}

/-! ### Refusals -/

/-- Only the step-wise strategy is implemented, four qubits are refused, and so are generators which contain something
else than Pauli operators. -/
theorem C45_refuses (ord : List ℕ → List ℕ) (value : Expr → ℚ) (target : Block Gate) (tf : ℚ)
    (build : Option (Block Gate)) (tol : ℚ) (ig : Bool) :
    transform ord value n target tf build tol false ig = .error .notImplementedError ∧
    transform ord value 4 target tf build tol true ig = .error .notImplementedError ∧
    (n ≠ 4 → ∀ b, build = some b → isQubitHamiltonian target = false ∨ isQubitHamiltonian b = false →
      transform ord value n target tf build tol true ig = .error .valueError) := by
  refine ⟨rfl, rfl, ?_⟩
  rintro h4 b rfl h
  unfold transform
  have : (!isQubitHamiltonian target || !isQubitHamiltonian b) = true := by rcases h with h | h <;> simp [h]
  simp only [Bool.not_true, Bool.false_eq_true, if_false, h4, ok_bind, this, if_true, error_bind]

/-- Target couplings above the tolerance need build couplings above the tolerance. -/
theorem C45_uncovered {ord : List ℕ → List ℕ} (ho : SetOrder ord) {value : Expr → ℚ} {ρ : Env}
    {gT gB : FixedGate} (hT : gT = .Z ∨ gT = .N true) (hB : gB = .Z ∨ gB = .N true) {target build : Block Gate}
    {csT csB : List (ℕ × ℕ × ℚ)} (T : TwoBody n gT value ρ target csT) (B : TwoBody n gB value ρ build csB)
    (aT : Ascending ord csT) (aB : Ascending ord csB) (h4 : n ≠ 4) {tol : ℚ} (htol : 0 ≤ tol) {p : ℕ × ℕ} (hp : p ∈ P n)
    (h1 : tol < |coupling csT p|) (h2 : |coupling csB p| ≤ tol) (tf : ℚ) (ig : Bool) :
    transform ord value n target tf (some build) tol true ig = .error .valueError := by
  have hn : 0 < n := by have := mem_P.1 hp; omega
  obtain ⟨fT, mT, pT, fT', mT', mT0⟩ := parse_twoBody ho hT 0 aT T
  obtain ⟨fB, mB, pB, fB', mB', mB0⟩ := parse_twoBody ho hB tol aB B
  obtain ⟨wT, bT, hpT, -, -⟩ := phase_detuning ho hn ρ mT' mT0
  obtain ⟨wB, bB, hpB, -, -⟩ := phase_detuning ho hn ρ mB' mB0
  have hcomp : compatible n fT fB tol = false := by
    rw [compatible, List.all_eq_false]
    refine ⟨pos n (up p), List.mem_range.2 (pos_lt (up_mem.2 hp)), ?_⟩
    rw [fT' p hp, fB' p hp]
    have e : (if coupling csT p = 0 then (0 : ℚ) else coupling csT p) = coupling csT p := by split <;> simp_all
    rw [e]
    have h3 : |if coupling csB p = 0 then tol else coupling csB p| ≤ tol := by
      split
      · rw [abs_of_nonneg htol]
      · exact h2
    simp [h1, h3]
  have hamT := isQubitHamiltonian_twoBody hT T
  have hamB := isQubitHamiltonian_twoBody hB B
  have hpB' : some <$> phaseAndDetunings ord n mB = .ok (some (wB, bB)) := by rw [hpB]; rfl
  have hpT' : some <$> phaseAndDetunings ord n mT = .ok (some (wT, bT)) := by rw [hpT]; rfl
  unfold transform
  simp only [Bool.not_true, Bool.false_eq_true, if_false, h4, hamT, hamB, Bool.or_false, pT, pB, ok_bind, hcomp,
    Bool.not_false, if_true, hpB', hpT', error_bind]
  rcases hT with rfl | rfl <;> rcases hB with rfl | rfl <;> rfl

/-- A coefficient which is a single parameter is refused. -/
theorem C45_refuses_parameter (ord : List ℕ → List ℕ) (value : Expr → ℚ) (target build : Block Gate) (tf tol : ℚ) (ig : Bool)
    {t : Block Gate × Expr} (ht : t ∈ unroll target) {x : String} (hx : t.2 = .var x) (b : Block Prim) :
    transform ord value n target tf (some build) tol true ig ≠ .ok b := by
  have hp : ∀ r, parse ord value n target 0 ≠ .ok r := by
    intro r hr
    rw [parse] at hr
    obtain ⟨st, hst, -⟩ := bind_ok hr
    have : ∀ (l : List (Block Gate × Expr)) (st st' : Parse), t ∈ l →
        l.foldlM (parseTerm ord value n 0) st ≠ .ok st' := by
      intro l
      induction l with
      | nil => simp
      | cons a l ih =>
        intro st st' hm h
        rw [List.foldlM_cons] at h
        obtain ⟨s1, h1, h2⟩ := bind_ok h
        rcases List.mem_cons.1 hm with rfl | hm
        · rw [parseTerm, hx] at h1
          simp [isParameter] at h1
        · exact ih s1 st' hm h2
    exact this _ _ _ ht hst
  intro h
  by_cases h4 : n = 4
  · subst h4
    rw [(C45_refuses (n := 4) ord value target tf (some build) tol ig).2.1] at h
    cases h
  by_cases hq : isQubitHamiltonian target = false ∨ isQubitHamiltonian build = false
  · rw [(C45_refuses ord value target tf (some build) tol ig).2.2 h4 build rfl hq] at h
    cases h
  · simp only [Bool.not_eq_false, not_or] at hq
    cases hpar : parse ord value n target 0 with
    | ok r => exact hp r hpar
    | error e =>
      unfold transform at h
      simp only [Bool.not_true, Bool.false_eq_true, if_false, h4, ok_bind, hq.1, hq.2, Bool.or_false, hpar, error_bind] at h
      cases h

/-! ### The default build Hamiltonian -/

theorem mem_allToAll {p : ℕ × ℕ} : p ∈ allToAll n ↔ p ∈ P n := by
  rw [mem_P]
  simp only [allToAll, List.mem_flatMap, List.mem_range, List.mem_map, List.mem_range'_1]
  constructor
  · rintro ⟨i, hi, j, hj, rfl⟩
    simp only
    omega
  · intro h
    exact ⟨p.1, by omega, p.2, by omega, rfl⟩

theorem allToAll_nodup : (allToAll n).Nodup := by
  rw [allToAll, List.nodup_flatMap]
  refine ⟨fun i _ => (List.nodup_range' 1).map fun a b h => (Prod.mk.inj h).2, ?_⟩
  refine List.nodup_range.imp ?_
  intro a b hab
  rw [Function.onFun, List.disjoint_left]
  intro p hp hp'
  obtain ⟨j, -, rfl⟩ := List.mem_map.1 hp
  obtain ⟨k, -, h⟩ := List.mem_map.1 hp'
  exact hab (Prod.mk.inj h).1.symm

/-- The default build Hamiltonian. -/
theorem defaultBuild_ok {ord : List ℕ → List ℕ} (ho : SetOrder ord) {value : Expr → ℚ} (hv : value (.num 1 0) = 1)
    (ρ : Env) (hn : 2 ≤ n) : ∃ build cs, TwoBody n (.N true) value ρ build cs ∧ (∀ e ∈ cs, (e.1, e.2.1) ∈ P n) ∧
      (∀ p ∈ P n, coupling cs p = 1) ∧ defaultBuild ord n = .ok build ∧ qubits Gate.supp build = {q | q < n} := by
  have hterms : ∀ l : List (ℕ × ℕ), (∀ p ∈ l, p ∈ P n) →
      interactionTerms ord (some .NN) (List.replicate l.length (.num 1 0)) l = .ok (l.map fun p =>
        .scale (.comp .kron [ofFixed (.N true) p.1, ofFixed (.N true) p.2] none) (.num 1 0) none) := by
    intro l hl
    simp only [interactionTerms]
    induction l with
    | nil => rfl
    | cons p l ih =>
      have hp := mem_P.1 (hl p (by simp))
      rw [List.length_cons, List.replicate_succ, List.zip_cons_cons, List.mapM_cons, ih fun q hq => hl q (by simp [hq])]
      simp only [Interact.block, fixed_matmul_ok ho _ _ hp.1.ne, ok_bind]
      rfl
  have hd := hterms (allToAll n) fun p hp => mem_allToAll.1 hp
  have hunroll : ∀ l : List (ℕ × ℕ), unrollAll (l.map fun p =>
        Block.scale (.comp .kron [ofFixed (.N true) p.1, ofFixed (.N true) p.2] none) (.num 1 0) none) =
        l.map fun p => (.comp .kron [ofFixed (.N true) p.1, ofFixed (.N true) p.2] none, .num 1 0) := by
    intro l
    induction l with
    | nil => rfl
    | cons p l ih => simp [unrollAll, unroll, ih]
  refine ⟨addOf ((allToAll n).map fun p =>
      .scale (.comp .kron [ofFixed (.N true) p.1, ofFixed (.N true) p.2] none) (.num 1 0) none),
    (allToAll n).map fun p => (p.1, p.2, 1), ⟨?_, ?_⟩, ?_, ?_, ?_, ?_⟩
  · have : (0, 1) ∈ allToAll n := mem_allToAll.2 (mem_P.2 ⟨by simp, by simp; omega⟩)
    intro h
    rw [List.map_eq_nil_iff] at h
    rw [h] at this
    simp at this
  · rw [addOf, unroll, hunroll]
    have : ∀ l : List (ℕ × ℕ), (∀ p ∈ l, p ∈ P n) → List.Forall₂ (fun (t : Block Gate × Expr) (e : ℕ × ℕ × ℚ) =>
        (∃ t₁ t₂ t₃, t.1 = .comp .kron [.leaf (.fixed (.N true) e.1) t₁, .leaf (.fixed (.N true) e.2.1) t₂] t₃) ∧
        (∀ x, t.2 ≠ .var x) ∧ value t.2 = e.2.2 ∧ eval ρ t.2 = (e.2.2 : ℂ) ∧ e.1 ≠ e.2.1 ∧ e.1 < n ∧ e.2.1 < n)
        (l.map fun p => (.comp .kron [ofFixed (.N true) p.1, ofFixed (.N true) p.2] none, .num 1 0))
        (l.map fun p => (p.1, p.2, 1)) := by
      intro l hl
      induction l with
      | nil => exact .nil
      | cons p l ih =>
        have hp := mem_P.1 (hl p (by simp))
        refine .cons ⟨⟨none, none, none, rfl⟩, by simp, hv, ?_, hp.1.ne, by simp; omega, hp.2⟩ (ih fun q hq => hl q (by simp [hq]))
        exact eval_num ρ 1
    exact this _ fun p hp => mem_allToAll.1 hp
  · intro e he
    obtain ⟨p, hp, rfl⟩ := List.mem_map.1 he
    exact mem_allToAll.1 hp
  · intro p hp
    rw [coupling, List.map_map]
    have := sum_eq_single (s := (allToAll n).toFinset) (f := fun q : ℕ × ℕ => if q = p then (1 : ℚ) else 0) p
      (by intro b _ hb; simp [hb]) (by intro h; simp [mem_allToAll, hp] at h)
    rw [List.sum_toFinset _ allToAll_nodup, if_pos rfl] at this
    refine Eq.trans ?_ this
    congr 1
    apply List.map_congr_left
    intro q hq
    have hq' := mem_P.1 (mem_allToAll.1 hq)
    simp [min_eq_left hq'.1.le, max_eq_right hq'.1.le]
  · simp only [defaultBuild, hd, ok_bind]
    rfl
  · ext q
    rw [addOf, mem_qubits_comp]
    simp only [List.mem_map, Set.mem_setOf_eq]
    constructor
    · rintro ⟨b, ⟨p, hp, rfl⟩, hq⟩
      have := mem_P.1 (mem_allToAll.1 hp)
      rw [qubits_scale, mem_qubits_comp] at hq
      obtain ⟨c, hc, hq⟩ := hq
      simp only [List.mem_cons, List.not_mem_nil, or_false] at hc
      rcases hc with rfl | rfl <;> simp [ofFixed, qubits_leaf, Gate.supp] at hq <;> omega
    · intro hq
      by_cases h0 : q = 0
      · refine ⟨_, ⟨(0, 1), mem_allToAll.2 (mem_P.2 ⟨by simp, by simp; omega⟩), rfl⟩, ?_⟩
        rw [qubits_scale, mem_qubits_comp]
        exact ⟨ofFixed (.N true) 0, by simp, by simp [ofFixed, qubits_leaf, Gate.supp, h0]⟩
      · refine ⟨_, ⟨(0, q), mem_allToAll.2 (mem_P.2 ⟨by simp; omega, hq⟩), rfl⟩, ?_⟩
        rw [qubits_scale, mem_qubits_comp]
        exact ⟨ofFixed (.N true) q, by simp, by simp [ofFixed, qubits_leaf, Gate.supp]⟩

/-- Without a build Hamiltonian the NN interaction of all pairs with strength 1 is used. -/
theorem C45_default_build {ord : List ℕ → List ℕ} (ho : SetOrder ord) {value : Expr → ℚ} (hv : value (.num 1 0) = 1)
    (ρ : Env) (hn : 2 ≤ n) : ∃ build cs, TwoBody n (.N true) value ρ build cs ∧ (∀ e ∈ cs, (e.1, e.2.1) ∈ P n) ∧
      (∀ p ∈ P n, coupling cs p = 1) ∧ ∀ target tf tol ig, n ≠ 4 →
        transform ord value n target tf none tol true ig = transform ord value n target tf (some build) tol true ig := by
  obtain ⟨build, cs, h1, h2, h3, hd, -⟩ := defaultBuild_ok ho hv ρ hn
  refine ⟨build, cs, h1, h2, h3, ?_⟩
  intro target tf tol ig h4
  unfold transform
  simp only [Bool.not_true, Bool.false_eq_true, if_false, h4, ok_bind, hd]

end Qadence.DAQC
