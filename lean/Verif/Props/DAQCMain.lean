import Mathlib.Tactic
import Mathlib.Analysis.SpecialFunctions.Trigonometric.Bounds
import Verif.Props.DAQCTransform

/-!
# C45: the digital-analog transform reproduces the target evolution
-/

namespace Qadence.DAQC

open Spec Block Finset Matrix

variable {n : ℕ}

/-! ### Every primitive occurs in a term -/

theorem primitive_unroll (b : Block Gate) : ∀ g ∈ primitiveBlocks b, ∃ t ∈ unroll b, g ∈ primitiveBlocks t.1 := by
  have hlist : ∀ bs : List (Block Gate), (∀ b ∈ bs, ∀ g ∈ primitiveBlocks b, ∃ t ∈ unroll b, g ∈ primitiveBlocks t.1) →
      ∀ g ∈ primitiveBlocksList bs, ∃ t ∈ unrollAll bs, g ∈ primitiveBlocks t.1 := by
    intro bs hbs g hg
    induction bs with
    | nil => simp [primitiveBlocksList] at hg
    | cons b bs ih =>
      rw [primitiveBlocksList, List.mem_append] at hg
      rw [unrollAll]
      rcases hg with hg | hg
      · obtain ⟨t, h1, h2⟩ := hbs b (by simp) g hg
        exact ⟨t, by simp [h1], h2⟩
      · obtain ⟨t, h1, h2⟩ := ih (fun b hb => hbs b (by simp [hb])) hg
        exact ⟨t, by simp [h1], h2⟩
  induction b using Block.induction with
  | leaf l t => intro g hg; exact ⟨(.leaf l t, .num 1 0), by simp [unroll], hg⟩
  | scale b s t ih =>
    intro g hg
    rw [unroll_scale]
    rw [primitiveBlocks] at hg
    split
    · obtain ⟨t, h1, h2⟩ := ih g hg
      rw [unroll, unrollAll_eq] at h1
      exact ⟨_, List.mem_map.2 ⟨t, h1, rfl⟩, h2⟩
    · exact ⟨_, List.mem_singleton.2 rfl, hg⟩
  | comp k bs t ih =>
    intro g hg
    cases k with
    | add =>
      rw [unroll]
      exact hlist bs ih g hg
    | chain => exact ⟨(.comp .chain bs t, .num 1 0), by simp [unroll], hg⟩
    | kron => exact ⟨(.comp .kron bs t, .num 1 0), by simp [unroll], hg⟩

theorem forall₂_mem_left {α β : Type*} {R : α → β → Prop} {l : List α} {m : List β} (h : List.Forall₂ R l m) {a : α}
    (ha : a ∈ l) : ∃ b ∈ m, R a b := by
  induction h with
  | nil => simp at ha
  | cons h _ ih =>
    rcases List.mem_cons.1 ha with rfl | ha
    · exact ⟨_, by simp, h⟩
    · obtain ⟨b, h1, h2⟩ := ih ha
      exact ⟨b, by simp [h1], h2⟩

theorem isQubitHamiltonian_twoBody {g : FixedGate} (hg : g = .Z ∨ g = .N true) {value : Expr → ℚ} {ρ : Env}
    {gen : Block Gate} {cs : List (ℕ × ℕ × ℚ)} (h : TwoBody n g value ρ gen cs) : isQubitHamiltonian gen = true := by
  rw [isQubitHamiltonian, List.all_eq_true]
  intro l hl
  obtain ⟨t, ht, hlt⟩ := primitive_unroll gen l hl
  obtain ⟨e, -, ⟨t1, t2, t3, he⟩, -⟩ := forall₂_mem_left h.terms ht
  rw [he] at hlt
  simp only [primitiveBlocks, primitiveBlocksList, List.append_nil, List.mem_append, List.mem_singleton,
    List.cons_append, List.nil_append, List.mem_cons, List.not_mem_nil, or_false] at hlt
  rcases hlt with rfl | rfl <;> rcases hg with rfl | rfl <;> rfl

/-! ### The operator of the transformed circuit -/

/-- `t_star`. -/
def tStar (gT gB : FixedGate) (tf : ℚ) : ℚ :=
  if gB = .Z ∧ gT ≠ .Z then tf / 4 else if gB ≠ .Z ∧ gT = .Z then 4 * tf else tf

/-- Energies of the build Hamiltonian with its detunings. -/
def slice (n : ℕ) (g : FixedGate) (J : ℕ × ℕ → ℚ) (x : St n) : ℚ := if g = .Z then zz n J x else nn n J x + dq n J x

/-- The time of a slice in the circuit. -/
def kept (tol t : ℚ) : ℚ := if |t| > tol then t else 0

theorem transform_ok {ord : List ℕ → List ℕ} (ho : SetOrder ord) {value : Expr → ℚ} (ρ : Env)
    {gT gB : FixedGate} (hT : gT = .Z ∨ gT = .N true) (hB : gB = .Z ∨ gB = .N true) {target build : Block Gate}
    {csT csB : List (ℕ × ℕ × ℚ)} (T : TwoBody n gT value ρ target csT) (B : TwoBody n gB value ρ build csB)
    (aT : Ascending ord csT) (aB : Ascending ord csB) (h4 : n ≠ 4) {tol : ℚ} (htol : 0 < tol)
    (hc : ∀ p ∈ P n, tol < |coupling csT p| → tol < |coupling csB p|) (tf : ℚ) :
    ∃ t : ℕ × ℕ → ℚ,
      (∀ q ∈ P n, (if coupling csB q = 0 then tol else coupling csB q) * ∑ p ∈ P n, sign p.1 p.2 q.1 q.2 * t p =
        tStar gT gB tf * coupling csT q) ∧
      ∀ ig : Bool, ∃ b : Block Prim, transform ord value n target tf (some build) tol true ig = .ok b ∧ sem (primSem n ρ ord ho) ρ b = ph fun x =>
        ∑ p ∈ P n, kept tol (t p) * slice n gB (coupling csB) (flip2 p x) +
        (if gT = .Z then 0 else -tf * dq n (coupling csT) x) +
        (if ig ∨ gB = .Z then 0 else (∑ p ∈ P n, t p) * shift n (coupling csB)) +
        (if ig ∨ gT = .Z then 0 else -tf * shift n (coupling csT)) := by
  have hn : 0 < n := by
    by_contra h0
    have := T.terms
    have hne := T.nonempty
    generalize unroll target = l at this
    cases this with
    | nil => exact hne rfl
    | cons h _ => obtain ⟨-, -, -, -, -, h, -⟩ := h; omega
  obtain ⟨fT, mT, pT, fT', mT', mT0⟩ := parse_twoBody ho hT 0 aT T
  obtain ⟨fB, mB, pB, fB', mB', mB0⟩ := parse_twoBody ho hB tol aB B
  obtain ⟨wT, bT, hpT, haT, hbT⟩ := phase_detuning ho hn ρ mT' mT0
  obtain ⟨wB, bB, hpB, haB, hbB⟩ := phase_detuning ho hn ρ mB' mB0
  have hB0 : ∀ p ∈ P n, fB (pos n (up p)) ≠ 0 := by
    intro p hp
    rw [fB' p hp]
    split
    · exact htol.ne'
    · assumption
  have hcomp : compatible n fT fB tol = true := by
    rw [compatible, List.all_eq_true]
    intro i hi
    obtain ⟨q, hq, rfl⟩ := pos_surj (List.mem_range.1 hi)
    obtain ⟨p, hp, rfl⟩ := exists_up hq
    rw [fT' p hp, fB' p hp]
    have e : (if coupling csT p = 0 then (0 : ℚ) else coupling csT p) = coupling csT p := by split <;> simp_all
    rw [e]
    have := hc p hp
    by_cases h1 : tol < |coupling csT p|
    · have h2 := this h1
      have h3 : coupling csB p ≠ 0 := by
        intro h3
        rw [h3, abs_zero] at h2
        linarith
      simp [h1, h3, h2]
    · simp [h1]
  have hany : (List.range (flatSize n)).any (fun i => decide (fB i = 0)) = false := by
    rw [List.any_eq_false]
    intro i hi
    obtain ⟨q, hq, rfl⟩ := pos_surj (List.mem_range.1 hi)
    obtain ⟨p, hp, rfl⟩ := exists_up hq
    simpa using hB0 p hp
  obtain ⟨s, hs, hs'⟩ : ∃ s, solve (flatSize n) (signMatrix n) (fun i => fT i / fB i) = .ok s ∧
      ∀ q ∈ P n, ∑ p ∈ P n, sign p.1 p.2 q.1 q.2 * s (pos n (up p)) = fT (pos n (up q)) / fB (pos n (up q)) := by
    refine ⟨_, if_neg (C45_invertible h4), ?_⟩
    intro q hq
    have h1 := matM_mulVec n ((matM n)⁻¹.mulVec fun j => fT j / fB j) hq
    rw [mulVec_mulVec, mul_nonsing_inv _ (isUnit_iff_ne_zero.2 (C45_invertible h4)), one_mulVec] at h1
    exact h1.symm
  have hsum : ∀ c : ℚ, ((List.range (flatSize n)).map fun i => s i * c).sum = ∑ p ∈ P n, s (pos n (up p)) * c := by
    intro c
    rw [← sum_fin n (fun i => s i * c), ← sum_range (fun i => s i * c), ← List.sum_toFinset _ List.nodup_range,
      List.toFinset_range]
  have heq : ∀ c : ℚ, ∀ q ∈ P n, (if coupling csB q = 0 then tol else coupling csB q) *
      ∑ p ∈ P n, sign p.1 p.2 q.1 q.2 * (s (pos n (up p)) * c) = c * coupling csT q := by
    intro c q hq
    have h1 := hs' q hq
    have h0 := hB0 q hq
    have e : (if coupling csT q = 0 then (0 : ℚ) else coupling csT q) = coupling csT q := by split <;> simp_all
    rw [fT' q hq, fB' q hq, e] at h1
    rw [fB' q hq] at h0
    simp only [← mul_assoc]
    rw [← sum_mul, h1, ← mul_assoc, mul_div_cancel₀ _ h0]
    ring
  have hamT := isQubitHamiltonian_twoBody hT T
  have hamB := isQubitHamiltonian_twoBody hB B
  have sB := sem_ham hB B
  have hBo : (if typeOf gB = .NN then some <$> phaseAndDetunings ord n mB else .ok none : Except PyErr (Option _)) =
      .ok (if gB = .Z then none else some (wB, bB)) := by
    rcases hB with rfl | rfl
    · rfl
    · rw [hpB]; rfl
  have hTo : (if typeOf gT = .NN then some <$> phaseAndDetunings ord n mT else .ok none : Except PyErr (Option _)) =
      .ok (if gT = .Z then none else some (wT, bT)) := by
    rcases hT with rfl | rfl
    · rfl
    · rw [hpT]; rfl
  have hst : (if typeOf gB = .ZZ ∧ typeOf gT = .NN then tf / 4 else if typeOf gB = .NN ∧ typeOf gT = .ZZ then 4 * tf
      else tf) = tStar gT gB tf := by
    rcases hT with rfl | rfl <;> rcases hB with rfl | rfl <;> rfl
  obtain ⟨l, hl, hl'⟩ := slices_ok ho ρ (fun i => s i * tStar gT gB tf) tol sB
    (det := (if gB = .Z then none else some (wB, bB)).map Prod.snd)
    (e := if gB = .Z then (fun _ => 0) else dq n (coupling csB)) (by
      rcases hB with rfl | rfl
      · rfl
      · exact hbB)
  refine ⟨fun p => s (pos n (up p)) * tStar gT gB tf, heq _, fun ig => ?_⟩
  have htr : transform ord value n target tf (some build) tol true ig = .ok
      (let circuit := chainOf l
       let circuit := match (if gT = .Z then none else some (wT, bT)) with
        | some h => chainOf [evoDagger h.2 tf, circuit]
        | none => circuit
       if ig then circuit else
       let circuit := match (if gB = .Z then none else some (wB, bB)) with
        | some h => chainOf [evo h.1 (∑ p ∈ P n, s (pos n (up p)) * tStar gT gB tf), circuit]
        | none => circuit
       match (if gT = .Z then none else some (wT, bT)) with
        | some h => chainOf [evoDagger h.1 tf, circuit]
        | none => circuit) := by
    unfold transform
    simp only [Bool.not_true, Bool.false_eq_true, if_false, h4, hamT, hamB, Bool.or_false, pT, pB, ok_bind, hBo, hTo, hst,
      hcomp, hany, hs, hl, pure_eq_ok, hsum, ← sum_mul]
    have hpB' : some <$> phaseAndDetunings ord n mB = .ok (some (wB, bB)) := by rw [hpB]; rfl
    have hpT' : some <$> phaseAndDetunings ord n mT = .ok (some (wT, bT)) := by rw [hpT]; rfl
    rcases hT with rfl | rfl <;> rcases hB with rfl | rfl <;> cases ig <;>
      simp only [typeOf, if_true, reduceCtorEq, if_false, hpB', hpT', ok_bind, Bool.false_eq_true, Option.map_none,
        Option.map_some] at hl ⊢ <;> rw [hl] <;> rfl
  refine ⟨_, htr, ?_⟩
  have hslice : ∀ x : St n, ham n gB (coupling csB) x + (if gB = .Z then (fun _ => 0) else dq n (coupling csB)) x =
      slice n gB (coupling csB) x := by
    intro x
    rcases hB with rfl | rfl
    · simp [ham, slice]
    · simp [ham, slice]
  simp only [hslice] at hl'
  rcases hT with rfl | rfl <;> rcases hB with rfl | rfl <;> cases ig <;>
    simp only [if_true, if_false, Bool.false_eq_true, reduceCtorEq, or_true, true_or, or_self, false_or] <;>
    simp only [chainOf, sem_chain, List.map_cons, List.map_nil, opProd, one_mul] <;>
    simp only [chainOf, sem_chain] at hl' <;>
    simp only [hl', sem_evo ho ρ haB, sem_evoDagger ho ρ haT, sem_evoDagger ho ρ hbT, ph_mul] <;>
    first | rfl | (congr 1; funext x; simp only [kept]; ring)

/-! ### The slice times -/

theorem sign_pairSign {p q : ℕ × ℕ} (hp : p.1 < p.2) (hq : q.1 < q.2) : sign p.1 p.2 q.1 q.2 = pairSign p q := by
  rw [sign, pairSign]
  congr 1
  rw [inter_comm, ← filter_mem_eq_inter, card_filter, sum_pair hq.ne]
  simp only [mem_insert, mem_singleton, kd]
  split <;> split <;> split <;> split <;> simp_all <;> omega

/-- The linear system has one solution. -/
theorem times_unique (h4 : n ≠ 4) {t t' : ℕ × ℕ → ℚ}
    (h : ∀ q ∈ P n, ∑ p ∈ P n, sign p.1 p.2 q.1 q.2 * t p = ∑ p ∈ P n, sign p.1 p.2 q.1 q.2 * t' p) :
    ∀ p ∈ P n, t p = t' p := by
  classical
  have hch : ∀ i : Fin (flatSize n), ∃ p ∈ P n, pos n (up p) = i := by
    intro i
    obtain ⟨q, hq, h⟩ := pos_surj i.2
    obtain ⟨p, hp, rfl⟩ := exists_up hq
    exact ⟨p, hp, h⟩
  choose c hc hc' using hch
  have hcp : ∀ p (hp : p ∈ P n), c ⟨pos n (up p), pos_lt (up_mem.2 hp)⟩ = p := fun p hp =>
    up_inj (pos_inj (up_mem.2 (hc _)) (up_mem.2 hp) (hc' _))
  have h0 : (matM n).mulVec (fun i => t (c i) - t' (c i)) = 0 := by
    funext i
    have := matM_mulVec n (fun i => t (c i) - t' (c i)) (hc i)
    have hi : (⟨pos n (up (c i)), pos_lt (up_mem.2 (hc i))⟩ : Fin (flatSize n)) = i := Fin.ext (hc' i)
    rw [hi] at this
    rw [this, Pi.zero_apply, ← sub_eq_zero.2 (h _ (hc i)), ← sum_sub_distrib]
    apply sum_congr rfl
    intro p hp
    rw [dif_pos (pos_lt (up_mem.2 hp)), hcp p hp]
    ring
  have h1 := eq_zero_of_mulVec_eq_zero (C45_invertible h4) h0
  intro p hp
  have := congrFun h1 ⟨pos n (up p), pos_lt (up_mem.2 hp)⟩
  simp only [hcp p hp, Pi.zero_apply] at this
  linarith

/-- The slices together. -/
theorem sum_slices {gB : FixedGate} {J K : ℕ × ℕ → ℚ} {t : ℕ × ℕ → ℚ} {c : ℚ}
    (h : ∀ q ∈ P n, J q * ∑ p ∈ P n, sign p.1 p.2 q.1 q.2 * t p = c * K q) (x : St n) :
    ∑ p ∈ P n, t p * slice n gB J (flip2 p x) + (if gB = .Z then 0 else (∑ p ∈ P n, t p) * shift n J) =
      (if gB = .Z then 1 else 1 / 4) * c * zz n K x := by
  have hzz : ∑ p ∈ P n, t p * zz n J (flip2 p x) = c * zz n K x := by
    simp only [zz_flip2, mul_sum]
    rw [sum_comm, zz, mul_sum]
    apply sum_congr rfl
    intro q hq
    have := h q hq
    calc _ = (J q * ∑ p ∈ P n, sign p.1 p.2 q.1 q.2 * t p) * (zq x q.1 * zq x q.2) := by
          rw [mul_sum, sum_mul]
          apply sum_congr rfl
          intro p _
          ring
      _ = _ := by rw [this]; ring
  by_cases hg : gB = .Z
  · simp only [slice, if_pos hg, hzz]
    ring
  · simp only [slice, if_neg hg]
    have : ∀ p ∈ P n, t p * (nn n J (flip2 p x) + dq n J (flip2 p x)) = (t p * zz n J (flip2 p x)) / 4 - t p * shift n J := by
      intro p _
      have := nn_add_dq J (flip2 p x)
      have e : nn n J (flip2 p x) + dq n J (flip2 p x) = zz n J (flip2 p x) / 4 - shift n J := by linarith
      rw [e]
      ring
    rw [sum_congr rfl this, sum_sub_distrib, ← sum_div, hzz, ← sum_mul]
    ring

/-- The interaction a Hamiltonian stands for: `N N = (1 - Z - Z' + Z Z') / 4`. -/
def weight (g : FixedGate) : ℚ := if g = .Z then 1 else 1 / 4

theorem tStar_weight {gT gB : FixedGate} (tf : ℚ) : (if gB = .Z then 1 else 1 / 4) * tStar gT gB tf = weight gT * tf := by
  unfold tStar weight
  by_cases h1 : gB = .Z <;> by_cases h2 : gT = .Z <;> simp [h1, h2] <;> ring

/-- The times of the slices: the solution of the linear system of section III A of arXiv:1812.03637. Quotients by 0 are 0
(they occur for pairs without target and build coupling only). -/
def SliceTimes (n : ℕ) (gT gB : FixedGate) (J K : ℕ × ℕ → ℚ) (tf : ℚ) (t : ℕ × ℕ → ℚ) : Prop :=
  ∀ q ∈ P n, ∑ p ∈ P n, pairSign p q * t p = weight gT * J q * tf / (weight gB * K q)

theorem tStar_div {gT gB : FixedGate} (tf a b : ℚ) :
    weight gT * a * tf / (weight gB * b) = tStar gT gB tf * a / b := by
  unfold tStar weight
  by_cases h1 : gB = .Z <;> by_cases h2 : gT = .Z <;> simp [h1, h2] <;> ring

/-- The angles of the transformed circuit: the target evolution plus the dropped slices. -/
theorem transform_times {ord : List ℕ → List ℕ} (ho : SetOrder ord) {value : Expr → ℚ} (ρ : Env)
    {gT gB : FixedGate} (hT : gT = .Z ∨ gT = .N true) (hB : gB = .Z ∨ gB = .N true) {target build : Block Gate}
    {csT csB : List (ℕ × ℕ × ℚ)} (T : TwoBody n gT value ρ target csT) (B : TwoBody n gB value ρ build csB)
    (aT : Ascending ord csT) (aB : Ascending ord csB) (h4 : n ≠ 4) {tol : ℚ} (htol : 0 < tol)
    (hc : ∀ p ∈ P n, tol < |coupling csT p| → tol < |coupling csB p|)
    (h0 : ∀ p ∈ P n, coupling csB p = 0 → coupling csT p = 0) (tf : ℚ) {t : ℕ × ℕ → ℚ}
    (ht : SliceTimes n gT gB (coupling csT) (coupling csB) tf t) (ig : Bool) :
    ∃ b, transform ord value n target tf (some build) tol true ig = .ok b ∧ sem (primSem n ρ ord ho) ρ b = ph fun x =>
      tf * ham n gT (coupling csT) x + ∑ p ∈ P n, (kept tol (t p) - t p) * slice n gB (coupling csB) (flip2 p x) +
      (if ig then (if gT = .Z then 0 else tf * shift n (coupling csT)) -
        (if gB = .Z then 0 else (∑ p ∈ P n, t p) * shift n (coupling csB)) else 0) := by
  obtain ⟨t', h1, h2⟩ := transform_ok ho ρ hT hB T B aT aB h4 htol hc tf
  have hsum : ∀ q ∈ P n, ∑ p ∈ P n, sign p.1 p.2 q.1 q.2 * t p = tStar gT gB tf * coupling csT q / coupling csB q := by
    intro q hq
    rw [← tStar_div, ← ht q hq]
    apply sum_congr rfl
    intro p hp
    rw [sign_pairSign (mem_P.1 hp).1 (mem_P.1 hq).1]
  have hu : ∀ p ∈ P n, t' p = t p := by
    apply times_unique h4
    intro q hq
    rw [hsum q hq]
    have := h1 q hq
    by_cases hz : coupling csB q = 0
    · rw [if_pos hz, h0 q hq hz, mul_zero] at this
      rw [h0 q hq hz, mul_zero, zero_div]
      exact (mul_eq_zero.1 this).resolve_left htol.ne'
    · rw [if_neg hz] at this
      rw [← this, mul_div_cancel_left₀ _ hz]
  obtain ⟨b, hb, hs⟩ := h2 ig
  refine ⟨b, hb, ?_⟩
  rw [hs]
  congr 1
  funext x
  have e1 : ∑ p ∈ P n, kept tol (t' p) * slice n gB (coupling csB) (flip2 p x) =
      ∑ p ∈ P n, kept tol (t p) * slice n gB (coupling csB) (flip2 p x) :=
    sum_congr rfl fun p hp => by rw [hu p hp]
  have e2 : ∑ p ∈ P n, t' p = ∑ p ∈ P n, t p := sum_congr rfl hu
  have e3 := sum_slices (gB := gB) (J := coupling csB) (K := coupling csT) (t := t) (c := tStar gT gB tf) (by
    intro q hq
    rw [hsum q hq]
    by_cases hz : coupling csB q = 0
    · rw [h0 q hq hz, hz]; simp
    · rw [mul_div_cancel₀ _ hz]) x
  rw [tStar_weight] at e3
  have e4 := nn_add_dq (coupling csT) x
  rw [e1, e2]
  simp only [sub_mul, sum_sub_distrib]
  rcases hT with rfl | rfl <;> rcases hB with rfl | rfl <;> cases ig <;>
    simp only [if_true, if_false, reduceCtorEq, Bool.false_eq_true, weight, ham, or_true, or_false, true_or, false_or] at e3 ⊢ <;>
    first | linarith | nlinarith [e3, e4, congrArg (tf * ·) e4]

theorem ph_smul (a : St n → ℚ) (c : ℚ) : ph (fun x => a x + c) = Complex.exp (-(Complex.I * (c : ℂ))) • ph a := by
  rw [ph, ph, ← diagonal_smul]
  congr 1
  funext x
  rw [Pi.smul_apply, smul_eq_mul, ← Complex.exp_add]
  congr 1
  push_cast
  ring

theorem abs_zq (x : St n) (q : ℕ) : |zq x q| = 1 := by unfold zq; split <;> simp

theorem abs_slice {g : FixedGate} (J : ℕ × ℕ → ℚ) (x : St n) : |slice n g J x| ≤ ∑ q ∈ P n, |J q| := by
  by_cases hg : g = .Z
  · rw [slice, if_pos hg, zz]
    refine (abs_sum_le_sum_abs _ _).trans (sum_le_sum fun q _ => ?_)
    rw [abs_mul, abs_mul, abs_zq, abs_zq]
    simp
  · rw [slice, if_neg hg, nn, dq, ← sum_add_distrib]
    refine (abs_sum_le_sum_abs _ _).trans (sum_le_sum fun q _ => ?_)
    rw [← mul_add, abs_mul]
    have : |(1 - zq x q.1) / 2 * ((1 - zq x q.2) / 2) + -(2 - zq x q.1 - zq x q.2) / 4| ≤ 1 := by
      unfold zq
      split <;> split <;> norm_num
    nlinarith [abs_nonneg (J q)]

/-- **C45**: the transformed circuit of a two-body ZZ or NN target is exactly the evolution under the target for the time
`tf`, for every number of qubits except 4, every ZZ or NN build Hamiltonian covering the target, as long as no slice
time is in the dropped range `0 < |t| ≤ zero_tol`. -/
theorem C45_exact {ord : List ℕ → List ℕ} (ho : SetOrder ord) {value : Expr → ℚ} (ρ : Env)
    {gT gB : FixedGate} (hT : gT = .Z ∨ gT = .N true) (hB : gB = .Z ∨ gB = .N true) {target build : Block Gate}
    {csT csB : List (ℕ × ℕ × ℚ)} (T : TwoBody n gT value ρ target csT) (B : TwoBody n gB value ρ build csB)
    (aT : Ascending ord csT) (aB : Ascending ord csB) (h4 : n ≠ 4) {tol : ℚ} (htol : 0 < tol)
    (hc : ∀ p ∈ P n, tol < |coupling csT p| → tol < |coupling csB p|)
    (h0 : ∀ p ∈ P n, coupling csB p = 0 → coupling csT p = 0) (tf : ℚ) {t : ℕ × ℕ → ℚ}
    (ht : SliceTimes n gT gB (coupling csT) (coupling csB) tf t) (hk : ∀ p ∈ P n, t p = 0 ∨ tol < |t p|) :
    ∃ b, transform ord value n target tf (some build) tol true false = .ok b ∧
      sem (primSem n ρ ord ho) ρ b = evolution (tf : ℂ) (sem (gateSem n ρ) ρ target) := by
  obtain ⟨b, hb, hs⟩ := transform_times ho ρ hT hB T B aT aB h4 htol hc h0 tf ht false
  refine ⟨b, hb, ?_⟩
  rw [hs, sem_ham hT T, evolution_dg]
  congr 1
  funext x
  rw [sum_eq_zero, if_neg (by simp)]
  · ring
  · intro p hp
    rcases hk p hp with h | h
    · simp [h, kept]
    · simp [kept, h]

/-- With `ignore_global_phases` the operator is the same up to a number of modulus one. -/
theorem C45_ignore_phases {ord : List ℕ → List ℕ} (ho : SetOrder ord) {value : Expr → ℚ} (ρ : Env)
    {gT gB : FixedGate} (hT : gT = .Z ∨ gT = .N true) (hB : gB = .Z ∨ gB = .N true) {target build : Block Gate}
    {csT csB : List (ℕ × ℕ × ℚ)} (T : TwoBody n gT value ρ target csT) (B : TwoBody n gB value ρ build csB)
    (aT : Ascending ord csT) (aB : Ascending ord csB) (h4 : n ≠ 4) {tol : ℚ} (htol : 0 < tol)
    (hc : ∀ p ∈ P n, tol < |coupling csT p| → tol < |coupling csB p|)
    (h0 : ∀ p ∈ P n, coupling csB p = 0 → coupling csT p = 0) (tf : ℚ) {t : ℕ × ℕ → ℚ}
    (ht : SliceTimes n gT gB (coupling csT) (coupling csB) tf t) (hk : ∀ p ∈ P n, t p = 0 ∨ tol < |t p|) :
    ∃ b, ∃ c : ℂ, transform ord value n target tf (some build) tol true true = .ok b ∧ ‖c‖ = 1 ∧
      sem (primSem n ρ ord ho) ρ b = c • evolution (tf : ℂ) (sem (gateSem n ρ) ρ target) := by
  obtain ⟨b, hb, hs⟩ := transform_times ho ρ hT hB T B aT aB h4 htol hc h0 tf ht true
  refine ⟨b, Complex.exp (-(Complex.I * (((if gT = .Z then 0 else tf * shift n (coupling csT)) -
    (if gB = .Z then 0 else (∑ p ∈ P n, t p) * shift n (coupling csB)) : ℚ) : ℂ))), hb, ?_, ?_⟩
  rotate_left
  · rw [hs, sem_ham hT T, evolution_dg, ← ph_smul]
    congr 1
    funext x
    rw [sum_eq_zero]
    · rw [if_pos rfl, add_zero]
    · intro p hp
      rcases hk p hp with h | h
      · simp [h, kept]
      · simp [kept, h]
  · rw [show ∀ c : ℚ, -(Complex.I * (c : ℂ)) = (((-c : ℚ) : ℝ) : ℂ) * Complex.I by intro c; push_cast; ring,
      Complex.norm_exp_ofReal_mul_I]

/-- Without a condition on the slice times, the deviation from the target evolution is a diagonal operator with entries
bounded by the tolerance times the number of slices times the sum of the build couplings. -/
theorem C45_error_bound {ord : List ℕ → List ℕ} (ho : SetOrder ord) {value : Expr → ℚ} (ρ : Env)
    {gT gB : FixedGate} (hT : gT = .Z ∨ gT = .N true) (hB : gB = .Z ∨ gB = .N true) {target build : Block Gate}
    {csT csB : List (ℕ × ℕ × ℚ)} (T : TwoBody n gT value ρ target csT) (B : TwoBody n gB value ρ build csB)
    (aT : Ascending ord csT) (aB : Ascending ord csB) (h4 : n ≠ 4) {tol : ℚ} (htol : 0 < tol)
    (hc : ∀ p ∈ P n, tol < |coupling csT p| → tol < |coupling csB p|)
    (h0 : ∀ p ∈ P n, coupling csB p = 0 → coupling csT p = 0) (tf : ℚ) :
    ∃ b d, transform ord value n target tf (some build) tol true false = .ok b ∧
      sem (primSem n ρ ord ho) ρ b = evolution (tf : ℂ) (sem (gateSem n ρ) ρ target) + diagonal d ∧
      ∀ x, ‖d x‖ ≤ ((tol * (P n).card * ∑ q ∈ P n, |coupling csB q| : ℚ) : ℝ) := by
  obtain ⟨t, ht, -⟩ := transform_ok ho ρ hT hB T B aT aB h4 htol hc tf
  have ht' : SliceTimes n gT gB (coupling csT) (coupling csB) tf t := by
    intro q hq
    have := ht q hq
    rw [tStar_div]
    have e : ∑ p ∈ P n, pairSign p q * t p = ∑ p ∈ P n, sign p.1 p.2 q.1 q.2 * t p :=
      sum_congr rfl fun p hp => by rw [sign_pairSign (mem_P.1 hp).1 (mem_P.1 hq).1]
    rw [e]
    by_cases hz : coupling csB q = 0
    · rw [if_pos hz, h0 q hq hz, mul_zero] at this
      rw [h0 q hq hz, mul_zero, zero_div]
      exact (mul_eq_zero.1 this).resolve_left htol.ne'
    · rw [if_neg hz] at this
      rw [← this, mul_div_cancel_left₀ _ hz]
  obtain ⟨b, hb, hs⟩ := transform_times ho ρ hT hB T B aT aB h4 htol hc h0 tf ht' false
  refine ⟨b, fun x => Complex.exp (-(Complex.I * ((tf * ham n gT (coupling csT) x +
      ∑ p ∈ P n, (kept tol (t p) - t p) * slice n gB (coupling csB) (flip2 p x) : ℚ) : ℂ))) -
      Complex.exp (-(Complex.I * ((tf * ham n gT (coupling csT) x : ℚ) : ℂ))), hb, ?_, ?_⟩
  · rw [hs, sem_ham hT T, evolution_dg, ph, ph, diagonal_add]
    congr 1
    funext x
    rw [if_neg (by simp), add_zero]
    ring
  · intro x
    beta_reduce
    set a := tf * ham n gT (coupling csT) x
    set δ := ∑ p ∈ P n, (kept tol (t p) - t p) * slice n gB (coupling csB) (flip2 p x) with hδ
    have h1 : Complex.exp (-(Complex.I * ((a + δ : ℚ) : ℂ))) - Complex.exp (-(Complex.I * (a : ℂ))) =
        Complex.exp ((((-a : ℚ) : ℝ) : ℂ) * Complex.I) * (Complex.exp (Complex.I * (((-δ : ℚ) : ℝ) : ℂ)) - 1) := by
      rw [mul_sub, ← Complex.exp_add, mul_one]
      congr 2 <;> · push_cast; ring
    rw [h1, norm_mul, Complex.norm_exp_ofReal_mul_I, one_mul]
    refine (Real.norm_exp_I_mul_ofReal_sub_one_le).trans ?_
    rw [Real.norm_eq_abs, ← Rat.cast_abs, abs_neg]
    have h2 : |δ| ≤ tol * (P n).card * ∑ q ∈ P n, |coupling csB q| := by
      rw [hδ]
      refine (abs_sum_le_sum_abs _ _).trans ?_
      have : ∀ p ∈ P n, |(kept tol (t p) - t p) * slice n gB (coupling csB) (flip2 p x)| ≤
          tol * ∑ q ∈ P n, |coupling csB q| := by
        intro p _
        rw [abs_mul]
        have k1 : |kept tol (t p) - t p| ≤ tol := by
          unfold kept
          split
          · simpa using htol.le
          · rw [zero_sub, abs_neg]; linarith
        exact mul_le_mul k1 (abs_slice _ _) (abs_nonneg _) htol.le
      refine (sum_le_sum this).trans ?_
      rw [sum_const, nsmul_eq_mul]
      exact le_of_eq (by ring)
    exact_mod_cast h2

end Qadence.DAQC
