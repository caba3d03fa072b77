import Verif.Props.QFT
import Verif.Props.DAQCRefuse
import Verif.Props.Support

/-!
# C44: the digital-analog layers of the Fourier transform
-/

namespace Qadence.QFT

open Spec Matrix Finset Block Ansatz
open DAQC (P mem_P zq dg ph ph_mul SliceTimes transform phaseAndDetunings evolution_dg dg_mul dg_sum smul_dg embed1_dg evo
  evoDagger xGate slices)

variable {n : ℕ}

theorem sum_tqg (p : ℚ) (n l : ℕ) (inv : Bool) (F : ℕ → ℕ → ℚ) :
    ((tqgRange n inv).map fun ck => alpha p ck.1 (l + 1) ck.2 * F ck.1 ck.2).sum =
      ∑ j ∈ Ico (l + 1) n, p / 2 ^ (j - l + 2) * F (l + 1) (j + 1) := by
  have h1 : ∀ R : List ℕ, ((R.flatMap fun k => (List.range' 1 (k - 1)).map fun c => (c, k)).map fun ck =>
      alpha p ck.1 (l + 1) ck.2 * F ck.1 ck.2).sum =
      (R.map fun k => if l + 1 < k then p / 2 ^ (k - (l + 1) + 2) * F (l + 1) k else 0).sum := by
    intro R
    induction R with
    | nil => rfl
    | cons k R ih =>
      rw [List.flatMap_cons, List.map_append, List.sum_append, ih, List.map_cons, List.sum_cons]
      congr 1
      rw [List.map_map, ← List.sum_toFinset _ (List.nodup_range' 1)]
      split
      · rw [sum_eq_single (l + 1)]
        · simp [alpha]
        · intro c _ hc
          simp [alpha, hc]
        · intro h
          simp [List.mem_range'_1] at h
          omega
      · apply sum_eq_zero
        intro c hc
        simp [List.mem_range'_1] at hc
        have : c ≠ l + 1 := by omega
        simp [alpha, this]
  have h2 : ((List.range' 2 (n - 1)).map fun k => if l + 1 < k then p / 2 ^ (k - (l + 1) + 2) * F (l + 1) k else 0).sum =
      ∑ j ∈ Ico (l + 1) n, p / 2 ^ (j - l + 2) * F (l + 1) (j + 1) := by
    rw [← List.sum_toFinset _ (List.nodup_range' 1), ← sum_filter]
    refine sum_nbij' (fun k => k - 1) (fun j => j + 1) ?_ ?_ ?_ ?_ ?_
    · intro k hk
      simp [List.mem_range'_1] at hk ⊢
      omega
    · intro k hk
      simp [List.mem_range'_1] at hk ⊢
      omega
    · intro k hk
      simp [List.mem_range'_1] at hk ⊢
      omega
    · intro k _
      simp
    · intro k hk
      simp [List.mem_range'_1] at hk
      have : k - 1 + 1 = k := by omega
      have h3 : k - (l + 1) = k - 1 - l := by omega
      rw [this, h3]
  rw [tqgRange, h1]
  cases inv
  · exact h2
  · rw [if_pos rfl, List.map_reverse, List.sum_reverse]
    exact h2

theorem mem_tqgRange {inv : Bool} {ck : ℕ × ℕ} : ck ∈ tqgRange n inv ↔ 1 ≤ ck.1 ∧ ck.1 < ck.2 ∧ ck.2 ≤ n := by
  have : ∀ R : List ℕ, (∀ k, k ∈ R ↔ 2 ≤ k ∧ k ≤ n) →
      (ck ∈ (R.flatMap fun k => (List.range' 1 (k - 1)).map fun c => (c, k)) ↔ 1 ≤ ck.1 ∧ ck.1 < ck.2 ∧ ck.2 ≤ n) := by
    intro R hR
    simp only [List.mem_flatMap, List.mem_map, hR, List.mem_range'_1]
    constructor
    · rintro ⟨k, hk, c, hc, rfl⟩
      simp only
      omega
    · intro h
      exact ⟨ck.2, by omega, ck.1, by omega, rfl⟩
  unfold tqgRange
  apply this
  intro k
  cases inv <;> simp [List.mem_range'_1] <;> omega

/-- The two-qubit terms. -/
def tqgBlock (p : ℚ) (s : List ℕ) (m : ℕ) (ck : ℕ × ℕ) : Block Gate :=
  .scale (.comp .kron [ofFixed .Z (at' s (ck.1 - 1)), ofFixed .Z (at' s (ck.2 - 1))] none) (.num (alpha p ck.1 m ck.2) 0) none

theorem at_inj {s : List ℕ} (hs : s.length = n) (hnd : s.Nodup) {i j : ℕ} (hi : i < n) (hj : j < n) (h : at' s i = at' s j) :
    i = j := by
  rw [at_eq (by omega), at_eq (by omega)] at h
  exact (List.Nodup.getElem_inj_iff hnd).1 h

theorem tqgGen_ok {ord : List ℕ → List ℕ} (ho : SetOrder ord) (p : ℚ) {s : List ℕ} (hs : s.length = n) (hnd : s.Nodup) (m : ℕ)
    (inv : Bool) : tqgGen ord p n s m inv = .ok ((tqgRange n inv).map (tqgBlock p s m)) := by
  rw [tqgGen]
  apply mapM_ok_eq
  intro ck hck
  have h := mem_tqgRange.1 hck
  rw [tqgTerm, item_ok (by omega), item_ok (by omega), ok_bind, ok_bind, (kronOf_ok_iff Gate.supp ord ho _ _).2 ⟨rfl, by simp, ?_⟩]
  · rfl
  · rw [List.pairwise_pair, ofFixed, ofFixed, qubits_leaf, qubits_leaf]
    have : at' s (ck.1 - 1) ≠ at' s (ck.2 - 1) := by
      intro e
      have := at_inj hs hnd (by omega) (by omega) e
      omega
    simp only [Gate.supp, List.mem_singleton]
    exact Set.disjoint_singleton.2 this

/-- The couplings of the two-qubit terms. -/
def tqgCs (p : ℚ) (s : List ℕ) (n l : ℕ) (inv : Bool) : List (ℕ × ℕ × ℚ) :=
  (tqgRange n inv).map fun ck => (at' s (ck.1 - 1), at' s (ck.2 - 1), alpha p ck.1 (l + 1) ck.2)

theorem coupling_tqg (p : ℚ) (s : List ℕ) (n l : ℕ) (inv : Bool) : coupling (tqgCs p s n l inv) = layerCoupling p s n l := by
  funext q
  rw [coupling, tqgCs, List.map_map, layerCoupling]
  refine Eq.trans ?_ (sum_tqg p n l inv (fun c k => if (min (at' s (c - 1)) (at' s (k - 1)),
    max (at' s (c - 1)) (at' s (k - 1))) = q then 1 else 0))
  congr 1
  apply List.map_congr_left
  intro ck _
  simp only [Function.comp_apply]
  split <;> simp

theorem eval_q (ρ : Env) (x : ℚ) : eval ρ (.num x 0) = (x : ℂ) := DAQC.eval_num ρ x

theorem tqg_twoBody {value : Expr → ℚ} (hv : ∀ x, value (.num x 0) = x) (ρ : Env) (p : ℚ) {s : List ℕ} (hs : s.length = n)
    (hnd : s.Nodup) (hN : ∀ q ∈ s, q < n) (hn : 2 ≤ n) (l : ℕ) (inv : Bool) :
    TwoBody n .Z value ρ (addOf ((tqgRange n inv).map (tqgBlock p s (l + 1)))) (tqgCs p s n l inv) := by
  constructor
  · have : (1, 2) ∈ tqgRange n inv := mem_tqgRange.2 ⟨by simp, by simp, by simpa using hn⟩
    intro h
    rw [tqgCs, List.map_eq_nil_iff] at h
    rw [h] at this
    simp at this
  · have : ∀ R : List (ℕ × ℕ), (∀ ck ∈ R, ck ∈ tqgRange n inv) → List.Forall₂ (fun (t : Block Gate × Expr) (e : ℕ × ℕ × ℚ) =>
        (∃ t₁ t₂ t₃, t.1 = .comp .kron [.leaf (.fixed .Z e.1) t₁, .leaf (.fixed .Z e.2.1) t₂] t₃) ∧
        (∀ x, t.2 ≠ .var x) ∧ value t.2 = e.2.2 ∧ eval ρ t.2 = (e.2.2 : ℂ) ∧ e.1 ≠ e.2.1 ∧ e.1 < n ∧ e.2.1 < n)
        (unrollAll (R.map (tqgBlock p s (l + 1))))
        (R.map fun ck => (at' s (ck.1 - 1), at' s (ck.2 - 1), alpha p ck.1 (l + 1) ck.2)) := by
      intro R hR
      induction R with
      | nil => exact .nil
      | cons ck R ih =>
        have h := mem_tqgRange.1 (hR ck (by simp))
        rw [List.map_cons, unrollAll, List.map_cons]
        refine .cons (b := (at' s (ck.1 - 1), at' s (ck.2 - 1), alpha p ck.1 (l + 1) ck.2))
          ⟨⟨none, none, none, rfl⟩, by simp, hv _, eval_q ρ _, ?_, ?_, ?_⟩ (ih fun c hc => hR c (by simp [hc]))
        · intro e
          have := at_inj hs hnd (by omega) (by omega) e
          omega
        · exact hN _ (at_mem (by omega))
        · exact hN _ (at_mem (by omega))
    rw [addOf, unroll]
    exact this _ fun _ h => h

/-! ### The one-qubit terms -/

/-- The one-qubit terms. -/
def sqgBlock (p : ℚ) (n : ℕ) (s : List ℕ) (m k : ℕ) : Block Gate :=
  .scale (.comp .add [.comp .add [.comp .kron (((List.range n).map (at' s)).map fun q => ofFixed .I q) none,
    .scale (ofFixed .Z (at' s (k + m - 2))) (.num (-1) 0) none] none, .scale (ofFixed .Z (at' s (m - 1))) (.num (-1) 0) none] none)
    (.num (theta p k) 0) none

theorem mem_sqgRange {inv : Bool} {m k : ℕ} : k ∈ sqgRange n m inv ↔ 2 ≤ k ∧ k < n - m + 2 := by
  unfold sqgRange
  cases inv <;> simp [List.mem_range'_1] <;> omega

theorem sqgGen_ok {ord : List ℕ → List ℕ} (ho : SetOrder ord) (p : ℚ) {s : List ℕ} (hs : s.length = n) (hnd : s.Nodup) {l : ℕ}
    (hl : l < n) (inv : Bool) : sqgGen ord p n s (l + 1) inv = .ok ((sqgRange n (l + 1) inv).map (sqgBlock p n s (l + 1))) := by
  rw [sqgGen]
  apply mapM_ok_eq
  intro k hk
  have h := mem_sqgRange.1 hk
  rw [sqgTerm, mapM_ok_eq (g := at' s), ok_bind, (kronOf_ok_iff Gate.supp ord ho _ _).2 ⟨rfl, ?_, ?_⟩, ok_bind,
    item_ok (by omega), item_ok (by omega)]
  · rfl
  · simp
    omega
  · rw [List.map_map, List.pairwise_map]
    have : (List.range n).Pairwise fun i j => i < n ∧ j < n ∧ i ≠ j := by
      refine (List.pairwise_lt_range (n := n)).imp_of_mem ?_
      intro a b ha hb hab
      exact ⟨List.mem_range.1 ha, List.mem_range.1 hb, hab.ne⟩
    refine this.imp ?_
    rintro a b ⟨ha, hb, hab⟩
    simp only [Function.comp_apply, ofFixed, qubits_leaf, Gate.supp, List.mem_singleton]
    exact Set.disjoint_singleton.2 fun e => hab (at_inj hs hnd ha hb e)
  · intro i hi
    have := List.mem_range.1 hi
    exact item_ok (by omega)

theorem dg_add (a b : St n → ℚ) : dg a + dg b = dg fun x => a x + b x := by
  rw [dg, dg, dg, diagonal_add]
  congr 1
  funext x
  push_cast
  ring

theorem sem_Z (ρ : Env) {q : ℕ} (hq : q < n) : sem (gateSem n ρ) ρ (ofFixed .Z q) = dg fun x => zq x q := by
  rw [ofFixed, sem_leaf, gateSem_den, gateDen, embed1_dg hq (Or.inl rfl)]
  simp [DAQC.lv]

theorem sem_ids (ρ : Env) (qs : List ℕ) : sem (gateSem n ρ) ρ (.comp .kron (qs.map fun q => ofFixed .I q) none) = dg fun _ => 1 := by
  have e1 : (dg fun _ => 1 : Oper n) = 1 := by simp [dg]
  rw [sem_kron, List.map_map, e1]
  induction qs with
  | nil => rfl
  | cons i l ih =>
    rw [List.map_cons, opProd, ih, one_mul]
    simp only [Function.comp_apply, ofFixed, sem_leaf, gateSem_den, gateDen]
    exact mat1_I

theorem sem_sqg (ρ : Env) (p : ℚ) {s : List ℕ} (hs : s.length = n) (hN : ∀ q ∈ s, q < n) {l : ℕ} (hl : l < n)
    (inv : Bool) : sem (gateSem n ρ) ρ (addOf ((sqgRange n (l + 1) inv).map (sqgBlock p n s (l + 1)))) =
      dg fun x => ∑ j ∈ Ico (l + 1) n, p / 2 ^ (j - l + 2) * (1 - zq x (at' s j) - zq x (at' s l)) := by
  rw [addOf, sem_add, List.map_map]
  have h1 : (sqgRange n (l + 1) inv).map (sem (gateSem n ρ) ρ ∘ sqgBlock p n s (l + 1)) =
      ((sqgRange n (l + 1) inv).map fun k => fun x : St n =>
        p / 2 ^ (k + 1) * (1 - zq x (at' s (k + l - 1)) - zq x (at' s l))).map dg := by
    rw [List.map_map]
    apply List.map_congr_left
    intro k hk
    have h := mem_sqgRange.1 hk
    have e : k + (l + 1) - 2 = k + l - 1 := by omega
    simp only [Function.comp_apply, sqgBlock, sem_scale, sem_add, List.map_cons, List.map_nil, List.sum_cons, List.sum_nil,
      add_zero, sem_ids, eval_q]
    rw [sem_Z ρ (hN _ (at_mem (by omega))), sem_Z ρ (hN _ (at_mem (by omega))), smul_dg, smul_dg, dg_add, dg_add, smul_dg]
    congr 1
    funext x
    rw [theta, e, Nat.add_sub_cancel]
    ring
  rw [h1, dg_sum]
  congr 1
  funext x
  rw [List.map_map]
  have h2 : ((List.range' 2 (n - (l + 1))).map ((fun d : St n → ℚ => d x) ∘ fun k => fun x : St n =>
        p / 2 ^ (k + 1) * (1 - zq x (at' s (k + l - 1)) - zq x (at' s l)))).sum =
      ∑ j ∈ Ico (l + 1) n, p / 2 ^ (j - l + 2) * (1 - zq x (at' s j) - zq x (at' s l)) := by
    rw [← List.sum_toFinset _ (List.nodup_range' 1)]
    refine sum_nbij' (fun k => k + l - 1) (fun j => j + 1 - l) ?_ ?_ ?_ ?_ ?_
    · intro k hk
      simp [List.mem_range'_1] at hk ⊢
      omega
    · intro k hk
      simp [List.mem_range'_1] at hk ⊢
      omega
    · intro k hk
      simp [List.mem_range'_1] at hk ⊢
      omega
    · intro k hk
      simp at hk ⊢
      omega
    · intro k hk
      simp [List.mem_range'_1] at hk
      have : k + l - 1 - l + 2 = k + 1 := by omega
      simp only [Function.comp_apply, this]
  unfold sqgRange
  cases inv
  · exact h2
  · rw [if_pos rfl, List.map_reverse, List.sum_reverse]
    exact h2

/-- The digital layer with a rational number for π. -/
theorem layer_rational {ord : List ℕ → List ℕ} (ho : SetOrder ord) (ρ : Env) (p : ℚ)
    {s : List ℕ} (hs : s.length = n) (hN : ∀ q ∈ s, q < n) {l : ℕ} (hl : l < n) :
    sem (primSem n ρ ord ho) ρ (chainOf (parts (.num p 0) n s false l)) =
      (ph fun x => -∑ j ∈ Ico (l + 1) n, p / 2 ^ (j - l + 2) * ((1 - zq x (at' s j)) * (1 - zq x (at' s l)))) *
        embed1 (at' s l) (mat1 .H) := by
  have hσ : at' s l < n := hN _ (at_mem (by omega))
  rw [chainOf, sem_chain, parts, if_neg (by simp), List.map_cons, opProd, den_gateBlock, List.map_map, gateDen]
  congr 1
  have h1 : (layerRange n l false).map (sem (primSem n ρ ord ho) ρ ∘ rotBlock (.num p 0) s false l) =
      ((layerRange n l false).map fun j => fun x : St n =>
        -(p / 2 ^ (j - l + 2) * ((1 - zq x (at' s j)) * (1 - zq x (at' s l))))).map ph := by
    rw [List.map_map]
    apply List.map_congr_left
    intro j _
    simp only [Function.comp_apply, rotBlock, den_gateBlock]
    rw [cphase_diag ρ hσ, ph]
    congr 1
    funext x
    rw [eval_angle, eval_q]
    congr 1
    have hz : ∀ q, 1 - zq x q = 2 * bn x q := by
      intro q
      unfold zq bn
      cases bit x q <;> norm_num
    rw [hz, hz]
    push_cast
    simp
    ring
  rw [h1, DAQC.opProd_ph]
  congr 1
  funext x
  rw [List.map_map, ← sum_neg_distrib]
  simp only [layerRange, Bool.false_eq_true, if_false, Function.comp_def]
  rw [← List.sum_toFinset _ (List.nodup_range' 1)]
  apply sum_congr _ fun _ _ => rfl
  ext j
  simp [List.mem_range'_1]
  omega

/-! ### The adjoint of the transformed circuit -/

theorem den_evo_dagger (ρ : Env) {gen : Block Gate} {t : Expr} (h1 : (eval ρ t).im = 0)
    (h2 : (sem (gateSem n ρ) ρ gen)ᴴ = sem (gateSem n ρ) ρ gen) :
    (primDen ρ (Prim.hamEvo gen t).dagger : Oper n) = (primDen ρ (.hamEvo gen t))ᴴ := by
  simp only [Prim.dagger, primDen, evolution]
  rw [← Matrix.exp_conjTranspose, conjTranspose_smul, h2]
  congr 2
  rw [eval_neg]
  simp [conj_eq_self_of_im h1]

theorem real_smul_adjoint {c : ℂ} (hc : c.im = 0) {M : Oper n} (h : Mᴴ = M) : (c • M)ᴴ = c • M := by
  rw [conjTranspose_smul, h, RCLike.star_def, conj_eq_self_of_im hc]

theorem phases_hermitian {ord : List ℕ → List ℕ} (ho : SetOrder ord) (ρ : Env) {mat : ℕ → ℕ → ℚ} {a c : Block Gate}
    (h : phaseAndDetunings ord n mat = .ok (a, c)) :
    (sem (gateSem n ρ) ρ a)ᴴ = sem (gateSem n ρ) ρ a ∧ (sem (gateSem n ρ) ρ c)ᴴ = sem (gateSem n ρ) ρ c := by
  rw [phaseAndDetunings] at h
  obtain ⟨ids, h1, h⟩ := bind_ok h
  obtain ⟨rfl, rfl⟩ := Prod.mk.inj (pure_ok h)
  obtain ⟨rfl, -, -⟩ := (kronOf_ok_iff Gate.supp ord ho _ _).1 h1
  constructor
  · rw [scaleOf, sem_scale]
    apply real_smul_adjoint
    · rw [DAQC.num, eval_q]; exact Complex.ratCast_im _
    · have := sem_ids (n := n) ρ (List.range n)
      simp only [ofFixed] at this
      rw [this]
      simp [dg]
  · rw [addOf, sem_add, List.map_map]
    generalize hf : (fun i => -((List.map (fun j => mat j i) (List.range n)).sum / 2)) = f
    have hf' : ∀ i, -((List.map (fun j => mat j i) (List.range n)).sum / 2) = f i := fun i => congrFun hf i
    simp only [hf']
    generalize List.range n = l
    induction l with
    | nil => simp
    | cons i l ih =>
      rw [List.map_cons, List.sum_cons, conjTranspose_add, ih]
      congr 1
      simp only [Function.comp_apply, scaleOf, sem_scale, sem_leaf, gateSem_den, gateDen]
      apply real_smul_adjoint
      · rw [DAQC.num, eval_q]; exact Complex.ratCast_im _
      · rw [embed1_conjTranspose]
        congr 1
        exact (mat1_dagger (.N true)).symm

/-- Where the primitive blocks of a transformed circuit come from. -/
theorem transform_leaves (Q : Prim → Prop) {ord : List ℕ → List ℕ} (ho : SetOrder ord) {value : Expr → ℚ}
    {target build : Block Gate}
    (hX : ∀ q, Q (.gate (.fixed .X q) none)) (hB : ∀ t, Q (.hamEvo build (DAQC.num t)))
    (hph : ∀ mat a c, phaseAndDetunings ord n mat = .ok (a, c) →
      ∀ t, Q (.hamEvo a (DAQC.num t)) ∧ Q (.hamEvo c (DAQC.num t)) ∧
        Q (Prim.dagger (.hamEvo a (DAQC.num t))) ∧ Q (Prim.dagger (.hamEvo c (DAQC.num t))))
    {tf tol : ℚ} {ig : Bool} {b : Block Prim} (h : transform ord value n target tf (some build) tol true ig = .ok b) :
    AllLeaves Q b := by
  have hsl : ∀ (t : ℕ → ℚ) (det : Option (Block Gate)) (l : List (Block Prim)),
      (∀ d ∈ det, ∀ t, Q (.hamEvo d (DAQC.num t))) → slices ord n t tol build det = .ok l → AllLeavesList Q l := by
    intro t det l hdet hl
    rw [slices] at hl
    rw [allLeavesList_iff]
    intro b hb
    obtain ⟨p, -, hp⟩ := (mapM_ok_mem hl).2 b hb
    obtain ⟨x, hx, hp⟩ := bind_ok hp
    obtain ⟨rfl, -, -⟩ := (kronOf_ok_iff (Prim.supp ord) ord ho _ _).1 hx
    cases det with
    | none =>
      have := pure_ok hp
      subst this
      simp [chainOf, AllLeaves, AllLeavesList, xGate, evo, hX, hB]
    | some d =>
      have := pure_ok hp
      subst this
      simp [chainOf, AllLeaves, AllLeavesList, xGate, evo, hX, hB, hdet d rfl]
  by_cases h4 : n = 4
  · subst h4
    rw [(DAQC.C45_refuses (n := 4) ord value target tf (some build) tol ig).2.1] at h
    cases h
  by_cases hq : isQubitHamiltonian target = false ∨ isQubitHamiltonian build = false
  · rw [(DAQC.C45_refuses ord value target tf (some build) tol ig).2.2 h4 build rfl hq] at h
    cases h
  simp only [Bool.not_eq_false, not_or] at hq
  unfold transform at h
  simp only [Bool.not_true, Bool.false_eq_true, if_false, h4, ok_bind, hq.1, hq.2, Bool.or_false] at h
  cases hpT : DAQC.parse ord value n target 0 with
  | error e => rw [hpT] at h; cases h
  | ok r =>
  obtain ⟨gT, matT, typeT⟩ := r
  rw [hpT, ok_bind] at h
  cases hpB : DAQC.parse ord value n build tol with
  | error e => rw [hpB] at h; cases h
  | ok r =>
  obtain ⟨gB, matB, typeB⟩ := r
  rw [hpB, ok_bind] at h
  have mo : ∀ x : Block Gate × Block Gate, some <$> (.ok x : Except PyErr _) = .ok (some x) := fun _ => rfl
  have me : ∀ e : PyErr, some <$> (.error e : Except PyErr (Block Gate × Block Gate)) = .error e := fun _ => rfl
  have fin : ∀ (c d : Prop) [Decidable c] [Decidable d] (t : (ℕ → ℚ) → ℕ → ℚ) (det : Option (Block Gate))
      (k : (ℕ → ℚ) → List (Block Prim) → Block Prim) (e1 e2 : PyErr),
      (if c then .error e1 else if d then .error e2 else do
          let s ← DAQC.solve (DAQC.flatSize n) (DAQC.signMatrix n) fun i => gT i / gB i
          let parts ← slices ord n (t s) tol build det
          pure (k s parts)) = .ok b →
      (∀ d ∈ det, ∀ t, Q (.hamEvo d (DAQC.num t))) →
      (∀ s l, AllLeavesList Q l → AllLeaves Q (k s l)) → AllLeaves Q b := by
    intro c d _ _ t det k e1 e2 h hdet hk
    split at h
    · cases h
    split at h
    · cases h
    obtain ⟨s, -, h⟩ := bind_ok h
    obtain ⟨l, hl, h⟩ := bind_ok h
    have := pure_ok h
    subst this
    exact hk s l (hsl _ _ _ hdet hl)
  rcases hb : phaseAndDetunings ord n matB with e | y <;> rcases ht : phaseAndDetunings ord n matT with e' | y' <;>
    cases typeB <;> cases typeT <;> cases ig <;>
    simp only [hb, ht, ok_bind, mo, me, error_bind, reduceCtorEq, if_false, if_true, Option.map_none, Option.map_some, Bool.false_eq_true] at h <;>
    refine fin _ _ _ _ _ _ _ h (fun d hd t => by cases hd <;> exact (hph _ _ _ hb t).2.1) ?_ <;> intro s l hl <;>
    simp [chainOf, AllLeaves, AllLeavesList, evo, evoDagger, hl] <;>
    first
      | exact ⟨(hph _ _ _ hb _).1, (hph _ _ _ ht _).2.2⟩
      | exact ⟨(hph _ _ _ ht _).2.2.1, (hph _ _ _ hb _).1, (hph _ _ _ ht _).2.2.2⟩
      | exact (hph _ _ _ ht _).2.2
      | exact (hph _ _ _ hb _).1
      | exact (hph _ _ _ ht _).2.2.2

/-! ### The layers -/

/-- The build Hamiltonian covers the interactions of a layer, and no slice time is in the dropped range. -/
def Covers (n : ℕ) (gB : FixedGate) (J K : ℕ × ℕ → ℚ) : Prop :=
  (∀ q ∈ P n, 1 / 10 ^ 8 < |J q| → 1 / 10 ^ 8 < |K q|) ∧ (∀ q ∈ P n, K q = 0 → J q = 0) ∧
    ∃ t, SliceTimes n .Z gB J K (-1) t ∧ ∀ q ∈ P n, t q = 0 ∨ 1 / 10 ^ 8 < |t q|

theorem isSupport {s : List ℕ} (h : s = List.range n ∨ s = (List.range n).reverse) :
    s.length = n ∧ s.Nodup ∧ ∀ q ∈ s, q < n := by
  rcases h with rfl | rfl
  · exact ⟨by simp, List.nodup_range, by simp⟩
  · exact ⟨by simp, by simp [List.nodup_range], by simp⟩

theorem layerCirc_ok {ord : List ℕ → List ℕ} (ho : SetOrder ord)
    (hasc : ∀ a b, a ≠ b → a < n → b < n → ∀ l, (∀ q, q ∈ l ↔ q = a ∨ q = b) → (ord l).Pairwise (· < ·))
    {value : Expr → ℚ} (hv : ∀ x, value (.num x 0) = x) (ρ : Env) (p : ℚ)
    {gB : FixedGate} (hB : gB = .Z ∨ gB = .N true) {build : Block Gate} {csB : List (ℕ × ℕ × ℚ)}
    (B : TwoBody n gB value ρ build csB) (hnb : build.nQubits Gate.supp Gate.nQubits ord = .ok n) (h4 : n ≠ 4)
    {s : List ℕ} (hs : s.length = n) (hnd : s.Nodup) (hN : ∀ q ∈ s, q < n) {l : ℕ} (hl : l + 1 < n)
    (hc : Covers n gB (layerCoupling p s n l) (coupling csB)) (inv : Bool) :
    ∃ b, layerCirc ord value build (at' s l) ((sqgRange n (l + 1) inv).map (sqgBlock p n s (l + 1)))
        ((tqgRange n inv).map (tqgBlock p s (l + 1))) = .ok b ∧
      sem (primSem n ρ ord ho) ρ b = sem (primSem n ρ ord ho) ρ (chainOf (parts (.num p 0) n s false l)) ∧
      sem (primSem n ρ ord ho) ρ b.daggerPrim = (sem (primSem n ρ ord ho) ρ b)ᴴ := by
  have T := tqg_twoBody hv ρ p hs hnd hN (by omega) l inv
  have hmem : ∀ {g : FixedGate} {gen : Block Gate} {cs : List (ℕ × ℕ × ℚ)}, TwoBody n g value ρ gen cs → Ascending ord cs := by
    intro g gen cs h e he
    have := h.terms
    clear h
    generalize unroll gen = l at this
    induction this with
    | nil => simp at he
    | cons h _ ih =>
      rcases List.mem_cons.1 he with rfl | he
      · exact hasc _ _ h.2.2.2.2.1 h.2.2.2.2.2.1 h.2.2.2.2.2.2
      · exact ih he
  obtain ⟨c1, c2, t, ht, hk⟩ := hc
  rw [← coupling_tqg p s n l inv] at c1 c2 ht
  obtain ⟨d, hd, hsd⟩ := DAQC.C45_exact ho ρ (.inl rfl) hB T B (hmem T) (hmem B) h4 (tol := 1 / 10 ^ 8) (by norm_num) c1 c2 (-1) ht hk
  have hσ : at' s l < n := hN _ (at_mem (by omega))
  have hsqg := sem_sqg ρ p hs hN (l := l) (by omega) inv
  refine ⟨_, by rw [layerCirc, hnb, ok_bind, hd]; rfl, ?_, ?_⟩
  · rw [layer_rational ho ρ p hs hN (by omega)]
    simp only [chainOf, sem_chain, List.map_cons, List.map_nil, opProd, one_mul, den_gateBlock, sem_leaf, gateDen]
    have h1 : (primSem n ρ ord ho).den (.hamEvo (addOf ((sqgRange n (l + 1) inv).map (sqgBlock p n s (l + 1)))) (.num (-1) 0)) =
        evolution (eval ρ (.num (-1) 0)) (sem (gateSem n ρ) ρ (addOf ((sqgRange n (l + 1) inv).map (sqgBlock p n s (l + 1))))) := rfl
    rw [h1, hsqg, eval_q, evolution_dg, hsd, DAQC.sem_twoBody (.inl rfl) T, evolution_dg, ← mul_assoc, ph_mul]
    congr 2
    funext x
    have h2 := sum_tqg p n l inv (fun c k => zq x (at' s (c - 1)) * zq x (at' s (k - 1)))
    have h3 : ((tqgCs p s n l inv).map fun e => e.2.2 * (DAQC.lv .Z x e.1 * DAQC.lv .Z x e.2.1)) =
        (tqgRange n inv).map fun ck => alpha p ck.1 (l + 1) ck.2 * (zq x (at' s (ck.1 - 1)) * zq x (at' s (ck.2 - 1))) := by
      rw [tqgCs, List.map_map]
      rfl
    rw [h3, h2, ← mul_add, ← sum_add_distrib, neg_one_mul]
    congr 1
    apply sum_congr rfl
    intro j _
    simp only [Nat.add_sub_cancel]
    ring
  · apply sem_dagger
    have hX : ∀ q, (primSem n ρ ord ho).den (Prim.dagger (.gate (.fixed .X q) none)) =
        ((primSem n ρ ord ho).den (.gate (.fixed .X q) none))ᴴ := by
      intro q
      show embed1 q (mat1 .X) = (embed1 q (mat1 .X) : Oper n)ᴴ
      rw [embed1_conjTranspose]
      congr 1
      exact mat1_dagger .X
    have hH : (primSem n ρ ord ho).den (Prim.dagger (.gate (.fixed .H (at' s l)) none)) =
        ((primSem n ρ ord ho).den (.gate (.fixed .H (at' s l)) none))ᴴ := by
      show embed1 _ (mat1 .H) = (embed1 _ (mat1 .H) : Oper n)ᴴ
      rw [embed1_conjTranspose]
      congr 1
      exact mat1_dagger .H
    have hreal : ∀ t : ℚ, (eval ρ (DAQC.num t)).im = 0 := by
      intro t
      rw [DAQC.num, eval_q]
      exact Complex.ratCast_im _
    have hreal' : ∀ t : ℚ, (eval ρ (.neg (DAQC.num t))).im = 0 := by
      intro t
      rw [eval_neg, Complex.neg_im, hreal, neg_zero]
    have hdg : ∀ d : St n → ℚ, (dg d)ᴴ = dg d := by
      intro d
      rw [dg, diagonal_conjTranspose]
      congr 1
      funext x
      simp
    have hleaves := transform_leaves (n := n) (fun l => (primSem n ρ ord ho).den l.dagger = ((primSem n ρ ord ho).den l)ᴴ) ho hX
      (fun t => den_evo_dagger ρ (hreal t) (by rw [DAQC.sem_ham hB B, hdg]))
      (fun mat a c h t => ⟨den_evo_dagger ρ (hreal t) (phases_hermitian ho ρ h).1,
        den_evo_dagger ρ (hreal t) (phases_hermitian ho ρ h).2,
        den_evo_dagger ρ (hreal' t) (phases_hermitian ho ρ h).1,
        den_evo_dagger ρ (hreal' t) (phases_hermitian ho ρ h).2⟩) hd
    have hsq := den_evo_dagger ρ (gen := addOf ((sqgRange n (l + 1) inv).map (sqgBlock p n s (l + 1)))) (t := .num (-1) 0)
      (hreal (-1)) (by rw [hsqg, hdg])
    simp only [chainOf, AllLeaves, AllLeavesList, gateBlock, and_true]
    exact ⟨⟨hH, hsq⟩, hleaves⟩

theorem layerSDAQC_eq {ord : List ℕ → List ℕ} {value : Expr → ℚ} {p : ℚ} {s : List ℕ} {inv : Bool} {gb : Option (Block Gate)}
    {l : ℕ} {build : Block Gate} (hs : ¬(s ≠ List.range n ∧ s ≠ (List.range n).reverse))
    (hgb : gb = some build ∨ gb = none ∧ DAQC.defaultBuild ord n = .ok build) :
    layerSDAQC ord value p n s inv gb l = (do
      let sqg ← sqgGen ord p n s (l + 1) inv
      let tqg ← tqgGen ord p n s (l + 1) inv
      let t ← item s l
      if sqg.length > 0 then do
        let c ← layerCirc ord value build t sqg tqg
        return if inv then c.daggerPrim else c
      else return chainOf [gateBlock (.fixed .H t)]) := by
  rcases hgb with rfl | ⟨rfl, h⟩
  · rw [layerSDAQC, if_neg hs]
    rfl
  · rw [layerSDAQC, if_neg hs]
    show (DAQC.defaultBuild ord n >>= _) = _
    rw [h]
    rfl

/-- **C44 (digital-analog)**: for every number of qubits except 4, the sDAQC layers have the same operators as the digital
layers (both with the float constant PI), hence so have the circuits for all options; the build Hamiltonian is a ZZ or NN
Hamiltonian which covers the interactions, and no slice time is in the range dropped by `daqc_transform`. Sets of two
qubits are iterated in ascending order. -/
theorem C44_sdaqc {ord : List ℕ → List ℕ} (ho : SetOrder ord)
    (hasc : ∀ a b, a ≠ b → a < n → b < n → ∀ l, (∀ q, q ∈ l ↔ q = a ∨ q = b) → (ord l).Pairwise (· < ·))
    {value : Expr → ℚ} (hv : ∀ x, value (.num x 0) = x) (ρ : Env) (p : ℚ)
    {gB : FixedGate} (hB : gB = .Z ∨ gB = .N true) {build : Block Gate} {csB : List (ℕ × ℕ × ℚ)}
    (B : TwoBody n gB value ρ build csB) (hnb : build.nQubits Gate.supp Gate.nQubits ord = .ok n) (h4 : n ≠ 4)
    {support : Option (List ℕ)} {rv : Bool} (hs : order n support rv = List.range n ∨ order n support rv = (List.range n).reverse)
    (hc : ∀ l, l + 1 < n → Covers n gB (layerCoupling p (order n support rv) n l) (coupling csB))
    {gb : Option (Block Gate)} (hgb : gb = some build ∨ gb = none ∧ DAQC.defaultBuild ord n = .ok build) (inv sw : Bool) :
    ∃ b b', qft ord value .pi p n support inv rv sw .sdaqc gb = .ok b ∧
      qft ord value (.num p 0) p n support inv rv sw .digital gb = .ok b' ∧
      sem (primSem n ρ ord ho) ρ b = sem (primSem n ρ ord ho) ρ b' := by
  obtain ⟨h1, h2, h3⟩ := isSupport hs
  have hlen : (support.getD (List.range n)).length = n := by
    have h := h1
    rw [order] at h
    split at h
    · rwa [List.length_reverse] at h
    · exact h
  have hdig : qft ord value (.num p 0) p n support inv rv sw .digital gb = _ := qft_ok ord value (.num p 0) p hlen inv rv sw gb
  change _ = Except.ok (circParts (.num p 0) n (order n support rv) inv sw) at hdig
  have hlayer : ∀ l, ∃ b, l < n → layerSDAQC ord value p n (order n support rv) inv gb l = .ok b ∧
      sem (primSem n ρ ord ho) ρ b = sem (primSem n ρ ord ho) ρ (chainOf (parts (.num p 0) n (order n support rv) inv l)) := by
    intro l
    by_cases hl : l < n
    swap
    · exact ⟨chainOf [], fun h => absurd h hl⟩
    have hsup : ¬(order n support rv ≠ List.range n ∧ order n support rv ≠ (List.range n).reverse) := by
      rintro ⟨h, h'⟩
      exact hs.elim h h'
    by_cases hl' : l + 1 < n
    · obtain ⟨c, hc1, hc2, hc3⟩ := layerCirc_ok ho hasc hv ρ p hB B hnb h4 h1 h2 h3 hl' (hc l hl') inv
      refine ⟨if inv then c.daggerPrim else c, fun _ => ⟨?_, ?_⟩⟩
      · rw [layerSDAQC_eq hsup hgb, sqgGen_ok ho p h1 h2 hl inv, ok_bind, tqgGen_ok ho p h1 h2 (l + 1) inv, ok_bind,
          item_ok (show l < _ by omega), ok_bind]
        rw [if_pos, hc1]
        · rfl
        · rw [List.length_map, sqgRange]
          cases inv <;> simp <;> omega
      · cases inv
        · exact hc2
        · rw [if_pos rfl, hc3, hc2, layer_adjoint ho ρ _ h1 h3 hl]
          rw [eval_q]
          exact Complex.ratCast_im _
    · refine ⟨chainOf [gateBlock (.fixed .H (at' (order n support rv) l))], fun _ => ⟨?_, ?_⟩⟩
      · rw [layerSDAQC_eq hsup hgb, sqgGen_ok ho p h1 h2 hl inv, ok_bind, tqgGen_ok ho p h1 h2 (l + 1) inv, ok_bind,
          item_ok (show l < _ by omega), ok_bind]
        rw [if_neg]
        · rfl
        · have : n - (l + 1) = 0 := by omega
          rw [List.length_map, sqgRange, this]
          cases inv <;> simp
      · have : layerRange n l inv = [] := by
          have : n - (l + 1) = 0 := by omega
          rw [layerRange, this]
          cases inv <;> rfl
        rw [parts, this]
        cases inv <;> rfl
  choose f hf using hlayer
  have hls : (layers n inv).mapM (layerFunc ord value .pi p n (order n support rv) inv gb .sdaqc) = .ok ((layers n inv).map f) := by
    apply mapM_ok_eq
    intro l hl
    exact (hf l (mem_layers.1 hl)).1
  have hsem : ((layers n inv).map f).map (sem (primSem n ρ ord ho) ρ) =
      ((layers n inv).map fun l => chainOf (parts (.num p 0) n (order n support rv) inv l)).map (sem (primSem n ρ ord ho) ρ) := by
    rw [List.map_map, List.map_map]
    apply List.map_congr_left
    intro l hl
    exact (hf l (mem_layers.1 hl)).2
  have hswap : ∀ c : Block Prim, addSwaps n (order n support rv) inv sw c = .ok (if sw then chainOf (if inv then
      (List.range (n / 2)).map (fun i => gateBlock (.swap (at' (order n support rv) i) (at' (order n support rv) (n - i - 1)))) ++ [c]
      else c :: (List.range (n / 2)).map (fun i => gateBlock (.swap (at' (order n support rv) i) (at' (order n support rv) (n - i - 1)))))
      else c) := by
    intro c
    rw [addSwaps, mapM_ok_eq (g := fun i => gateBlock (.swap (at' (order n support rv) i) (at' (order n support rv) (n - i - 1))))]
    · cases sw <;> cases inv <;> rfl
    · intro i hi
      have := List.mem_range.1 hi
      rw [swapAt, item_ok (by omega), item_ok (by omega)]
      rfl
  have hq : qft ord value .pi p n support inv rv sw .sdaqc gb = .ok (setTag (if inv then "iQFT" else "QFT") (if sw then
      chainOf (if inv then (List.range (n / 2)).map (fun i => gateBlock (.swap (at' (order n support rv) i)
        (at' (order n support rv) (n - i - 1)))) ++ [chainOf ((layers n inv).map f)]
      else chainOf ((layers n inv).map f) :: (List.range (n / 2)).map (fun i => gateBlock (.swap (at' (order n support rv) i)
        (at' (order n support rv) (n - i - 1))))) else chainOf ((layers n inv).map f))) := by
    rw [qft, resolve_ok hlen.le, ok_bind, if_neg (by simp)]
    show ((layers n inv).mapM (layerFunc ord value .pi p n (order n support rv) inv gb .sdaqc) >>= _) = _
    rw [hls, ok_bind]
    show (addSwaps n (order n support rv) inv sw _ >>= _) = _
    rw [hswap]
    rfl
  refine ⟨_, _, hq, hdig, ?_⟩
  cases sw <;> cases inv <;>
    simp only [circParts, setTag, chainOf, Bool.false_eq_true, if_false, if_true, sem_chain, List.map_cons, List.map_append,
      List.map_nil, hsem]

/-- **C44 (digital-analog, default interactions)**: without a build Hamiltonian the NN interaction of all pairs is used. -/
theorem C44_sdaqc_default {ord : List ℕ → List ℕ} (ho : SetOrder ord)
    (hasc : ∀ a b, a ≠ b → a < n → b < n → ∀ l, (∀ q, q ∈ l ↔ q = a ∨ q = b) → (ord l).Pairwise (· < ·))
    {value : Expr → ℚ} (hv : ∀ x, value (.num x 0) = x) (ρ : Env) (p : ℚ) (hn : 2 ≤ n) (h4 : n ≠ 4)
    {support : Option (List ℕ)} {rv : Bool} (hs : order n support rv = List.range n ∨ order n support rv = (List.range n).reverse)
    (hc : ∀ l, l + 1 < n → ∃ t : ℕ × ℕ → ℚ,
      (∀ q ∈ P n, ∑ r ∈ P n, pairSign r q * t r = -4 * layerCoupling p (order n support rv) n l q) ∧
      ∀ q ∈ P n, t q = 0 ∨ 1 / 10 ^ 8 < |t q|) (inv sw : Bool) :
    ∃ b b', qft ord value .pi p n support inv rv sw .sdaqc none = .ok b ∧
      qft ord value (.num p 0) p n support inv rv sw .digital none = .ok b' ∧
      sem (primSem n ρ ord ho) ρ b = sem (primSem n ρ ord ho) ρ b' := by
  obtain ⟨build, cs, h1, h2, h3, hd, hq⟩ := DAQC.defaultBuild_ok ho (hv 1) ρ hn
  have hnb : build.nQubits Gate.supp Gate.nQubits ord = .ok n := by
    have hd' := hd
    rw [DAQC.defaultBuild] at hd'
    obtain ⟨terms, -, hd'⟩ := bind_ok hd'
    have := pure_ok hd'
    subst this
    obtain ⟨m, hm, hm'⟩ := C18_composite_size Gate.supp Gate.nQubits ho .add terms none
    have e1 : m ≤ n := (hm' n).2 fun q h => by
      have : q ∈ qubits Gate.supp (addOf terms) := h
      rwa [hq] at this
    have e2 : n - 1 < m := (hm' m).1 le_rfl (n - 1) (by
      show n - 1 ∈ qubits Gate.supp (addOf terms)
      rw [hq]
      show n - 1 < n
      omega)
    have : m = n := by omega
    rw [addOf, hm, this]
  refine C44_sdaqc ho hasc hv ρ p (.inr rfl) h1 hnb h4 hs ?_ (.inr ⟨rfl, hd⟩) inv sw
  intro l hl
  obtain ⟨t, ht, hk⟩ := hc l hl
  refine ⟨fun q hq _ => by rw [h3 q hq]; norm_num, fun q hq h => by rw [h3 q hq] at h; norm_num at h, t, ?_, hk⟩
  intro q hq
  rw [ht q hq, h3 q hq]
  simp only [DAQC.weight, reduceCtorEq, if_true, if_false]
  ring

/-- Refusals of the digital-analog circuit: four qubits, and supports which are neither `0, …, n-1` nor its reverse. -/
theorem C44_sdaqc_refuses (ord : List ℕ → List ℕ) (value : Expr → ℚ) (pi : Expr) (p : ℚ) {support : Option (List ℕ)} {rv : Bool}
    (inv sw : Bool) (gb : Option (Block Gate)) (hl : (support.getD (List.range n)).length ≤ n) (hn : 0 < n)
    (hs : order n support rv ≠ List.range n ∧ order n support rv ≠ (List.range n).reverse) :
    qft ord value pi p n support inv rv sw .sdaqc gb = .error .notImplementedError := by
  rw [qft, resolve_ok hl, ok_bind, if_neg (by simp)]
  have he : ∀ l, layerFunc ord value pi p n (order n support rv) inv gb .sdaqc l = .error .notImplementedError := by
    intro l
    rw [layerFunc, layerSDAQC, if_pos hs]
    rfl
  show ((layers n inv).mapM (layerFunc ord value pi p n (order n support rv) inv gb .sdaqc) >>= _) = _
  rw [mapM_error (mem_layers.2 hn) (he 0) (by intro b _ e' h'; rw [he] at h'; cases h'; rfl)]
  rfl

/-- Four qubits: no system of slices, whatever the build Hamiltonian. -/
theorem C44_sdaqc_four {ord : List ℕ → List ℕ} (ho : SetOrder ord) (value : Expr → ℚ) (pi : Expr) (p : ℚ) {support : Option (List ℕ)} {rv : Bool}
    (inv sw : Bool) {build : Block Gate} (hnb : build.nQubits Gate.supp Gate.nQubits ord = .ok 4)
    (hs : order 4 support rv = List.range 4 ∨ order 4 support rv = (List.range 4).reverse) :
    qft ord value pi p 4 support inv rv sw .sdaqc (some build) = .error .notImplementedError := by
  obtain ⟨h1, h2, h3⟩ := isSupport hs
  have hlen : (support.getD (List.range 4)).length = 4 := by
    have h := h1
    rw [order] at h
    split at h
    · rwa [List.length_reverse] at h
    · exact h
  have hsup : ¬(order 4 support rv ≠ List.range 4 ∧ order 4 support rv ≠ (List.range 4).reverse) := by
    rintro ⟨h, h'⟩
    exact hs.elim h h'
  rw [qft, resolve_ok hlen.le, ok_bind, if_neg (by simp)]
  have hlay : ∀ l, l < 4 → layerFunc ord value pi p 4 (order 4 support rv) inv (some build) .sdaqc l =
      if l < 3 then .error .notImplementedError else .ok (chainOf [gateBlock (.fixed .H (at' (order 4 support rv) l))]) := by
    intro l hl
    rw [layerFunc, layerSDAQC_eq hsup (.inl rfl), sqgGen_ok ho p h1 h2 hl inv, ok_bind, tqgGen_ok ho p h1 h2 (l + 1) inv, ok_bind,
          item_ok (show l < _ by omega), ok_bind]
    by_cases h : l < 3
    · rw [if_pos h, if_pos, layerCirc, hnb, ok_bind, (DAQC.C45_refuses (n := 4) ord value _ _ _ _ _).2.1]
      · rfl
      · rw [List.length_map, sqgRange]
        cases inv <;> simp <;> omega
    · rw [if_neg h, if_neg]
      · rfl
      · have : 4 - (l + 1) = 0 := by omega
        rw [List.length_map, sqgRange, this]
        cases inv <;> simp
  show ((layers 4 inv).mapM (layerFunc ord value pi p 4 (order 4 support rv) inv (some build) .sdaqc) >>= _) = _
  rw [mapM_error (mem_layers.2 (by norm_num : 0 < 4)) (by rw [hlay 0 (by norm_num)]; rfl)]
  · rfl
  · intro l hl e he
    rw [hlay l (mem_layers.1 hl)] at he
    split at he <;> cases he
    rfl

/-- The numeric value of a coefficient, as needed for the cases below. -/
def demoValue : Expr → ℚ
  | .num x _ => x
  | _ => 0

/-- Sets in ascending order. -/
def sortOrd (l : List ℕ) : List ℕ := l.dedup.insertionSort (· ≤ ·)

theorem sortOrd_setOrder : SetOrder sortOrd := by
  intro l
  refine ⟨(List.perm_insertionSort _ _).nodup_iff.2 (List.nodup_dedup l), fun q => ?_⟩
  rw [sortOrd, (List.perm_insertionSort _ _).mem_iff, List.mem_dedup]

theorem sortOrd_sorted (l : List ℕ) : (sortOrd l).Pairwise (· < ·) := by
  have h1 := List.pairwise_insertionSort (α := ℕ) (· ≤ ·) l.dedup
  have h2 : (l.dedup.insertionSort (· ≤ ·)).Nodup := (List.perm_insertionSort _ _).nodup_iff.2 (List.nodup_dedup l)
  exact (h1.and h2).imp fun {a b} hab => lt_of_le_of_ne hab.1 hab.2

/-- A case of the hypotheses: the inverse on three qubits with the default interactions, π taken as 22/7. -/
example (ρ : Env) : ∃ b b', qft sortOrd demoValue .pi (22 / 7) 3 none true false true .sdaqc none = .ok b ∧
    qft sortOrd demoValue (.num (22 / 7) 0) (22 / 7) 3 none true false true .digital none = .ok b' ∧
    sem (primSem 3 ρ sortOrd sortOrd_setOrder) ρ b = sem (primSem 3 ρ sortOrd sortOrd_setOrder) ρ b' := by
  apply C44_sdaqc_default sortOrd_setOrder (fun _ _ _ _ _ l _ => sortOrd_sorted l) (fun _ => rfl) ρ (22 / 7) (by norm_num) (by norm_num)
    (.inl rfl)
  have hP : P 3 = {(0, 1), (0, 2), (1, 2)} := by decide
  intro l hl
  have : l = 0 ∨ l = 1 := by omega
  rcases this with rfl | rfl
  · refine ⟨fun q => if q = (0, 1) then 11 / 28 else if q = (0, 2) then 11 / 14 else 33 / 28, ?_, ?_⟩
    · rw [hP]
      decide +kernel
    · rw [hP]
      decide +kernel
  · refine ⟨fun q => if q = (1, 2) then 0 else 11 / 14, ?_, ?_⟩
    · rw [hP]
      decide +kernel
    · rw [hP]
      decide +kernel

end Qadence.QFT
