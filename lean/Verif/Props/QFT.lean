import Verif.Proofs.QFT
import Verif.Proofs.Except
import Verif.Props.ZNE
import Verif.Props.Padding

/-!
# C44: the quantum Fourier transform
-/

namespace Qadence.QFT

open Spec Matrix Finset Block Ansatz

variable {N : ℕ}

/-- The support as a function. -/
def at' (s : List ℕ) (l : ℕ) : ℕ := s.getD l 0

theorem at_eq {s : List ℕ} {i : ℕ} (h : i < s.length) : at' s i = s[i] := by simp [at', h]

theorem at_mem {s : List ℕ} {i : ℕ} (h : i < s.length) : at' s i ∈ s := by rw [at_eq h]; exact List.getElem_mem _

theorem item_ok {s : List ℕ} {i : ℕ} (h : i < s.length) : item s i = .ok (at' s i) := by
  rw [at_eq h]
  unfold item
  rw [List.getElem?_eq_getElem h]

theorem item_error {s : List ℕ} {i : ℕ} (h : s.length ≤ i) : item s i = .error .indexError := by
  unfold item
  rw [List.getElem?_eq_none h]

theorem mem_layerRange {n l j : ℕ} {inv : Bool} : j ∈ layerRange n l inv ↔ l < j ∧ j < n := by
  unfold layerRange
  cases inv <;> simp [List.mem_range'_1] <;> omega

/-- The controlled phase of qubits `j` and `l`. -/
def rotBlock (pi : Expr) (s : List ℕ) (inv : Bool) (l j : ℕ) : Block Prim :=
  gateBlock (.cphase (at' s j) (at' s l) (angle pi inv l j))

/-- The parts of a digital layer. -/
def parts (pi : Expr) (n : ℕ) (s : List ℕ) (inv : Bool) (l : ℕ) : List (Block Prim) :=
  if inv then (layerRange n l inv).map (rotBlock pi s inv l) ++ [gateBlock (.fixed .H (at' s l))]
  else gateBlock (.fixed .H (at' s l)) :: (layerRange n l inv).map (rotBlock pi s inv l)

theorem mapM_ok_eq {α β ε : Type} {f : α → Except ε β} {g : α → β} (l : List α) (h : ∀ a ∈ l, f a = .ok (g a)) :
    l.mapM f = .ok (l.map g) := by
  induction l with
  | nil => rfl
  | cons a l ih =>
    rw [List.mapM_cons, h a (by simp), ih fun b hb => h b (by simp [hb])]
    rfl

theorem layerDigital_ok (pi : Expr) {n : ℕ} {s : List ℕ} (hs : s.length = n) (inv : Bool) {l : ℕ} (hl : l < n) :
    layerDigital pi n s inv l = .ok (chainOf (parts pi n s inv l)) := by
  rw [layerDigital, mapM_ok_eq (g := rotBlock pi s inv l), item_ok (by omega)]
  · cases inv <;> rfl
  · intro j hj
    have := mem_layerRange.1 hj
    rw [layerRot, item_ok (by omega), item_ok (by omega)]
    rfl

theorem eval_angle (ρ : Env) (pi : Expr) (inv : Bool) (l j : ℕ) :
    eval ρ (angle pi inv l j) = (if inv then -1 else 1) * (2 * eval ρ pi / 2 ^ (j - l + 1)) := by
  have : ∀ q : ℚ, (⟨((q : ℚ) : ℝ), ((0 : ℚ) : ℝ)⟩ : ℂ) = (q : ℂ) := by
    intro q
    apply Complex.ext <;> simp
  rw [angle, eval, eval, this]
  cases inv <;> push_cast <;> simp <;> ring

theorem den_gateBlock {ord : List ℕ → List ℕ} (ho : SetOrder ord) (ρ : Env) (g : Gate) :
    sem (primSem N ρ ord ho) ρ (gateBlock g) = gateDen ρ g := rfl

/-- The inverse layer is the adjoint of the layer. -/
theorem layer_adjoint {ord : List ℕ → List ℕ} (ho : SetOrder ord) (ρ : Env) {pi : Expr} (hpi : (eval ρ pi).im = 0) {n : ℕ}
    {s : List ℕ} (hs : s.length = n) (hN : ∀ q ∈ s, q < N) {l : ℕ} (hl : l < n) :
    sem (primSem N ρ ord ho) ρ (chainOf (parts pi n s true l)) =
      (sem (primSem N ρ ord ho) ρ (chainOf (parts pi n s false l)))ᴴ := by
  have hσ : at' s l < N := hN _ (at_mem (by omega))
  rw [chainOf, chainOf, sem_chain, sem_chain, opProd_conjTranspose]
  congr 1
  rw [parts, parts, if_pos rfl, if_neg (by simp)]
  simp only [List.map_append, List.map_cons, List.map_nil, List.reverse_cons, List.map_map]
  congr 1
  · rw [← List.map_reverse]
    have : (layerRange n l false).reverse = layerRange n l true := by simp [layerRange]
    rw [this]
    apply List.map_congr_left
    intro j _
    simp only [Function.comp_apply, rotBlock, den_gateBlock]
    rw [cphase_diag ρ hσ, cphase_diag ρ hσ, diagonal_conjTranspose]
    congr 1
    funext x
    simp only [Pi.star_apply, RCLike.star_def, ← Complex.exp_conj]
    congr 1
    simp [eval_angle, conj_eq_self_of_im hpi, Complex.conj_ofNat]
  · simp only [den_gateBlock]
    have := gateDen_dagger (n := N) ρ (.fixed .H (at' s l)) trivial (by simpa [Gate.supp] using hσ)
    rw [← this]
    rfl

/-- The matrix of a layer for the exact number π. -/
theorem layer_sem {ord : List ℕ → List ℕ} (ho : SetOrder ord) (ρ : Env) {pi : Expr} (hpi : eval ρ pi = (Real.pi : ℂ)) {n : ℕ}
    {s : List ℕ} (hs : s.length = n) (hnd : s.Nodup) (hN : ∀ q ∈ s, q < N) {l : ℕ} (hl : l < n) :
    sem (primSem N ρ ord ho) ρ (chainOf (parts pi n s false l)) = layerMat (at' s) n l := by
  have hσ : at' s l < N := hN _ (at_mem (by omega))
  rw [chainOf, sem_chain, parts, if_neg (by simp), List.map_cons, opProd, den_gateBlock, List.map_map]
  have h1 : (layerRange n l false).map (sem (primSem N ρ ord ho) ρ ∘ rotBlock pi s false l) =
      ((layerRange n l false).map fun j => fun x : St N =>
        2 * Real.pi * Complex.I * (bn x (at' s l) * ((bn x (at' s j) : ℂ) / 2 ^ (j - l + 1)))).map
        fun d => (diagonal fun x => Complex.exp (d x) : Oper N) := by
    rw [List.map_map]
    apply List.map_congr_left
    intro j _
    simp only [Function.comp_apply, rotBlock, den_gateBlock]
    rw [cphase_diag ρ hσ]
    congr 1
    funext x
    rw [eval_angle, hpi]
    congr 1
    simp
    ring
  rw [h1, opProd_diag]
  ext x y
  rw [diagonal_mul, layerMat, gateDen, embed1]
  by_cases h : ∀ j : Fin N, at' s l ≠ j → x j = y j
  · rw [if_pos h, if_pos h, mat_H, mul_div_assoc', ← Complex.exp_add]
    congr 2
    have h2 : ∑ j ∈ Ico l n, (bn y (at' s j) : ℂ) / 2 ^ (j - l + 1) =
        (bn y (at' s l) : ℂ) / 2 + ∑ j ∈ Ico (l + 1) n, (bn x (at' s j) : ℂ) / 2 ^ (j - l + 1) := by
      rw [sum_eq_sum_Ico_succ_bot hl]
      congr 1
      · simp
      · apply sum_congr rfl
        intro j hj
        have hj := mem_Ico.1 hj
        have hne : at' s l ≠ at' s j := by
          rw [at_eq (by omega), at_eq (by omega)]
          intro e
          have := (List.Nodup.getElem_inj_iff hnd).1 e
          omega
        have : bit y (at' s j) = bit x (at' s j) := by
          unfold bit
          split
          · exact (h _ hne).symm
          · rfl
        rw [bn, this, bn]
    rw [h2, List.map_map]
    have h3 : ((layerRange n l false).map ((fun d : St N → ℂ => d x) ∘ fun j => fun x : St N =>
        2 * Real.pi * Complex.I * (bn x (at' s l) * ((bn x (at' s j) : ℂ) / 2 ^ (j - l + 1))))).sum =
        2 * Real.pi * Complex.I * (bn x (at' s l) * ∑ j ∈ Ico (l + 1) n, (bn x (at' s j) : ℂ) / 2 ^ (j - l + 1)) := by
      rw [Finset.mul_sum, Finset.mul_sum]
      simp only [layerRange, Bool.false_eq_true, if_false, Function.comp_def]
      rw [← List.sum_toFinset _ (List.nodup_range' 1)]
      apply sum_congr _ fun _ _ => rfl
      ext j
      simp [List.mem_range'_1]
      omega
    rw [h3, bn, bn]
    ring
  · rw [if_neg h, if_neg h, mul_zero]

/-! ### The swaps -/

/-- Exchange the first `m` qubits of the support with the last ones. -/
def swapsSt (s : List ℕ) (n : ℕ) : ℕ → St N → St N
  | 0, x => x
  | m + 1, x => swapSt (at' s m) (at' s (n - m - 1)) (swapsSt s n m x)

theorem opProd_swaps (s : List ℕ) (n m : ℕ) :
    opProd ((List.range m).map fun i => (swapOp (at' s i) (at' s (n - i - 1)) : Oper N)) = mapOp (swapsSt s n m) := by
  induction m with
  | zero => ext x y; simp only [List.range_zero, List.map_nil, opProd, mapOp, swapsSt, one_apply, of_apply]; congr
  | succ m ih =>
    rw [List.range_succ, List.map_append, opProd_append, ih]
    simp only [List.map_cons, List.map_nil, opProd, one_mul]
    rw [swapOp_eq, mapOp_mul]
    rfl

theorem bit_swapsSt {s : List ℕ} {n : ℕ} (hs : s.length = n) (hnd : s.Nodup) (hN : ∀ q ∈ s, q < N) {m : ℕ} (hm : m ≤ n / 2)
    (x : St N) : (∀ i < n, bit (swapsSt s n m x) (at' s i) = bit x (at' s (if i < m ∨ n - 1 - i < m then n - 1 - i else i))) ∧
      ∀ q, q ∉ s → bit (swapsSt s n m x) q = bit x q := by
  have hat : ∀ i < n, at' s i ∈ s := fun i hi => at_mem (by omega)
  have hinj : ∀ i < n, ∀ j < n, at' s i = at' s j → i = j := by
    intro i hi j hj e
    rw [at_eq (by omega), at_eq (by omega)] at e
    exact (List.Nodup.getElem_inj_iff hnd).1 e
  induction m with
  | zero => simp [swapsSt]
  | succ m ih =>
    obtain ⟨h1, h2⟩ := ih (by omega)
    have ha := hat m (by omega)
    have hb := hat (n - m - 1) (by omega)
    refine ⟨fun i hi => ?_, fun q hq => ?_⟩
    · rw [swapsSt, bit_swapSt _ _ _ (hN _ ha) (hN _ hb)]
      by_cases e1 : at' s i = at' s m
      · have := hinj i hi m (by omega) e1
        subst this
        rw [if_pos rfl, h1 _ (by omega)]
        congr 2
        split_ifs <;> omega
      · rw [if_neg e1]
        by_cases e2 : at' s i = at' s (n - m - 1)
        · have := hinj i hi _ (by omega) e2
          subst this
          rw [if_pos rfl, h1 _ (by omega)]
          congr 2
          split_ifs <;> omega
        · rw [if_neg e2, h1 i hi]
          have n1 : i ≠ m := fun e => e1 (by rw [e])
          have n2 : i ≠ n - m - 1 := fun e => e2 (by rw [e])
          congr 2
          split_ifs <;> omega
    · rw [swapsSt, bit_swapSt _ _ _ (hN _ ha) (hN _ hb), if_neg, if_neg, h2 q hq]
      · rintro rfl; exact hq hb
      · rintro rfl; exact hq ha

/-- Swaps after the layers undo the reversal of the bits. -/
theorem swaps_dft {s : List ℕ} {n : ℕ} (hs : s.length = n) (hnd : s.Nodup) (hN : ∀ q ∈ s, q < N) (f : Fin n → ℕ)
    (hf : ∀ i : Fin n, at' s i = f i) :
    (mapOp (swapsSt s n (n / 2)) * embed f (dftOut n false) : Oper N) = embed f (dftOut n true) := by
  have key := bit_swapsSt (N := N) hs hnd hN (le_refl (n / 2))
  have hrev : ∀ (x : St N) (i : Fin n), bit (swapsSt s n (n / 2) x) (f i) = bit x (f i.rev) := by
    intro x i
    rw [← hf, (key x).1 i i.2, ← hf, Fin.val_rev]
    have := i.2
    congr 2
    split_ifs <;> omega
  have hmem : ∀ i : Fin n, f i ∈ s := fun i => by
    rw [← hf]
    exact at_mem (by have := i.2; omega)
  have hsur : ∀ q ∈ s, ∃ i : Fin n, f i = q := by
    intro q hq
    obtain ⟨i, hi, rfl⟩ := List.getElem_of_mem hq
    refine ⟨⟨i, by omega⟩, ?_⟩
    rw [← hf, at_eq hi]
  have hoff : ∀ (x : St N) (j : Fin N), (∀ i, f i ≠ j) → swapsSt s n (n / 2) x j = x j := by
    intro x j hj
    have := (key x).2 j (by
      intro hm
      obtain ⟨i, hi⟩ := hsur _ hm
      exact hj i hi)
    simpa [bit] using this
  have hinv : ∀ x : St N, swapsSt s n (n / 2) (swapsSt s n (n / 2) x) = x := by
    intro x
    funext j
    by_cases hj : ∃ i, f i = j
    · obtain ⟨i, hi⟩ := hj
      have := hrev (swapsSt s n (n / 2) x) i
      rw [hrev x i.rev, Fin.rev_rev, hi] at this
      simpa [bit] using this
    · push Not at hj
      rw [hoff _ j hj, hoff _ j hj]
  ext x y
  rw [mul_apply, sum_eq_single (swapsSt s n (n / 2) x)]
  · rw [mapOp, of_apply, hinv, if_pos rfl, one_mul, embed, embed]
    have hc : (∀ j : Fin N, (∀ i, f i ≠ j) → swapsSt s n (n / 2) x j = y j) ↔ ∀ j : Fin N, (∀ i, f i ≠ j) → x j = y j :=
      forall_congr' fun j => forall_congr' fun hj => by rw [hoff x j hj]
    simp only [hc, hrev]
    congr 1
    simp only [dftOut, if_true, Bool.false_eq_true, if_false]
    congr 1
    funext i
    rw [revBits, Fin.rev_rev]
  · intro z _ hz
    rw [mapOp, of_apply, if_neg, zero_mul]
    intro e
    exact hz (by rw [e, hinv])
  · simp

/-! ### The circuit -/

/-- The parts of the circuit. -/
def circParts (pi : Expr) (n : ℕ) (s : List ℕ) (inv sw : Bool) : Block Prim :=
  let circ := (layers n inv).map fun l => chainOf (parts pi n s inv l)
  let swaps := (List.range (n / 2)).map fun i => gateBlock (.swap (at' s i) (at' s (n - i - 1)))
  let t := some (if inv then "iQFT" else "QFT")
  if sw then .comp .chain (if inv then swaps ++ [chainOf circ] else chainOf circ :: swaps) t else .comp .chain circ t

theorem mem_layers {n l : ℕ} {inv : Bool} : l ∈ layers n inv ↔ l < n := by
  unfold layers
  cases inv <;> simp

theorem resolve_ok {n : ℕ} {support : Option (List ℕ)} (h : (support.getD (List.range n)).length ≤ n) (rv : Bool) :
    resolveSupport n support rv =
      .ok (if rv then (support.getD (List.range n)).reverse else support.getD (List.range n)) := by
  simp only [resolveSupport, if_pos h]

theorem qft_ok (ord : List ℕ → List ℕ) (value : Expr → ℚ) (pi : Expr) (p : ℚ) {n : ℕ} {support : Option (List ℕ)}
    (hs : (support.getD (List.range n)).length = n) (inv rv sw : Bool) (gb : Option (Block Gate)) :
    qft ord value pi p n support inv rv sw .digital gb = .ok (circParts pi n
      (if rv then (support.getD (List.range n)).reverse else support.getD (List.range n)) inv sw) := by
  rw [qft, resolve_ok hs.le]
  generalize hs' : (if rv then (support.getD (List.range n)).reverse else support.getD (List.range n)) = s
  have hlen : s.length = n := by
    rw [← hs']
    split <;> simp [hs]
  rw [ok_bind, if_neg (by simp), mapM_ok_eq (g := fun l => chainOf (parts pi n s inv l))]
  · have h2 : addSwaps n s inv sw (chainOf ((layers n inv).map fun l => chainOf (parts pi n s inv l))) =
      .ok (if sw then chainOf (if inv then (List.range (n / 2)).map (fun i => gateBlock (.swap (at' s i) (at' s (n - i - 1)))) ++
        [chainOf ((layers n inv).map fun l => chainOf (parts pi n s inv l))] else
        chainOf ((layers n inv).map fun l => chainOf (parts pi n s inv l)) ::
          (List.range (n / 2)).map (fun i => gateBlock (.swap (at' s i) (at' s (n - i - 1)))))
        else chainOf ((layers n inv).map fun l => chainOf (parts pi n s inv l))) := by
      rw [addSwaps, mapM_ok_eq (g := fun i => gateBlock (.swap (at' s i) (at' s (n - i - 1))))]
      · cases sw <;> cases inv <;> rfl
      · intro i hi
        have := List.mem_range.1 hi
        rw [swapAt, item_ok (by omega), item_ok (by omega)]
        rfl
    show (addSwaps n s inv sw (chainOf ((layers n inv).map fun l => chainOf (parts pi n s inv l))) >>= _) = _
    rw [h2]
    cases sw <;> cases inv <;> rfl
  · intro l hl
    exact layerDigital_ok pi hlen inv (mem_layers.1 hl)

theorem sem_circParts {ord : List ℕ → List ℕ} (ho : SetOrder ord) (ρ : Env) (pi : Expr) (n : ℕ) (s : List ℕ) (inv sw : Bool) :
    sem (primSem N ρ ord ho) ρ (circParts pi n s inv sw) =
      (let c := opProd ((layers n inv).map fun l => sem (primSem N ρ ord ho) ρ (chainOf (parts pi n s inv l)))
       let w : Oper N := mapOp (swapsSt s n (n / 2))
       if sw then (if inv then c * w else w * c) else c) := by
  have hw : ((List.range (n / 2)).map fun i => gateBlock (.swap (at' s i) (at' s (n - i - 1)))).map
      (sem (primSem N ρ ord ho) ρ) = (List.range (n / 2)).map fun i => (swapOp (at' s i) (at' s (n - i - 1)) : Oper N) := by
    rw [List.map_map]
    rfl
  cases sw <;> cases inv <;>
    simp only [circParts, Bool.false_eq_true, if_false, if_true, sem_chain, List.map_cons, List.map_append, hw, opProd_append,
      opProd_swaps, opProd, one_mul, chainOf, List.map_nil, List.map_map, Function.comp_def]

theorem swapsSt_inv {s : List ℕ} {n : ℕ} (hs : s.length = n) (hN : ∀ q ∈ s, q < N) (m : ℕ) (hm : m ≤ n / 2)
    (hnd : s.Nodup) (x : St N) : swapsSt s n m (swapsSt s n m x) = x := by
  have h1 := bit_swapsSt hs hnd hN hm x
  have h2 := bit_swapsSt hs hnd hN hm (swapsSt s n m x)
  have : ∀ q, bit (swapsSt s n m (swapsSt s n m x)) q = bit x q := by
    intro q
    by_cases hq : q ∈ s
    · obtain ⟨i, hi, rfl⟩ := List.getElem_of_mem hq
      rw [← at_eq hi, h2.1 i (by omega), h1.1]
      · congr 2
        split_ifs <;> omega
      · split_ifs <;> omega
    · rw [h2.2 q hq, h1.2 q hq]
  funext j
  simpa [bit] using this j

theorem mapOp_swaps_adjoint {s : List ℕ} {n : ℕ} (hs : s.length = n) (hN : ∀ q ∈ s, q < N) (m : ℕ) (hm : m ≤ n / 2)
    (hnd : s.Nodup) :
    (mapOp (swapsSt s n m) : Oper N)ᴴ = mapOp (swapsSt s n m) := by
  have hinv := swapsSt_inv (N := N) hs hN m hm hnd
  ext x y
  rw [conjTranspose_apply, mapOp, of_apply, of_apply]
  have : y = swapsSt s n m x ↔ x = swapsSt s n m y := by
    constructor
    · rintro rfl; rw [hinv]
    · rintro rfl; rw [hinv]
  by_cases h : x = swapsSt s n m y
  · rw [if_pos h, if_pos (this.2 h), star_one]
  · rw [if_neg h, if_neg fun h' => h (this.1 h'), star_zero]

theorem circ_adjoint {ord : List ℕ → List ℕ} (ho : SetOrder ord) (ρ : Env) {pi : Expr} (hpi : (eval ρ pi).im = 0) {n : ℕ}
    {s : List ℕ} (hs : s.length = n) (hnd : s.Nodup) (hN : ∀ q ∈ s, q < N) (sw : Bool) :
    sem (primSem N ρ ord ho) ρ (circParts pi n s true sw) = (sem (primSem N ρ ord ho) ρ (circParts pi n s false sw))ᴴ := by
  have hc : opProd ((layers n true).map fun l => sem (primSem N ρ ord ho) ρ (chainOf (parts pi n s true l))) =
      (opProd ((layers n false).map fun l => sem (primSem N ρ ord ho) ρ (chainOf (parts pi n s false l))))ᴴ := by
    rw [opProd_conjTranspose, List.map_map, ← List.map_reverse]
    congr 1
    have : (layers n false).reverse = layers n true := by simp [layers]
    rw [this]
    apply List.map_congr_left
    intro l hl
    exact layer_adjoint ho ρ hpi hs hN (mem_layers.1 hl)
  rw [sem_circParts, sem_circParts]
  cases sw
  · simpa using hc
  · simp only [if_true, Bool.false_eq_true, if_false, hc, conjTranspose_mul,
      mapOp_swaps_adjoint hs hN _ (le_refl _) hnd]

/-- The operator of the support `s`: the Fourier transform on the qubits of `s`. -/
theorem circ_dft {ord : List ℕ → List ℕ} (ho : SetOrder ord) (ρ : Env) {pi : Expr} (hpi : eval ρ pi = (Real.pi : ℂ)) {n : ℕ}
    {s : List ℕ} (hs : s.length = n) (hnd : s.Nodup) (hN : ∀ q ∈ s, q < N) (sw : Bool) :
    sem (primSem N ρ ord ho) ρ (circParts pi n s false sw) = embed (fun i : Fin n => s.getD i 0) (dftOut n sw) := by
  have hc : opProd ((layers n false).map fun l => sem (primSem N ρ ord ho) ρ (chainOf (parts pi n s false l))) =
      embed (fun i : Fin n => s.getD i 0) (dftOut n false) := by
    rw [← prefixMat_dft (fun i : Fin n => s.getD i 0) (at' s) (fun i => rfl), ← opProd_layers (at' s) (le_refl n)]
    · congr 1
      apply List.map_congr_left
      intro l hl
      exact layer_sem ho ρ hpi hs hnd hN (mem_layers.1 hl)
    · intro l hl
      exact hN _ (at_mem (by omega))
    · intro i hi j hj e
      rw [at_eq (by omega), at_eq (by omega)] at e
      exact (List.Nodup.getElem_inj_iff hnd).1 e
  rw [sem_circParts]
  cases sw
  · simpa using hc
  · simp only [if_true, Bool.false_eq_true, if_false, hc]
    exact swaps_dft hs hnd hN _ fun i => rfl

/-! ### Unitarity -/

theorem opProd_mem (S : Submonoid (Oper N)) {l : List (Oper N)} (h : ∀ M ∈ l, M ∈ S) : opProd l ∈ S := by
  induction l with
  | nil => exact S.one_mem
  | cons M l ih => exact S.mul_mem (ih fun A hA => h A (by simp [hA])) (h M (by simp))

theorem unitary_H {q : ℕ} (hq : q < N) : (embed1 q (mat1 .H) : Oper N) ∈ unitary (Oper N) := by
  have h1 : (mat1 .H)ᴴ = mat1 .H := (mat1_dagger .H).symm
  have h2 : mat1 .H * mat1 .H = 1 := by
    have h2 : (Real.sqrt 2 : ℂ) * Real.sqrt 2 = 2 := by
      rw [← Complex.ofReal_mul, Real.mul_self_sqrt (by norm_num)]
      simp
    have h3 : (Real.sqrt 2 : ℂ) ≠ 0 := by intro h; rw [h] at h2; norm_num at h2
    ext a b
    rw [mul_apply, Fintype.sum_bool]
    cases a <;> cases b <;> simp [mat1] <;> field_simp <;> first | ring1 | linear_combination h2 | linear_combination -h2 | linear_combination 2 * h2 | linear_combination -2 * h2
  have h3 : (embed1 q (1 : Matrix Bool Bool ℂ) : Oper N) = 1 := by
    ext x y
    rw [embed1, one_apply, one_apply]
    by_cases hxy : x = y
    · subst hxy; simp
    · rw [if_neg hxy]
      split
      · next h =>
        rw [if_neg]
        intro hb
        apply hxy
        funext j
        by_cases hj : q = j
        · subst hj
          simpa [bit] using hb
        · exact h j hj
      · rfl
  rw [Unitary.mem_iff, star_eq_conjTranspose, embed1_conjTranspose, h1, embed1_mul hq, h2, h3]
  exact ⟨rfl, rfl⟩

theorem unitary_diag {d : St N → ℝ} : (diagonal fun x => Complex.exp (Complex.I * d x) : Oper N) ∈ unitary (Oper N) := by
  have : ∀ x, (starRingEnd ℂ) (Complex.exp (Complex.I * d x)) = Complex.exp (-(Complex.I * d x)) := by
    intro x
    rw [← Complex.exp_conj]
    simp
  rw [Unitary.mem_iff, star_eq_conjTranspose, diagonal_conjTranspose, diagonal_mul_diagonal, diagonal_mul_diagonal]
  constructor <;> rw [← diagonal_one] <;> congr 1 <;> funext x <;>
    simp only [Pi.star_apply, RCLike.star_def, this, ← Complex.exp_add] <;> simp

theorem circ_unitary {ord : List ℕ → List ℕ} (ho : SetOrder ord) (ρ : Env) {pi : Expr} (hpi : (eval ρ pi).im = 0) {n : ℕ}
    {s : List ℕ} (hs : s.length = n) (hnd : s.Nodup) (hN : ∀ q ∈ s, q < N) (sw : Bool) :
    sem (primSem N ρ ord ho) ρ (circParts pi n s false sw) ∈ unitary (Oper N) := by
  have hc : opProd ((layers n false).map fun l => sem (primSem N ρ ord ho) ρ (chainOf (parts pi n s false l))) ∈
      unitary (Oper N) := by
    apply opProd_mem
    intro M hM
    obtain ⟨l, hl, rfl⟩ := List.mem_map.1 hM
    have hl := mem_layers.1 hl
    have hσ : at' s l < N := hN _ (at_mem (by omega))
    rw [chainOf, sem_chain]
    apply opProd_mem
    intro M hM
    obtain ⟨b, hb, rfl⟩ := List.mem_map.1 hM
    rw [parts, if_neg (by simp), List.mem_cons, List.mem_map] at hb
    rcases hb with rfl | ⟨j, -, rfl⟩
    · exact unitary_H hσ
    · rw [rotBlock, den_gateBlock, cphase_diag ρ hσ]
      have : ∀ x : St N, Complex.I * eval ρ (angle pi false l j) * (bn x (at' s j) * bn x (at' s l)) = Complex.I *
          ((2 * (eval ρ pi).re / 2 ^ (j - l + 1) * (bn x (at' s j) * bn x (at' s l)) : ℝ) : ℂ) := by
        intro x
        have he : eval ρ pi = ((eval ρ pi).re : ℂ) := Complex.ext rfl (by simpa using hpi)
        rw [eval_angle, he]
        push_cast
        simp
        ring
      simp only [this]
      exact unitary_diag
  have hw : (mapOp (swapsSt s n (n / 2)) : Oper N) ∈ unitary (Oper N) := by
    have h1 : (mapOp (swapsSt s n (n / 2) ∘ swapsSt s n (n / 2)) : Oper N) = 1 := by
      have : (swapsSt s n (n / 2) ∘ swapsSt s n (n / 2) : St N → St N) = id :=
        funext (swapsSt_inv hs hN _ (le_refl _) hnd)
      rw [this]
      ext x y
      simp only [mapOp, of_apply, id, one_apply]
    rw [Unitary.mem_iff, star_eq_conjTranspose, mapOp_swaps_adjoint hs hN _ (le_refl _) hnd, mapOp_mul]
    exact ⟨h1, h1⟩
  rw [sem_circParts]
  cases sw
  · simpa using hc
  · simp only [if_true, Bool.false_eq_true, if_false]
    exact Submonoid.mul_mem _ hw hc

/-! ### The theorems -/

/-- The qubits the circuit works on, in its order. -/
def order (n : ℕ) (support : Option (List ℕ)) (reverseIn : Bool) : List ℕ :=
  if reverseIn then (support.getD (List.range n)).reverse else support.getD (List.range n)

/-- **C44**: on every support with `n` different qubits of the register and for all options, the digital circuit is the
Fourier transform on these qubits (the first one most significant, the last one with `reverse_in`), in textbook order with
`swaps_out` and with reversed bits of the result otherwise; with `inverse` it is the adjoint. -/
theorem C44_fourier {ord : List ℕ → List ℕ} (ho : SetOrder ord) (value : Expr → ℚ) (ρ : Env) (p : ℚ) {n : ℕ}
    {support : Option (List ℕ)} (hs : (support.getD (List.range n)).length = n) (hnd : (support.getD (List.range n)).Nodup)
    (hN : ∀ q ∈ support.getD (List.range n), q < N) (inv rv sw : Bool) (gb : Option (Block Gate)) :
    ∃ b, qft ord value .pi p n support inv rv sw .digital gb = .ok b ∧
      sem (primSem N ρ ord ho) ρ b =
        (let F : Oper N := embed (fun i : Fin n => (order n support rv).getD i 0) (dftOut n sw)
         if inv then Fᴴ else F) := by
  refine ⟨_, qft_ok ord value .pi p hs inv rv sw gb, ?_⟩
  have hs' : (order n support rv).length = n := by unfold order; split <;> simp [hs]
  have hnd' : (order n support rv).Nodup := by unfold order; split <;> simp [hnd]
  have hN' : ∀ q ∈ order n support rv, q < N := by unfold order; split <;> simpa using hN
  cases inv
  · exact circ_dft ho ρ rfl hs' hnd' hN' sw
  · simp only [if_true]
    rw [← circ_dft ho ρ (pi := .pi) rfl hs' hnd' hN' sw]
    exact circ_adjoint ho ρ (by simp [eval]) hs' hnd' hN' sw

/-- The textbook case: `qft(n, swaps_out=True)` on its own register is the discrete Fourier matrix. -/
theorem C44_dft {ord : List ℕ → List ℕ} (ho : SetOrder ord) (value : Expr → ℚ) (ρ : Env) (p : ℚ) (n : ℕ)
    (gb : Option (Block Gate)) :
    ∃ b, qft ord value .pi p n none false false true .digital gb = .ok b ∧ sem (primSem n ρ ord ho) ρ b = dft n := by
  obtain ⟨b, hb, h⟩ := C44_fourier (N := n) (n := n) ho value ρ p (support := none) (by simp) (by simp [List.nodup_range])
    (by simp) false false true gb
  refine ⟨b, hb, ?_⟩
  rw [h]
  have hf : ∀ i : Fin n, (order n none false).getD i 0 = i := by intro i; simp [order]
  ext x y
  simp only [Bool.false_eq_true, if_false, hf, embed]
  rw [if_pos]
  · simp [dftOut, bit]
  · intro j hj
    exact absurd rfl (hj j)

/-- The inverse undoes the transform, with the float constant PI as well as with the exact number. -/
theorem C44_inverse {ord : List ℕ → List ℕ} (ho : SetOrder ord) (value : Expr → ℚ) (ρ : Env) {pi : Expr}
    (hpi : (eval ρ pi).im = 0) (p : ℚ) {n : ℕ}
    {support : Option (List ℕ)} (hs : (support.getD (List.range n)).length = n) (hnd : (support.getD (List.range n)).Nodup)
    (hN : ∀ q ∈ support.getD (List.range n), q < N) (rv sw : Bool) (gb : Option (Block Gate)) :
    ∃ b b', qft ord value pi p n support false rv sw .digital gb = .ok b ∧
      qft ord value pi p n support true rv sw .digital gb = .ok b' ∧
      sem (primSem N ρ ord ho) ρ b' = (sem (primSem N ρ ord ho) ρ b)ᴴ ∧
      sem (primSem N ρ ord ho) ρ (chainOf [b, b']) = 1 ∧ sem (primSem N ρ ord ho) ρ (chainOf [b', b]) = 1 := by
  have hs' : (order n support rv).length = n := by unfold order; split <;> simp [hs]
  have hnd' : (order n support rv).Nodup := by unfold order; split <;> simp [hnd]
  have hN' : ∀ q ∈ order n support rv, q < N := by unfold order; split <;> simpa using hN
  have ha := circ_adjoint ho ρ hpi hs' hnd' hN' sw
  have hu := Unitary.mem_iff.1 (circ_unitary ho ρ hpi hs' hnd' hN' sw)
  rw [star_eq_conjTranspose] at hu
  refine ⟨_, _, qft_ok ord value pi p hs false rv sw gb, qft_ok ord value pi p hs true rv sw gb, ha, ?_, ?_⟩
  · simp only [chainOf, sem_chain, List.map_cons, List.map_nil, opProd, one_mul]
    exact (congrArg (· * _) ha).trans hu.1
  · simp only [chainOf, sem_chain, List.map_cons, List.map_nil, opProd, one_mul]
    exact (congrArg (_ * ·) ha).trans hu.2

theorem mapM_error {α β : Type} {f : α → Except PyErr β} {e : PyErr} {l : List α} {a : α} (ha : a ∈ l)
    (h : f a = .error e) (hall : ∀ b ∈ l, ∀ e', f b = .error e' → e' = e) : l.mapM f = .error e := by
  induction l with
  | nil => simp at ha
  | cons b l ih =>
    rw [List.mapM_cons]
    cases hb : f b with
    | error e' => rw [hall b (by simp) e' hb]; rfl
    | ok v =>
      have hal : a ∈ l := by
        rcases List.mem_cons.1 ha with rfl | h'
        · rw [h] at hb; cases hb
        · exact h'
      rw [ok_bind, ih hal fun c hc => hall c (by simp [hc])]
      rfl

/-- Refusals: a support longer than `n` fails the assertion, an unknown strategy is a KeyError, and for `n > 0` the two
other strategies are not implemented. -/
theorem C44_refuses (ord : List ℕ → List ℕ) (value : Expr → ℚ) (pi : Expr) (p : ℚ) (n : ℕ) (support : Option (List ℕ))
    (inv rv sw : Bool) (st : Strategy) (gb : Option (Block Gate)) :
    (n < (support.getD (List.range n)).length → qft ord value pi p n support inv rv sw st gb = .error .assertionError) ∧
    ((support.getD (List.range n)).length ≤ n →
      (st = .other → qft ord value pi p n support inv rv sw st gb = .error .keyError) ∧
      (0 < n → st = .bdaqc ∨ st = .analog → qft ord value pi p n support inv rv sw st gb = .error .notImplementedError)) := by
  refine ⟨fun h => ?_, fun h => ⟨?_, ?_⟩⟩
  · rw [qft, resolveSupport, if_neg (by simpa using h)]
    rfl
  · rintro rfl
    rw [qft, resolve_ok h]
    rfl
  · intro hn hst
    rw [qft, resolve_ok h, ok_bind, if_neg (by rcases hst with rfl | rfl <;> simp)]
    have hl : 0 ∈ layers n inv := mem_layers.2 hn
    have he : ∀ l, layerFunc ord value pi p n (if rv then (support.getD (List.range n)).reverse else support.getD (List.range n))
        inv gb st l = .error .notImplementedError := by
      intro l
      rcases hst with rfl | rfl <;> rfl
    show ((layers n inv).mapM _ >>= _) = _
    rw [mapM_error hl (he 0) (by intro b _ e' h'; rw [he] at h'; cases h'; rfl)]
    rfl

/-- **C44 (defect)**: the assertion allows supports shorter than `n_qubits`, but the construction then always stops with
an IndexError. -/
theorem C44_counterexample_short_support (ord : List ℕ → List ℕ) (value : Expr → ℚ) (pi : Expr) (p : ℚ) {n : ℕ} {s : List ℕ}
    (h : s.length < n) (inv rv sw : Bool) (gb : Option (Block Gate)) :
    qft ord value pi p n (some s) inv rv sw .digital gb = .error .indexError := by
  rw [qft, resolve_ok (by simpa using h.le), ok_bind, if_neg (by simp)]
  generalize hs' : (if rv then ((some s).getD (List.range n)).reverse else (some s).getD (List.range n)) = s'
  have hlen : s'.length < n := by
    rw [← hs']
    split <;> simpa using h
  have hitem : ∀ i e, item s' i = .error e → e = .indexError := by
    intro i e he
    unfold item at he
    split at he <;> cases he
    rfl
  have hrot : ∀ l j e, layerRot pi s' l inv j = .error e → e = .indexError := by
    intro l j e he
    rw [layerRot] at he
    cases h1 : item s' j with
    | error e' => rw [h1] at he; cases he; exact hitem _ _ h1
    | ok c =>
      cases h2 : item s' l with
      | error e' => rw [h1, h2] at he; cases he; exact hitem _ _ h2
      | ok t => rw [h1, h2] at he; cases he
  have hmap : ∀ l (js : List ℕ) e, js.mapM (layerRot pi s' l inv) = .error e → e = .indexError := by
    intro l js
    induction js with
    | nil => intro e he; cases he
    | cons j js ih =>
      intro e he
      rw [List.mapM_cons] at he
      cases h1 : layerRot pi s' l inv j with
      | error e' => rw [h1] at he; cases he; exact hrot _ _ _ h1
      | ok c =>
        rw [h1, ok_bind] at he
        cases h2 : js.mapM (layerRot pi s' l inv) with
        | error e' => rw [h2] at he; cases he; exact ih _ h2
        | ok t => rw [h2] at he; cases he
  have hlayer : ∀ l e, layerDigital pi n s' inv l = .error e → e = .indexError := by
    intro l e he
    rw [layerDigital] at he
    cases h1 : (layerRange n l inv).mapM (layerRot pi s' l inv) with
    | error e' => rw [h1] at he; cases he; exact hmap _ _ _ h1
    | ok c =>
      rw [h1, ok_bind] at he
      cases h2 : item s' l with
      | error e' => rw [h2] at he; cases he; exact hitem _ _ h2
      | ok t => rw [h2] at he; cases he
  have hfail : layerDigital pi n s' inv (n - 1) = .error .indexError := by
    cases h0 : layerDigital pi n s' inv (n - 1) with
    | error e => rw [hlayer _ _ h0]
    | ok b =>
      rw [layerDigital, item_error (by omega)] at h0
      cases h1 : (layerRange n (n - 1) inv).mapM (layerRot pi s' (n - 1) inv) with
      | error e' => rw [h1] at h0; cases h0
      | ok c => rw [h1] at h0; cases h0
  show ((layers n inv).mapM (layerDigital pi n s' inv) >>= _) = _
  rw [mapM_error (mem_layers.2 (by omega : n - 1 < n)) hfail fun l _ e he => hlayer l e he]
  rfl

/-- A case of the hypotheses: three qubits of seven in a mixed order. -/
example (value : Expr → ℚ) (ρ : Env) : ∃ b, qft demoOrd value .pi 0 3 (some [5, 0, 3]) true true true .digital none = .ok b ∧
    sem (primSem 7 ρ demoOrd demoOrd_setOrder) ρ b = (embed ![3, 0, 5] (dft 3))ᴴ := by
  obtain ⟨b, hb, h⟩ := C44_fourier (N := 7) demoOrd_setOrder value ρ 0 (n := 3)
    (support := some [5, 0, 3]) (by decide) (by decide) (by decide) true true true none
  refine ⟨b, hb, h.trans ?_⟩
  simp only [if_true]
  congr 2
  funext i
  fin_cases i <;> rfl

end Qadence.QFT
