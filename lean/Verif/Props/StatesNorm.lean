import Verif.Props.States
import Verif.Proofs.PyDict

/-!
# C48: norms, endianness, random states, density matrices and overlaps of states
-/

namespace Qadence.States

open Spec Matrix Block

variable {n : ℕ}

/-- **C48**: the states prepared by all these blocks have norm one. -/
theorem C48_unit_vectors (n : ℕ) : (∀ y : St n, UnitVector (ket y)) ∧
    UnitVector (fun _ : St n => ((1 / Real.sqrt (2 ^ n) : ℝ) : ℂ)) ∧
    (0 < n → UnitVector (((1 / Real.sqrt 2 : ℝ) : ℂ) • (ket0 + ket1 : St n → ℂ))) := by
  refine ⟨unitVector_ket, ?_, fun hn => ?_⟩
  · unfold UnitVector
    have h1 : ‖((1 / Real.sqrt (2 ^ n) : ℝ) : ℂ)‖ ^ 2 = 1 / 2 ^ n := by
      rw [Complex.norm_real, Real.norm_eq_abs, sq_abs, div_pow, one_pow, Real.sq_sqrt (by positivity)]
    simp only [h1, Finset.sum_const, Finset.card_univ, Fintype.card_pi, Fintype.card_bool, Finset.prod_const,
      Fintype.card_fin, nsmul_eq_mul]
    push_cast
    field_simp
  · unfold UnitVector
    have hne : (fun _ => false : St n) ≠ fun _ => true := fun h => by
      have := congrFun h ⟨0, hn⟩
      simp at this
    have h1 : ‖((1 / Real.sqrt 2 : ℝ) : ℂ)‖ ^ 2 = 1 / 2 := by
      rw [Complex.norm_real, Real.norm_eq_abs, sq_abs, div_pow, one_pow, Real.sq_sqrt (by norm_num)]
    have h2 : ∀ x : St n, ‖(((1 / Real.sqrt 2 : ℝ) : ℂ) • (ket0 + ket1 : St n → ℂ)) x‖ ^ 2 =
        1 / 2 * ((if x = fun _ => false then 1 else 0) + (if x = fun _ => true then 1 else 0)) := by
      intro x
      rw [Pi.smul_apply, smul_eq_mul, norm_mul, mul_pow, h1, Pi.add_apply, ket0, ket1, ket, ket]
      by_cases ha : x = fun _ => false
      · have hb : ¬ x = fun _ => true := fun e => hne (ha.symm.trans e)
        rw [if_pos ha, if_neg hb, if_pos ha, if_neg hb]
        norm_num
      · by_cases hb : x = fun _ => true
        · rw [if_neg ha, if_pos hb, if_neg ha, if_pos hb]
          norm_num
        · rw [if_neg ha, if_neg hb, if_neg ha, if_neg hb]
          norm_num
    simp only [h2, ← Finset.mul_sum, Finset.sum_add_distrib, Finset.sum_ite_eq', Finset.mem_univ, if_true]
    norm_num

/-- **C48**: rows of states of norm one pass `is_normalized` for every tolerance, and only rows of states whose norm is
within the tolerance do. -/
theorem C48_is_normalized {wf : List (List ℂ)} {atol : ℝ} {φ : List ℂ → St n → ℂ} (e : Endian)
    (h : ∀ row ∈ wf, Tabulates e row (φ row)) :
    isNormalized wf atol ↔ ∀ row ∈ wf, |∑ x, ‖φ row x‖ ^ 2 - 1| ≤ atol := by
  unfold isNormalized
  refine forall₂_congr fun row hrow => ?_
  rw [tabulates_normSq (h row hrow)]

/-- **C48**: `normalize` scales a state which does not vanish to norm one. -/
theorem C48_normalize {e : Endian} {row : List ℂ} {φ : St n → ℂ} (h : Tabulates e row φ) (hne : φ ≠ 0) :
    ∃ c : ℝ, 0 < c ∧ Tabulates e (normalize row) ((c : ℂ) • φ) ∧ UnitVector ((c : ℂ) • φ) := by
  have hpos : 0 < ∑ x, ‖φ x‖ ^ 2 := by
    obtain ⟨x, hx⟩ := Function.ne_iff.1 hne
    exact Finset.sum_pos' (fun _ _ => by positivity) ⟨x, Finset.mem_univ x, by
      have : 0 < ‖φ x‖ := norm_pos_iff.2 (by simpa using hx)
      positivity⟩
  have hs : 0 < Real.sqrt (∑ x, ‖φ x‖ ^ 2) := Real.sqrt_pos.2 hpos
  refine ⟨1 / Real.sqrt (∑ x, ‖φ x‖ ^ 2), by positivity, ⟨by simp [normalize, h.1], fun x => ?_⟩, ?_⟩
  · rw [normalize, List.getElem?_map, h.2, tabulates_normSq h, Option.map_some, Pi.smul_apply, smul_eq_mul]
    push_cast
    congr 1
    rw [div_eq_mul_inv, one_div, mul_comm]
  · unfold UnitVector
    have : ∀ x, ‖(((1 / Real.sqrt (∑ x, ‖φ x‖ ^ 2) : ℝ) : ℂ) • φ) x‖ ^ 2 = (1 / ∑ x, ‖φ x‖ ^ 2) * ‖φ x‖ ^ 2 := by
      intro x
      rw [Pi.smul_apply, smul_eq_mul, norm_mul, mul_pow, Complex.norm_real, Real.norm_eq_abs, sq_abs, div_pow, one_pow,
        Real.sq_sqrt hpos.le]
    simp only [this, ← Finset.mul_sum]
    field_simp

/-- **C48**: the probabilities of `pmf` are the Born probabilities and sum to one. -/
theorem C48_pmf {e : Endian} {row : List ℂ} {φ : St n → ℂ} (h : Tabulates e row φ) (hu : UnitVector φ) :
    (∀ x, (pmf row)[bitstringValue e (List.ofFn x)]? = some (‖φ x‖ ^ 2)) ∧ (pmf row).sum = 1 := by
  refine ⟨fun x => ?_, ?_⟩
  · rw [pmf, List.getElem?_map, h.2, Option.map_some, norm_pow]
  · rw [pmf, tabulates_sum h]
    simp only [norm_pow]
    exact hu

/-! ## `product_state` -/

/-- The simulation computes the amplitudes of the state which the block makes out of the state of zeros. -/
def ExactSimulation (ρ : Env) (native : ℕ → Block Gate → Except PyErr (List (List ℂ))) : Prop :=
  ∀ (n : ℕ) (b : Block Gate), WellFormed Gate.supp b → (∀ q ∈ qubits Gate.supp b, q < n) →
    ∃ row, native n b = .ok [row] ∧ Tabulates .big row (sem (gateSem n ρ) ρ b *ᵥ ket0 : St n → ℂ)

theorem invert_tabulates {row : List ℂ} {φ : St n → ℂ} (h : Tabulates .big row φ) :
    ∃ out, invertRow n row = .ok out ∧ Tabulates .little out φ := by
  obtain ⟨out, h1, h2, h3, -⟩ := C04_invert_wavefunction n row h.1
  refine ⟨out, h1, h2, fun x => ?_⟩
  have := h3 (List.ofFn x) (by simp)
  rw [h.2] at this
  rw [← this, bitstringValue_little, bitstringValue_big]

/-- **C48**: `product_state` in either endianness is the row of `_state_from_bitstring`. -/
theorem C48_product_state {ord : List ℕ → List ℕ} (ho : SetOrder ord) {ρ : Env}
    {native : ℕ → Block Gate → Except PyErr (List (List ℂ))} (hx : ExactSimulation ρ native) {s : Bits} (hs : s ≠ []) (e : Endian) :
    ∃ row, productState native ord s e = .ok [row] ∧ stateFromBitstring s 1 e = .ok [row] ∧
      Tabulates e row (ket fun j : Fin s.length => s[j]) := by
  obtain ⟨b, rows, h1, h2, h3, h4, h5, h6, h7⟩ := C48_product_block ho ρ hs 1 e
  obtain ⟨r, hr, ht⟩ := hx s.length b h3 fun q hq => (h4 q).1 hq
  obtain ⟨row, rfl⟩ := List.length_eq_one_iff.1 h6
  have hrow := h7 row (by simp)
  rw [productState, h1, ok_bind, runEndian, hr, ok_bind]
  rw [h5] at hrow
  refine ⟨row, ?_, h2, hrow⟩
  rw [h5] at ht
  cases e with
  | big =>
    rw [tabulates_unique ht hrow]
    rfl
  | little =>
    obtain ⟨out, ho1, ho2⟩ := invert_tabulates ht
    simp only [invertWf, List.mapM_cons, ho1, List.mapM_nil]
    rw [tabulates_unique ho2 hrow]
    rfl

/-- **C48**: `product_state` of a list of strings of the same length has one row per string, in order. -/
theorem C48_product_states {ord : List ℕ → List ℕ} (ho : SetOrder ord) {ρ : Env}
    {native : ℕ → Block Gate → Except PyErr (List (List ℂ))} (hx : ExactSimulation ρ native) {ss : List Bits}
    (hs : ∀ s ∈ ss, s.length = n) (hn : 0 < n) :
    ∃ rows, productStates native ord ss = .ok rows ∧
      List.Forall₂ (fun s row => Tabulates .big row (ket fun j : Fin n => s.getD j false)) ss rows := by
  have h1 : ∀ s ∈ ss, ∃ row, productState native ord s .big = .ok [row] ∧
      Tabulates .big row (ket fun j : Fin n => s.getD j false) := by
    intro s hmem
    have hl := hs s hmem
    subst hl
    obtain ⟨row, h1, -, h3⟩ := C48_product_state ho hx (List.ne_nil_of_length_pos hn) .big
    refine ⟨row, h1, ?_⟩
    have : (fun j : Fin s.length => s.getD j false) = fun j => s[j] := by funext j; simp
    rwa [this]
  unfold productStates
  have : ∃ rows : List (List ℂ), ss.mapM (fun s => productState native ord s .big) = .ok (rows.map fun r => [r]) ∧
      List.Forall₂ (fun s row => Tabulates .big row (ket fun j : Fin n => s.getD j false)) ss rows := by
    clear hs
    induction ss with
    | nil => exact ⟨[], rfl, .nil⟩
    | cons s ss ih =>
      obtain ⟨rows, hr, hf⟩ := ih fun t ht => h1 t (by simp [ht])
      obtain ⟨row, h2, h3⟩ := h1 s (by simp)
      refine ⟨row :: rows, ?_, .cons h3 hf⟩
      rw [List.mapM_cons, h2, hr]
      rfl
  obtain ⟨rows, hr, hf⟩ := this
  refine ⟨rows, ?_, hf⟩
  rw [hr, ok_bind]
  have : (rows.map fun r => [r]).flatten = rows := by
    clear hr hf
    induction rows with
    | nil => rfl
    | cons r rows ih => simp [ih]
  rw [this]
  rfl

/-- **C48**: without qubits the blocks are refused (`kron` of nothing) and so are the states given by a bitstring. -/
theorem C48_no_qubits (ord : List ℕ → List ℕ) (batch : ℕ) (e : Endian) :
    productBlock ord [] = .error .notImplementedError ∧ stateFromBitstring [] batch e = .error .valueError ∧
      zeroBlock ord 0 = .error .notImplementedError ∧ zeroState 0 batch = .error .valueError := by
  refine ⟨rfl, ?_, rfl, rfl⟩
  cases e <;> rfl

/-! ## Random states -/

/-- **C48**: the rows of `rand_product_state` are basis states, whatever the random positions are. -/
theorem C48_rand_product_state {pos : List ℕ} (h : ∀ k ∈ pos, k < 2 ^ n) :
    List.Forall₂ (fun k row => ∃ y : St n, bitstringValue .big (List.ofFn y) = k ∧ Tabulates .big row (ket y)) pos
      (randProductState n pos) := by
  induction pos with
  | nil => exact .nil
  | cons k pos ih =>
    refine .cons ?_ (ih fun j hj => h j (by simp [hj]))
    obtain ⟨y, rfl⟩ := exists_position (n := n) .big (h k (by simp))
    exact ⟨y, rfl, tabulates_set .big y⟩

theorem sum_pos_of {x : List ℝ} (hne : x ≠ []) (h : ∀ a ∈ x, 0 < a) : 0 < x.sum := by
  cases x with
  | nil => exact absurd rfl hne
  | cons a x =>
    rw [List.sum_cons]
    have : 0 ≤ x.sum := List.sum_nonneg fun b hb => (h b (by simp [hb])).le
    have := h a (by simp)
    linarith

/-- **C48**: `_rand_haar_fast` gives a state of norm one for all random numbers between zero and one. -/
theorem C48_rand_haar_fast {u v : List ℝ} (hl : u.length = v.length) (hne : u ≠ []) (hu : ∀ t ∈ u, 0 < t ∧ t < 1) :
    (randHaarFast u v).length = u.length ∧ normSq (randHaarFast u v) = 1 := by
  have hx : ∀ a ∈ u.map fun t => -Real.log t, 0 < a := by
    intro a ha
    obtain ⟨t, ht, rfl⟩ := List.mem_map.1 ha
    have := hu t ht
    have := Real.log_neg this.1 this.2
    linarith
  have hS := sum_pos_of (by simpa using hne) hx
  refine ⟨by simp [randHaarFast, hl], ?_⟩
  unfold randHaarFast
  simp only []
  generalize hS' : (u.map fun t => -Real.log t).sum = S at hS ⊢
  have key : ∀ (x p : List ℝ), x.length = p.length → (∀ a ∈ x, 0 < a) →
      normSq (List.zipWith (fun a p : ℝ => ((Real.sqrt (a / S) : ℝ) : ℂ) * Complex.exp (Complex.I * p)) x p) = x.sum / S := by
    intro x
    induction x with
    | nil => intro p _ _; simp [normSq]
    | cons a x ih =>
      intro p hp ha
      cases p with
      | nil => simp at hp
      | cons b p =>
        have := ih p (by simpa using hp) fun c hc => ha c (by simp [hc])
        rw [normSq] at this ⊢
        rw [List.zipWith_cons_cons, List.map_cons, List.sum_cons, this, List.sum_cons, norm_mul, mul_pow,
          Complex.norm_real, Real.norm_eq_abs, sq_abs, Real.sq_sqrt (div_nonneg (ha a (by simp)).le hS.le),
          mul_comm Complex.I, Complex.norm_exp_ofReal_mul_I, one_pow, mul_one, add_div]
  rw [key _ _ (by simp [hl]) hx, hS', div_self hS.ne']

/-! ## Density matrices and overlaps -/

/-- **C48**: the density matrix of a state of norm one is Hermitian, idempotent and has trace one. -/
theorem C48_density_mat {e : Endian} {row : List ℂ} {φ : St n → ℂ} (h : Tabulates e row φ) (hu : UnitVector φ) :
    ∃ D : Oper n, (∀ x, Tabulates e ((densityMat row).getD (bitstringValue e (List.ofFn x)) []) (D x)) ∧
      Dᴴ = D ∧ D * D = D ∧ D.trace = 1 ∧ ∀ O, (O * D).trace = ∑ x, star (φ x) * (O *ᵥ φ) x := by
  have hu' : ∑ x, star (φ x) * φ x = 1 := by
    have h1 : ∀ x, star (φ x) * φ x = ((‖φ x‖ ^ 2 : ℝ) : ℂ) := by
      intro x
      rw [Complex.star_def, mul_comm, Complex.mul_conj, Complex.normSq_eq_norm_sq]
    simp only [h1]
    rw [← Complex.ofReal_sum, hu, Complex.ofReal_one]
  refine ⟨vecMulVec φ (star φ), fun x => ?_, ?_, ?_, ?_, fun O => ?_⟩
  · have hx := h.2 x
    have hd : (densityMat row)[bitstringValue e (List.ofFn x)]? =
        some (row.map fun b => φ x * (starRingEnd ℂ) b) := by
      rw [densityMat, List.getElem?_map, hx, Option.map_some]
    rw [List.getD_eq_getElem?_getD, hd, Option.getD_some]
    refine ⟨by simp [h.1], fun y => ?_⟩
    rw [List.getElem?_map, h.2 y, Option.map_some]
    rfl
  · rw [conjTranspose_vecMulVec, star_star]
  · ext x y
    simp only [mul_apply, vecMulVec_apply, Pi.star_apply]
    have : ∀ z, φ x * star (φ z) * (φ z * star (φ y)) = φ x * star (φ y) * (star (φ z) * φ z) := fun z => by ring
    simp only [this, ← Finset.mul_sum, hu', mul_one]
  · simp only [trace, diag, vecMulVec_apply, Pi.star_apply]
    rw [← hu']
    exact Finset.sum_congr rfl fun x _ => mul_comm _ _
  · simp only [trace, diag, mul_apply, vecMulVec_apply, Pi.star_apply, mulVec, dotProduct, Finset.mul_sum]
    refine Finset.sum_congr rfl fun x _ => Finset.sum_congr rfl fun y _ => by ring

theorem overlapExact_eq {e : Endian} {a b : List ℂ} {φ ψ : St n → ℂ} (ha : Tabulates e a φ) (hb : Tabulates e b ψ) :
    overlapExact a b = ‖braket φ ψ‖ ^ 2 := by
  have hl : (List.zipWith (fun a b => (starRingEnd ℂ) a * b) a b).length = 2 ^ n := by simp [ha.1, hb.1]
  have ht : Tabulates e (List.zipWith (fun a b => (starRingEnd ℂ) a * b) a b) (fun x => star (φ x) * ψ x) := by
    refine ⟨hl, fun x => ?_⟩
    rw [List.getElem?_zipWith, ha.2, hb.2]
    rfl
  have := tabulates_sum ht id
  rw [List.map_id] at this
  rw [overlapExact, this]
  rfl

/-- What is left of a state after the projection on another one. -/
theorem residual {φ ψ : St n → ℂ} (hφ : UnitVector φ) (hψ : UnitVector ψ) :
    ∑ x, ‖ψ x - braket φ ψ * φ x‖ ^ 2 = 1 - ‖braket φ ψ‖ ^ 2 := by
  have hc : ∀ z : ℂ, ((‖z‖ ^ 2 : ℝ) : ℂ) = star z * z := by
    intro z
    rw [Complex.star_def, mul_comm, Complex.mul_conj, Complex.normSq_eq_norm_sq]
  have h1 : ∑ x, star (φ x) * φ x = 1 := by
    simp only [← hc]; rw [← Complex.ofReal_sum, hφ, Complex.ofReal_one]
  have h2 : ∑ x, star (ψ x) * ψ x = 1 := by
    simp only [← hc]; rw [← Complex.ofReal_sum, hψ, Complex.ofReal_one]
  apply Complex.ofReal_injective
  rw [Complex.ofReal_sum, Complex.ofReal_sub, hc, Complex.ofReal_one]
  simp only [hc]
  have h3 : ∑ x, star (ψ x) * φ x = star (braket φ ψ) := by
    rw [braket, star_sum]
    exact Finset.sum_congr rfl fun x _ => by rw [star_mul', star_star, mul_comm]
  have h4 : ∀ x, star (ψ x - braket φ ψ * φ x) * (ψ x - braket φ ψ * φ x) = star (ψ x) * ψ x -
      braket φ ψ * (star (ψ x) * φ x) - star (braket φ ψ) * (star (φ x) * ψ x) +
      star (braket φ ψ) * braket φ ψ * (star (φ x) * φ x) := by
    intro x
    rw [star_sub, star_mul']
    ring
  simp only [h4, Finset.sum_add_distrib, Finset.sum_sub_distrib, ← Finset.mul_sum, h1, h2, h3]
  have h5 : ∑ x, star (φ x) * ψ x = braket φ ψ := rfl
  rw [h5]
  ring

/-- **C48**: `overlap` of two states of norm one is between zero and one and symmetric; it is one exactly for states which
differ by a phase. -/
theorem C48_overlap {e : Endian} {a b : List ℂ} {φ ψ : St n → ℂ} (ha : Tabulates e a φ) (hb : Tabulates e b ψ)
    (hφ : UnitVector φ) (hψ : UnitVector ψ) :
    overlapExact a b = ‖braket φ ψ‖ ^ 2 ∧ 0 ≤ overlapExact a b ∧ overlapExact a b ≤ 1 ∧ overlapExact a b = overlapExact b a ∧
      (overlapExact a b = 1 ↔ ∃ c : ℂ, ‖c‖ = 1 ∧ ψ = c • φ) := by
  have hr := residual hφ hψ
  have h0 : 0 ≤ ∑ x, ‖ψ x - braket φ ψ * φ x‖ ^ 2 := Finset.sum_nonneg fun _ _ => by positivity
  have hsymm : braket ψ φ = star (braket φ ψ) := by
    rw [braket, braket, star_sum]
    exact Finset.sum_congr rfl fun x _ => by rw [star_mul', star_star, mul_comm]
  rw [overlapExact_eq ha hb, overlapExact_eq hb ha]
  refine ⟨rfl, by positivity, by linarith, by rw [hsymm, norm_star], fun h => ?_, ?_⟩
  · rw [h, sub_self] at hr
    refine ⟨braket φ ψ, ?_, ?_⟩
    · have := norm_nonneg (braket φ ψ)
      nlinarith [h]
    · funext x
      have := (Finset.sum_eq_zero_iff_of_nonneg (fun _ _ => by positivity)).1 hr x (Finset.mem_univ x)
      have : ψ x - braket φ ψ * φ x = 0 := by simpa using this
      rw [Pi.smul_apply, smul_eq_mul]
      linear_combination this
  · rintro ⟨c, hc, rfl⟩
    have : braket φ (c • φ) = c := by
      have h1 : ∀ x, star (φ x) * (c • φ) x = c * ((‖φ x‖ ^ 2 : ℝ) : ℂ) := by
        intro x
        rw [Pi.smul_apply, smul_eq_mul, ← Complex.normSq_eq_norm_sq, ← Complex.mul_conj, Complex.star_def]
        ring
      rw [braket]
      simp only [h1, ← Finset.mul_sum]
      rw [← Complex.ofReal_sum, hφ, Complex.ofReal_one, mul_one]
    rw [this, hc, one_pow]

/-! ## Examples -/

theorem exists_row (e : Endian) (φ : St n → ℂ) : ∃ row, Tabulates e row φ := by
  have h : ∀ k : Fin (2 ^ n), ∃ x : St n, bitstringValue e (List.ofFn x) = k := fun k => exists_position e k.2
  choose g hg using h
  refine ⟨List.ofFn fun k => φ (g k), by simp, fun x => ?_⟩
  have hx : bitstringValue e (List.ofFn x) < 2 ^ n := by simpa using bitstringValue_lt e (List.ofFn x)
  rw [List.getElem?_ofFn, dif_pos hx]
  have : g ⟨_, hx⟩ = x := List.ofFn_injective (bitstringValue_inj e (by simp) (hg ⟨_, hx⟩))
  rw [this]

/-- There is an exact simulation. -/
example (ρ : Env) : ∃ native, ExactSimulation ρ native :=
  ⟨fun n b => .ok [(exists_row .big (sem (gateSem n ρ) ρ b *ᵥ ket0 : St n → ℂ)).choose], fun _ _ _ _ =>
    ⟨_, rfl, (exists_row .big _).choose_spec⟩⟩

/-- `product_block("101")` and `product_state("101")`. -/
example : productBlock demoOrd [true, false, true] =
      .ok (.comp .kron [.leaf (.fixed .X 0) none, .leaf (.fixed .I 1) none, .leaf (.fixed .X 2) none] none) ∧
    stateFromBitstring [true, true, false] 1 .big = .ok [[0, 0, 0, 0, 0, 0, 1, 0]] ∧
    stateFromBitstring [true, true, false] 1 .little = .ok [[0, 0, 0, 1, 0, 0, 0, 0]] :=
  ⟨rfl, by rw [stateFromBitstring_ok (by simp)]; simp [bitstringValue, Finset.sum_range_succ, List.replicate_succ],
    by rw [stateFromBitstring_ok (by simp)]; simp [bitstringValue, Finset.sum_range_succ, List.replicate_succ]⟩

/-- `ghz_block(3)`. -/
example : ghzBlock 3 = .comp .chain [.leaf (.fixed .H 0) none,
    .comp .chain [.leaf (Gate.cnot 0 1) none, .leaf (Gate.cnot 1 2) none] none] none := rfl

/-- Random numbers for `_rand_haar_fast`, and a state which is not normalised. -/
example : (∀ t ∈ [(1 / 2 : ℝ), 1 / 3, 1 / 4, 1 / 5], 0 < t ∧ t < 1) ∧
    (Tabulates .big [(3 : ℂ), 4] (fun x : St 1 => if x 0 then 4 else 3) ∧ ((fun x : St 1 => if x 0 then (4 : ℂ) else 3) ≠ 0)) := by
  refine ⟨by simp; norm_num, ⟨rfl, fun x => ?_⟩, fun h => ?_⟩
  · rw [bitstringValue_big]
    cases hx : x 0 <;> simp [bitVal, hx]
  · have := congrFun h fun _ => false
    norm_num at this

end Qadence.States
