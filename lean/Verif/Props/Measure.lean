import Mathlib.Tactic
import Verif.Model.Measure
import Verif.Spec.Measure
import Verif.Proofs.Except
import Verif.Proofs.PyDict
import Verif.Proofs.Embed1

/-!
# C31 (parity estimates), C32 (marginal counts)
-/

namespace Qadence.Measure

open Spec

/-- Sum of a weight over the shots of a counter. -/
def wsum (w : Bits → ℚ) (c : PyDict Bits ℕ) : ℚ := (c.map fun kv => (kv.2 : ℚ) * w kv.1).sum

theorem wsum_filter_pos (w : Bits → ℚ) (c : PyDict Bits ℕ) : wsum w (c.filter fun kv => 0 < kv.2) = wsum w c := by
  induction c with
  | nil => rfl
  | cons a c ih =>
    rw [List.filter_cons]
    split
    · simp [wsum] at ih ⊢; rw [ih]
    · next h =>
      have : a.2 = 0 := by simpa using h
      simp [wsum] at ih ⊢
      rw [ih, this]; simp

theorem wsum_append (w : Bits → ℚ) (c d : PyDict Bits ℕ) : wsum w (c ++ d) = wsum w c + wsum w d := by simp [wsum]

theorem wsum_bump (w : Bits → ℚ) (c : PyDict Bits ℕ) (hc : c.WF) (k : Bits) (v : ℕ) :
    wsum w (c.map fun kv => (kv.1, kv.2 + if k = kv.1 then v else 0)) =
      wsum w c + if k ∈ c.map Prod.fst then (v : ℚ) * w k else 0 := by
  induction c with
  | nil => simp [wsum]
  | cons a c ih =>
    have hc' : (a.1 ∉ c.map Prod.fst) ∧ (c.map Prod.fst).Nodup := by simpa [PyDict.WF] using hc
    have ih := ih hc'.2
    simp only [wsum, List.map_cons, List.sum_cons] at ih ⊢
    rw [ih]
    by_cases h : k = a.1
    · subst h
      rw [if_neg hc'.1, if_pos rfl, if_pos (by simp)]
      push_cast; ring
    · rw [if_neg h]
      simp only [List.mem_cons, h, false_or]
      push_cast; ring

theorem counterAdd_single (w : Bits → ℚ) (a : PyDict Bits ℕ) (ha : a.WF) (k : Bits) (v : ℕ) :
    wsum w (counterAdd a [(k, v)]) = wsum w a + v * w k := by
  rw [counterAdd, wsum_append, wsum_filter_pos]
  have e : (a.map fun kv => (kv.1, kv.2 + (PyDict.get? [(k, v)] kv.1).getD 0)) =
      a.map fun kv => (kv.1, kv.2 + if k = kv.1 then v else 0) := by
    apply List.map_congr_left
    intro kv _
    by_cases h : k = kv.1 <;> simp [PyDict.get?, h]
  rw [e, wsum_bump w a ha]
  by_cases h : k ∈ a.map Prod.fst
  · have h2 : (a.get? k).isNone = false := by
      rw [Option.isNone_eq_false_iff]; exact PyDict.get?_isSome_iff.2 h
    rw [if_pos h]
    simp [h2, wsum]
  · have h2 : (a.get? k).isNone = true := by
      rw [Option.isNone_iff_eq_none]; exact PyDict.get?_eq_none_iff.2 h
    rw [if_neg h]
    by_cases hv : 0 < v
    · simp [h2, hv, wsum]
    · have : v = 0 := by omega
      simp [this, wsum]

theorem counterAdd_WF (a : PyDict Bits ℕ) (ha : a.WF) (k : Bits) (v : ℕ) : (counterAdd a [(k, v)]).WF := by
  unfold counterAdd PyDict.WF
  rw [List.map_append, List.nodup_append]
  have h1 : ((a.map fun kv => (kv.1, kv.2 + (PyDict.get? [(k, v)] kv.1).getD 0)).filter (fun kv => 0 < kv.2)).map Prod.fst
      |>.Sublist (a.map Prod.fst) := by
    have := (List.filter_sublist (p := fun kv : Bits × ℕ => decide (0 < kv.2))
      (l := a.map fun kv => (kv.1, kv.2 + (PyDict.get? [(k, v)] kv.1).getD 0))).map Prod.fst
    simpa [Function.comp_def] using this
  refine ⟨h1.nodup ha, ?_, ?_⟩
  · rw [List.filter_cons]; split <;> simp
  · intro x hx y hy
    have hx' := h1.subset hx
    clear h1 hx
    rw [List.filter_cons] at hy
    split at hy
    · next h =>
      simp at hy h
      have := h.1
      rw [PyDict.get?_eq_none_iff] at this
      rw [hy]
      rintro rfl
      exact this hx'
    · simp at hy

theorem restrict_ok {support : List ℕ} {k : Bits} (h : ∀ i ∈ support, i < k.length) :
    restrict support k = .ok (support.map fun i => k.getD i false) := by
  apply mapM_ok_map
  intro i hi
  have := h i hi
  simp [bitAt, this]

/-- The marginal counter sums any weight of the restricted bitstring over all shots. -/
theorem marginal_spec {support : List ℕ} {sample : PyDict Bits ℕ} (hne : sample ≠ [])
    (hl : ∀ kv ∈ sample, ∀ i ∈ support, i < kv.1.length) : ∃ c, marginal support sample = .ok c ∧ c.WF ∧
      ∀ w, wsum w c = (sample.map fun kv => (kv.2 : ℚ) * w (support.map fun i => kv.1.getD i false)).sum := by
  have key : ∀ (l : List (Bits × ℕ)) (c : PyDict Bits ℕ), c.WF →
      (l.foldl (fun c kv => counterAdd c [kv]) c).WF ∧
      ∀ w, wsum w (l.foldl (fun c kv => counterAdd c [kv]) c) = wsum w c + wsum w l := by
    intro l
    induction l with
    | nil => intro c hc; exact ⟨hc, by simp [wsum]⟩
    | cons a l ih =>
      intro c hc
      obtain ⟨h1, h2⟩ := ih _ (counterAdd_WF c hc a.1 a.2)
      refine ⟨h1, fun w => ?_⟩
      rw [List.foldl_cons, h2 w, counterAdd_single w c hc]
      simp [wsum]; ring
  obtain ⟨a, l, rfl⟩ := List.exists_cons_of_ne_nil hne
  have e : (a :: l).mapM (fun kv => do
      let k ← restrict support kv.1
      return [(k, kv.2)]) = .ok ((a :: l).map fun kv => [(support.map fun i => kv.1.getD i false, kv.2)]) := by
    apply mapM_ok_map
    intro kv hkv
    rw [restrict_ok (hl kv hkv)]; rfl
  refine ⟨_, by rw [marginal, e]; rfl, ?_⟩
  rw [List.foldl_map]
  have := key (l.map fun kv => (support.map fun i => kv.1.getD i false, kv.2))
    [(support.map fun i => a.1.getD i false, a.2)] (by simp [PyDict.WF])
  rw [List.foldl_map] at this
  refine ⟨this.1, fun w => ?_⟩
  rw [this.2 w]
  simp [wsum, Function.comp_def]

theorem countOf_cast (c : PyDict Bits ℕ) (k : Bits) : (countOf c k : ℚ) = wsum (fun k' => if k' = k then 1 else 0) c := by
  induction c with
  | nil => rfl
  | cons a c ih =>
    unfold countOf wsum at *
    rw [List.filter_cons]
    by_cases h : a.1 = k
    · simp only [h, decide_true, if_true, List.map_cons, List.sum_cons]
      rw [Nat.cast_add, ih, mul_one]
    · simp only [h, decide_false, Bool.false_eq_true, if_false, List.map_cons, List.sum_cons]
      rw [ih]; simp

theorem totalShots_cast (c : PyDict Bits ℕ) : (totalShots c : ℚ) = wsum (fun _ => 1) c := by
  unfold totalShots wsum
  induction c with
  | nil => rfl
  | cons a c ih => simp only [List.map_cons, List.sum_cons]; rw [Nat.cast_add, ih]; simp

theorem sum_filter_cast (l : List (Bits × ℕ)) (p : Bits → Prop) [DecidablePred p] :
    (((l.filter fun kv => p kv.1).map Prod.snd).sum : ℚ) = (l.map fun kv => (kv.2 : ℚ) * if p kv.1 then 1 else 0).sum := by
  induction l with
  | nil => rfl
  | cons a l ih =>
    rw [List.filter_cons]
    by_cases h : p a.1
    · simp only [h, decide_true, if_true, List.map_cons, List.sum_cons]
      push_cast
      rw [← ih]
      push_cast; ring
    · simp only [h, decide_false, Bool.false_eq_true, if_false, List.map_cons, List.sum_cons]
      rw [← ih]
      push_cast; ring

/-- **C32**: the marginal counter sums the counts of the outcomes which agree on the support, and keeps the number of
shots. -/
theorem C32_marginal {support : List ℕ} {sample : PyDict Bits ℕ} (hne : sample ≠ [])
    (hl : ∀ kv ∈ sample, ∀ i ∈ support, i < kv.1.length) : ∃ c, marginal support sample = .ok c ∧ c.WF ∧
      totalShots c = totalShots sample ∧
      ∀ k, countOf c k = ((sample.filter fun kv => support.map (fun i => kv.1.getD i false) = k).map Prod.snd).sum := by
  obtain ⟨c, h1, h2, h3⟩ := marginal_spec hne hl
  refine ⟨c, h1, h2, ?_, fun k => ?_⟩
  · have : (totalShots c : ℚ) = totalShots sample := by
      rw [totalShots_cast, h3, totalShots_cast, wsum]
    exact_mod_cast this
  · have := sum_filter_cast sample (fun k' => support.map (fun i => k'.getD i false) = k)
    have e : (countOf c k : ℚ) = (((sample.filter fun kv => support.map (fun i => kv.1.getD i false) = k).map Prod.snd).sum : ℕ) := by
      rw [countOf_cast, h3, ← this]
    exact_mod_cast e

/-- **C32**: all counters of a batch. -/
theorem C32_get_counts {samples : List (PyDict Bits ℕ)} {support : List ℕ} (hne : ∀ s ∈ samples, s ≠ [])
    (hl : ∀ s ∈ samples, ∀ kv ∈ s, ∀ i ∈ support, i < kv.1.length) : ∃ cs, getCounts samples support = .ok cs ∧
      List.Forall₂ (fun s c => totalShots c = totalShots s ∧ ∀ k, countOf c k =
        ((s.filter fun kv => support.map (fun i => kv.1.getD i false) = k).map Prod.snd).sum) samples cs := by
  induction samples with
  | nil => exact ⟨[], rfl, .nil⟩
  | cons s samples ih =>
    obtain ⟨cs, h1, h2⟩ := ih (fun t ht => hne t (by simp [ht])) (fun t ht => hl t (by simp [ht]))
    obtain ⟨c, h3, -, h4, h5⟩ := C32_marginal (hne s (by simp)) (hl s (by simp))
    refine ⟨c :: cs, ?_, .cons ⟨h4, h5⟩ h2⟩
    unfold getCounts at h1 ⊢
    rw [List.mapM_cons, h3, ok_bind, h1, ok_bind]; rfl

/-- **C32**: an empty counter is refused. -/
theorem C32_empty (support : List ℕ) : marginal support [] = .error .typeError := rfl

/-- **C32**: qubits outside the bitstrings are refused. -/
theorem C32_out_of_range {support : List ℕ} {k : Bits} {i : ℕ} (hi : i ∈ support) (h : k.length ≤ i) :
    restrict support k = .error .indexError := by
  unfold restrict
  induction support with
  | nil => simp at hi
  | cons j support ih =>
    rw [List.mapM_cons]
    by_cases hj : k.length ≤ j
    · simp [bitAt, hj]; rfl
    · have : i ∈ support := by
        rcases List.mem_cons.1 hi with rfl | h'
        · exact absurd h hj
        · exact h'
      rw [ih this]
      simp only [not_le] at hj
      simp [bitAt, hj]; rfl

/-- Two of three qubits. -/
example : marginal [2, 0] [([false, true, true], 5), ([true, true, false], 2), ([false, false, true], 4)] =
    .ok [([true, false], 9), ([false, true], 2)] := by decide

theorem parity_restrict (support : List ℕ) (k : Bits) :
    ((-1) ^ ((support.map fun i => k.getD i false).map Bool.toNat).sum : ℚ) = parity support k := by
  unfold parity
  push_cast
  congr 1
  induction support with
  | nil => rfl
  | cons i s ih =>
    simp only [List.map_cons, List.sum_cons, List.countP_cons, ih]
    cases k.getD i false <;> simp; omega

theorem marginal_parity {support : List ℕ} {sample c : PyDict Bits ℕ} (hne : sample ≠ [])
    (hl : ∀ kv ∈ sample, ∀ i ∈ support, i < kv.1.length) (h : marginal support sample = .ok c) :
    totalShots c = totalShots sample ∧ paritySum c = (sample.map fun kv => (kv.2 : ℚ) * parity support kv.1).sum := by
  obtain ⟨c', h1, -, h3⟩ := marginal_spec hne hl
  rw [h] at h1
  cases h1
  constructor
  · have : (totalShots c : ℚ) = totalShots sample := by
      rw [totalShots_cast, h3, totalShots_cast, wsum]
    exact_mod_cast this
  · have := h3 (fun k => (-1) ^ (k.map Bool.toNat).sum)
    simp only [wsum, parity_restrict] at this
    rw [paritySum, this]

/-- **C31**: for counters with the same number of shots, the empirical average is the frequency-weighted mean of the
parity on the given qubits. -/
theorem C31_mean {samples : List (PyDict Bits ℕ)} {support : List ℕ} {N : ℕ} (hN : 0 < N) (hs : samples ≠ [])
    (hshots : ∀ s ∈ samples, totalShots s = N) (hl : ∀ s ∈ samples, ∀ kv ∈ s, ∀ i ∈ support, i < kv.1.length) :
    empiricalAverage samples support = .ok (samples.map (meanParity support)) := by
  have hne : ∀ s ∈ samples, s ≠ [] := by
    rintro s hs' rfl
    have := hshots _ hs'
    simp [totalShots] at this
    omega
  have key : ∃ g : PyDict Bits ℕ → PyDict Bits ℕ, ∀ s ∈ samples, marginal support s = .ok (g s) := by
    refine ⟨fun s => (marginal support s).toOption.getD [], fun s hs' => ?_⟩
    obtain ⟨c, h, -⟩ := marginal_spec (hne s hs') (hl s hs')
    simp [h, Except.toOption]
  obtain ⟨g, hg⟩ := key
  have e : getCounts samples support = .ok (samples.map g) := mapM_ok_map hg
  obtain ⟨s, ss, rfl⟩ := List.exists_cons_of_ne_nil hs
  have hsum : ∀ t ∈ s :: ss, ((g t).map Prod.snd).sum = N := by
    intro t ht
    have := (marginal_parity (hne t ht) (hl t ht) (hg t ht)).1
    rw [hshots t ht] at this
    exact this
  rw [empiricalAverage, e, ok_bind]
  simp only [List.map_cons]
  rw [hsum s (by simp), if_neg (by omega), pure_eq_ok]
  congr 1
  rw [List.map_map, ← List.map_cons]
  change List.map (fun t => paritySum (g t) / (N : ℚ)) (s :: ss) = _
  apply List.map_congr_left
  intro t ht
  rw [(marginal_parity (hne t ht) (hl t ht) (hg t ht)).2, meanParity, hshots t ht]

/-- **C31**: the estimate lies in [-1, 1]. -/
theorem C31_range (support : List ℕ) (c : List (Bits × ℕ)) : |meanParity support c| ≤ 1 := by
  have hp : ∀ k : Bits, |(parity support k : ℚ)| = 1 := by
    intro k; unfold parity; push_cast; rw [abs_pow]; simp
  have h : |(c.map fun kv => (kv.2 : ℚ) * parity support kv.1).sum| ≤ totalShots c := by
    induction c with
    | nil => simp [totalShots]
    | cons a c ih =>
      have ht : (totalShots (a :: c) : ℚ) = a.2 + totalShots c := by simp [totalShots]
      rw [List.map_cons, List.sum_cons, ht]
      refine (abs_add_le _ _).trans (add_le_add ?_ ih)
      rw [abs_mul, hp]; simp
  unfold meanParity
  rw [abs_div, Nat.abs_cast]
  exact div_le_one_of_le₀ h (by positivity)

/-- **C31** fails for counters with different numbers of shots: the second average is 2. -/
theorem C31_counterexample_unequal_shots :
    empiricalAverage [[([false], 1)], [([false], 2)]] [0] = .ok [1, 2] := by decide +kernel

example : empiricalAverage [[([false, true], 3), ([true, true], 1)], [([true, false], 4)]] [0, 1] = .ok [-1/2, -1] := by
  decide +kernel

/-! ### Exact expectation values -/

variable {n : ℕ}

theorem getD_ofFn (x : St n) (q : ℕ) : (List.ofFn x).getD q false = bit x q := by
  by_cases h : q < n
  · simp [bit, h, List.getD]
  · simp [bit, h, List.getD]

theorem embed1_Z_apply (q : ℕ) (hq : q < n) (x y : St n) :
    (embed1 q (mat1 .Z) : Oper n) x y = if x = y then (if bit x q then -1 else 1) else 0 := by
  by_cases h : x = y
  · subst h; simp [embed1, mat1]
  · rw [if_neg h]
    unfold embed1
    split
    · next h2 =>
      have : bit x q ≠ bit y q := by
        intro h3
        apply h
        funext j
        by_cases hj : q = j
        · rw [bit_of_lt hq, bit_of_lt hq] at h3
          have : j = ⟨q, hq⟩ := Fin.ext hj.symm
          rw [this]; exact h3
        · exact h2 j hj
      simp [mat1, this]
    · rfl

/-- Z strings are diagonal, with the parity on the diagonal. -/
theorem zString_eq (qs : List ℕ) (h : ∀ q ∈ qs, q < n) :
    (zString qs : Oper n) = Matrix.diagonal fun x => (parity qs (List.ofFn x) : ℂ) := by
  induction qs with
  | nil => simp [zString, opProd, parity]
  | cons q qs ih =>
    have hd : (embed1 q (mat1 .Z) : Oper n) = Matrix.diagonal fun x => if bit x q then -1 else 1 := by
      ext x y
      rw [embed1_Z_apply q (h q (by simp)), Matrix.diagonal_apply]
    have e : (zString (q :: qs) : Oper n) = zString qs * embed1 q (mat1 .Z) := by simp [zString, opProd]
    rw [e, ih fun p hp => h p (by simp [hp]), hd, Matrix.diagonal_mul_diagonal]
    congr 1
    funext x
    unfold parity
    rw [List.countP_cons, getD_ofFn]
    cases bit x q <;> simp [pow_succ]

/-- Exact expectation value of a Z string. -/
theorem expct_zString (qs : List ℕ) (h : ∀ q ∈ qs, q < n) (φ : St n → ℂ) :
    expct (zString qs) φ = ∑ x, ((‖φ x‖ ^ 2 * parity qs (List.ofFn x) : ℝ) : ℂ) := by
  rw [zString_eq qs h, expct, dotProduct]
  apply Finset.sum_congr rfl
  intro x _
  rw [Matrix.mulVec_diagonal]
  simp only [Pi.star_apply, RCLike.star_def]
  have : (starRingEnd ℂ) (φ x) * φ x = ((‖φ x‖ ^ 2 : ℝ) : ℂ) := by
    rw [mul_comm, Complex.mul_conj, Complex.normSq_eq_norm_sq]
  push_cast at this ⊢
  rw [← this]; ring

/-- Sum over the counter as a sum over all bitstrings. -/
theorem sum_counter (c : List (Bits × ℕ)) (hw : ∀ kv ∈ c, kv.1.length = n) (f : Bits → ℝ) :
    (c.map fun kv => (kv.2 : ℝ) * f kv.1).sum = ∑ x : St n, (countOf c (List.ofFn x) : ℝ) * f (List.ofFn x) := by
  induction c with
  | nil => simp [countOf]
  | cons a c ih =>
    have hc : ∀ x : St n, (countOf (a :: c) (List.ofFn x) : ℝ) = (if a.1 = List.ofFn x then (a.2 : ℝ) else 0) +
        countOf c (List.ofFn x) := by
      intro x
      unfold countOf
      rw [List.filter_cons]
      by_cases h : a.1 = List.ofFn x <;> simp [h]
    simp only [List.map_cons, List.sum_cons, hc, add_mul, Finset.sum_add_distrib]
    rw [← ih fun kv hkv => hw kv (by simp [hkv])]
    congr 1
    have hl := hw a (by simp)
    have ha : a.1 = List.ofFn (fun i : Fin n => a.1[i]'(by rw [hl]; exact i.2)) := by
      apply List.ext_getElem
      · simp [hl]
      · intro i h1 h2; simp
    rw [Finset.sum_eq_single (fun i : Fin n => a.1[i]'(by rw [hl]; exact i.2))]
    · rw [← ha, if_pos rfl]
    · intro x _ hx
      rw [if_neg, zero_mul]
      intro h
      apply hx
      rw [ha] at h
      exact (List.ofFn_injective h).symm
    · simp

theorem mean_eq_sum {c : List (Bits × ℕ)} (hw : ∀ kv ∈ c, kv.1.length = n) (qs : List ℕ) :
    ((meanParity qs c : ℚ) : ℝ) = (∑ x : St n, (countOf c (List.ofFn x) : ℝ) * parity qs (List.ofFn x)) / totalShots c := by
  rw [← sum_counter c hw (fun k => (parity qs k : ℝ))]
  unfold meanParity
  push_cast
  congr 1
  induction c with
  | nil => simp
  | cons a c ih =>
    simp only [List.map_cons, List.sum_cons]
    push_cast
    rw [ih fun kv hkv => hw kv (by simp [hkv])]

/-- **C31**: if the frequencies are the Born probabilities of a state, the estimate is the exact expectation value of the
Z string. -/
theorem C31_born {N : ℕ} (hN : 0 < N) {φ : St n → ℂ} {c : List (Bits × ℕ)} (hc : BornCounter N φ c) (qs : List ℕ)
    (hq : ∀ q ∈ qs, q < n) : ((meanParity qs c : ℚ) : ℂ) = expct (zString qs) φ := by
  have h : ((meanParity qs c : ℚ) : ℝ) = ∑ x, (‖φ x‖ ^ 2 * parity qs (List.ofFn x) : ℝ) := by
    rw [mean_eq_sum hc.width, hc.shots, Finset.sum_div]
    apply Finset.sum_congr rfl
    intro x _
    rw [hc.born x]
    have : (N : ℝ) ≠ 0 := by positivity
    field_simp
  rw [expct_zString qs hq, ← Complex.ofReal_sum, ← h]
  norm_cast

/-- **C31**: with independent shots the estimate is unbiased. The probability of a sequence of shots is the product of the
probabilities of its outcomes. -/
theorem C31_unbiased {N : ℕ} (hN : 0 < N) {φ : St n → ℂ} (hφ : ∑ x, ‖φ x‖ ^ 2 = 1) (counter : (Fin N → St n) → List (Bits × ℕ))
    (hw : ∀ ω, ∀ kv ∈ counter ω, kv.1.length = n)
    (hc : ∀ ω x, countOf (counter ω) (List.ofFn x) = (Finset.univ.filter fun i => ω i = x).card)
    (ht : ∀ ω, totalShots (counter ω) = N) (qs : List ℕ) (hq : ∀ q ∈ qs, q < n) :
    ∑ ω : Fin N → St n, (((∏ i, ‖φ (ω i)‖ ^ 2) * (meanParity qs (counter ω) : ℝ) : ℝ) : ℂ) = expct (zString qs) φ := by
  have h1 : ∀ ω, ((meanParity qs (counter ω) : ℚ) : ℝ) = (∑ i, (parity qs (List.ofFn (ω i)) : ℝ)) / N := by
    intro ω
    rw [mean_eq_sum (hw ω), ht]
    congr 1
    simp only [hc, Finset.card_filter, Nat.cast_sum, Finset.sum_mul]
    rw [Finset.sum_comm]
    apply Finset.sum_congr rfl
    intro i _
    rw [Finset.sum_eq_single (ω i)]
    · simp
    · intro x _ hx; rw [if_neg (fun e => hx e.symm)]; simp
    · simp
  have h2 : ∀ i : Fin N, ∑ ω : Fin N → St n, (∏ j, ‖φ (ω j)‖ ^ 2) * (parity qs (List.ofFn (ω i)) : ℝ) =
      ∑ x, ‖φ x‖ ^ 2 * (parity qs (List.ofFn x) : ℝ) := by
    intro i
    have : ∀ ω : Fin N → St n, (∏ j, ‖φ (ω j)‖ ^ 2) * (parity qs (List.ofFn (ω i)) : ℝ) =
        ∏ j, (‖φ (ω j)‖ ^ 2 * if j = i then (parity qs (List.ofFn (ω j)) : ℝ) else 1) := by
      intro ω
      rw [Finset.prod_mul_distrib, Finset.prod_ite_eq' Finset.univ i]
      simp
    simp only [this]
    rw [← Fintype.prod_sum (fun (j : Fin N) (x : St n) => ‖φ x‖ ^ 2 * if j = i then (parity qs (List.ofFn x) : ℝ) else 1)]
    rw [Finset.prod_eq_single i]
    · simp
    · intro j _ hj
      simp [hj, hφ]
    · simp
  rw [expct_zString qs hq, ← Complex.ofReal_sum, ← Complex.ofReal_sum]
  congr 1
  simp only [h1, mul_div_assoc']
  rw [← Finset.sum_div, div_eq_iff (by positivity)]
  simp only [Finset.mul_sum]
  rw [Finset.sum_comm]
  simp only [h2]
  simp [mul_comm]

/-- The state `|+>` and a counter with its exact frequencies. -/
theorem born_plus : BornCounter (n := 1) 100 (fun _ => ((1 / Real.sqrt 2 : ℝ) : ℂ)) [([false], 50), ([true], 50)] := by
  refine ⟨by simp, by simp [totalShots], fun x => ?_⟩
  have h : ‖((1 / Real.sqrt 2 : ℝ) : ℂ)‖ ^ 2 = 1 / 2 := by
    rw [Complex.norm_real, Real.norm_eq_abs, sq_abs, div_pow, Real.sq_sqrt (by norm_num)]; norm_num
  rw [h]
  have hx : List.ofFn x = [x 0] := by simp [List.ofFn_succ]
  cases hb : x 0 <;> simp [countOf, hx, hb] <;> norm_num

example : ((meanParity [0] [([false], 50), ([true], 50)] : ℚ) : ℂ) =
    expct (n := 1) (zString [0]) (fun _ => ((1 / Real.sqrt 2 : ℝ) : ℂ)) := C31_born (by norm_num) born_plus [0] (by simp)

/-- The counter of a sequence of shots. -/
def tally {N : ℕ} (ω : Fin N → St n) : List (Bits × ℕ) := (List.ofFn ω).map fun x => (List.ofFn x, 1)

/-- The hypotheses of `C31_unbiased` hold for the tally of the shots. -/
example {N : ℕ} (hN : 0 < N) {φ : St n → ℂ} (hφ : ∑ x, ‖φ x‖ ^ 2 = 1) (qs : List ℕ) (hq : ∀ q ∈ qs, q < n) :
    ∑ ω : Fin N → St n, (((∏ i, ‖φ (ω i)‖ ^ 2) * (meanParity qs (tally ω) : ℝ) : ℝ) : ℂ) = expct (zString qs) φ := by
  refine C31_unbiased hN hφ tally ?_ ?_ ?_ qs hq
  · intro ω kv hkv
    simp only [tally, List.mem_map] at hkv
    obtain ⟨x, -, rfl⟩ := hkv
    simp
  · intro ω x
    have : ∀ l : List (St n), countOf (l.map fun x => (List.ofFn x, 1)) (List.ofFn x) = l.countP (fun y => decide (y = x)) := by
      intro l
      induction l with
      | nil => rfl
      | cons y l ih =>
        simp only [countOf] at ih ⊢
        by_cases h : y = x
        · subst h; simp [ih, add_comm]
        · have h' : List.ofFn y ≠ List.ofFn x := fun e => h (List.ofFn_injective e)
          simp [ih, h, h']
    rw [tally, this, List.ofFn_eq_map, List.countP_map, Finset.card_filter, ← List.sum_ofFn, List.ofFn_eq_map]
    induction List.finRange N with
    | nil => rfl
    | cons i l ih =>
      rw [List.countP_cons, List.map_cons, List.sum_cons, ih, add_comm]
      simp
  · intro ω
    rw [totalShots, tally, List.map_map, show (Prod.snd ∘ fun x : St n => (List.ofFn x, 1)) = fun _ => 1 from rfl,
      List.map_const', List.sum_replicate, List.length_ofFn]
    simp

end Qadence.Measure
