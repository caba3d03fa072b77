import Mathlib.Tactic
import Mathlib.Data.Fin.Tuple.Sort
import Verif.Model.Readout
import Verif.Proofs.Except

/-!
# C26, C27: readout mitigation
-/

namespace Qadence.Readout

/-- The loop zeroes a prefix, keeps the rest and the sum; entries from the breakpoint on stay non-negative after
distributing the sum, all zeroed ones would be negative. -/
theorem mleLoop_spec (l : List ℝ) (s : ℝ) (hs : l.Pairwise (· ≤ ·)) (hpos : 0 < s + l.sum) (hl : l ≠ []) :
    ∃ pre rest : List ℝ, l = pre ++ rest ∧ rest ≠ [] ∧ mleLoop s l = (pre.length, s + pre.sum, rest) ∧
      (∀ a ∈ rest, 0 ≤ a + (s + pre.sum) / rest.length) ∧
      (∀ a ∈ pre, a + (s + pre.sum) / rest.length < 0) := by
  induction l generalizing s with
  | nil => exact absurd rfl hl
  | cons a l ih =>
    rw [List.pairwise_cons] at hs
    by_cases h : a + s / ((a :: l).length : ℝ) < 0
    · have hl' : l ≠ [] := by
        rintro rfl
        simp at h hpos
        linarith
      obtain ⟨pre, rest, e1, e2, e3, e4, e5⟩ := ih (s + a) hs.2 (by simpa [add_assoc] using hpos) hl'
      refine ⟨a :: pre, rest, by rw [e1]; rfl, e2, ?_, ?_, ?_⟩
      · rw [mleLoop, if_pos h, e3]
        simp [add_assoc]
      · simpa [add_assoc] using e4
      · have hk : (0 : ℝ) < rest.length := by exact_mod_cast List.length_pos_iff.2 e2
        intro b hb
        rw [List.sum_cons, ← add_assoc]
        rcases List.mem_cons.1 hb with rfl | hb
        · cases hpre : pre with
          | nil =>
            rw [hpre] at e1
            simp only [List.nil_append] at e1
            subst e1
            simp only [List.sum_nil, add_zero]
            have hc : ((b :: l).length : ℝ) = l.length + 1 := by simp
            rw [hc] at h
            have h2 : b * (l.length + 1) + s < 0 := by
              rw [← sub_neg_eq_add, ← neg_div] at h
              have := (div_lt_iff₀ (show (0 : ℝ) < l.length + 1 by positivity)).1 (show -(-s) / ((l.length : ℝ) + 1) < -b by
                rw [neg_neg]
                rw [neg_div] at h
                linarith)
              linarith
            have e : b + (s + b) / l.length = (b * (l.length + 1) + s) / l.length := by field_simp; ring
            rw [e]
            exact div_neg_of_neg_of_pos h2 hk
          | cons c pre' =>
            have h1 := e5 c (by rw [hpre]; exact List.mem_cons_self)
            have h2 : b ≤ c := hs.1 c (by rw [e1, hpre]; simp)
            rw [hpre] at h1
            linarith
        · exact e5 b hb
    · refine ⟨[], a :: l, rfl, by simp, ?_, ?_, by simp⟩
      · rw [mleLoop, if_neg h]
        simp
      · intro b hb
        simp only [List.sum_nil, add_zero]
        rw [not_lt] at h
        rcases List.mem_cons.1 hb with rfl | hb
        · exact h
        · exact h.trans (by linarith [hs.1 b hb])

theorem sum_map_add (l : List ℝ) (c : ℝ) : (l.map fun x => x + c).sum = l.sum + l.length * c := by
  induction l with
  | nil => simp
  | cons a l ih =>
    simp only [List.map_cons, List.sum_cons, ih, List.length_cons]
    push_cast
    ring

/-- The correction of a sorted vector with sum one: there is one number `τ` such that every entry becomes `max (a + τ) 0`. -/
theorem mleSorted_spec (l : List ℝ) (hs : l.Pairwise (· ≤ ·)) (h1 : l.sum = 1) :
    ∃ τ : ℝ, mleSorted l = l.map (fun a => max (a + τ) 0) ∧ (mleSorted l).sum = 1 := by
  have hl : l ≠ [] := by
    rintro rfl
    simp at h1
  obtain ⟨pre, rest, e1, e2, e3, e4, e5⟩ := mleLoop_spec l 0 hs (by rw [h1]; norm_num) hl
  rw [zero_add] at e3 e4 e5
  have hk : (rest.length : ℝ) ≠ 0 := by
    have := List.length_pos_iff.2 e2
    positivity
  have hout : mleSorted l = List.replicate pre.length 0 ++ rest.map (fun x => x + pre.sum / rest.length) := by
    rw [mleSorted, e3]
    exact if_neg e2
  refine ⟨pre.sum / rest.length, ?_, ?_⟩
  · rw [hout, e1, List.map_append]
    congr 1
    · symm
      rw [List.eq_replicate_iff]
      refine ⟨by simp, fun b hb => ?_⟩
      obtain ⟨a, ha, rfl⟩ := List.mem_map.1 hb
      exact max_eq_right (e5 a ha).le
    · refine List.map_congr_left fun a ha => ?_
      exact (max_eq_left (e4 a ha)).symm
  · rw [hout, List.sum_append, sum_map_add]
    have : pre.sum + rest.sum = 1 := by rw [← List.sum_append, ← e1, h1]
    have e : (rest.length : ℝ) * (pre.sum / rest.length) = pre.sum := by field_simp
    rw [e]
    simp
    linarith

/-- Sum of squared differences. -/
def sqDist {n : ℕ} (p q : Fin n → ℝ) : ℝ := ∑ j, (p j - q j) ^ 2

/-- Probability vectors. -/
def IsProb {n : ℕ} (p : Fin n → ℝ) : Prop := (∀ j, 0 ≤ p j) ∧ ∑ j, p j = 1

theorem mleSolve_form {n : ℕ} {p : Fin n → ℝ} {σ : Equiv.Perm (Fin n)} (hσ : Monotone (p ∘ σ)) (hp : ∑ j, p j = 1) :
    ∃ τ : ℝ, (∀ j, mleSolve σ p j = max (p j + τ) 0) ∧ ∑ j, mleSolve σ p j = 1 := by
  have hs : (List.ofFn (p ∘ σ)).Pairwise (· ≤ ·) := by
    rw [List.pairwise_ofFn]
    exact fun i j hij => hσ hij.le
  have h1 : (List.ofFn (p ∘ σ)).sum = 1 := by
    rw [List.sum_ofFn, ← hp]
    exact Equiv.sum_comp σ p
  obtain ⟨τ, e1, e2⟩ := mleSorted_spec _ hs h1
  have hval : ∀ j, mleSolve σ p j = max (p j + τ) 0 := by
    intro j
    rw [mleSolve, e1, List.getD_eq_getElem?_getD, List.getElem?_map, List.getElem?_ofFn, dif_pos (σ.symm j).2]
    simp
  refine ⟨τ, hval, ?_⟩
  rw [e1, List.map_ofFn, List.sum_ofFn] at e2
  rw [← e2, ← Equiv.sum_comp σ]
  exact Finset.sum_congr rfl fun j _ => hval (σ j)

/-- **C26** For every vector with sum one, `mle_solve` returns a probability vector. `σ` is any result of `argsort`. -/
theorem C26_probability {n : ℕ} {p : Fin n → ℝ} {σ : Equiv.Perm (Fin n)} (hσ : Monotone (p ∘ σ)) (hp : ∑ j, p j = 1) :
    IsProb (mleSolve σ p) := by
  obtain ⟨τ, h1, h2⟩ := mleSolve_form hσ hp
  exact ⟨fun j => by rw [h1]; exact le_max_right _ _, h2⟩

/-- **C26** No other probability vector is as close to the input as the one returned by `mle_solve`. -/
theorem C26_closest {n : ℕ} {p : Fin n → ℝ} {σ : Equiv.Perm (Fin n)} (hσ : Monotone (p ∘ σ)) (hp : ∑ j, p j = 1)
    {r : Fin n → ℝ} (hr : IsProb r) (hne : r ≠ mleSolve σ p) : sqDist (mleSolve σ p) p < sqDist r p := by
  obtain ⟨τ, h1, h2⟩ := mleSolve_form hσ hp
  set q := mleSolve σ p with hq
  have hin : ∑ j, (r j - q j) * (p j - q j) ≤ 0 := by
    have e : ∑ j, (r j - q j) * (p j - q j) = ∑ j, ((r j - q j) * (p j - q j + τ)) - τ * ∑ j, (r j - q j) := by
      rw [Finset.mul_sum, ← Finset.sum_sub_distrib]
      exact Finset.sum_congr rfl fun j _ => by ring
    rw [e, Finset.sum_sub_distrib, hr.2, h2, sub_self, mul_zero, sub_zero]
    refine Finset.sum_nonpos fun j _ => ?_
    rcases le_total (p j + τ) 0 with h | h
    · have : q j = 0 := by rw [h1, max_eq_right h]
      rw [this]
      have := hr.1 j
      nlinarith
    · have : q j = p j + τ := by rw [h1, max_eq_left h]
      rw [this]
      ring_nf
      exact le_rfl
  have hsq : 0 < ∑ j, (r j - q j) ^ 2 := by
    obtain ⟨j, hj⟩ := Function.ne_iff.1 hne
    exact Finset.sum_pos' (fun _ _ => sq_nonneg _) ⟨j, Finset.mem_univ _, by
      have := sub_ne_zero.2 hj
      positivity⟩
  have e : sqDist r p = sqDist q p + ∑ j, (r j - q j) ^ 2 - 2 * ∑ j, (r j - q j) * (p j - q j) := by
    simp only [sqDist, Finset.mul_sum, ← Finset.sum_add_distrib, ← Finset.sum_sub_distrib]
    exact Finset.sum_congr rfl fun j _ => by ring
  rw [e]
  linarith

/-- **C26** Probability vectors are not changed. -/
theorem C26_fixed {n : ℕ} {p : Fin n → ℝ} {σ : Equiv.Perm (Fin n)} (hσ : Monotone (p ∘ σ)) (hp : IsProb p) :
    mleSolve σ p = p := by
  by_contra hne
  have h := C26_closest hσ hp.2 hp (Ne.symm hne)
  have h0 : sqDist p p = 0 := by simp [sqDist]
  have h1 : 0 ≤ sqDist (mleSolve σ p) p := Finset.sum_nonneg fun _ _ => sq_nonneg _
  linarith

/-- A result of `argsort` exists for every vector. -/
theorem C26_argsort {n : ℕ} (p : Fin n → ℝ) : Monotone (p ∘ Tuple.sort p) := Tuple.monotone_sort p

/-- Quasi-probabilities of two qubits, (-1/10, 3/10, 5/10, 3/10): the negative entry becomes zero, the others lose 1/30
each. -/
example : mleSorted [-1/10, 3/10, 3/10, 5/10] = [0, 4/15, 4/15, 7/15] := by
  have h : mleLoop 0 [-1/10, 3/10, 3/10, 5/10] = (1, -1/10, [3/10, 3/10, 5/10]) := by norm_num [mleLoop]
  rw [mleSorted, h]
  refine (if_neg (by simp)).trans ?_
  norm_num

/-! ### Counts -/

theorem rint_nonneg {x : ℝ} (h : 0 ≤ x) : 0 ≤ PSR.rint x := by
  have : 0 ≤ ⌊x⌋ := Int.floor_nonneg.2 h
  unfold PSR.rint
  split
  · exact this
  · split
    · omega
    · split
      · exact this
      · omega

theorem rint_near (x : ℝ) : |(PSR.rint x : ℝ) - x| ≤ 1 / 2 := by
  have h1 := Int.floor_le x
  have h2 := Int.lt_floor_add_one x
  have h3 : Int.fract x = x - ⌊x⌋ := rfl
  unfold PSR.rint
  rw [abs_le]
  split
  · rename_i h
    constructor <;> linarith
  · rename_i h
    rw [not_lt] at h
    split
    · push_cast
      constructor <;> linarith
    · rename_i h'
      rw [not_lt] at h'
      split
      · constructor <;> linarith
      · push_cast
        constructor <;> linarith

/-- **C27** (non-negative part) Renormalised counts are never negative if the counts were not. -/
theorem C27_nonneg_partial {counts : List ℤ} (hc : ∀ c ∈ counts, 0 ≤ c) {nShots : ℤ} (hn : 0 ≤ nShots) {out : List ℤ}
    (h : renormalizeCounts counts nShots = .ok out) : ∀ c ∈ out, 0 ≤ c := by
  unfold renormalizeCounts at h
  split at h
  · dsimp only at h
    split at h
    · cases h
    · cases h
      intro c hc'
      obtain ⟨d, hd, rfl⟩ := List.mem_map.1 hc'
      have hpos : ∀ d ∈ (counts.map (fun c => c - (counts.sum - nShots))).map (fun c => if c < 0 then 0 else c), (0 : ℤ) ≤ d := by
        intro d hd
        obtain ⟨e, _, rfl⟩ := List.mem_map.1 hd
        split <;> omega
      apply rint_nonneg
      have h1 : (0 : ℝ) ≤ d := by exact_mod_cast hpos d hd
      have h2 : (0 : ℤ) ≤ ((counts.map (fun c => c - (counts.sum - nShots))).map (fun c => if c < 0 then 0 else c)).sum :=
        List.sum_nonneg hpos
      have h3 : (0 : ℝ) ≤ (((counts.map (fun c => c - (counts.sum - nShots))).map (fun c => if c < 0 then 0 else c)).sum : ℤ) := by
        exact_mod_cast h2
      have h4 : (0 : ℝ) ≤ nShots := by exact_mod_cast hn
      exact mul_nonneg h1 (div_nonneg h4 h3)
  · cases h
    exact hc

theorem sum_rint_near (l : List ℤ) (f : ℝ) :
    |(((l.map fun c : ℤ => PSR.rint ((c : ℝ) * f)).sum : ℤ) : ℝ) - (l.sum : ℤ) * f| ≤ l.length / 2 := by
  induction l with
  | nil => simp
  | cons a l ih =>
    simp only [List.map_cons, List.sum_cons, List.length_cons, Int.cast_add, Nat.cast_succ]
    have h := rint_near ((a : ℝ) * f)
    rw [abs_le] at *
    constructor <;> nlinarith

/-- **C27** (total, partial) The total of the renormalised counts differs from the number of shots by at most half the number of
bitstrings, and not at all if it was right before. -/
theorem C27_total_partial {counts : List ℤ} {nShots : ℤ} {out : List ℤ}
    (h : renormalizeCounts counts nShots = .ok out) :
    |((out.sum : ℤ) : ℝ) - nShots| ≤ counts.length / 2 ∧ (counts.sum = nShots → out = counts) := by
  unfold renormalizeCounts at h
  split at h
  · rename_i hne
    dsimp only at h
    split at h
    · cases h
    · rename_i hz
      cases h
      refine ⟨?_, fun e => absurd e hne⟩
      have := sum_rint_near ((counts.map (fun c => c - (counts.sum - nShots))).map (fun c => if c < 0 then 0 else c))
        ((nShots : ℝ) / (((counts.map (fun c => c - (counts.sum - nShots))).map (fun c => if c < 0 then 0 else c)).sum : ℤ))
      rw [mul_div_cancel₀] at this
      · simpa using this
      · exact_mod_cast hz
  · rename_i he
    rw [not_not] at he
    cases h
    refine ⟨?_, fun _ => rfl⟩
    rw [he, sub_self, abs_zero]
    positivity

/-- **C27** (false part) Two shots of the uniform distribution of two qubits: the renormalised counts have total zero. -/
theorem C27_counterexample_total :
    renormalizeCounts ([1/4, 1/4, 1/4, 1/4].map fun p : ℝ => PSR.rint (p * (2 : ℤ))) 2 = .ok [0, 0, 0, 0] := by
  have h : PSR.rint (1 / 2) = 0 := by
    have hf : ⌊(1 / 2 : ℝ)⌋ = 0 := by norm_num [Int.floor_eq_iff]
    have hfr : Int.fract (1 / 2 : ℝ) = 1 / 2 := by rw [Int.fract, hf]; norm_num
    unfold PSR.rint
    rw [hf, hfr]
    norm_num
  have e1 : (1 / 4 : ℝ) * ((2 : ℤ) : ℝ) = 1 / 2 := by norm_num
  simp only [List.map_cons, List.map_nil, e1, h]
  unfold renormalizeCounts
  have e2 : (2 : ℝ) * (2 / 8) = 1 / 2 := by norm_num
  norm_num
  norm_num at h
  exact h

/-- **C27** (false part) Twelve shots of the uniform distribution of three qubits: all counts are clipped to zero and the
renormalisation divides by zero. -/
theorem C27_counterexample_division :
    toCounter (List.replicate 8 (1 / 8)) 12 = .error .zeroDivisionError := by
  have h : PSR.rint (3 / 2) = 2 := by
    have hf : ⌊(3 / 2 : ℝ)⌋ = 1 := by norm_num [Int.floor_eq_iff]
    have hfr : Int.fract (3 / 2 : ℝ) = 1 / 2 := by rw [Int.fract, hf]; norm_num
    unfold PSR.rint
    rw [hf, hfr]
    norm_num
  have e1 : (1 / 8 : ℝ) * ((12 : ℤ) : ℝ) = 3 / 2 := by norm_num
  have : renormalizeCounts ((List.replicate 8 (1 / 8 : ℝ)).map (fun p => PSR.rint (p * (12 : ℤ)))) 12 =
      .error .zeroDivisionError := by
    rw [List.map_replicate, e1, h]
    unfold renormalizeCounts
    rw [if_pos (by decide)]
    dsimp only
    rw [if_pos (by decide)]
  rw [toCounter, this, error_bind]

theorem rint_eq {x : ℝ} {z : ℤ} (h : |x - z| < 1 / 2) : PSR.rint x = z := by
  have h1 := rint_near x
  have h2 : |((PSR.rint x - z : ℤ) : ℝ)| < 1 := by
    push_cast
    have e : (PSR.rint x : ℝ) - z = (PSR.rint x - x) + (x - z) := by ring
    rw [e]
    calc _ ≤ |(PSR.rint x : ℝ) - x| + |x - z| := abs_add_le _ _
      _ < 1 := by linarith
  have h3 : |PSR.rint x - z| < 1 := by exact_mod_cast h2
  have := Int.abs_lt_one_iff.1 h3
  omega

theorem sum_modify (l : List ℤ) (i : ℕ) (hi : i < l.length) (d : ℤ) : (l.modify i fun c => c - d).sum = l.sum - d := by
  induction l generalizing i with
  | nil => simp at hi
  | cons a l ih =>
    cases i with
    | zero => simp; ring
    | succ i =>
      simp only [List.modify_succ_cons, List.sum_cons, ih i (by simpa using hi)]
      ring

theorem argmax_spec {l : List ℤ} (hl : l ≠ []) : ∃ h : argmax l < l.length, ∀ d ∈ l, d ≤ l[argmax l] := by
  have hex : ∃ c ∈ l, l.all (fun d => decide (d ≤ c)) = true := by
    obtain ⟨c, hc, hm⟩ := l.toFinset.exists_max_image id (by
      obtain ⟨a, ha⟩ := List.exists_mem_of_ne_nil l hl
      exact ⟨a, List.mem_toFinset.2 ha⟩)
    refine ⟨c, List.mem_toFinset.1 hc, ?_⟩
    rw [List.all_eq_true]
    intro d hd
    exact decide_eq_true (hm d (List.mem_toFinset.2 hd))
  have h : argmax l < l.length := List.findIdx_lt_length.2 hex
  refine ⟨h, fun d hd => ?_⟩
  have := List.findIdx_getElem (w := h)
  rw [List.all_eq_true] at this
  exact of_decide_eq_true (this d hd)

theorem sum_filter_pos (l : List ℤ) (hl : ∀ c ∈ l, 0 ≤ c) (k : ℕ) :
    ((((l.zipIdx k).map (fun c => (c.2, c.1))).filter (fun kc => 0 < kc.2)).map Prod.snd).sum = l.sum := by
  induction l generalizing k with
  | nil => rfl
  | cons a l ih =>
    have h0 := hl a List.mem_cons_self
    have ih := ih (fun c hc => hl c (List.mem_cons_of_mem _ hc)) (k + 1)
    rw [List.zipIdx_cons, List.map_cons, List.filter_cons]
    by_cases ha : 0 < a
    · rw [if_pos (by simpa using ha), List.map_cons, List.sum_cons, List.sum_cons, ih]
    · rw [if_neg (by simpa using ha), List.sum_cons, ih]
      omega

/-- **C27** (counter, partial) The counter contains positive counts whose total is the number of shots, provided the
renormalisation does not divide by zero and its excess is not larger than the largest count (see the counterexamples). -/
theorem C27_counter_partial {pCorr : List ℝ} (hp : ∀ p ∈ pCorr, 0 ≤ p) (hne : pCorr ≠ []) {nShots : ℤ} (hn : 0 ≤ nShots)
    {out : List ℤ} (ho : renormalizeCounts (pCorr.map (fun p => PSR.rint (p * nShots))) nShots = .ok out)
    (hex : ∃ c ∈ out, out.sum - nShots ≤ c) :
    ∃ counter, toCounter pCorr nShots = .ok counter ∧ (∀ kc ∈ counter, 0 < kc.2) ∧ (counter.map Prod.snd).sum = nShots := by
  have hpos : ∀ c ∈ out, 0 ≤ c := by
    refine C27_nonneg_partial ?_ hn ho
    intro c hc
    obtain ⟨p, hp', rfl⟩ := List.mem_map.1 hc
    exact rint_nonneg (mul_nonneg (hp p hp') (by exact_mod_cast hn))
  obtain ⟨c₀, hc₀, hle⟩ := hex
  have hout : out ≠ [] := List.ne_nil_of_mem hc₀
  have key : ∀ counts : List ℤ, (∀ c ∈ counts, 0 ≤ c) → counts.sum = nShots →
      (∀ kc ∈ (counts.zipIdx.map (fun c => (c.2, c.1))).filter (fun kc => 0 < kc.2), (0 : ℤ) < kc.2) ∧
        (((counts.zipIdx.map (fun c => (c.2, c.1))).filter (fun kc => 0 < kc.2)).map Prod.snd).sum = nShots := by
    intro counts h1 h2
    refine ⟨fun kc hkc => by simpa using (List.mem_filter.1 hkc).2, ?_⟩
    rw [sum_filter_pos counts h1 0, h2]
  by_cases hs : out.sum = nShots
  · obtain ⟨k1, k2⟩ := key out hpos hs
    refine ⟨_, ?_, k1, k2⟩
    rw [toCounter, ho, ok_bind]
    simp only [hs, ne_eq, not_true_eq_false, if_false, if_true]
    rfl
  · obtain ⟨hi, hmax⟩ := argmax_spec hout
    have hsum := sum_modify out (argmax out) hi (out.sum - nShots)
    have hsum' : (out.modify (argmax out) fun c => c - (out.sum - nShots)).sum = nShots := by rw [hsum]; ring
    have hpos' : ∀ c ∈ out.modify (argmax out) (fun c => c - (out.sum - nShots)), 0 ≤ c := by
      intro c hc
      obtain ⟨j, hj, rfl⟩ := List.mem_iff_getElem.1 hc
      rw [List.getElem_modify]
      split
      · rename_i e
        subst e
        have := hmax c₀ hc₀
        omega
      · exact hpos _ (List.getElem_mem _)
    obtain ⟨k1, k2⟩ := key _ hpos' hsum'
    refine ⟨_, ?_, k1, k2⟩
    rw [toCounter, ho, ok_bind]
    simp only [hs, ne_eq, not_false_eq_true, if_true, hsum']
    rfl

/-- Hypotheses of the last theorem for three shots of (1/2, 1/2). -/
example : ∃ counter, toCounter [1/2, 1/2] 3 = .ok counter ∧ (∀ kc ∈ counter, 0 < kc.2) ∧
    (counter.map Prod.snd).sum = 3 := by
  have h : PSR.rint (3 / 2) = 2 := by
    have hf : ⌊(3 / 2 : ℝ)⌋ = 1 := by norm_num [Int.floor_eq_iff]
    have hfr : Int.fract (3 / 2 : ℝ) = 1 / 2 := by rw [Int.fract, hf]; norm_num
    unfold PSR.rint
    rw [hf, hfr]
    norm_num
  refine C27_counter_partial (out := [2, 2]) (by norm_num) (by simp) (by norm_num) ?_ ⟨2, by simp, by norm_num⟩
  have e1 : (1 / 2 : ℝ) * ((3 : ℤ) : ℝ) = 3 / 2 := by norm_num
  simp only [List.map_cons, List.map_nil, e1, h]
  unfold renormalizeCounts
  rw [if_pos (by decide)]
  dsimp only
  rw [if_neg (by decide)]
  have e : ([2, 2].map (fun c : ℤ => c - ([(2 : ℤ), 2].sum - 3))).map (fun c => if c < 0 then 0 else c) = [1, 1] := by decide
  rw [e]
  have e2 : ((1 : ℤ) : ℝ) * (((3 : ℤ) : ℝ) / (([(1 : ℤ), 1].sum : ℤ) : ℝ)) = 3 / 2 := by norm_num
  simp only [List.map_cons, List.map_nil, e2, h]

/-- **C27** (false part) Ten shots on four qubits with probabilities 0.115 (four times) and 0.045 (twelve times): the
first count becomes negative and is dropped, the counter has a total of 15. -/
theorem C27_counterexample_negative :
    ∃ counter, toCounter (List.replicate 4 0.115 ++ List.replicate 12 0.045) 10 = .ok counter ∧
      (counter.map Prod.snd).sum = 15 := by
  have h1 : PSR.rint (0.115 * (10 : ℤ)) = 1 := rint_eq (by rw [abs_lt]; norm_num)
  have h2 : PSR.rint (0.045 * (10 : ℤ)) = 0 := rint_eq (by rw [abs_lt]; norm_num)
  have h3 : PSR.rint (((7 : ℤ) : ℝ) * (((10 : ℤ) : ℝ) / ((100 : ℤ) : ℝ))) = 1 := rint_eq (by rw [abs_lt]; norm_num)
  have h4 : PSR.rint (((6 : ℤ) : ℝ) * (((10 : ℤ) : ℝ) / ((100 : ℤ) : ℝ))) = 1 := rint_eq (by rw [abs_lt]; norm_num)
  have hr : renormalizeCounts ((List.replicate 4 (0.115 : ℝ) ++ List.replicate 12 0.045).map fun p => PSR.rint (p * (10 : ℤ))) 10 =
      .ok (List.replicate 16 1) := by
    rw [List.map_append, List.map_replicate, List.map_replicate, h1, h2]
    unfold renormalizeCounts
    rw [if_pos (by decide)]
    dsimp only
    have e : ((List.replicate 4 (1 : ℤ) ++ List.replicate 12 0).map
        (fun c => c - ((List.replicate 4 (1 : ℤ) ++ List.replicate 12 0).sum - 10))).map (fun c => if c < 0 then 0 else c) =
        List.replicate 4 7 ++ List.replicate 12 6 := by decide
    have e3 : (List.replicate 4 (7 : ℤ) ++ List.replicate 12 6).sum = 100 := by decide
    rw [e, e3, if_neg (by decide), List.map_append,
      List.map_replicate, List.map_replicate, h3, h4]
    rfl
  refine ⟨(((-5 : ℤ) :: List.replicate 15 1).zipIdx.map (fun c => (c.2, c.1))).filter (fun kc => 0 < kc.2), ?_, by decide⟩
  rw [toCounter, hr, ok_bind]
  rfl

end Qadence.Readout
