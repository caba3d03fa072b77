import Verif.Proofs.Bits2

/-!
# Properties C01-C06: bitstrings, endianness, counters
-/

namespace Qadence

open Spec

/-! ## C01 -/

/-- C01: `int_to_basis` yields exactly `n` bits which denote `k`, and `basis_to_int` reads `k` back. -/
theorem C01_int_to_basis_round_trip (n k : ℕ) (e : Endian) (hn : 1 ≤ n) (hk : k < 2 ^ n) :
    ∃ s : Bits, intToBasis k (some n) e = .ok s ∧ s.length = n ∧ bitstringValue e s = k ∧
      basisToInt s e = .ok k := by
  have hl := format0b_length hn hk
  cases e
  · refine ⟨format0b n k, intToBasisN_ok hk .big, hl, ?_, ?_⟩
    · rw [bitstringValue_big, bitVal_format0b]
    · rw [basisToInt_ok (format0b_ne_nil n k), bitstringValue_big, bitVal_format0b]
  · have hne : (format0b n k).reverse ≠ [] := by simpa using format0b_ne_nil n k
    refine ⟨(format0b n k).reverse, intToBasisN_ok hk .little, by simpa using hl, ?_, ?_⟩
    · rw [bitstringValue_little, List.reverse_reverse, bitVal_format0b]
    · rw [basisToInt_ok hne, bitstringValue_little, List.reverse_reverse, bitVal_format0b]

/-- C01: for every non-empty bitstring, converting to an integer and back returns the string,
and the integer is the one the string denotes. -/
theorem C01_basis_to_int_round_trip (s : Bits) (e : Endian) (hs : s ≠ []) :
    ∃ k : ℕ, basisToInt s e = .ok k ∧ k = bitstringValue e s ∧ k < 2 ^ s.length ∧
      intToBasis k (some s.length) e = .ok s := by
  refine ⟨bitstringValue e s, basisToInt_ok hs e, rfl, ?_, ?_⟩
  · cases e
    · rw [bitstringValue_big]; exact bitVal_lt s
    · rw [bitstringValue_little]; simpa using bitVal_lt s.reverse
  · cases e
    · rw [bitstringValue_big]
      simp only [intToBasis]
      rw [intToBasisN_ok (bitVal_lt s)]
      simp [format0b_bitVal hs]
    · rw [bitstringValue_little]
      have h1 : bitVal s.reverse < 2 ^ s.length := by simpa using bitVal_lt s.reverse
      simp only [intToBasis]
      rw [intToBasisN_ok h1]
      have h2 : s.reverse ≠ [] := by simpa using hs
      have := format0b_bitVal h2
      rw [List.length_reverse] at this
      simp [this]

/-- C01: an integer which does not fit is rejected with an assertion error. -/
theorem C01_int_to_basis_rejects (n k : ℕ) (e : Endian) (hk : 2 ^ n ≤ k) :
    intToBasis k (some n) e = .error .assertionError := by
  have : 0 < 2 ^ n := by positivity
  simp only [intToBasis]
  unfold intToBasisN
  rw [if_neg (by omega)]

/-- C01: the empty string is rejected. -/
theorem C01_basis_to_int_rejects_empty (e : Endian) : basisToInt [] e = .error .valueError := by
  cases e <;> rfl

example : (1 ≤ 3) ∧ (6 < 2 ^ 3) ∧ ([true, true, false] : Bits) ≠ [] := by decide
example : intToBasisN 6 3 .big = .ok [true, true, false] := by decide
example : intToBasisN 6 3 .little = .ok [false, true, true] := by decide

/-! ## C02 -/

/-- C02: without `n_qubits` the call succeeds, and returns the shortest bitstring denoting `k`:
it denotes `k`, every other non-empty string denoting `k` is at least as long, and for `k ≥ 1` the most
significant bit is set. -/
theorem C02_default_width_minimal (k : ℕ) (e : Endian) :
    ∃ s : Bits, intToBasis k none e = .ok s ∧ s ≠ [] ∧ bitstringValue e s = k ∧
      (∀ t : Bits, t ≠ [] → bitstringValue e t = k → s.length ≤ t.length) ∧
      (1 ≤ k → (match e with | .big => s.head? | .little => s.getLast?) = some true) := by
  have hw : defaultWidth k = (binDigits k).length := by rw [defaultWidth_eq, binDigits_length]
  have hk : k < 2 ^ defaultWidth k := by
    have := bitVal_lt (binDigits k)
    rwa [bitVal_binDigits, ← hw] at this
  have hf : format0b (defaultWidth k) k = binDigits k := by simp [format0b, hw]
  have hne : binDigits k ≠ [] := by
    have := binDigits_length_pos k
    intro h; simp [h] at this
  have hmin : ∀ t : Bits, t ≠ [] → bitVal t = k → (binDigits k).length ≤ t.length := by
    intro t ht hv
    have hpos : 1 ≤ t.length := by
      cases t with
      | nil => exact absurd rfl ht
      | cons => simp
    exact binDigits_length_le hpos (hv ▸ bitVal_lt t)
  have hhead : 1 ≤ k → (binDigits k).head? = some true := by
    intro hk1
    clear hw hk hf hmin hne
    induction k using Nat.strong_induction_on with
    | _ k ih =>
      rw [binDigits_eq]
      split
      · have : k = 1 := by omega
        subst this; rfl
      · have := ih (k / 2) (by omega) (by omega)
        cases h : binDigits (k / 2) with
        | nil => simp [h] at this
        | cons b l => simpa [h] using this
  cases e
  · refine ⟨binDigits k, ?_, hne, ?_, ?_, hhead⟩
    · simp only [intToBasis]
      rw [intToBasisN_ok hk]; simp [hf]
    · rw [bitstringValue_big, bitVal_binDigits]
    · intro t ht hv
      rw [bitstringValue_big] at hv
      exact hmin t ht hv
  · refine ⟨(binDigits k).reverse, ?_, by simpa using hne, ?_, ?_, ?_⟩
    · simp only [intToBasis]
      rw [intToBasisN_ok hk]; simp [hf]
    · rw [bitstringValue_little, List.reverse_reverse, bitVal_binDigits]
    · intro t ht hv
      rw [bitstringValue_little] at hv
      simpa using hmin t.reverse (by simpa using ht) hv
    · intro h1
      simpa using hhead h1

/-! ## C03 -/

/-- C03: the list of basis states has `2^n` entries, its `k`-th entry has `n` bits and denotes `k`,
entries are distinct, and every `n`-bit string occurs. -/
theorem C03_nqubits_to_basis (n : ℕ) (e : Endian) (hn : 1 ≤ n) :
    ∃ l : List Bits, nqubitsToBasis n e = .ok l ∧ l.length = 2 ^ n ∧ l.Nodup ∧
      (∀ (k : ℕ) (hk : k < l.length), (l[k]).length = n ∧ bitstringValue e l[k] = k) ∧
      (∀ s : Bits, s.length = n → s ∈ l) := by
  let g : ℕ → Bits := fun k => match e with
      | .big => format0b n k
      | .little => (format0b n k).reverse
  have h1 : nqubitsToBasis n e = .ok ((List.range (2 ^ n)).map g) :=
    mapM_ok _ (fun k hk => intToBasisN_ok (List.mem_range.1 hk) e)
  have hv : ∀ k, k < 2 ^ n → (g k).length = n ∧ bitstringValue e (g k) = k := by
    intro k hk
    cases e
    · exact ⟨format0b_length hn hk, by rw [bitstringValue_big, bitVal_format0b]⟩
    · exact ⟨by simpa [g] using format0b_length hn hk,
        by simp only [g]; rw [bitstringValue_little, List.reverse_reverse, bitVal_format0b]⟩
  refine ⟨_, h1, by simp, ?_, ?_, ?_⟩
  · rw [List.nodup_map_iff_inj_on List.nodup_range]
    intro x hx y hy hxy
    rw [← (hv x (List.mem_range.1 hx)).2, hxy, (hv y (List.mem_range.1 hy)).2]
  · intro k hk
    simp only [List.length_map, List.length_range] at hk
    simpa using hv k hk
  · intro s hs
    have hne : s ≠ [] := by
      rintro rfl
      simp at hs; omega
    obtain ⟨k, _, hk2, hk3, hk4⟩ := C01_basis_to_int_round_trip s e hne
    rw [hs] at hk3 hk4
    refine List.mem_map.2 ⟨k, List.mem_range.2 hk3, ?_⟩
    have h5 : intToBasisN k n e = .ok (g k) := intToBasisN_ok hk3 e
    have h6 : intToBasisN k n e = .ok s := hk4
    rw [h5] at h6
    exact Except.ok.inj h6

/-- C03: the little-endian list is the big-endian one with every string reversed. -/
theorem C03_little_is_reversed_big (n : ℕ) (l : List Bits)
    (h : nqubitsToBasis n .big = .ok l) : nqubitsToBasis n .little = .ok (l.map List.reverse) := by
  have h1 : nqubitsToBasis n .big = .ok ((List.range (2 ^ n)).map (format0b n)) :=
    mapM_ok _ (fun k hk => intToBasisN_ok (List.mem_range.1 hk) .big)
  have h2 : nqubitsToBasis n .little = .ok ((List.range (2 ^ n)).map (fun k => (format0b n k).reverse)) :=
    mapM_ok _ (fun k hk => intToBasisN_ok (List.mem_range.1 hk) .little)
  rw [h1] at h
  cases h
  rw [h2]
  simp

example : nqubitsToBasis 2 .little =
    .ok [[false, false], [true, false], [false, true], [true, true]] := by decide

/-! ## C04 -/

/-- C04: inverting a wave function on `n` qubits succeeds, moves the amplitude of `|b_0 … b_{n-1}⟩` to
`|b_{n-1} … b_0⟩`, and inverting again gives back the original. -/
theorem C04_invert_wavefunction {α : Type} (n : ℕ) (row : List α) (h : row.length = 2 ^ n) :
    ∃ out : List α, invertRow n row = .ok out ∧ out.length = 2 ^ n ∧
      (∀ s : Bits, s.length = n →
        out[bitstringValue .big s.reverse]? = row[bitstringValue .big s]?) ∧
      invertRow n out = .ok row := by
  obtain ⟨out, h1, h2, h3⟩ := invertRow_eq h
  obtain ⟨out2, h4, h5, h6⟩ := invertRow_eq h2
  refine ⟨out, h1, h2, ?_, ?_⟩
  · intro s hs
    rw [bitstringValue_big, bitstringValue_big]
    rcases Nat.eq_zero_or_pos n with rfl | hn
    · have : s = [] := List.length_eq_zero_iff.1 hs
      subst this
      have h0 : sigma 0 0 = 0 := by simpa using sigma_lt (n := 0) (i := 0) (by simp)
      have := h3 0 (by simp)
      rw [h0] at this
      exact this
    · have hne : s.reverse ≠ [] := by
        intro e
        have : s = [] := by simpa using e
        subst this; simp at hs; omega
      have hlt : bitVal s.reverse < 2 ^ n := by
        have := bitVal_lt s.reverse
        rwa [List.length_reverse, hs] at this
      rw [h3 _ hlt]
      have := sigma_bitVal hne
      rw [List.length_reverse, hs, List.reverse_reverse] at this
      rw [this]
  · have : out2 = row := by
      apply list_eq_of_getElem? h5 h
      intro i hi
      rw [h6 i hi, h3 _ (sigma_lt hi), sigma_sigma hi]
    rw [h4, this]

/-- C04: inversion preserves every sum of the form `∑ f(a_i, b_i)` over two wave functions, in particular
norms and inner products. -/
theorem C04_invert_preserves_inner_products {α β M : Type} [AddCommMonoid M] (n : ℕ)
    (a : List α) (b : List β) (ha : a.length = 2 ^ n) (hb : b.length = 2 ^ n) (f : α → β → M) :
    ∃ a' b', invertRow n a = .ok a' ∧ invertRow n b = .ok b' ∧
      (List.zipWith f a' b').sum = (List.zipWith f a b).sum := by
  obtain ⟨a', h1, h2, h3⟩ := invertRow_eq ha
  obtain ⟨b', h4, h5, h6⟩ := invertRow_eq hb
  exact ⟨a', b', h1, h4, sum_invert f ha hb h2 h5 h3 h6⟩

/-- C04 for whole batches: the batch is inverted row by row and inverting twice is the identity. -/
theorem C04_invert_batch_involution {α : Type} (n : ℕ) (wf : List (List α))
    (h : ∀ row ∈ wf, row.length = 2 ^ n) :
    ∃ out, invertWf n wf = .ok out ∧ out.length = wf.length ∧ invertWf n out = .ok wf := by
  induction wf with
  | nil => exact ⟨[], rfl, rfl, rfl⟩
  | cons row wf ih =>
    obtain ⟨out, h1, h2, h3⟩ := ih (fun r hr => h r (by simp [hr]))
    obtain ⟨o, g1, _, _, g2⟩ := C04_invert_wavefunction n row (h row (by simp))
    refine ⟨o :: out, ?_, by simp [h2], ?_⟩
    · unfold invertWf at *
      rw [List.mapM_cons, g1, h1]; rfl
    · unfold invertWf at *
      rw [List.mapM_cons, g2, h3]; rfl

example : invertRow 2 ["00", "01", "10", "11"] = .ok ["00", "10", "01", "11"] := by decide

/-! ## C05 -/

/-- C05: inverting a counter keeps the count of every outcome (under the reversed string) and the number
of shots, and is an involution. -/
theorem C05_invert_counter (c : PyDict Bits ℕ) (hc : PyDict.WF c) (hne : ∀ kv ∈ c, kv.1 ≠ []) :
    ∃ c', invertCounter c = .ok c' ∧ PyDict.WF c' ∧ totalShots c' = totalShots c ∧
      (∀ s, countOf c' s.reverse = countOf c s) ∧ invertCounter c' = .ok c := by
  have key : ∀ d : PyDict Bits ℕ, PyDict.WF d → (∀ kv ∈ d, kv.1 ≠ []) →
      invertCounter d = .ok (d.map (fun kv => (kv.1.reverse, kv.2))) := by
    intro d hd hdne
    have h1 : d.mapM (fun kv => (do
        let i ← pyInt2 kv.1.reverse
        pure (format0b kv.1.length i, kv.2) : Except PyErr (Bits × ℕ))) =
        .ok (d.map (fun kv => (kv.1.reverse, kv.2))) := by
      apply mapM_ok
      intro kv hkv
      have hr : kv.1.reverse ≠ [] := by simpa using hdne kv hkv
      rw [pyInt2_of_ne_nil hr]
      have := format0b_bitVal hr
      rw [List.length_reverse] at this
      show Except.ok (format0b kv.1.length (bitVal kv.1.reverse), kv.2) = _
      rw [this]
    unfold invertCounter
    rw [h1]
    show Except.ok (PyDict.ofItems _) = _
    rw [PyDict.ofItems_of_nodup]
    rw [List.map_map]
    have : (Prod.fst ∘ fun kv : Bits × ℕ => (kv.1.reverse, kv.2)) = List.reverse ∘ Prod.fst := rfl
    rw [this, ← List.map_map]
    exact List.Nodup.map List.reverse_injective hd
  have hwf' : PyDict.WF (c.map (fun kv => (kv.1.reverse, kv.2))) := by
    unfold PyDict.WF
    rw [List.map_map]
    have : (Prod.fst ∘ fun kv : Bits × ℕ => (kv.1.reverse, kv.2)) = List.reverse ∘ Prod.fst := rfl
    rw [this, ← List.map_map]
    exact List.Nodup.map List.reverse_injective hc
  refine ⟨_, key c hc hne, hwf', ?_, ?_, ?_⟩
  · simp [totalShots, Function.comp_def]
  · intro s
    unfold countOf
    rw [List.filter_map, List.map_map]
    congr 2
    apply List.filter_congr
    intro kv _
    simp [Function.comp_def]
  · rw [key _ hwf' (by
      intro kv hkv
      obtain ⟨kv', h, rfl⟩ := List.mem_map.1 hkv
      simpa using hne kv' h)]
    simp [Function.comp_def]

/-- C05: `samples_to_integers` keeps counts and shots for samples of a common length. -/
theorem C05_samples_to_integers (c : PyDict Bits ℕ) (e : Endian) (n : ℕ) (hn : 1 ≤ n)
    (hc : PyDict.WF c) (hl : ∀ kv ∈ c, kv.1.length = n) :
    ∃ c', samplesToIntegers c e = .ok c' ∧ PyDict.WF c' ∧ totalShots c' = totalShots c ∧
      ∀ s : Bits, s.length = n → countOf c' (bitstringValue e s) = countOf c s := by
  have hinj : ∀ s t : Bits, s.length = n → t.length = n →
      bitstringValue e s = bitstringValue e t → s = t := by
    intro s t hs ht h
    cases e
    · rw [bitstringValue_big, bitstringValue_big] at h
      exact bitVal_inj (by omega) h
    · rw [bitstringValue_little, bitstringValue_little] at h
      exact List.reverse_injective (bitVal_inj (by simp; omega) h)
  have h1 : c.mapM (fun kv => (do
      let k ← basisToInt kv.1 e
      pure (k, kv.2) : Except PyErr (ℕ × ℕ))) =
      .ok (c.map (fun kv => (bitstringValue e kv.1, kv.2))) := by
    apply mapM_ok
    intro kv hkv
    have hne : kv.1 ≠ [] := by
      intro h
      have := hl kv hkv
      rw [h] at this; simp at this; omega
    rw [basisToInt_ok hne]
    rfl
  have hnd : ((c.map (fun kv => (bitstringValue e kv.1, kv.2))).map Prod.fst).Nodup := by
    rw [List.map_map]
    have hcc : (c.map (Prod.fst ∘ fun kv => (bitstringValue e kv.1, kv.2))) =
      (c.map Prod.fst).map (bitstringValue e) := by simp [Function.comp_def]
    rw [hcc, List.nodup_map_iff_inj_on hc]
    intro x hx y hy hxy
    obtain ⟨kx, hkx, rfl⟩ := List.mem_map.1 hx
    obtain ⟨ky, hky, rfl⟩ := List.mem_map.1 hy
    exact hinj _ _ (hl _ hkx) (hl _ hky) hxy
  let c2 : PyDict ℕ ℕ := c.map (fun kv => (bitstringValue e kv.1, kv.2))
  refine ⟨c2, ?_, hnd, ?_, ?_⟩
  · unfold samplesToIntegers
    rw [h1]
    show Except.ok (PyDict.ofItems _) = _
    rw [PyDict.ofItems_of_nodup _ hnd]
  · simp [totalShots, Function.comp_def, c2]
  · intro s hs
    unfold countOf
    simp only [c2]
    rw [List.filter_map, List.map_map]
    congr 2
    apply List.filter_congr
    intro kv hkv
    simp only [Function.comp_def, decide_eq_decide]
    exact ⟨fun h => hinj _ _ (hl _ hkv) hs h, fun h => by rw [h]⟩

/-- Outside the guard of C05: with keys of different lengths shots are lost. -/
theorem C05_samples_to_integers_mixed_lengths_loses_shots :
    ∃ c c', PyDict.WF c ∧ (∀ kv ∈ c, kv.1 ≠ []) ∧ samplesToIntegers c .big = .ok c' ∧
      totalShots c' < totalShots c :=
  ⟨[([true], 1), ([false, true], 1)], [(1, 1)], by decide, by decide, by decide, by decide⟩

example : PyDict.WF ([([true, false], 3), ([true, true], 4)] : PyDict Bits ℕ) := by decide
example : invertCounter [([true, false], 3), ([true, true], 4)] =
    .ok [([false, true], 3), ([true, true], 4)] := by decide

/-! ## C06 -/

/-- The string under which `count_bitstrings` reports a row of sampled bits. -/
def reported (e : Endian) (row : Bits) : Bits :=
  match e with
  | .big => row
  | .little => row.reverse

/-- C06: counting samples is lossless: every outcome is reported with the number of times it was
drawn, keys have `n` bits and occur in the sample, and the counts add up to the number of samples. -/
theorem C06_count_bitstrings (n : ℕ) (sample : List Bits) (e : Endian) (hn : 1 ≤ n)
    (hl : ∀ row ∈ sample, row.length = n) :
    ∃ c, countBitstrings n sample e = .ok c ∧ PyDict.WF c ∧
      (∀ row : Bits, row.length = n → countOf c (reported e row) = sample.count row) ∧
      (∀ kv ∈ c, kv.1.length = n ∧ 0 < kv.2 ∧ ∃ row ∈ sample, reported e row = kv.1) ∧
      totalShots c = sample.length := by
  let xs := sample.map rowToInt
  have hxs : xs = sample.map bitVal := by simp [xs, rowToInt_eq]
  have hlt : ∀ x ∈ xs, x < 2 ^ n := by
    intro x hx
    rw [hxs] at hx
    obtain ⟨r, hr, rfl⟩ := List.mem_map.1 hx
    have := bitVal_lt r
    rwa [hl r hr] at this
  obtain ⟨N, hN1, hN2, hN3⟩ := bincount_items xs
  have hN4 : ∀ k < N, k < 2 ^ n := by
    intro k hk
    obtain ⟨x, hx, hkx⟩ := hN2 k hk
    have := hlt x hx
    omega
  let g : ℕ → Bits := fun k => match e with
      | .big => format0b n k
      | .little => (format0b n k).reverse
  let L := (List.range N).filter (fun k => 0 < xs.count k)
  let c : PyDict Bits ℕ := L.map (fun k => (g k, xs.count k))
  have hLN : ∀ k ∈ L, k < 2 ^ n := fun k hk =>
    hN4 k (List.mem_range.1 (List.mem_filter.1 hk).1)
  have hgrep : ∀ row : Bits, row.length = n → g (bitVal row) = reported e row := by
    intro row hrow
    have hne : row ≠ [] := by
      rintro rfl
      simp at hrow; omega
    have := format0b_bitVal hne
    rw [hrow] at this
    cases e <;> simp [g, reported, this]
  have hginj : ∀ a b, a < 2 ^ n → b < 2 ^ n → g a = g b → a = b := by
    intro a b ha hb h
    have h' : format0b n a = format0b n b := by
      cases e
      · exact h
      · exact List.reverse_injective h
    rw [← bitVal_format0b n a, h', bitVal_format0b]
  have hLnd : L.Nodup := List.nodup_range.filter _
  have hnd : PyDict.WF c := by
    unfold PyDict.WF
    simp only [c, List.map_map]
    rw [List.nodup_map_iff_inj_on hLnd]
    intro a ha b hb hab
    exact hginj a b (hLN a ha) (hLN b hb) hab
  refine ⟨c, ?_, hnd, ?_, ?_, ?_⟩
  · have h1 : (((List.range (bincount xs).length).zip (bincount xs)).filter
        (fun kc => 0 < kc.2)) = L.map (fun k => (k, xs.count k)) := by
      rw [hN3, List.filter_map]
      rfl
    have h2 : (L.map (fun k => (k, xs.count k))).mapM (fun kc => (do
        let s ← intToBasisN kc.1 n e
        pure (s, kc.2) : Except PyErr (Bits × ℕ))) =
        .ok ((L.map (fun k => (k, xs.count k))).map (fun kc => (g kc.1, kc.2))) := by
      apply mapM_ok
      intro kc hkc
      obtain ⟨k, hk, rfl⟩ := List.mem_map.1 hkc
      have := intToBasisN_ok (hLN k hk) e
      show ((intToBasisN k n e).bind fun s => Except.ok (s, xs.count k)) = _
      rw [this]
      rfl
    show ((((List.range (bincount xs).length).zip (bincount xs)).filter
        (fun kc => 0 < kc.2)).mapM (fun kc => (do
        let s ← intToBasisN kc.1 n e
        pure (s, kc.2) : Except PyErr (Bits × ℕ)))).bind
          (fun items => Except.ok (PyDict.ofItems items)) = _
    rw [h1, h2]
    show Except.ok (PyDict.ofItems _) = _
    have h3 : (L.map (fun k => (k, xs.count k))).map (fun kc => (g kc.1, kc.2)) = c := by
      simp [c, Function.comp_def]
    rw [h3, PyDict.ofItems_of_nodup _ hnd]
  · intro row hrow
    have hb : bitVal row < 2 ^ n := by
      have := bitVal_lt row
      rwa [hrow] at this
    have hcount : xs.count (bitVal row) = sample.count row := by
      rw [hxs, List.count, List.countP_map, List.count]
      apply List.countP_congr
      intro r hr
      simp only [Function.comp_apply, beq_iff_eq]
      exact ⟨fun h => bitVal_inj (by rw [hl r hr, hrow]) h, fun h => by rw [h]⟩
    rw [← hgrep row hrow, ← hcount]
    simp only [c]
    rw [countOf_map_inj L hLnd g (fun k => xs.count k) (bitVal row)
      (fun k hk h => hginj k _ (hLN k hk) hb h)]
    split
    · rfl
    · next hnot =>
      by_contra hne
      have hpos : 0 < xs.count (bitVal row) := by omega
      have hmem : bitVal row ∈ xs := List.count_pos_iff.1 hpos
      exact hnot (List.mem_filter.2 ⟨List.mem_range.2 (hN1 _ hmem), by simpa using hpos⟩)
  · intro kv hkv
    obtain ⟨k, hk, rfl⟩ := List.mem_map.1 hkv
    have hpos : 0 < xs.count k := by simpa using (List.mem_filter.1 hk).2
    have hlen : (g k).length = n := by
      have := format0b_length hn (hLN k hk)
      cases e <;> simpa [g] using this
    refine ⟨hlen, hpos, ?_⟩
    have hmem : k ∈ xs := List.count_pos_iff.1 hpos
    rw [hxs] at hmem
    obtain ⟨row, hrow, rfl⟩ := List.mem_map.1 hmem
    exact ⟨row, hrow, (hgrep row (hl row hrow)).symm⟩
  · have : totalShots c = (L.map (fun k => xs.count k)).sum := by
      simp [totalShots, c, Function.comp_def]
    rw [this, sum_filter_pos, sum_count_range xs N hN1]
    simp [xs]

example : countBitstrings 2 [[true, false], [false, false], [true, false]] .little =
    .ok [([false, false], 1), ([false, true], 2)] := by decide

end Qadence
