import Verif.Model.Divergence
import Verif.Spec.Divergence
import Verif.Spec.Measure
import Verif.Spec.States
import Verif.Proofs.PyDict
import Verif.Proofs.Except

/-!
# C68: the Jensen-Shannon divergence of counters
-/

namespace Qadence

open Spec Divergence

/-! ## Numbers -/

/-- The summand of the divergence. -/
noncomputable def jsTerm (a b : ℝ) : ℝ :=
  Real.negMulLog ((a + b) / 2) - (Real.negMulLog a + Real.negMulLog b) / 2

theorem jsTerm_eq {a b : ℝ} (ha : 0 ≤ a) (hb : 0 ≤ b) :
    jsTerm a b = (a * Real.log (a / ((a + b) / 2)) + b * Real.log (b / ((a + b) / 2))) / 2 := by
  have key : ∀ x m : ℝ, 0 ≤ x → (x ≠ 0 → m ≠ 0) → x * Real.log (x / m) = x * Real.log x - x * Real.log m := by
    intro x m hx hm
    by_cases h : x = 0
    · simp [h]
    · rw [Real.log_div h (hm h)]; ring
  rw [key a _ ha fun h => by positivity, key b _ hb fun h => by positivity]
  unfold jsTerm Real.negMulLog
  ring

theorem jsTerm_nonneg {a b : ℝ} (ha : 0 ≤ a) (hb : 0 ≤ b) : 0 ≤ jsTerm a b := by
  have := Real.concaveOn_negMulLog.2 (Set.mem_Ici.2 ha) (Set.mem_Ici.2 hb) (by norm_num : (0 : ℝ) ≤ 1 / 2) (by norm_num : (0 : ℝ) ≤ 1 / 2)
    (by norm_num)
  simp only [smul_eq_mul] at this
  unfold jsTerm
  rw [show (a + b) / 2 = 1 / 2 * a + 1 / 2 * b by ring]
  linarith

theorem jsTerm_eq_zero {a b : ℝ} (ha : 0 ≤ a) (hb : 0 ≤ b) : jsTerm a b = 0 ↔ a = b := by
  constructor
  · intro h
    by_contra hne
    have := Real.strictConcaveOn_negMulLog.2 (Set.mem_Ici.2 ha) (Set.mem_Ici.2 hb) hne (by norm_num : (0 : ℝ) < 1 / 2)
      (by norm_num : (0 : ℝ) < 1 / 2) (by norm_num)
    simp only [smul_eq_mul] at this
    unfold jsTerm at h
    rw [show (a + b) / 2 = 1 / 2 * a + 1 / 2 * b by ring] at h
    linarith
  · rintro rfl
    unfold jsTerm
    rw [show (a + a) / 2 = a by ring]
    ring

theorem mul_log_le {a b : ℝ} (ha : 0 ≤ a) (hb : 0 ≤ b) :
    a * Real.log (a / ((a + b) / 2)) ≤ a * Real.log 2 ∧ (a * Real.log (a / ((a + b) / 2)) = a * Real.log 2 ↔ a = 0 ∨ b = 0) := by
  by_cases h : a = 0
  · simp [h]
  · have ha' : 0 < a := lt_of_le_of_ne ha (Ne.symm h)
    have hle : a / ((a + b) / 2) ≤ 2 := by rw [div_le_iff₀ (by positivity)]; linarith
    have hpos : 0 < a / ((a + b) / 2) := by positivity
    refine ⟨mul_le_mul_of_nonneg_left (Real.log_le_log hpos hle) ha, ?_⟩
    rw [mul_right_inj' h, Real.log_injOn_pos.eq_iff (Set.mem_Ioi.2 hpos) (Set.mem_Ioi.2 (by norm_num : (0 : ℝ) < 2)), div_eq_iff (by positivity)]
    constructor
    · intro e; right; linarith
    · rintro (e | e)
      · exact absurd e h
      · rw [e]; ring

theorem jsTerm_le {a b : ℝ} (ha : 0 ≤ a) (hb : 0 ≤ b) :
    jsTerm a b ≤ (a + b) / 2 * Real.log 2 ∧ (jsTerm a b = (a + b) / 2 * Real.log 2 ↔ a = 0 ∨ b = 0) := by
  obtain ⟨h1, h2⟩ := mul_log_le ha hb
  obtain ⟨h3, h4⟩ := mul_log_le hb ha
  rw [add_comm b a] at h3 h4
  rw [jsTerm_eq ha hb]
  refine ⟨by linarith, fun h => h2.1 (by linarith), fun h => ?_⟩
  rw [h2.2 h, h4.2 h.symm]
  ring

/-! ## Dictionaries -/

theorem sum_dict (d : PyDict Bits ℝ) (hd : d.WF) (f : ℝ → ℝ) (hf : f 0 = 0) (S : Finset Bits) (hS : ∀ k ∈ d.map Prod.fst, k ∈ S) :
    (d.map fun kv => f kv.2).sum = ∑ k ∈ S, f ((d.get? k).getD 0) := by
  induction d generalizing S with
  | nil => simp [PyDict.get?, hf]
  | cons a d ih =>
    rw [PyDict.WF, List.map_cons, List.nodup_cons] at hd
    have ha : a.1 ∈ S := hS _ (by simp)
    rw [List.map_cons, List.sum_cons, ← Finset.add_sum_erase S _ ha, ih hd.2 (S.erase a.1)]
    · congr 1
      · simp [PyDict.get?]
      · refine Finset.sum_congr rfl fun k hk => ?_
        rw [PyDict.get?, if_neg fun e => (Finset.mem_erase.1 hk).1 e.symm]
    · intro k hk
      exact Finset.mem_erase.2 ⟨fun e => hd.1 (e ▸ hk), hS k (by rw [List.map_cons]; exact List.mem_cons_of_mem _ hk)⟩

theorem get?_map (c : PyDict Bits ℕ) (g : ℕ → ℝ) (k : Bits) :
    (PyDict.get? (c.map fun kv => (kv.1, g kv.2)) k) = (c.get? k).map g := by
  induction c with
  | nil => rfl
  | cons a c ih =>
    simp only [List.map_cons, PyDict.get?]
    split
    · rfl
    · exact ih

theorem get?_map' (c : PyDict Bits ℝ) (g : ℝ → ℝ) (k : Bits) :
    (PyDict.get? (c.map fun kv => (kv.1, g kv.2)) k) = (c.get? k).map g := by
  induction c with
  | nil => rfl
  | cons a c ih =>
    simp only [List.map_cons, PyDict.get?]
    split
    · rfl
    · exact ih

theorem get?_map_key (c : PyDict Bits ℝ) (g : Bits → ℝ → ℝ) (k : Bits) :
    (PyDict.get? (c.map fun kv => (kv.1, g kv.1 kv.2)) k) = (c.get? k).map (g k) := by
  induction c with
  | nil => rfl
  | cons a c ih =>
    simp only [List.map_cons, PyDict.get?]
    split
    · rename_i h; rw [h]; rfl
    · exact ih

theorem get?_append (c d : PyDict Bits ℝ) (k : Bits) : PyDict.get? (c ++ d) k = ((PyDict.get? c k).or (PyDict.get? d k)) := by
  induction c with
  | nil => rfl
  | cons a c ih =>
    simp only [List.cons_append, PyDict.get?]
    split
    · rfl
    · exact ih

theorem countOf_get? (c : PyDict Bits ℕ) (h : (c.map Prod.fst).Nodup) (k : Bits) : (c.get? k).getD 0 = countOf c k := by
  induction c with
  | nil => rfl
  | cons a c ih =>
    rw [List.map_cons, List.nodup_cons] at h
    by_cases hk : a.1 = k
    · have h0 : countOf c k = 0 := by
        unfold countOf
        rw [List.filter_eq_nil_iff.2, List.map_nil, List.sum_nil]
        intro kv hkv
        simp only [decide_eq_true_eq]
        intro e
        exact h.1 (List.mem_map.2 ⟨kv, hkv, by rw [hk, e]⟩)
      have h1 : countOf (a :: c) k = a.2 + countOf c k := by
        unfold countOf
        rw [List.filter_cons, if_pos (by simpa using hk)]
        simp
      rw [h1, h0]
      simp [PyDict.get?, hk]
    · have h1 : countOf (a :: c) k = countOf c k := by
        unfold countOf
        rw [List.filter_cons, if_neg (by simpa using hk)]
      rw [h1, ← ih h.2]
      simp [PyDict.get?, hk]

theorem totalShots_pos {c : PyDict Bits ℕ} (hc : SampleCounter c) : 0 < totalShots c := by
  obtain ⟨-, h1, h2⟩ := hc
  cases c with
  | nil => exact absurd rfl h2
  | cons a c =>
    rw [totalShots, List.map_cons, List.sum_cons]
    have := h1 a (by simp)
    omega

theorem normalise_get? {c : PyDict Bits ℕ} (hc : SampleCounter c) (k : Bits) :
    ((normalise c).get? k).getD 0 = freq c k := by
  rw [normalise, get?_map c (fun v => (v : ℝ) / ((c.map Prod.snd).sum : ℕ)), freq, ← countOf_get? c hc.nodup, totalShots]
  cases c.get? k <;> simp

theorem normalise_keys (c : PyDict Bits ℕ) : (normalise c).map Prod.fst = c.map Prod.fst := by
  rw [normalise, List.map_map]; rfl

theorem normalise_pos {c : PyDict Bits ℕ} (hc : SampleCounter c) : ∀ kv ∈ normalise c, 0 < kv.2 := by
  intro kv hkv
  obtain ⟨a, ha, rfl⟩ := List.mem_map.1 hkv
  have h1 := hc.pos a ha
  have h2 : 0 < (c.map Prod.snd).sum := totalShots_pos hc
  simp only
  positivity

theorem freq_nonneg (c : PyDict Bits ℕ) (k : Bits) : 0 ≤ freq c k := by unfold freq; positivity

theorem sum_freq {c : PyDict Bits ℕ} (hc : SampleCounter c) (S : Finset Bits) (hS : ∀ k ∈ c.map Prod.fst, k ∈ S) :
    ∑ k ∈ S, freq c k = 1 := by
  have h := sum_dict (normalise c) (by rw [PyDict.WF, normalise_keys]; exact hc.nodup) id rfl S (by rwa [normalise_keys])
  simp only [id, normalise_get? hc] at h
  rw [← h, normalise, List.map_map]
  have hp : (0 : ℝ) < totalShots c := by exact_mod_cast totalShots_pos hc
  have : ∀ (l : List (Bits × ℕ)) (T : ℝ), (l.map ((fun kv : Bits × ℝ => kv.2) ∘ fun kv => (kv.1, (kv.2 : ℝ) / T))).sum =
      ((l.map Prod.snd).sum : ℕ) / T := by
    intro l T
    induction l with
    | nil => simp
    | cons a l ih =>
      rw [List.map_cons, List.sum_cons, ih, List.map_cons, List.sum_cons]
      push_cast
      simp only [Function.comp_apply]
      ring
  rw [this, ← totalShots, div_self hp.ne']

/-! ## The sum of two counters -/

theorem addCounters_get? {p q : PyDict Bits ℝ} (hp : ∀ kv ∈ p, 0 < kv.2) (hq : ∀ kv ∈ q, 0 < kv.2) (k : Bits) :
    ((addCounters p q).get? k).getD 0 = (p.get? k).getD 0 + (q.get? k).getD 0 := by
  have hge : ∀ k, 0 ≤ (q.get? k).getD 0 := by
    intro k
    cases h : q.get? k with
    | none => simp
    | some v => simpa using (hq _ (PyDict.mem_of_get? h)).le
  have h1 : ((p.map fun kv => (kv.1, kv.2 + (q.get? kv.1).getD 0)).filter fun kv => decide (0 < kv.2)) =
      p.map fun kv => (kv.1, kv.2 + (q.get? kv.1).getD 0) := by
    rw [List.filter_eq_self]
    intro kv hkv
    obtain ⟨a, ha, rfl⟩ := List.mem_map.1 hkv
    have := hp a ha
    have := hge a.1
    simp only [decide_eq_true_eq]
    linarith
  rw [addCounters, h1, get?_append, get?_map_key p (fun k v => v + (q.get? k).getD 0)]
  have h2 : ∀ l : PyDict Bits ℝ, (∀ kv ∈ l, 0 < kv.2) → k ∉ p.map Prod.fst →
      PyDict.get? (l.filter fun kv => decide (kv.1 ∉ p.map Prod.fst ∧ 0 < kv.2)) k = l.get? k := by
    intro l hl hk
    induction l with
    | nil => rfl
    | cons a l ih =>
      have ih := ih fun kv hkv => hl kv (by simp [hkv])
      by_cases e : a.1 = k
      · rw [List.filter_cons, if_pos (by simpa only [decide_eq_true_eq, e] using ⟨hk, hl a (by simp)⟩)]
        simp [PyDict.get?, e]
      · rw [PyDict.get?, if_neg e, ← ih, List.filter_cons]
        split
        · rw [PyDict.get?, if_neg e]
        · rfl
  cases hpk : p.get? k with
  | none =>
    rw [h2 q hq (PyDict.get?_eq_none_iff.1 hpk)]
    simp
  | some v => simp

theorem addCounters_wf {p q : PyDict Bits ℝ} (hp : p.WF) (hq : q.WF) : (addCounters p q).WF := by
  rw [PyDict.WF, addCounters, List.map_append]
  refine List.Nodup.append ?_ ?_ ?_
  · refine List.Nodup.sublist ((List.filter_sublist).map _) ?_
    rw [List.map_map]
    exact hp
  · exact List.Nodup.sublist ((List.filter_sublist).map _) hq
  · intro k h1 h2
    obtain ⟨a, ha, rfl⟩ := List.mem_map.1 h1
    obtain ⟨b, hb, hab⟩ := List.mem_map.1 h2
    have h3 := (List.mem_filter.1 hb).2
    simp only [decide_eq_true_eq] at h3
    obtain ⟨c, hc, rfl⟩ := List.mem_map.1 (List.mem_filter.1 ha).1
    exact h3.1 (List.mem_map.2 ⟨c, hc, by rw [hab]⟩)

theorem addCounters_keys {p q : PyDict Bits ℝ} : ∀ k ∈ (addCounters p q).map Prod.fst, k ∈ p.map Prod.fst ∨ k ∈ q.map Prod.fst := by
  intro k hk
  rw [addCounters, List.map_append, List.mem_append] at hk
  rcases hk with h | h
  · obtain ⟨a, ha, rfl⟩ := List.mem_map.1 h
    obtain ⟨c, hc, rfl⟩ := List.mem_map.1 (List.mem_filter.1 ha).1
    exact .inl (List.mem_map.2 ⟨c, hc, rfl⟩)
  · obtain ⟨a, ha, rfl⟩ := List.mem_map.1 h
    exact .inr (List.mem_map.2 ⟨a, (List.mem_filter.1 ha).1, rfl⟩)

theorem addCounters_pos {p q : PyDict Bits ℝ} : ∀ kv ∈ addCounters p q, 0 < kv.2 := by
  intro kv hkv
  rw [addCounters, List.mem_append] at hkv
  rcases hkv with h | h
  · simpa using (List.mem_filter.1 h).2
  · have := (List.mem_filter.1 h).2
    simp only [decide_eq_true_eq] at this
    exact this.2

theorem entropy_eq (d : PyDict Bits ℝ) (hd : d.WF) (hp : ∀ kv ∈ d, 0 < kv.2) (S : Finset Bits) (hS : ∀ k ∈ d.map Prod.fst, k ∈ S) :
    shannonEntropy d = some (∑ k ∈ S, Real.negMulLog ((d.get? k).getD 0)) := by
  rw [shannonEntropy, if_pos hp, ← sum_dict d hd Real.negMulLog Real.negMulLog_zero S hS]
  congr 1
  unfold Real.negMulLog
  clear hS hp hd
  induction d with
  | nil => simp
  | cons a d ih =>
    simp only [List.map_cons, List.sum_cons, neg_add, ih]
    ring

theorem js_eq {p q : PyDict Bits ℕ} (hp : SampleCounter p) (hq : SampleCounter q) :
    jsDivergence p q = some (∑ k ∈ outcomes p q, jsTerm (freq p k) (freq q k)) := by
  have kp : ∀ k ∈ (normalise p).map Prod.fst, k ∈ outcomes p q := by
    intro k hk
    rw [normalise_keys] at hk
    rw [outcomes, List.mem_toFinset, List.mem_append]
    exact .inl hk
  have kq : ∀ k ∈ (normalise q).map Prod.fst, k ∈ outcomes p q := by
    intro k hk
    rw [normalise_keys] at hk
    rw [outcomes, List.mem_toFinset, List.mem_append]
    exact .inr hk
  have wp : (normalise p).WF := by rw [PyDict.WF, normalise_keys]; exact hp.nodup
  have wq : (normalise q).WF := by rw [PyDict.WF, normalise_keys]; exact hq.nodup
  have e1 := entropy_eq (normalise p) wp (normalise_pos hp) _ kp
  have e2 := entropy_eq (normalise q) wq (normalise_pos hq) _ kq
  have hk : ((addCounters (normalise p) (normalise q)).map fun kv => (kv.1, kv.2 / 2)).map Prod.fst =
      (addCounters (normalise p) (normalise q)).map Prod.fst := by rw [List.map_map]; rfl
  have e3 := entropy_eq ((addCounters (normalise p) (normalise q)).map fun kv => (kv.1, kv.2 / 2))
    (by rw [PyDict.WF, hk]; exact addCounters_wf wp wq)
    (fun kv hkv => by
      obtain ⟨a, ha, rfl⟩ := List.mem_map.1 hkv
      have := addCounters_pos a ha
      simp only
      positivity)
    (outcomes p q) (fun k h => by
      rw [hk] at h
      exact (addCounters_keys k h).elim (kp k) (kq k))
  rw [jsDivergence, e1, e2, e3]
  simp only [Option.bind_eq_bind, Option.bind_some, Option.pure_def]
  congr 1
  rw [← Finset.sum_add_distrib, Finset.sum_div, ← Finset.sum_sub_distrib]
  refine Finset.sum_congr rfl fun k _ => ?_
  rw [get?_map' _ (fun v => v / 2), normalise_get? hp, normalise_get? hq]
  have : ((PyDict.get? (addCounters (normalise p) (normalise q)) k).map fun v => v / 2).getD 0 = (freq p k + freq q k) / 2 := by
    rw [← normalise_get? hp, ← normalise_get? hq, ← addCounters_get? (normalise_pos hp) (normalise_pos hq)]
    cases PyDict.get? (addCounters (normalise p) (normalise q)) k <;> simp
  rw [this, jsTerm]

theorem freq_outside {p q : PyDict Bits ℕ} {k : Bits} (hk : k ∉ outcomes p q) : freq p k = 0 ∧ freq q k = 0 := by
  rw [outcomes, List.mem_toFinset, List.mem_append, not_or] at hk
  have : ∀ c : PyDict Bits ℕ, k ∉ c.map Prod.fst → freq c k = 0 := by
    intro c hc
    rw [freq, countOf, List.filter_eq_nil_iff.2]
    · simp
    · intro kv hkv
      simp only [decide_eq_true_eq]
      exact fun e => hc (List.mem_map.2 ⟨kv, hkv, e⟩)
  exact ⟨this p hk.1, this q hk.2⟩

/-- **C68**: `js_divergence` is the Jensen-Shannon divergence of the frequencies over all outcomes, is symmetric, between zero
and `log 2`, zero exactly for equal frequencies and `log 2` exactly if there is no common outcome. -/
theorem C68_js_divergence {p q : PyDict Bits ℕ} (hp : SampleCounter p) (hq : SampleCounter q) :
    ∃ v, jsDivergence p q = some v ∧ v = jensenShannon (outcomes p q) (freq p) (freq q) ∧ jsDivergence q p = some v ∧
      0 ≤ v ∧ v ≤ Real.log 2 ∧ (v = 0 ↔ ∀ k, freq p k = freq q k) ∧ (v = Real.log 2 ↔ ∀ k, freq p k = 0 ∨ freq q k = 0) := by
  have hnn : ∀ k ∈ outcomes p q, 0 ≤ jsTerm (freq p k) (freq q k) := fun k _ => jsTerm_nonneg (freq_nonneg p k) (freq_nonneg q k)
  have htot : ∑ k ∈ outcomes p q, (freq p k + freq q k) / 2 * Real.log 2 = Real.log 2 := by
    rw [← Finset.sum_mul, ← Finset.sum_div, Finset.sum_add_distrib, sum_freq hp, sum_freq hq]
    · ring
    · intro k hk; rw [outcomes, List.mem_toFinset, List.mem_append]; exact .inr hk
    · intro k hk; rw [outcomes, List.mem_toFinset, List.mem_append]; exact .inl hk
  have hle : ∀ k ∈ outcomes p q, jsTerm (freq p k) (freq q k) ≤ (freq p k + freq q k) / 2 * Real.log 2 :=
    fun k _ => (jsTerm_le (freq_nonneg p k) (freq_nonneg q k)).1
  refine ⟨_, js_eq hp hq, ?_, ?_, Finset.sum_nonneg hnn, ?_, ?_, ?_⟩
  · rw [jensenShannon, relEntropy, relEntropy, ← Finset.sum_add_distrib, Finset.sum_div]
    exact Finset.sum_congr rfl fun k _ => jsTerm_eq (freq_nonneg p k) (freq_nonneg q k)
  · rw [js_eq hq hp]
    have : outcomes q p = outcomes p q := by
      ext k
      simp only [outcomes, List.mem_toFinset, List.mem_append, or_comm]
    rw [this]
    congr 1
    refine Finset.sum_congr rfl fun k _ => ?_
    unfold jsTerm
    rw [add_comm (freq q k), add_comm (Real.negMulLog (freq q k))]
  · calc _ ≤ _ := Finset.sum_le_sum hle
      _ = _ := htot
  · rw [Finset.sum_eq_zero_iff_of_nonneg hnn]
    constructor
    · intro h k
      by_cases hk : k ∈ outcomes p q
      · exact (jsTerm_eq_zero (freq_nonneg p k) (freq_nonneg q k)).1 (h k hk)
      · obtain ⟨h1, h2⟩ := freq_outside hk; rw [h1, h2]
    · intro h k _
      exact (jsTerm_eq_zero (freq_nonneg p k) (freq_nonneg q k)).2 (h k)
  · nth_rw 1 [← htot]
    rw [Finset.sum_eq_sum_iff_of_le hle]
    constructor
    · intro h k
      by_cases hk : k ∈ outcomes p q
      · exact (jsTerm_le (freq_nonneg p k) (freq_nonneg q k)).2.1 (h k hk)
      · exact .inl (freq_outside hk).1
    · intro h k _
      exact (jsTerm_le (freq_nonneg p k) (freq_nonneg q k)).2.2 (h k)

/-- **C68**: the JENSEN_SHANNON overlaps are one per pair of counters, in order, symmetric, between `1 - log 2` and one; one
exactly for equal frequencies. -/
theorem C68_overlap {bras kets : List (PyDict Bits ℕ)} (hb : ∀ c ∈ bras, SampleCounter c) (hk : ∀ c ∈ kets, SampleCounter c)
    (hl : bras.length = kets.length) :
    (overlapJensenShannon bras kets).length = bras.length ∧ overlapJensenShannon bras kets = overlapJensenShannon kets bras ∧
    ∀ (i : ℕ) (h1 : i < bras.length) (h2 : i < kets.length), ∃ v, (overlapJensenShannon bras kets)[i]? = some (some v) ∧
      1 - Real.log 2 ≤ v ∧ v ≤ 1 ∧ (v = 1 ↔ ∀ k, freq bras[i] k = freq kets[i] k) := by
  refine ⟨by simp [overlapJensenShannon, hl], ?_, fun i h1 h2 => ?_⟩
  · rw [overlapJensenShannon, overlapJensenShannon]
    apply List.ext_getElem
    · simp [hl]
    · intro i h1 h2
      simp only [List.length_zipWith, lt_inf_iff] at h1 h2
      simp only [List.getElem_zipWith]
      obtain ⟨v, e1, -, e2, -⟩ := C68_js_divergence (hb _ (List.getElem_mem h1.1)) (hk _ (List.getElem_mem h1.2))
      rw [e1, e2]
  · obtain ⟨v, e1, -, -, e2, e3, e4, -⟩ := C68_js_divergence (hb _ (List.getElem_mem h1)) (hk _ (List.getElem_mem h2))
    refine ⟨1 - v, ?_, by linarith, by linarith, ?_⟩
    · rw [overlapJensenShannon, List.getElem?_zipWith_eq_some]
      exact ⟨_, _, List.getElem?_eq_getElem h1, List.getElem?_eq_getElem h2, by rw [e1]; rfl⟩
    · rw [← e4]
      constructor <;> intro h <;> linarith

/-- **C68**: counters of orthogonal basis states: the JENSEN_SHANNON overlap is `1 - log 2`, not zero. -/
theorem C68_counterexample_orthogonal :
    overlapJensenShannon [[([false], 100)]] [[([true], 100)]] = [some (1 - Real.log 2)] ∧ (1 - Real.log 2 : ℝ) ≠ 0 := by
  have h1 : SampleCounter [([false], 100)] := ⟨by simp, by simp, by simp⟩
  have h2 : SampleCounter [([true], 100)] := ⟨by simp, by simp, by simp⟩
  obtain ⟨v, e1, -, -, -, -, -, e2⟩ := C68_js_divergence h1 h2
  have : v = Real.log 2 := by
    rw [e2]
    intro k
    by_cases hk : k = [false]
    · right; subst hk; simp [freq, countOf]
    · left
      have : ¬ [false] = k := fun e => hk e.symm
      simp [freq, countOf, this]
  refine ⟨by simp [overlapJensenShannon, e1, this], ?_⟩
  have := Real.log_lt_sub_one_of_pos (by norm_num : (0 : ℝ) < 2) (by norm_num)
  intro h
  linarith

/-- **C68**: the orthogonal states `|+>` and `|->` have the same counters; the JENSEN_SHANNON overlap is one. -/
theorem C68_counterexample_phase : ∃ φ ψ : St 1 → ℂ, ∃ c : PyDict Bits ℕ, BornCounter 100 φ c ∧ BornCounter 100 ψ c ∧
    braket φ ψ = 0 ∧ overlapJensenShannon [c] [c] = [some 1] := by
  have hn : ‖((1 / Real.sqrt 2 : ℝ) : ℂ)‖ ^ 2 = 1 / 2 := by
    rw [Complex.norm_real, Real.norm_eq_abs, sq_abs, div_pow, Real.sq_sqrt (by norm_num)]; norm_num
  refine ⟨fun _ => ((1 / Real.sqrt 2 : ℝ) : ℂ), fun x => if x 0 then -((1 / Real.sqrt 2 : ℝ) : ℂ) else ((1 / Real.sqrt 2 : ℝ) : ℂ),
    [([false], 50), ([true], 50)], ⟨by simp, by simp [totalShots], fun x => ?_⟩, ⟨by simp, by simp [totalShots], fun x => ?_⟩, ?_, ?_⟩
  · rw [hn]
    have hx : List.ofFn x = [x 0] := by simp [List.ofFn_succ]
    cases hb : x 0 <;> simp [countOf, hx, hb] <;> norm_num
  · have : ‖(if x 0 then -((1 / Real.sqrt 2 : ℝ) : ℂ) else ((1 / Real.sqrt 2 : ℝ) : ℂ))‖ ^ 2 = 1 / 2 := by
      split
      · rw [norm_neg, hn]
      · exact hn
    rw [this]
    have hx : List.ofFn x = [x 0] := by simp [List.ofFn_succ]
    cases hb : x 0 <;> simp [countOf, hx, hb] <;> norm_num
  · rw [braket, ← (Equiv.funUnique (Fin 1) Bool).symm.sum_comp, Fintype.sum_bool]
    simp
  · have h1 : SampleCounter [([false], 50), ([true], 50)] := ⟨by simp, by simp, by simp⟩
    obtain ⟨v, e1, -, -, -, -, e2, -⟩ := C68_js_divergence h1 h1
    rw [e2.2 fun _ => rfl] at e1
    simp [overlapJensenShannon, e1]

/-- **C68**: a counter with an outcome of count zero gives `nan`. -/
theorem C68_counterexample_zero_count : jsDivergence [([false], 1), ([true], 0)] [([false], 1)] = none := by
  have : shannonEntropy (normalise [([false], 1), ([true], 0)]) = none := by
    rw [shannonEntropy, if_neg]
    intro h
    have := h ([true], 0) (by simp [normalise])
    simp at this
  rw [jsDivergence, this]
  cases shannonEntropy ((addCounters (normalise [([false], 1), ([true], 0)]) (normalise [([false], 1)])).map fun kv => (kv.1, kv.2 / 2)) <;> rfl

/-! ## `norm_difference` -/

/-- **C68** (partial: only for counters with the same outcomes in the same order): `norm_difference` is the Euclidean distance
of the frequencies. -/
theorem C68_norm_difference_partial {p q : PyDict Bits ℕ} (hp : SampleCounter p) (hq : SampleCounter q)
    (h : p.map Prod.fst = q.map Prod.fst) :
    normDifference p q = .ok (Real.sqrt (∑ k ∈ outcomes p q, (freq p k - freq q k) ^ 2)) := by
  have hl : p.length = q.length := by simpa using congrArg List.length h
  have hb : ∀ a b : List ℝ, a.length = b.length → broadcastSub a b = .ok (List.zipWith (· - ·) a b) := fun a b h => by
    unfold broadcastSub
    rw [if_pos h]
  rw [normDifference, hb _ _ (by simpa using hl), ok_bind, pure_eq_ok]
  congr 2
  have key : ∀ (p q : List (Bits × ℝ)), p.map Prod.fst = q.map Prod.fst → (p.map Prod.fst).Nodup → ∀ S : Finset Bits,
      (∀ k ∈ p.map Prod.fst, k ∈ S) → ((List.zipWith (· - ·) (p.map Prod.snd) (q.map Prod.snd)).map fun x : ℝ => x ^ 2).sum =
        ∑ k ∈ S, ((PyDict.get? p k).getD 0 - (PyDict.get? q k).getD 0) ^ 2 := by
    intro p
    induction p with
    | nil =>
      intro q h _ S _
      cases q with
      | nil => simp [PyDict.get?]
      | cons b q => simp at h
    | cons a p ih =>
      intro q h hd S hS
      cases q with
      | nil => simp at h
      | cons b q =>
        rw [List.map_cons, List.map_cons, List.cons.injEq] at h
        rw [List.map_cons, List.nodup_cons] at hd
        have ha : a.1 ∈ S := hS _ (by simp)
        rw [List.map_cons, List.map_cons, List.zipWith_cons_cons, List.map_cons, List.sum_cons, ← Finset.add_sum_erase S _ ha,
          ih q h.2 hd.2 (S.erase a.1)]
        · congr 1
          · simp [PyDict.get?, h.1]
          · refine Finset.sum_congr rfl fun k hk => ?_
            have hne := (Finset.mem_erase.1 hk).1
            rw [PyDict.get?, if_neg fun e => hne e.symm, PyDict.get?, if_neg fun e => hne (by rw [h.1]; exact e.symm)]
        · intro k hk
          exact Finset.mem_erase.2 ⟨fun e => hd.1 (e ▸ hk), hS k (by rw [List.map_cons]; exact List.mem_cons_of_mem _ hk)⟩
  have hk := key (normalise p) (normalise q) (by rw [normalise_keys, normalise_keys, h]) (by rw [normalise_keys]; exact hp.nodup)
    (outcomes p q) (fun k hk => by
      rw [normalise_keys] at hk
      rw [outcomes, List.mem_toFinset, List.mem_append]
      exact .inl hk)
  simp only [normalise_get? hp, normalise_get? hq] at hk
  rw [← hk, normalise, normalise, List.map_map, List.map_map]
  rfl

/-- **C68**: `norm_difference` of counters without a common outcome is zero: counts are compared by position. -/
theorem C68_counterexample_norm_difference :
    normDifference [([false], 100)] [([true], 100)] = .ok 0 ∧ freq [([false], 100)] [false] = 1 ∧ freq [([true], 100)] [false] = 0 := by
  refine ⟨?_, by simp [freq, countOf, totalShots], by simp [freq, countOf]⟩
  simp [normDifference, broadcastSub, ok_bind, pure_eq_ok]

/-- **C68**: counters with two and three outcomes cannot be compared by `norm_difference`. -/
theorem C68_counterexample_norm_shape :
    normDifference [([false, false], 1), ([false, true], 1)] [([false, false], 1), ([false, true], 1), ([true, true], 1)] =
      .error .valueError := by
  simp [normDifference, broadcastSub, error_bind]

/-! ## Examples -/

example : SampleCounter [([false, true], 3), ([true, true], 7)] := ⟨by simp, by simp, by simp⟩

example : ([([false, true], 3), ([true, true], 7)] : PyDict Bits ℕ).map Prod.fst =
    ([([false, true], 6), ([true, true], 1)] : PyDict Bits ℕ).map Prod.fst := rfl

end Qadence
