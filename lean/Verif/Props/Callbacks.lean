import Mathlib.Tactic
import Verif.Model.Callbacks
import Verif.Proofs.Except

/-!
# C50 and C51: early stopping, best checkpoints and learning rates
-/

namespace Qadence

/-! ## Early stopping -/

namespace Spec

/-- `v` is strictly better than `u`. -/
def Better (m : ESMode) (v u : FVal) : Prop :=
  match m with
  | .min => v.lt u = true
  | .max => u.lt v = true
  | .other => False

/-- The worst value. -/
def worst : ESMode → FVal
  | .min => .posInf
  | _ => .negInf

/-- The value at position `i` of the history improves: it is better than the worst value and than every number before. -/
def Improves (m : ESMode) (vs : List FVal) (i : ℕ) : Prop :=
  ∃ v, vs[i]? = some v ∧ Better m v (worst m) ∧ ∀ u ∈ vs.take i, u ≠ .nan → Better m v u

end Spec

open Spec

theorem FVal.lt_trans {a b c : FVal} (h1 : a.lt b = true) (h2 : b.lt c = true) : a.lt c = true := by
  cases a <;> cases b <;> cases c <;> simp_all [FVal.lt]
  exact _root_.lt_trans h1 h2

theorem FVal.lt_of_not_lt {a b c : FVal} (h1 : a.lt b = true) (h2 : c.lt b = false) (hc : c ≠ .nan) : a.lt c = true := by
  cases a <;> cases b <;> cases c <;> simp_all [FVal.lt]
  exact lt_of_lt_of_le h1 h2

theorem FVal.lt_of_lt_of_not {a b c : FVal} (h1 : b.lt a = true) (h2 : b.lt c = false) (hc : c ≠ .nan) : c.lt a = true := by
  cases a <;> cases b <;> cases c <;> simp_all [FVal.lt]
  exact lt_of_le_of_lt h2 h1

instance (m : ESMode) (v u : FVal) : Decidable (Better m v u) := by
  unfold Better
  split <;> infer_instance

theorem better_trans {m : ESMode} {a b c : FVal} (h1 : Better m a b) (h2 : Better m b c) : Better m a c := by
  cases m with
  | min => exact FVal.lt_trans h1 h2
  | max => exact FVal.lt_trans h2 h1
  | other => exact h1

theorem better_of_not {m : ESMode} {a b c : FVal} (h1 : Better m a b) (h2 : ¬ Better m c b) (hc : c ≠ .nan) :
    Better m a c := by
  cases m with
  | min => exact FVal.lt_of_not_lt h1 (by simpa [Better] using h2) hc
  | max => exact FVal.lt_of_lt_of_not h1 (by simpa [Better] using h2) hc
  | other => exact h1.elim

/-- The value of one step. -/
theorem run_some (m : ESMode) (p : ℤ) (s : ESState) (v : FVal) :
    s.run m p (some v) = .ok (if Better m v s.best then { best := v, counter := 0 } else { s with counter := s.counter + 1 },
      decide ((if Better m v s.best then { best := v, counter := 0 } else { s with counter := s.counter + 1 } :
        ESState).counter ≥ p)) := by
  have : ((m = .min ∧ v.lt s.best = true) ∨ (m = .max ∧ s.best.lt v = true)) ↔ Better m v s.best := by
    cases m <;> simp [Better]
  simp only [ESState.run]
  rw [if_congr this rfl rfl]

/-- `s` is the state after the history `vs`. -/
structure ESInv (m : ESMode) (vs : List FVal) (s : ESState) : Prop where
  /-- being better than the best value means to be better than all numbers of the history -/
  best : ∀ v, Better m v s.best ↔ (Better m v (worst m) ∧ ∀ u ∈ vs, u ≠ .nan → Better m v u)
  /-- the counter is the number of calls since the last improvement -/
  counter : ∃ c : ℕ, s.counter = c ∧ c ≤ vs.length ∧ (∀ i, vs.length - c ≤ i → i < vs.length → ¬ Improves m vs i) ∧
    (c < vs.length → Improves m vs (vs.length - c - 1))

theorem esInv_init (m : ESMode) : ESInv m [] (ESState.init m) where
  best v := by
    cases m <;> simp [ESState.init, worst]
  counter := ⟨0, rfl, by simp, by simp, by simp⟩

theorem improves_append {m : ESMode} {vs : List FVal} {i : ℕ} (h : i < vs.length) (v : FVal) :
    Improves m (vs ++ [v]) i ↔ Improves m vs i := by
  unfold Improves
  rw [List.getElem?_append_left h, List.take_append_of_le_length h.le]

theorem improves_last {m : ESMode} {vs : List FVal} (v : FVal) :
    Improves m (vs ++ [v]) vs.length ↔ (Better m v (worst m) ∧ ∀ u ∈ vs, u ≠ .nan → Better m v u) := by
  unfold Improves
  simp

theorem esInv_step {m : ESMode} {vs : List FVal} {s : ESState} (h : ESInv m vs s) (v : FVal) :
    ESInv m (vs ++ [v]) (if Better m v s.best then { best := v, counter := 0 } else { s with counter := s.counter + 1 }) := by
  obtain ⟨hb, c, hc, hle, hno, himp⟩ := h
  split
  · next hv =>
    have hv' := (hb v).1 hv
    refine ⟨fun x => ⟨fun hx => ?_, fun hx => ?_⟩, 0, rfl, by simp, ?_, ?_⟩
    · refine ⟨better_trans hx hv'.1, fun u hu hn => ?_⟩
      rcases List.mem_append.1 hu with hu | hu
      · exact better_trans hx (hv'.2 u hu hn)
      · rw [List.mem_singleton] at hu
        subst hu
        exact hx
    · apply hx.2 v (by simp)
      rintro rfl
      cases m <;> cases hs : s.best <;> simp [Better, hs, FVal.lt] at hv
    · intro i h1 h2
      omega
    · intro _
      have : (vs ++ [v]).length - 0 - 1 = vs.length := by simp
      rw [this, improves_last]
      exact hv'
  · next hv =>
    refine ⟨fun x => ⟨fun hx => ?_, fun hx => ?_⟩, c + 1, ?_, by simpa using hle, ?_, ?_⟩
    · have hx' := (hb x).1 hx
      refine ⟨hx'.1, fun u hu hn => ?_⟩
      rcases List.mem_append.1 hu with hu | hu
      · exact hx'.2 u hu hn
      · rw [List.mem_singleton] at hu
        subst hu
        exact better_of_not hx hv hn
    · exact (hb x).2 ⟨hx.1, fun u hu hn => hx.2 u (by simp [hu]) hn⟩
    · push_cast [hc]
      rfl
    · intro i h1 h2
      rw [List.length_append, List.length_singleton] at h1 h2
      by_cases hi : i < vs.length
      · rw [improves_append hi]
        exact hno i (by omega) hi
      · have : i = vs.length := by omega
        rw [this, improves_last]
        exact fun h => hv ((hb v).2 h)
    · intro hlt
      rw [List.length_append, List.length_singleton] at hlt ⊢
      have : vs.length + 1 - (c + 1) - 1 = vs.length - c - 1 := by omega
      rw [this, improves_append (by omega)]
      exact himp (by omega)

theorem runs_inv (m : ESMode) (p : ℤ) (vs pre : List FVal) (s : ESState) (h : ESInv m pre s) :
    ∃ s' bs, s.runs m p (vs.map some) = .ok (s', bs) ∧ ESInv m (pre ++ vs) s' ∧ bs.length = vs.length ∧
      ∀ k, (bs[k]? = some true ↔ k < vs.length ∧ ∃ c : ℕ, p ≤ c ∧ c ≤ pre.length + k + 1 ∧
        (∀ i, pre.length + k + 1 - c ≤ i → i < pre.length + k + 1 → ¬ Improves m (pre ++ vs) i)) := by
  induction vs generalizing pre s with
  | nil => exact ⟨s, [], rfl, by simpa using h, rfl, by simp⟩
  | cons v vs ih =>
    have hstep := esInv_step h v
    obtain ⟨s', bs, hr, hinv, hlen, hk⟩ := ih (pre ++ [v]) _ hstep
    refine ⟨s', decide ((if Better m v s.best then { best := v, counter := 0 } else
      { s with counter := s.counter + 1 } : ESState).counter ≥ p) :: bs, ?_, ?_, by simp [hlen], ?_⟩
    · rw [List.map_cons, ESState.runs, run_some]
      simp only [ok_bind, hr]
      rfl
    · simpa using hinv
    · intro k
      cases k with
      | zero =>
        rw [List.getElem?_cons_zero, Option.some.injEq, decide_eq_true_iff]
        obtain ⟨c, hc, hle, hno, himp⟩ := hstep.counter
        rw [hc]
        have htake : ∀ i, i < pre.length + 1 → (Improves m (pre ++ v :: vs) i ↔ Improves m (pre ++ [v]) i) := by
          intro i hi
          have happ : pre ++ v :: vs = (pre ++ [v]) ++ vs := by simp
          unfold Improves
          rw [happ, List.getElem?_append_left (by simpa using hi), List.take_append_of_le_length (by simp; omega)]
        rw [List.length_append, List.length_singleton] at hle hno himp
        constructor
        · intro hp
          refine ⟨by simp, c, hp, by simpa using hle, fun i h1 h2 => ?_⟩
          rw [htake i h2]
          exact hno i h1 h2
        · rintro ⟨-, d, hp, hd, hd'⟩
          by_contra hlt
          have hcd : c < d := by
            have : ¬ (p ≤ (c : ℤ)) := hlt
            omega
          have := himp (by omega)
          refine hd' (pre.length + 1 - c - 1) (by omega) (by omega) ?_
          rw [htake _ (by omega)]
          exact this
      | succ k =>
        rw [List.getElem?_cons_succ, hk k]
        simp only [List.append_assoc, List.cons_append, List.nil_append, List.length_append, List.length_cons,
          List.length_nil]
        have e1 : pre.length + (0 + 1) + k + 1 = pre.length + (k + 1) + 1 := by omega
        rw [e1]
        constructor
        · rintro ⟨h1, c, h2⟩
          exact ⟨by omega, c, h2⟩
        · rintro ⟨h1, c, h2⟩
          exact ⟨by omega, c, h2⟩

/-- **C50** early stopping: call number `n` (counted from 1) requests a stop iff there were `patience` calls and none of the
last `patience` ones improved the best value. -/
theorem C50_early_stopping (m : ESMode) (patience : ℕ) (vs : List FVal) :
    ∃ s bs, (ESState.init m).runs m patience (vs.map some) = .ok (s, bs) ∧ bs.length = vs.length ∧
      ∀ n, 0 < n → n ≤ vs.length → (bs[n - 1]? = some true ↔
        patience ≤ n ∧ ∀ i, n - patience ≤ i → i < n → ¬ Improves m vs i) := by
  obtain ⟨s, bs, hr, -, hlen, hk⟩ := runs_inv m patience vs [] _ (esInv_init m)
  refine ⟨s, bs, hr, hlen, fun n h0 hn => ?_⟩
  rw [hk (n - 1)]
  simp only [List.length_nil, List.nil_append, zero_add]
  have e : n - 1 + 1 = n := by omega
  rw [e]
  constructor
  · rintro ⟨-, c, hp, hc, hno⟩
    have : patience ≤ c := by exact_mod_cast hp
    exact ⟨by omega, fun i h1 h2 => hno i (by omega) h2⟩
  · rintro ⟨hp, hno⟩
    exact ⟨by omega, patience, le_rfl, hp, hno⟩

/-- **C50** a missing metric is an error, it does not count as a call without improvement. -/
theorem C50_missing_metric (m : ESMode) (patience : ℤ) (s : ESState) : s.run m patience none = .error .valueError := rfl

/-- **C50** the monitored best value is the best number of the history. -/
theorem C50_best_value (m : ESMode) (hm : m ≠ .other) (patience : ℤ) (vs : List FVal) (s : ESState) (bs : List Bool)
    (h : (ESState.init m).runs m patience (vs.map some) = .ok (s, bs)) :
    (s.best ∈ vs ∨ s.best = worst m) ∧ ∀ u ∈ vs, u ≠ .nan → ¬ Better m u s.best := by
  obtain ⟨s', bs', hr, hinv, -, -⟩ := runs_inv m patience vs [] _ (esInv_init m)
  rw [h] at hr
  cases hr
  constructor
  · have key : ∀ (vs : List FVal) (s s' : ESState) bs, s.runs m patience (vs.map some) = .ok (s', bs) →
        s'.best ∈ vs ∨ s'.best = s.best := by
      intro vs
      induction vs with
      | nil => intro s s' bs h; cases h; exact Or.inr rfl
      | cons v vs ih =>
        intro s s' bs h
        rw [List.map_cons, ESState.runs, run_some] at h
        simp only [ok_bind] at h
        obtain ⟨⟨s2, bs2⟩, h2, h3⟩ := bind_ok h
        cases h3
        rcases ih _ _ _ h2 with h' | h'
        · exact Or.inl (List.mem_cons_of_mem _ h')
        · rw [h']
          split
          · exact Or.inl (by simp)
          · exact Or.inr rfl
    rcases key vs _ _ _ h with h' | h'
    · exact Or.inl h'
    · right
      rw [h']
      cases m <;> simp [ESState.init, worst]
  · intro u hu hn hb
    have := ((hinv.best u).1 hb).2 u (by simpa using hu) hn
    cases m with
    | min => cases u <;> simp [Better, FVal.lt] at this hn
    | max => cases u <;> simp [Better, FVal.lt] at this hn
    | other => exact hm rfl

/-- A mode other than "min" and "max" is accepted and never improves: training stops after `patience` calls. -/
theorem C50_counterexample_mode : (ESState.init .other).runs .other 2 [some (.fin 3), some (.fin 2), some (.fin 1)] =
    .ok (⟨.negInf, 3⟩, [false, true, true]) := by rfl

/-! ## The best checkpoint -/

theorem saveBests_append (crit : Option (FVal → FVal → Bool)) (s : FVal × Option FVal) (vs ws : List FVal) :
    saveBests crit s (vs ++ ws) = saveBests crit (saveBests crit s vs) ws := by
  induction vs generalizing s with
  | nil => rfl
  | cons v vs ih => exact ih _

/-- **C50** best checkpoint: a call writes the checkpoint exactly if the criterion accepts the loss against the loss stored
last (infinity in the beginning), and the file always holds the last accepted loss. -/
theorem C50_save_best (c : FVal → FVal → Bool) (vs : List FVal) (v : FVal) :
    let before := (saveBests (some c) saveBestInit vs).2
    let stored := before.getD .posInf
    (saveBests (some c) saveBestInit (vs ++ [v])).2 = if c v stored then some v else before := by
  have inv : ∀ vs, (saveBests (some c) saveBestInit vs).1 = (saveBests (some c) saveBestInit vs).2.getD .posInf := by
    intro vs
    induction vs using List.reverseRecOn with
    | nil => rfl
    | append_singleton vs v ih =>
      rw [saveBests_append]
      generalize saveBests (some c) saveBestInit vs = s at ih
      obtain ⟨b, f⟩ := s
      simp only [saveBests, saveBest] at ih ⊢
      subst ih
      by_cases h : c v (f.getD .posInf) = true <;> simp [h]
  intro before stored
  have hs : stored = (saveBests (some c) saveBestInit vs).1 := (inv vs).symm
  rw [saveBests_append, hs]
  simp only [before]
  generalize saveBests (some c) saveBestInit vs = s
  obtain ⟨b, f⟩ := s
  simp only [saveBests, saveBest]
  by_cases h : c v b = true <;> simp [h]

/-- **C50** for a criterion which is a strict order (as `loss < best` or `loss < best - epsilon`), no loss of the history is
accepted against the stored one: the last saved checkpoint is the best one. -/
theorem C50_best_is_best (c : FVal → FVal → Bool) (hirr : ∀ a, c a a = false)
    (htr : ∀ x y z, c x y = true → c y z = true → c x z = true) (vs : List FVal) :
    ∀ v ∈ vs, c v ((saveBests (some c) saveBestInit vs).2.getD .posInf) = false := by
  induction vs using List.reverseRecOn with
  | nil => simp
  | append_singleton vs v ih =>
    have h := C50_save_best c vs v
    simp only at h
    rw [h]
    intro u hu
    by_cases hv : c v ((saveBests (some c) saveBestInit vs).2.getD .posInf) = true
    · rw [if_pos hv, Option.getD_some]
      rcases List.mem_append.1 hu with hu | hu
      · cases hc : c u v with
        | false => rfl
        | true => exact absurd (htr _ _ _ hc hv) (by simp [ih u hu])
      · rw [List.mem_singleton] at hu
        rw [hu]
        exact hirr v
    · rw [if_neg hv]
      rcases List.mem_append.1 hu with hu | hu
      · exact ih u hu
      · rw [List.mem_singleton] at hu
        rw [hu]
        simpa using hv

/-- The usual criterion meets the hypotheses. -/
example (vs : List FVal) : ∀ v ∈ vs, v.lt ((saveBests (some FVal.lt) saveBestInit vs).2.getD .posInf) = false :=
  C50_best_is_best FVal.lt (fun a => by cases a <;> simp [FVal.lt]) (fun _ _ _ => FVal.lt_trans) vs

/-- **C50** without a criterion nothing is written. -/
theorem C50_no_criterion (s : FVal × Option FVal) (vs : List FVal) : saveBests none s vs = s := by
  induction vs generalizing s with
  | nil => rfl
  | cons v vs ih => exact ih _

example : (saveBests (some FVal.lt) saveBestInit [.fin 3, .nan, .fin 1, .fin 2]).2 = some (.fin 1) := by decide +kernel

/-- Losses 3, 1, 2, NaN, 1 with patience 3: a stop is requested by the fifth call. -/
example : (ESState.init .min).runs .min 3 [some (.fin 3), some (.fin 1), some (.fin 2), some .nan, some (.fin 1)] =
    .ok (⟨.fin 1, 3⟩, [false, false, false, false, true]) := by decide +kernel

/-! ## Learning rates -/

/-- **C51** step decay: after `k` calls the rate is `lr * gamma ^ k`. -/
theorem C51_step_decay (gamma lr : ℝ) (k : ℕ) : (stepDecay gamma)^[k] lr = lr * gamma ^ k := by
  induction k with
  | zero => simp
  | succ k ih => rw [Function.iterate_succ_apply', ih, stepDecay, pow_succ, mul_assoc]

/-- **C51** cyclic schedule: in the first half of a cycle the rate grows linearly from base to max, in the second half it
falls linearly. -/
theorem C51_cyclic_triangle (base max : ℝ) (step k r : ℕ) (hs : 0 < step) (hr : r < 2 * step) :
    cyclicLr base max step (k * (2 * step) + r) =
      .ok (base + (max - base) * (if r ≤ step then (r : ℝ) / step else 2 - (r : ℝ) / step)) := by
  have hs' : (0 : ℝ) < step := by exact_mod_cast hs
  have hcycle : (k * (2 * step) + r) / (2 * step) = k := by
    rw [mul_comm, Nat.mul_add_div (by omega), Nat.div_eq_of_lt hr, add_zero]
  rw [cyclicLr, if_neg hs.ne']
  simp only [hcycle]
  have hx : ((k * (2 * step) + r : ℕ) : ℝ) / step - 2 * k - 1 = (r : ℝ) / step - 1 := by
    push_cast
    field_simp
    ring
  rw [hx]
  congr 3
  split
  · next h =>
    have : (r : ℝ) / step ≤ 1 := by
      rw [div_le_one hs']
      exact_mod_cast h
    rw [abs_of_nonpos (by linarith), max_eq_right]
    · ring
    · have : (0 : ℝ) ≤ r / step := by positivity
      linarith
  · next h =>
    have h1 : 1 ≤ (r : ℝ) / step := by
      rw [one_le_div hs']
      exact_mod_cast (by omega : step ≤ r)
    have h2 : (r : ℝ) / step ≤ 2 := by
      rw [div_le_iff₀ hs']
      exact_mod_cast hr.le
    rw [abs_of_nonneg (by linarith), max_eq_right (by linarith)]
    ring

/-- **C51** cyclic schedule: the rate stays between base and max. -/
theorem C51_cyclic_bounds (base max : ℝ) (h : base ≤ max) (step it : ℕ) (hs : 0 < step) :
    ∃ lr, cyclicLr base max step it = .ok lr ∧ base ≤ lr ∧ lr ≤ max := by
  have hit : it = it / (2 * step) * (2 * step) + it % (2 * step) := by
    rw [mul_comm, Nat.div_add_mod]
  rw [hit, C51_cyclic_triangle _ _ _ _ _ hs (Nat.mod_lt _ (by omega))]
  refine ⟨_, rfl, ?_⟩
  have hs' : (0 : ℝ) < step := by exact_mod_cast hs
  set r := it % (2 * step) with hr
  have hr2 : r < 2 * step := Nat.mod_lt _ (by omega)
  have key : (0 : ℝ) ≤ (if r ≤ step then (r : ℝ) / step else 2 - (r : ℝ) / step) ∧
      (if r ≤ step then (r : ℝ) / step else 2 - (r : ℝ) / step) ≤ 1 := by
    split
    · next h =>
      refine ⟨by positivity, ?_⟩
      rw [div_le_one hs']
      exact_mod_cast h
    · next h =>
      have h1 : 1 ≤ (r : ℝ) / step := by
        rw [one_le_div hs']
        exact_mod_cast (by omega : step ≤ r)
      have h2 : (r : ℝ) / step ≤ 2 := by
        rw [div_le_iff₀ hs']
        exact_mod_cast hr2.le
      exact ⟨by linarith, by linarith⟩
  constructor <;> nlinarith [key.1, key.2, sub_nonneg.2 h]

/-- **C51** cyclic schedule: period `2 * step_size`. -/
theorem C51_cyclic_period (base max : ℝ) (step it : ℕ) (hs : 0 < step) :
    cyclicLr base max step (it + 2 * step) = cyclicLr base max step it := by
  have hit : it = it / (2 * step) * (2 * step) + it % (2 * step) := by
    rw [mul_comm, Nat.div_add_mod]
  have hit2 : it + 2 * step = (it / (2 * step) + 1) * (2 * step) + it % (2 * step) := by
    rw [add_mul, one_mul]
    omega
  have hm : it % (2 * step) < 2 * step := Nat.mod_lt _ (by omega)
  rw [hit2]
  conv_rhs => rw [hit]
  rw [C51_cyclic_triangle _ _ _ _ _ hs hm, C51_cyclic_triangle _ _ _ _ _ hs hm]

/-- **C51** cyclic schedule: the limits are reached at the start and in the middle of each cycle. -/
theorem C51_cyclic_limits (base max : ℝ) (step k : ℕ) (hs : 0 < step) :
    cyclicLr base max step (k * (2 * step)) = .ok base ∧ cyclicLr base max step (k * (2 * step) + step) = .ok max := by
  have hs' : (step : ℝ) ≠ 0 := by exact_mod_cast hs.ne'
  constructor
  · have := C51_cyclic_triangle base max step k 0 hs (by omega)
    simpa using this
  · have := C51_cyclic_triangle base max step k step hs (by omega)
    simpa [hs'] using this

/-- **C51** cosine annealing: the rate after calls at given iterations. -/
theorem C51_cosine_closed_form (minLr : ℝ) (tMax : ℕ) (h : tMax ≠ 0) (its : List ℕ) (lr : ℝ) :
    cosineLrs minLr tMax its lr =
      .ok (minLr + (lr - minLr) * (its.map fun it : ℕ => (1 + Real.cos (Real.pi * it / tMax)) / 2).prod) := by
  induction its generalizing lr with
  | nil => simp [cosineLrs]
  | cons it its ih =>
    rw [cosineLrs, cosineLr, if_neg h, ok_bind, ih, List.map_cons, List.prod_cons]
    congr 1
    ring

/-- **C51** (partial: the curve) one call of cosine annealing from the initial rate is on the documented curve, which ends
at `min_lr`; and any sequence of calls keeps the rate between `min_lr` and the initial rate. What is missing: the curve is
not followed by several calls, see the counterexample. -/
theorem C51_cosine_partial (minLr : ℝ) (tMax : ℕ) (h : tMax ≠ 0) (lr : ℝ) (hlr : minLr ≤ lr) :
    (∀ it : ℕ, cosineLrs minLr tMax [it] lr =
      .ok (minLr + (lr - minLr) * ((1 + Real.cos (Real.pi * it / tMax)) / 2))) ∧
    cosineLrs minLr tMax [tMax] lr = .ok minLr ∧
    ∀ its, ∃ lr', cosineLrs minLr tMax its lr = .ok lr' ∧ minLr ≤ lr' ∧ lr' ≤ lr := by
  have ht : (tMax : ℝ) ≠ 0 := by exact_mod_cast h
  refine ⟨fun it => ?_, ?_, fun its => ?_⟩
  · rw [C51_cosine_closed_form _ _ h]
    simp
  · rw [C51_cosine_closed_form _ _ h]
    simp [mul_div_assoc, ht]
  · refine ⟨_, C51_cosine_closed_form _ _ h _ _, ?_⟩
    have hp : 0 ≤ (its.map fun it : ℕ => (1 + Real.cos (Real.pi * it / tMax)) / 2).prod ∧
        (its.map fun it : ℕ => (1 + Real.cos (Real.pi * it / tMax)) / 2).prod ≤ 1 := by
      induction its with
      | nil => simp
      | cons it its ih =>
        rw [List.map_cons, List.prod_cons]
        have h1 := Real.neg_one_le_cos (Real.pi * it / tMax)
        have h2 := Real.cos_le_one (Real.pi * it / tMax)
        constructor
        · exact mul_nonneg (by linarith) ih.1
        · exact mul_le_one₀ (by linarith) ih.1 ih.2
    constructor <;> nlinarith [hp.1, hp.2, sub_nonneg.2 hlr]

/-- Cosine annealing is applied to the already annealed rate: with `t_max = 3` and calls at iterations 1 and 2 the rate is
3/16 of the initial one, where the cosine curve has 1/4. -/
theorem C51_counterexample_cosine_compounds :
    cosineLrs 0 3 [1, 2] 1 = .ok (3 / 16) ∧ (1 + Real.cos (Real.pi * (2 : ℕ) / (3 : ℕ))) / 2 = 1 / 4 := by
  have h1 : Real.cos (Real.pi * (1 : ℕ) / (3 : ℕ)) = 1 / 2 := by
    rw [show Real.pi * (1 : ℕ) / (3 : ℕ) = Real.pi / 3 by push_cast; ring, Real.cos_pi_div_three]
  have h2 : Real.cos (Real.pi * (2 : ℕ) / (3 : ℕ)) = - (1 / 2) := by
    rw [show Real.pi * (2 : ℕ) / (3 : ℕ) = Real.pi - Real.pi / 3 by push_cast; ring, Real.cos_pi_sub,
      Real.cos_pi_div_three]
  constructor
  · rw [C51_cosine_closed_form _ _ (by norm_num)]
    simp only [List.map_cons, List.map_nil, List.prod_cons, List.prod_nil, h1, h2]
    norm_num
  · rw [h2]
    norm_num

/-- A setting for which the hypotheses hold: base 1, max 3, step size 4, iteration 21 (second half of the third cycle). -/
example : cyclicLr 1 3 4 22 = .ok 2 := by
  have := C51_cyclic_triangle 1 3 4 2 6 (by norm_num) (by norm_num)
  rw [show 2 * (2 * 4) + 6 = 22 by norm_num] at this
  rw [this]
  norm_num

end Qadence
