import Mathlib.Tactic
import Verif.Spec.Analog
import Verif.Props.QubitSupport
import Verif.Proofs.Except

/-!
# Property C55: analog composites
-/

namespace Qadence

open Spec ABlock

variable {ord : List ℕ → List ℕ} {ev : Expr → ℝ}

/-- Induction over analog blocks. -/
theorem ABlock.induction {P : ABlock → Prop} (hi : ∀ t s p, P (.interaction t s p))
    (hr : ∀ t o d φ s p, P (.rotation t o d φ s p)) (hc : ∀ bs, (∀ b ∈ bs, P b) → P (.chain bs))
    (hk : ∀ b bs, (∀ c ∈ b :: bs, P c) → P (.kron b bs)) (b : ABlock) : P b :=
  ABlock.rec (motive_1 := P) (motive_2 := fun bs => ∀ b ∈ bs, P b) hi hr (fun bs h => hc bs h)
    (fun b bs h1 h2 => hk b bs (fun c hc => by
      rcases List.mem_cons.1 hc with rfl | hc
      · exact h1
      · exact h2 c hc))
    (by simp) (fun b bs h1 h2 c hc => by
      rcases List.mem_cons.1 hc with rfl | hc
      · exact h1
      · exact h2 c hc) b

theorem denotes_nil : Denotes (.loc []) ∅ := ⟨[], rfl, by simp⟩

theorem denotes_unique {s : QSupport} {S T : Finset ℕ} (h1 : Denotes s S) (h2 : Denotes s T) : S = T := by
  obtain ⟨l, rfl, h1⟩ := h1
  obtain ⟨m, e, h2⟩ := h2
  cases e
  ext q
  rw [← h1, h2]

theorem denotes_ne_global {s : QSupport} {S : Finset ℕ} (h : Denotes s S) : s ≠ .global := by
  obtain ⟨l, rfl, -⟩ := h
  simp

theorem joinRegion_some {a b : Option (Finset ℕ)} {S : Finset ℕ} (h : joinRegion a b = some S) :
    ∃ s t, a = some s ∧ b = some t ∧ S = s ∪ t := by
  cases a <;> cases b <;> simp [joinRegion] at h
  exact ⟨_, _, rfl, rfl, h.symm⟩

theorem supportSum_denotes (ho : IsSetOrder ord) (bs : List ABlock)
    (ih : ∀ b ∈ bs, ∀ S, region b = some S → Denotes (b.support ord) S) (acc : QSupport) (A S : Finset ℕ)
    (ha : Denotes acc A) (h : regions bs = some S) : Denotes (supportSum ord acc bs) (A ∪ S) := by
  induction bs generalizing acc A S with
  | nil =>
    simp only [regions, Option.some.injEq] at h
    subst h
    simpa [supportSum] using ha
  | cons b bs ihb =>
    rw [regions] at h
    obtain ⟨s, t, h1, h2, rfl⟩ := joinRegion_some h
    rw [supportSum, ← Finset.union_assoc]
    exact ihb (fun c hc => ih c (by simp [hc])) _ _ _
      (C19_sum_of_local_supports_is_union ord ho _ _ _ _ ha (ih b (by simp) _ h1)) h2

/-- The support of a block without global primitive is the set of qubits of its primitives. -/
theorem support_denotes (ho : IsSetOrder ord) (b : ABlock) :
    ∀ S, region b = some S → Denotes (b.support ord) S := by
  induction b using ABlock.induction with
  | hi t s p =>
    intro S h
    cases s with
    | global => simp [region, suppRegion] at h
    | loc qs =>
      simp only [region, suppRegion, Option.some.injEq] at h
      subst h
      exact ⟨qs, rfl, by simp⟩
  | hr t o d φ s p =>
    intro S h
    cases s with
    | global => simp [region, suppRegion] at h
    | loc qs =>
      simp only [region, suppRegion, Option.some.injEq] at h
      subst h
      exact ⟨qs, rfl, by simp⟩
  | hc bs ih =>
    intro S h
    rw [region] at h
    rw [support]
    simpa using supportSum_denotes ho bs ih (.loc []) ∅ S denotes_nil h
  | hk b bs ih =>
    intro S h
    rw [region] at h
    obtain ⟨s, t, h1, h2, rfl⟩ := joinRegion_some h
    rw [support]
    refine supportSum_denotes ho bs (fun c hc => ih c (by simp [hc])) _ s t ?_ h2
    simpa using C19_sum_of_local_supports_is_union ord ho _ _ _ _ denotes_nil (ih b (by simp) _ h1)

/-- A part which a chain accepts. -/
def chainable (ord : List ℕ → List ℕ) (b : ABlock) : Prop := (∃ c cs, b = .kron c cs) ∨ b.support ord = .global

theorem isKron_iff (b : ABlock) : b.isKron = true ↔ ∃ c cs, b = .kron c cs := by
  cases b <;> simp [isKron]

/-- A chain is built exactly if every part is a kron or has global support; otherwise a ValueError is raised. -/
theorem C55_chain_accepts (bs : List ABlock) :
    (chainNew ord bs = .ok (.chain bs) ↔ ∀ b ∈ bs, (∃ c cs, b = .kron c cs) ∨ b.support ord = .global) ∧
    (chainNew ord bs = .error .valueError ↔ ¬ ∀ b ∈ bs, (∃ c cs, b = .kron c cs) ∨ b.support ord = .global) := by
  have key : ∀ bs, (chainCheck ord bs = .ok () ∧ ∀ b ∈ bs, chainable ord b) ∨
      (chainCheck ord bs = .error .valueError ∧ ¬ ∀ b ∈ bs, chainable ord b) := by
    intro bs
    induction bs with
    | nil => exact Or.inl ⟨rfl, by simp⟩
    | cons b bs ih =>
      rw [chainCheck]
      by_cases hb : chainable ord b
      · have : (!(b.isKron || decide (b.support ord = .global))) = false := by
          unfold chainable at hb
          rw [← isKron_iff] at hb
          rcases hb with hb | hb <;> simp [hb]
        rw [this]
        simp only [Bool.false_eq_true, if_false, List.mem_cons, forall_eq_or_imp, hb, true_and]
        exact ih
      · have : (!(b.isKron || decide (b.support ord = .global))) = true := by
          unfold chainable at hb
          rw [← isKron_iff] at hb
          simpa [not_or] using hb
        rw [this]
        simp [hb]
  unfold chainNew
  have h0 := key bs
  unfold chainable at h0
  rcases h0 with ⟨h1, h2⟩ | ⟨h1, h2⟩
  · rw [h1, ok_bind]
    exact ⟨⟨fun _ => h2, fun _ => rfl⟩, ⟨fun h => (nomatch h), fun h => absurd h2 h⟩⟩
  · rw [h1, error_bind]
    exact ⟨⟨fun h => (nomatch h), fun h => absurd h h2⟩, ⟨fun _ => h2, fun _ => rfl⟩⟩

theorem isDisjoint_add (ho : IsSetOrder ord) (a s t : QSupport) (A S T : Finset ℕ) (ha : Denotes a A)
    (hs : Denotes s S) (ht : Denotes t T) :
    QSupport.isDisjoint (QSupport.add ord a s) t = true ↔ QSupport.isDisjoint a t = true ∧ QSupport.isDisjoint s t = true := by
  rw [C19_is_disjoint _ _ _ _ (C19_sum_of_local_supports_is_union ord ho a s A S ha hs) ht,
    C19_is_disjoint _ _ _ _ ha ht, C19_is_disjoint _ _ _ _ hs ht, Finset.union_inter_distrib_right,
    Finset.union_eq_empty]

theorem local_denotes {s : QSupport} (h : s ≠ .global) : ∃ S, Denotes s S := by
  cases s with
  | global => exact absurd rfl h
  | loc l => exact ⟨l.toFinset, l, rfl, by simp⟩

/-- The conditions checked by a kron. -/
def kronable (ord : List ℕ → List ℕ) (ev : Expr → ℝ) (d : ℝ) (bs : List ABlock) : Prop :=
  (∀ b ∈ bs, b.support ord ≠ .global) ∧
  bs.Pairwise (fun b c => QSupport.isDisjoint (b.support ord) (c.support ord) = true) ∧
  ∀ b ∈ bs, isClose d (b.duration ev)

theorem kronCheck_spec (ho : IsSetOrder ord) (d : ℝ) (bs : List ABlock) : ∀ (acc : QSupport) (A : Finset ℕ),
    Denotes acc A →
    ((kronCheck ord ev d acc bs = .ok () ∧
      (kronable ord ev d bs ∧ ∀ b ∈ bs, QSupport.isDisjoint acc (b.support ord) = true)) ∨
    (kronCheck ord ev d acc bs = .error .valueError ∧
      ¬ (kronable ord ev d bs ∧ ∀ b ∈ bs, QSupport.isDisjoint acc (b.support ord) = true))) := by
  induction bs with
  | nil => exact fun acc A _ => Or.inl ⟨rfl, ⟨by simp, by simp, by simp⟩, by simp⟩
  | cons b bs ih =>
    intro acc A hA
    unfold kronCheck
    by_cases h1 : b.support ord = .global
    · rw [if_pos h1]
      exact Or.inr ⟨rfl, fun h => h.1.1 b (by simp) h1⟩
    rw [if_neg h1]
    by_cases h2 : QSupport.isDisjoint acc (b.support ord) = true
    swap
    · rw [if_pos (by simpa using h2)]
      exact Or.inr ⟨rfl, fun h => h2 (h.2 b (by simp))⟩
    rw [if_neg (by simp [h2])]
    by_cases h3 : isClose d (b.duration ev)
    swap
    · rw [if_pos h3]
      exact Or.inr ⟨rfl, fun h => h3 (h.1.2.2 b (by simp))⟩
    rw [if_neg (by simpa using h3)]
    obtain ⟨S, hS⟩ := local_denotes h1
    have hadd : (∀ c ∈ bs, c.support ord ≠ .global) →
        ((∀ c ∈ bs, QSupport.isDisjoint (QSupport.add ord acc (b.support ord)) (c.support ord) = true) ↔
        ((∀ c ∈ bs, QSupport.isDisjoint acc (c.support ord) = true) ∧
          ∀ c ∈ bs, QSupport.isDisjoint (b.support ord) (c.support ord) = true)) := by
      intro hl
      rw [← forall₂_and]
      refine forall₂_congr fun c hc => ?_
      obtain ⟨T, hT⟩ := local_denotes (hl c hc)
      exact isDisjoint_add ho _ _ _ _ _ _ hA hS hT
    have hiff : (kronable ord ev d (b :: bs) ∧ ∀ c ∈ b :: bs, QSupport.isDisjoint acc (c.support ord) = true) ↔
        (kronable ord ev d bs ∧
          ∀ c ∈ bs, QSupport.isDisjoint (QSupport.add ord acc (b.support ord)) (c.support ord) = true) := by
      unfold kronable
      simp only [List.mem_cons, forall_eq_or_imp, List.pairwise_cons, h3, h2, true_and, ne_eq, h1, not_false_eq_true]
      constructor
      · rintro ⟨⟨a1, ⟨a2, a3⟩, a4⟩, a5⟩
        exact ⟨⟨a1, a3, a4⟩, (hadd a1).2 ⟨a5, a2⟩⟩
      · rintro ⟨⟨a1, a3, a4⟩, a6⟩
        obtain ⟨a5, a2⟩ := (hadd a1).1 a6
        exact ⟨⟨a1, ⟨a2, a3⟩, a4⟩, a5⟩
    rw [hiff]
    exact ih _ _ (C19_sum_of_local_supports_is_union ord ho _ _ _ _ hA hS)

theorem kronNew_spec (ho : IsSetOrder ord) (b : ABlock) (bs : List ABlock) :
    (kronNew ord ev (b :: bs) = .ok (.kron b bs) ∧ kronable ord ev (b.duration ev) (b :: bs)) ∨
    (kronNew ord ev (b :: bs) = .error .valueError ∧ ¬ kronable ord ev (b.duration ev) (b :: bs)) := by
  have hnil : kronable ord ev (b.duration ev) (b :: bs) →
      ∀ c ∈ b :: bs, QSupport.isDisjoint (.loc []) (c.support ord) = true := by
    intro h c hc
    have := h.1 c hc
    cases hs : c.support ord with
    | global => exact absurd hs this
    | loc l => simp [QSupport.isDisjoint]
  rw [kronNew]
  rcases kronCheck_spec (ev := ev) ho (b.duration ev) (b :: bs) (.loc []) ∅ denotes_nil with ⟨h1, h2⟩ | ⟨h1, h2⟩
  · rw [h1]
    exact Or.inl ⟨rfl, h2.1⟩
  · rw [h1]
    exact Or.inr ⟨rfl, fun h => h2 ⟨h, hnil h⟩⟩

/-- A kron without parts is refused; otherwise it is built exactly if no part has global support, the supports are
pairwise disjoint and every duration is close to the one of the first part. In all other cases a ValueError is
raised. -/
theorem C55_kron_accepts (ho : IsSetOrder ord) (b : ABlock) (bs : List ABlock) :
    kronNew ord ev [] = .error .notImplementedError ∧
    (kronNew ord ev (b :: bs) = .ok (.kron b bs) ↔
      (∀ c ∈ b :: bs, c.support ord ≠ .global) ∧
      (b :: bs).Pairwise (fun c d => QSupport.isDisjoint (c.support ord) (d.support ord) = true) ∧
      ∀ c ∈ b :: bs, |b.duration ev - c.duration ev| ≤ 1 / 10 ^ 8 + 1 / 10 ^ 5 * |c.duration ev|) ∧
    ((¬ ∃ r, kronNew ord ev (b :: bs) = .ok r) → kronNew ord ev (b :: bs) = .error .valueError) := by
  refine ⟨rfl, ?_, ?_⟩
  · rcases kronNew_spec (ev := ev) ho b bs with ⟨h1, h2⟩ | ⟨h1, h2⟩
    · exact ⟨fun _ => h2, fun _ => h1⟩
    · exact ⟨fun h => (by rw [h1] at h; cases h), fun h => absurd h h2⟩
  · rcases kronNew_spec (ev := ev) ho b bs with ⟨h1, h2⟩ | ⟨h1, h2⟩
    · exact fun h => absurd ⟨_, h1⟩ h
    · exact fun _ => h1

/-- Parts without a global primitive: the kron is built exactly if the sets of qubits of the parts are pairwise disjoint
and the durations close to the first. -/
theorem C55_kron_disjoint_partial (ho : IsSetOrder ord) (b : ABlock) (bs : List ABlock) (S : ABlock → Finset ℕ)
    (hS : ∀ c ∈ b :: bs, region c = some (S c)) :
    (∃ r, kronNew ord ev (b :: bs) = .ok r) ↔
      (b :: bs).Pairwise (fun c d => Disjoint (S c) (S d)) ∧ ∀ c ∈ b :: bs, isClose (b.duration ev) (c.duration ev) := by
  have hd : ∀ c ∈ b :: bs, Denotes (c.support ord) (S c) := fun c hc => support_denotes ho c _ (hS c hc)
  have hp : (b :: bs).Pairwise (fun c d => QSupport.isDisjoint (c.support ord) (d.support ord) = true) ↔
      (b :: bs).Pairwise (fun c d => Disjoint (S c) (S d)) := by
    refine List.Pairwise.iff_of_mem fun {c d} hc hd' => ?_
    rw [C19_is_disjoint _ _ _ _ (hd c hc) (hd d hd'), Finset.disjoint_iff_inter_eq_empty]
  rcases kronNew_spec (ev := ev) ho b bs with ⟨h1, h2⟩ | ⟨h1, h2⟩
  · exact ⟨fun _ => ⟨hp.1 h2.2.1, h2.2.2⟩, fun _ => ⟨_, h1⟩⟩
  · refine ⟨fun ⟨r, h⟩ => (by rw [h1] at h; cases h), fun h => absurd ?_ h2⟩
    exact ⟨fun c hc => denotes_ne_global (hd c hc), hp.2 h.1, h.2⟩

theorem built_chain {bs : List ABlock} (h : Built ord ev (.chain bs)) :
    (∀ c ∈ bs, Built ord ev c) ∧ ∀ c ∈ bs, (∃ d ds, c = .kron d ds) ∨ c.support ord = .global := by
  cases h with
  | chain h1 h2 =>
    have h4 := h2
    obtain ⟨-, -, h2⟩ := bind_ok h2
    have := pure_ok h2
    cases this
    exact ⟨h1, (C55_chain_accepts bs).1.1 h4⟩
  | @kron cs _ h1 h2 =>
    cases cs with
    | nil => cases h2
    | cons c cs =>
      obtain ⟨-, -, h2⟩ := bind_ok h2
      have := pure_ok h2
      cases this

theorem built_kron (ho : IsSetOrder ord) {b : ABlock} {bs : List ABlock} (h : Built ord ev (.kron b bs)) :
    (∀ c ∈ b :: bs, Built ord ev c) ∧ kronable ord ev (b.duration ev) (b :: bs) := by
  cases h with
  | chain h1 h2 =>
    obtain ⟨-, -, h2⟩ := bind_ok h2
    have := pure_ok h2
    cases this
  | @kron cs _ h1 h2 =>
    cases cs with
    | nil => cases h2
    | cons c cs =>
      rcases kronNew_spec (ev := ev) ho c cs with ⟨h3, h4⟩ | ⟨h3, h4⟩
      · rw [h2] at h3
        cases h3
        exact ⟨h1, h4⟩
      · rw [h2] at h3
        cases h3

/-- The time which a block takes is its duration, if there is one. -/
theorem takes_unique {b : ABlock} {t : ℝ} (h : Takes ev b t) : b.duration ev = t := by
  induction h with
  | interaction => rw [duration]
  | rotation => rw [duration]
  | nil => rw [duration, durationSum]
  | cons _ _ i1 i2 =>
    rw [duration, durationSum]
    rw [duration] at i2
    rw [i1, i2]
  | kron _ ih =>
    rw [duration]
    exact ih _ (by simp)

/-- The reported duration of a block is the only candidate for the time it takes, and it is this time when durations
which `isclose` does not distinguish are equal: the sum over a chain, the common value over a kron. In general the
parts of a kron may differ within the tolerance. -/
theorem C55_duration_partial (ho : IsSetOrder ord) (b : ABlock) (hb : Built ord ev b)
    (hex : ∀ c d, Within c b → Within d b → isClose (c.duration ev) (d.duration ev) → c.duration ev = d.duration ev)
    (t : ℝ) : Takes ev b t ↔ b.duration ev = t := by
  refine ⟨takes_unique, ?_⟩
  rintro rfl
  induction b using ABlock.induction with
  | hi t s p => exact Takes.interaction t s p
  | hr t o d φ s p => exact Takes.rotation t o d φ s p
  | hc bs ih =>
    have hbs := (built_chain hb).1
    have hall : ∀ c ∈ bs, Takes ev c (c.duration ev) := fun c hc =>
      ih c hc (hbs c hc) fun x y hx hy => hex x y (.chain hc hx) (.chain hc hy)
    clear ih hb hex hbs
    rw [duration]
    induction bs with
    | nil => exact Takes.nil
    | cons c cs ih =>
      exact Takes.cons (hall c (by simp)) (ih fun d hd => hall d (by simp [hd]))
  | hk b bs ih =>
    obtain ⟨h1, h2⟩ := built_kron ho hb
    rw [duration]
    refine Takes.kron fun c hc => ?_
    have hc' := ih c hc (h1 c hc) fun x y hx hy => hex x y (.kron hc hx) (.kron hc hy)
    have : b.duration ev = c.duration ev :=
      hex b c (.kron (by simp) (.refl _)) (.kron hc (.refl _)) (h2.2.2 c hc)
    rwa [← this] at hc'

/-- Durations in whole nanoseconds below 0.09 ms are told apart. -/
theorem isClose_int {x y : ℤ} (hy : |y| < 90000) (h : isClose x y) : x = y := by
  unfold isClose at h
  have h1 : |(x : ℝ) - y| < 1 := by
    have : |(y : ℝ)| < 90000 := by exact_mod_cast hy
    nlinarith
  have h2 : |x - y| < 1 := by exact_mod_cast h1
  have := Int.abs_lt_one_iff.1 h2
  omega

/-- Blocks whose parts take whole numbers of nanoseconds below 0.09 ms take exactly the reported duration. -/
theorem C55_duration_integers (ho : IsSetOrder ord) (b : ABlock) (hb : Built ord ev b)
    (hint : ∀ c, Within c b → ∃ z : ℤ, c.duration ev = z ∧ |z| < 90000) (t : ℝ) :
    Takes ev b t ↔ b.duration ev = t := by
  refine C55_duration_partial ho b hb (fun c d hc hd h => ?_) t
  obtain ⟨x, hx, -⟩ := hint c hc
  obtain ⟨y, hy, hlt⟩ := hint d hd
  rw [hx, hy] at h ⊢
  rw [isClose_int hlt h]

/-- In general every part of a kron takes the reported duration up to the tolerance of the comparison. -/
theorem C55_kron_duration (ho : IsSetOrder ord) (b : ABlock) (bs : List ABlock) (h : Built ord ev (.kron b bs)) :
    ∀ c ∈ b :: bs, |(ABlock.kron b bs).duration ev - c.duration ev| ≤ 1 / 10 ^ 8 + 1 / 10 ^ 5 * |c.duration ev| :=
  fun c hc => by rw [duration]; exact (built_kron ho h).2.2.2 c hc

/-- The duration of a chain is the sum of the durations of its parts; chains may be cut and glued. -/
theorem C55_chain_duration (bs cs : List ABlock) :
    (ABlock.chain bs).duration ev = (bs.map (duration ev)).sum ∧
    (ABlock.chain (bs ++ cs)).duration ev = (ABlock.chain bs).duration ev + (ABlock.chain cs).duration ev := by
  have key : ∀ bs, durationSum ev bs = (bs.map (duration ev)).sum := by
    intro bs
    induction bs with
    | nil => simp [durationSum]
    | cons b bs ih => simp [durationSum, ih]
  simp only [duration, key, List.map_append, List.sum_append, and_self]

/-! ### Where the claim fails -/

/-- A rotation of the given length on the given qubits. -/
def sampleRot (t : Expr) (s : QSupport) : ABlock := .rotation t .pi (.num 0 0) (.num 0 0) s true

/-- A kron of parts with different durations is accepted: 100000 ns and 100001 ns. -/
theorem C55_counterexample_tolerance (ho : IsSetOrder ord) (h1 : ev (.num 100000 0) = 100000)
    (h2 : ev (.num 100001 0) = 100001) :
    (∃ b, kronNew ord ev [sampleRot (.num 100000 0) (.loc [0]), sampleRot (.num 100001 0) (.loc [1])] = .ok b ∧
      ¬ ∃ t, Takes ev b t) := by
  refine ⟨_, (C55_kron_accepts ho _ _).2.1.2 ⟨?_, ?_, ?_⟩, ?_⟩
  · simp [sampleRot, support]
  · simp [sampleRot, support, QSupport.isDisjoint]
  · intro c hc
    rcases List.mem_cons.1 hc with rfl | hc
    · simp [sampleRot, duration, h1]; positivity
    · simp only [List.mem_singleton] at hc
      subst hc
      simp only [sampleRot, duration, h1, h2]
      norm_num [abs_le]
  · rintro ⟨t, ht⟩
    cases ht with
    | kron h =>
      have e1 := takes_unique (h (sampleRot (.num 100000 0) (.loc [0])) (by simp))
      have e2 := takes_unique (h (sampleRot (.num 100001 0) (.loc [1])) (by simp))
      simp only [sampleRot, duration, h1, h2] at e1 e2
      linarith

/-- The durations are compared for the values which the parameters have at construction (`ev`); with other values at
run time (`ev'`) the parts of an accepted kron differ. -/
theorem C55_counterexample_parameter_values (ho : IsSetOrder ord) {ev' : Expr → ℝ} (h1 : ev (.var "t") = 200)
    (h2 : ev (.num 200 0) = 200) (h1' : ev' (.var "t") = 500) (h2' : ev' (.num 200 0) = 200) :
    (∃ b, kronNew ord ev [sampleRot (.var "t") (.loc [0]), sampleRot (.num 200 0) (.loc [1])] = .ok b ∧
      Takes ev b 200 ∧ ¬ ∃ t, Takes ev' b t) := by
  refine ⟨_, (C55_kron_accepts ho _ _).2.1.2 ⟨?_, ?_, ?_⟩, ?_, ?_⟩
  · simp [sampleRot, support]
  · simp [sampleRot, support, QSupport.isDisjoint]
  · intro c hc
    rcases List.mem_cons.1 hc with rfl | hc
    · simp [sampleRot, duration, h1]; positivity
    · simp only [List.mem_singleton] at hc
      subst hc
      simp [sampleRot, duration, h1, h2]; positivity
  · refine Takes.kron fun c hc => ?_
    rcases List.mem_cons.1 hc with rfl | hc
    · have := Takes.rotation (ev := ev) (.var "t") .pi (.num 0 0) (.num 0 0) (.loc [0]) true
      rwa [h1] at this
    · simp only [List.mem_singleton] at hc
      subst hc
      have := Takes.rotation (ev := ev) (.num 200 0) .pi (.num 0 0) (.num 0 0) (.loc [1]) true
      rwa [h2] at this
  · rintro ⟨t, ht⟩
    cases ht with
    | kron h =>
      have e1 := takes_unique (h (sampleRot (.var "t") (.loc [0])) (by simp))
      have e2 := takes_unique (h (sampleRot (.num 200 0) (.loc [1])) (by simp))
      simp only [sampleRot, duration, h1', h2'] at e1 e2
      linarith

theorem ord_singleton (ho : IsSetOrder ord) (q : ℕ) : ord [q] = [q] := by
  obtain ⟨h1, h2⟩ := ho [q]
  generalize ord [q] = l at h1 h2
  match l, h1, h2 with
  | [], _, h2 => simpa using h2 q
  | [a], _, h2 => simpa using h2 a
  | a :: b :: l, h1, h2 =>
    have ha : a = q := by simpa using h2 a
    have hb : b = q := by simpa using h2 b
    simp [ha, hb] at h1

/-- A chain which starts with a global rotation and continues with a kron on qubit 0 reports the local support (0,), so
that a kron accepts it next to a rotation of qubit 1, although the global rotation acts on this qubit as well. -/
theorem C55_counterexample_hidden_global (ho : IsSetOrder ord) (h1 : ev (.num 100 0) = 100) (h2 : ev (.num 200 0) = 200) :
    ∃ k c b, kronNew ord ev [sampleRot (.num 100 0) (.loc [0])] = .ok k ∧
      chainNew ord [sampleRot (.num 100 0) .global, k] = .ok c ∧ region c = none ∧ c.support ord = .loc [0] ∧
      kronNew ord ev [c, sampleRot (.num 200 0) (.loc [1])] = .ok b := by
  have hk : (ABlock.kron (sampleRot (.num 100 0) (.loc [0])) []).support ord = .loc [0] := by
    simp [support, supportSum, sampleRot, QSupport.add, ord_singleton ho]
  have hc : (ABlock.chain [sampleRot (.num 100 0) .global, .kron (sampleRot (.num 100 0) (.loc [0])) []]).support ord =
      .loc [0] := by
    rw [support, supportSum, supportSum, supportSum, hk]
    simp [support, sampleRot, QSupport.add, QSupport.fill, QSupport.tupleMax]
  refine ⟨_, _, _, (C55_kron_accepts ho _ _).2.1.2 ⟨?_, ?_, ?_⟩, (C55_chain_accepts _).1.2 ?_, ?_, hc,
    (C55_kron_accepts ho _ _).2.1.2 ⟨?_, ?_, ?_⟩⟩
  · simp [sampleRot, support]
  · simp
  · simp [sampleRot, duration, h1]; positivity
  · simp [sampleRot, support]
  · simp [region, regions, sampleRot, suppRegion, joinRegion]
  · simp only [List.mem_cons, List.not_mem_nil, or_false, forall_eq_or_imp, forall_eq, hc]
    simp [sampleRot, support]
  · simp only [List.pairwise_cons, List.mem_singleton, forall_eq, hc]
    simp [sampleRot, support, QSupport.isDisjoint]
  · intro c hc
    rcases List.mem_cons.1 hc with rfl | hc
    · rw [sub_self, abs_zero]; positivity
    · simp only [List.mem_singleton] at hc
      subst hc
      simp only [sampleRot, duration, durationSum, h1, h2]
      norm_num

/-- A chain may leave qubits idle: the second kron does not touch qubit 0, although every part is accepted. -/
theorem C55_counterexample_gap (ho : IsSetOrder ord) :
    ∃ k k' c, kronNew ord ev [sampleRot (.num 100 0) (.loc [0]), sampleRot (.num 100 0) (.loc [1])] = .ok k ∧
      kronNew ord ev [sampleRot (.num 100 0) (.loc [1])] = .ok k' ∧ chainNew ord [k, k'] = .ok c ∧
      region k = some {0, 1} ∧ region k' = some {1} := by
  refine ⟨_, _, _, (C55_kron_accepts ho _ _).2.1.2 ⟨?_, ?_, ?_⟩, (C55_kron_accepts ho _ _).2.1.2 ⟨?_, ?_, ?_⟩,
    (C55_chain_accepts _).1.2 ?_, ?_, ?_⟩
  · simp [sampleRot, support]
  · simp [sampleRot, support, QSupport.isDisjoint]
  · simp only [sampleRot, duration, List.mem_cons, List.not_mem_nil, or_false, forall_eq_or_imp, forall_eq, sub_self,
      abs_zero]
    refine ⟨?_, ?_⟩ <;> positivity
  · simp [sampleRot, support]
  · simp
  · simp only [sampleRot, duration, List.mem_cons, List.not_mem_nil, or_false, forall_eq, sub_self, abs_zero]
    positivity
  · simp
  · simp [region, regions, sampleRot, suppRegion, joinRegion]
  · simp [region, regions, sampleRot, suppRegion, joinRegion]

/-- A chain of krons is refused as part of another chain, although its parts would be accepted. -/
theorem C55_counterexample_nested_chain (ho : IsSetOrder ord) :
    ∃ k c, kronNew ord ev [sampleRot (.num 100 0) (.loc [0])] = .ok k ∧ chainNew ord [k] = .ok c ∧
      chainNew ord [c] = .error .valueError ∧ ∃ c', chainNew ord [k, k] = .ok c' := by
  refine ⟨.kron (sampleRot (.num 100 0) (.loc [0])) [], .chain [.kron (sampleRot (.num 100 0) (.loc [0])) []],
    (C55_kron_accepts ho _ _).2.1.2 ⟨?_, ?_, ?_⟩, (C55_chain_accepts _).1.2 ?_, (C55_chain_accepts _).2.2 ?_,
    _, (C55_chain_accepts _).1.2 ?_⟩
  · simp [sampleRot, support]
  · simp
  · simp only [sampleRot, duration, List.mem_cons, List.not_mem_nil, or_false, forall_eq, sub_self, abs_zero]
    positivity
  · simp
  · simp [support, supportSum, sampleRot, QSupport.add, ord_singleton ho]
  · simp

/-- The hypotheses of the theorem about durations are met by a chain of a global rotation and a kron of two local
ones. -/
example (ho : IsSetOrder ord) (h1 : ev (.num 100 0) = 100) (h2 : ev (.num 300 0) = 300) :
    Takes ev (.chain [sampleRot (.num 300 0) .global,
      .kron (sampleRot (.num 100 0) (.loc [0])) [sampleRot (.num 100 0) (.loc [1])]]) 400 := by
  have hb : Built ord ev (.chain [sampleRot (.num 300 0) .global,
      .kron (sampleRot (.num 100 0) (.loc [0])) [sampleRot (.num 100 0) (.loc [1])]]) := by
    refine Built.chain (bs := [sampleRot (.num 300 0) .global,
      .kron (sampleRot (.num 100 0) (.loc [0])) [sampleRot (.num 100 0) (.loc [1])]]) ?_ ?_
    · intro c hc
      simp only [List.mem_cons, List.not_mem_nil, or_false] at hc
      rcases hc with rfl | rfl
      · exact Built.rotation _ _ _ _ _ _
      · refine Built.kron (bs := [sampleRot (.num 100 0) (.loc [0]), sampleRot (.num 100 0) (.loc [1])]) ?_ ?_
        · intro c hc
          simp only [List.mem_cons, List.not_mem_nil, or_false] at hc
          rcases hc with rfl | rfl <;> exact Built.rotation _ _ _ _ _ _
        · refine (C55_kron_accepts ho _ _).2.1.2 ⟨by simp [sampleRot, support],
            by simp [sampleRot, support, QSupport.isDisjoint], ?_⟩
          simp [sampleRot, duration, h1]
          positivity
    · refine (C55_chain_accepts _).1.2 ?_
      simp [sampleRot, support]
  refine (C55_duration_integers ho _ hb ?_ 400).2 ?_
  · intro c hc
    cases hc with
    | refl => exact ⟨400, by simp [duration, durationSum, sampleRot, h1, h2]; norm_num, by norm_num⟩
    | chain hb hc =>
      simp only [List.mem_cons, List.not_mem_nil, or_false] at hb
      rcases hb with rfl | rfl
      · cases hc
        exact ⟨300, by simp [duration, sampleRot, h2], by norm_num⟩
      · cases hc with
        | refl => exact ⟨100, by simp [duration, sampleRot, h1], by norm_num⟩
        | kron hd hc =>
          simp only [List.mem_cons, List.not_mem_nil, or_false] at hd
          rcases hd with rfl | rfl <;> cases hc <;>
            exact ⟨100, by simp [duration, sampleRot, h1], by norm_num⟩
  · simp [duration, durationSum, sampleRot, h1, h2]
    norm_num

end Qadence
