import Verif.Props.Decompose
import Verif.Props.Passes

/-!
# Product formulas (C35)
-/

namespace Qadence.Decompose

open Spec Block Matrix Measure Ansatz QFT

variable {n : ℕ}

/-! ### Schedules -/

/-- A schedule with all times multiplied. -/
def stretch (c : ℚ) (s : List (ℕ × ℚ)) : List (ℕ × ℚ) := s.map fun e => (e.1, c * e.2)

theorem share_append (a b : List (ℕ × ℚ)) (i : ℕ) : share (a ++ b) i = share a i + share b i := by
  simp [share]

theorem share_stretch (c : ℚ) (s : List (ℕ × ℚ)) (i : ℕ) : share (stretch c s) i = c * share s i := by
  induction s with
  | nil => simp [share, stretch]
  | cons e s ih =>
    have h1 : share (e :: s) i = share [e] i + share s i := share_append [e] s i
    have h2 : share (stretch c (e :: s)) i = share (stretch c [e]) i + share (stretch c s) i :=
      share_append (stretch c [e]) (stretch c s) i
    rw [h1, h2, ih, mul_add]
    congr 1
    by_cases h : e.1 = i <;> simp [share, stretch, h]

theorem times_succ {α : Type} (k : ℕ) (l : List α) : times (k + 1) l = l ++ times k l := by
  rw [times, List.replicate_succ, List.flatten_cons, times]

theorem share_times (k : ℕ) (s : List (ℕ × ℚ)) (i : ℕ) : share (times k s) i = k * share s i := by
  induction k with
  | zero => simp [times, share]
  | succ k ih =>
    rw [times_succ, share_append, ih]
    push_cast
    ring

theorem share_reverse (s : List (ℕ × ℚ)) (i : ℕ) : share s.reverse i = share s i := by
  rw [share, share, List.filter_reverse, List.map_reverse, List.sum_reverse]

theorem times_reverse {α : Type} (k : ℕ) (l : List α) : (times k l).reverse = times k l.reverse := by
  rw [times, List.reverse_flatten, List.map_replicate, List.reverse_replicate, times]

theorem stretch_reverse (c : ℚ) (s : List (ℕ × ℚ)) : (stretch c s).reverse = stretch c s.reverse := by
  rw [stretch, stretch, List.map_reverse]

/-- All terms once for the same time. -/
def sweep (c : ℚ) (m : ℕ) : List (ℕ × ℚ) := (List.range m).map fun i => (i, c)

theorem share_sweep (c : ℚ) (m i : ℕ) : share (sweep c m) i = if i < m then c else 0 := by
  induction m with
  | zero => simp [sweep, share]
  | succ m ih =>
    have : sweep c (m + 1) = sweep c m ++ [(m, c)] := by
      rw [sweep, List.range_succ, List.map_append]
      rfl
    rw [this, share_append, ih]
    by_cases h : i < m
    · have h1 : m ≠ i := by omega
      have h2 : i < m + 1 := by omega
      simp [share, h, h1, h2]
    · by_cases h' : m = i
      · subst h'
        simp [share]
      · have h2 : ¬ i < m + 1 := by omega
        simp [share, h, h', h2]

/-- The schedule of order 2. -/
def sched2 (m : ℕ) : List (ℕ × ℚ) :=
  times 10 (sweep (1 / 20) (m - 1) ++ [(m - 1, 1 / 10)] ++ (sweep (1 / 20) (m - 1)).reverse)

/-- The schedule of order 4. -/
def sched4 (p2 : ℚ) (m : ℕ) : List (ℕ × ℚ) :=
  times 10 (times 2 (stretch (p2 / 10) (sched2 m)) ++ stretch ((1 - 4 * p2) / 10) (sched2 m) ++
    times 2 (stretch (p2 / 10) (sched2 m)))

/-- The schedules. -/
def sched (p2 : ℚ) (m : ℕ) : Order → List (ℕ × ℚ)
  | .basic => sweep 1 m
  | .st2 => sched2 m
  | .st4 => sched4 p2 m

theorem share_sched2 {m i : ℕ} (h : i < m) : share (sched2 m) i = 1 := by
  rw [sched2, share_times, share_append, share_append, share_reverse, share_sweep]
  by_cases hi : i < m - 1
  · have : m - 1 ≠ i := by omega
    simp [share, hi, this]
    norm_num
  · have : m - 1 = i := by omega
    simp [share, this]

theorem sched2_reverse (m : ℕ) : (sched2 m).reverse = sched2 m := by
  rw [sched2, times_reverse]
  simp

theorem share_sched (p2 : ℚ) (o : Order) {m i : ℕ} (h : i < m) : share (sched p2 m o) i = 1 := by
  cases o with
  | basic => rw [sched, share_sweep, if_pos h]
  | st2 => exact share_sched2 h
  | st4 =>
    rw [sched, sched4, share_times, share_append, share_append, share_times, share_stretch, share_stretch, share_sched2 h]
    push_cast
    ring

theorem sched_reverse (p2 : ℚ) {o : Order} (ho : o ≠ .basic) (m : ℕ) : (sched p2 m o).reverse = sched p2 m o := by
  cases o with
  | basic => exact absurd rfl ho
  | st2 => exact sched2_reverse m
  | st4 =>
    rw [sched, sched4, times_reverse]
    simp only [List.reverse_append, times_reverse, stretch_reverse, sched2_reverse, List.append_assoc]

theorem mem_times {α : Type} {k : ℕ} {l : List α} {x : α} (h : x ∈ times k l) : x ∈ l := by
  obtain ⟨l', h1, h2⟩ := List.mem_flatten.1 h
  rw [List.eq_of_mem_replicate h1] at h2
  exact h2

theorem sched2_lt {m : ℕ} (hm : 0 < m) : ∀ e ∈ sched2 m, e.1 < m := by
  intro e he
  have := mem_times he
  simp only [sweep, List.mem_append, List.mem_map, List.mem_range, List.mem_singleton, List.mem_reverse] at this
  rcases this with (⟨i, hi, rfl⟩ | rfl) | ⟨i, hi, rfl⟩ <;> simp only <;> omega

theorem sched_lt (p2 : ℚ) (o : Order) {m : ℕ} (hm : 0 < m) : ∀ e ∈ sched p2 m o, e.1 < m := by
  have hs : ∀ c, ∀ e ∈ stretch c (sched2 m), e.1 < m := by
    intro c e he
    obtain ⟨e', he', rfl⟩ := List.mem_map.1 he
    exact sched2_lt hm e' he'
  cases o with
  | basic =>
    intro e he
    obtain ⟨i, hi, rfl⟩ := List.mem_map.1 he
    exact List.mem_range.1 hi
  | st2 => exact sched2_lt hm
  | st4 =>
    intro e he
    have := mem_times he
    rcases List.mem_append.1 this with h | h
    · rcases List.mem_append.1 h with h | h
      · exact hs _ e (mem_times h)
      · exact hs _ e h
    · exact hs _ e (mem_times h)

/-! ### Products -/

theorem productFormula_append (t : ℂ) (H : ℕ → Oper n) (a b : List (ℕ × ℚ)) :
    productFormula t H (a ++ b) = productFormula t H b * productFormula t H a := by
  rw [productFormula, List.map_append, opProd_append]
  rfl

theorem productFormula_stretch (t : ℂ) (H : ℕ → Oper n) (c : ℚ) (s : List (ℕ × ℚ)) :
    productFormula t H (stretch c s) = productFormula (c * t) H s := by
  rw [productFormula, stretch, List.map_map, productFormula]
  congr 1
  apply List.map_congr_left
  intro e _
  simp only [Function.comp_apply]
  congr 1
  push_cast
  ring

theorem opProd_times {α : Type} (f : α → Oper n) (k : ℕ) (l : List α) : opProd ((times k l).map f) = opProd (l.map f) ^ k := by
  induction k with
  | zero => simp [times, opProd]
  | succ k ih => rw [times_succ, List.map_append, opProd_append, ih, pow_succ]

theorem productFormula_times (t : ℂ) (H : ℕ → Oper n) (k : ℕ) (s : List (ℕ × ℚ)) :
    productFormula t H (times k s) = productFormula t H s ^ k := opProd_times _ k s

/-- The term with the given index. -/
noncomputable def termOp (ρ : Env) (l : List (Block Gate × Expr)) (i : ℕ) : Oper n :=
  ((l.map fun x => eval ρ x.2 • sem (gateSem n ρ) ρ x.1)[i]?).getD 0

theorem map_eq_range {α β : Type} (l : List α) (d : β) (f : α → β) (g : β → Oper n) :
    l.map (fun x => g (f x)) = (List.range l.length).map fun i => g (((l.map f)[i]?).getD d) := by
  apply List.ext_getElem
  · simp
  · intro i h1 h2
    simp only [List.length_map] at h1
    simp [h1]

theorem productFormula_sweep (t : ℂ) (ρ : Env) (l l' : List (Block Gate × Expr)) (h : l' <+: l) (c : ℚ) :
    opProd (l'.map fun x => evolution (c * t) (eval ρ x.2 • sem (gateSem n ρ) ρ x.1)) =
      productFormula t (termOp ρ l) (sweep c l'.length) ∧
    opProd (l'.reverse.map fun x => evolution (c * t) (eval ρ x.2 • sem (gateSem n ρ) ρ x.1)) =
      productFormula t (termOp ρ l) (sweep c l'.length).reverse := by
  have key : (l'.map fun x => evolution (c * t) (eval ρ x.2 • sem (gateSem n ρ) ρ x.1)) =
      (sweep c l'.length).map fun e => evolution (e.2 * t) (termOp ρ l e.1) := by
    rw [map_eq_range l' 0 (fun x => eval ρ x.2 • sem (gateSem n ρ) ρ x.1) (evolution (c * t)), sweep, List.map_map]
    apply List.map_congr_left
    intro i hi
    rw [List.mem_range] at hi
    obtain ⟨r, rfl⟩ := h
    simp only [Function.comp_apply, termOp, List.map_append]
    rw [List.getElem?_append_left (by simpa using hi)]
  constructor
  · rw [key]
    rfl
  · rw [List.map_reverse, key, ← List.map_reverse]
    rfl

theorem suzuki2_spec {ord : List ℕ → List ℕ} (ho : SetOrder ord) (ρ : Env) (t : Expr) {l : List (Block Gate × Expr)}
    (hl : l ≠ []) (h : ∀ x ∈ l, ∃ ps, Plain n x.1 ps) (he : ∀ x ∈ l.dropLast, ∃ ps, Plain n x.1 ps ∧ Even (countY ps)) :
    ∃ bs, suzuki2 ord t l = .ok bs ∧
      opProd (bs.map (sem (primSem n ρ ord ho) ρ)) = productFormula (eval ρ t) (termOp ρ l) (sched2 l.length) := by
  obtain ⟨x, hx⟩ : ∃ x, l.getLast? = some x := by
    cases h : l.getLast? with
    | none => exact absurd (List.getLast?_eq_none_iff.1 h) hl
    | some x => exact ⟨x, rfl⟩
  have hsplit : l.dropLast ++ [x] = l := by
    rw [List.getLast?_eq_some_getLast hl] at hx
    injection hx with hx
    rw [← hx, List.dropLast_append_getLast]
  have hlen : l.dropLast.length = l.length - 1 := List.length_dropLast
  obtain ⟨o, o1, o2, o3⟩ := pauliExp_plain ho ρ (.mul (delta t) (.num (1 / 2) 0)) l.dropLast
    fun y hy => h y (List.mem_of_mem_dropLast hy)
  obtain ⟨i, i1, i2, -⟩ := pauliExp_plain ho ρ (delta t) [x] fun y hy => by
    rw [List.mem_singleton] at hy
    subst hy
    exact h y (by rw [← hsplit]; simp)
  have o3 := o3 he
  have e1 : eval ρ (delta t) = ((1 / 10 : ℚ) : ℂ) * eval ρ t := by
    rw [delta, eval, eval_rat, mul_comm]
  have e2 : eval ρ (.mul (delta t) (.num (1 / 2) 0)) = ((1 / 20 : ℚ) : ℂ) * eval ρ t := by
    rw [eval, e1, eval_rat]
    push_cast
    ring
  obtain ⟨s1, s2⟩ := productFormula_sweep (n := n) (eval ρ t) ρ l l.dropLast (List.dropLast_prefix l) (1 / 20)
  rw [e2, s1] at o2
  rw [e2, s2] at o3
  rw [e1] at i2
  refine ⟨times 10 (o ++ i ++ o.reverse), ?_, ?_⟩
  · rw [suzuki2, o1, ok_bind, hx]
    simp only
    rw [i1, ok_bind]
    rfl
  · rw [opProd_times, sched2, productFormula_times]
    congr 1
    rw [List.map_append, List.map_append, opProd_append, opProd_append, productFormula_append, productFormula_append, o2, o3, i2,
      hlen]
    congr 2
    simp only [productFormula, List.map_cons, List.map_nil]
    congr 3
    rw [termOp]
    have : l[l.length - 1]? = some x := by
      rw [← hx, List.getLast?_eq_getElem?]
    rw [List.getElem?_map, this]
    rfl

theorem trotter_spec {ord : List ℕ → List ℕ} (ho : SetOrder ord) (p2 : ℚ) (ρ : Env) (t : Expr) {l : List (Block Gate × Expr)}
    (o : Order) (hl : o = .basic ∨ l ≠ []) (h : ∀ x ∈ l, ∃ ps, Plain n x.1 ps)
    (he : o = .basic ∨ ∀ x ∈ l.dropLast, ∃ ps, Plain n x.1 ps ∧ Even (countY ps)) :
    ∃ bs, trotter ord p2 t l o = .ok bs ∧
      opProd (bs.map (sem (primSem n ρ ord ho) ρ)) = productFormula (eval ρ t) (termOp ρ l) (sched p2 l.length o) := by
  cases o with
  | basic =>
    obtain ⟨bs, h1, h2, -⟩ := pauliExp_plain ho ρ t l h
    refine ⟨bs, h1, ?_⟩
    have := (productFormula_sweep (n := n) (eval ρ t) ρ l l (List.prefix_refl l) 1).1
    rw [Rat.cast_one, one_mul] at this
    rw [h2, this]
    rfl
  | st2 =>
    exact suzuki2_spec ho ρ t (hl.resolve_left (by simp)) h (he.resolve_left (by simp))
  | st4 =>
    have hl := hl.resolve_left (by simp)
    have he := he.resolve_left (by simp)
    obtain ⟨a, a1, a2⟩ := suzuki2_spec ho ρ (.mul (delta t) (.num p2 0)) hl h he
    obtain ⟨b, b1, b2⟩ := suzuki2_spec ho ρ (.mul (.num (1 - 4 * p2) 0) (delta t)) hl h he
    have e1 : eval ρ (delta t) = ((1 / 10 : ℚ) : ℂ) * eval ρ t := by
      rw [delta, eval, eval_rat, mul_comm]
    have e2 : eval ρ (.mul (delta t) (.num p2 0)) = ((p2 / 10 : ℚ) : ℂ) * eval ρ t := by
      rw [eval, e1, eval_rat]
      push_cast
      ring
    have e3 : eval ρ (.mul (.num (1 - 4 * p2) 0) (delta t)) = (((1 - 4 * p2) / 10 : ℚ) : ℂ) * eval ρ t := by
      rw [eval, e1, eval_rat]
      push_cast
      ring
    rw [e2] at a2
    rw [e3] at b2
    refine ⟨times 10 (times 2 a ++ b ++ times 2 a), ?_, ?_⟩
    · rw [trotter, suzuki4, a1, ok_bind, b1, ok_bind]
      rfl
    · rw [opProd_times, sched, sched4, productFormula_times]
      congr 1
      simp only [List.map_append, opProd_append, productFormula_append, opProd_times, productFormula_times, a2, b2,
        productFormula_stretch]

/-- C35 (partial): for each order and number of terms there is one schedule such that the decomposition of any list of plain
terms is the product of the evolutions of the schedule, the shares of every term add up to the total time, and the schedule is a
palindrome for the orders 2 and 4. For these orders the terms except the last must have an even number of letters Y. Missing:
odd numbers of Y, for which the claim is false, and what is missing of C34. -/
theorem C35_schedule_partial (p2 : ℚ) (o : Order) {m : ℕ} (hm : 0 < m) : ∃ sc : List (ℕ × ℚ), (∀ e ∈ sc, e.1 < m) ∧
    (∀ i < m, share sc i = 1) ∧ (o ≠ .basic → sc.reverse = sc) ∧
    ∀ {n : ℕ} {ord : List ℕ → List ℕ} (ho : SetOrder ord) (ρ : Env) (t : Expr) (l : List (Block Gate × Expr)), l.length = m →
      (∀ x ∈ l, ∃ ps, Plain n x.1 ps) → (o = .basic ∨ ∀ x ∈ l.dropLast, ∃ ps, Plain n x.1 ps ∧ Even (countY ps)) →
      ∃ bs, trotter ord p2 t l o = .ok bs ∧ sem (primSem n ρ ord ho) ρ (chainOf bs) = productFormula (eval ρ t)
        (fun i => ((l.map fun x => eval ρ x.2 • sem (gateSem n ρ) ρ x.1)[i]?).getD 0) sc := by
  refine ⟨sched p2 m o, sched_lt p2 o hm, fun i hi => share_sched p2 o hi, fun ho => sched_reverse p2 ho m, ?_⟩
  intro n ord ho ρ t l hlen h he
  subst hlen
  obtain ⟨bs, h1, h2⟩ := trotter_spec ho p2 ρ t o (.inr (by rintro rfl; simp at hm)) h he
  refine ⟨bs, h1, ?_⟩
  rw [chainOf, sem_chain, h2]
  rfl

/-! ### Commuting terms -/

theorem productFormula_commute (t : ℂ) (H : ℕ → Oper n) (hc : ∀ i j, Commute (H i) (H j)) (s : List (ℕ × ℚ)) :
    productFormula t H s = evolution t ((s.map fun e => (e.2 : ℂ) • H e.1).sum) := by
  induction s with
  | nil => simp [productFormula, opProd, evolution]
  | cons e s ih =>
    have : productFormula t H (e :: s) = productFormula t H s * evolution (e.2 * t) (H e.1) := rfl
    rw [this, ih, evolution, evolution, evolution, List.map_cons, List.sum_cons, smul_add, add_comm]
    rw [Matrix.exp_add_of_commute]
    · rw [smul_smul]
      congr 3
      ring
    · apply Commute.smul_left
      apply Commute.smul_right
      clear ih this
      induction s with
      | nil => simp
      | cons f s ih =>
        rw [List.map_cons, List.sum_cons]
        exact Commute.add_left (((hc _ _).smul_left _).smul_right _) ih

theorem sum_share (H : ℕ → Oper n) (m : ℕ) (s : List (ℕ × ℚ)) (hs : ∀ e ∈ s, e.1 < m) :
    (s.map fun e => (e.2 : ℂ) • H e.1).sum = ((List.range m).map fun i => (share s i : ℂ) • H i).sum := by
  induction s with
  | nil => simp [share]
  | cons e s ih =>
    rw [List.map_cons, List.sum_cons, ih fun f hf => hs f (by simp [hf])]
    have h1 : ∀ i, share (e :: s) i = (if e.1 = i then e.2 else 0) + share s i := by
      intro i
      by_cases h : e.1 = i <;> simp [share, h]
    simp only [h1]
    push_cast
    simp only [add_smul, List.sum_map_add]
    congr 1
    have hm := hs e (by simp)
    clear ih hs h1
    induction m with
    | zero => omega
    | succ m ih =>
      rw [List.range_succ, List.map_append, List.sum_append]
      by_cases h : e.1 < m
      · rw [← ih h]
        have : e.1 ≠ m := by omega
        simp [this]
      · have h' : e.1 = m := by omega
        have : ((List.range m).map fun i => (((if e.1 = i then e.2 else 0 : ℚ) : ℂ)) • H i) = (List.range m).map fun _ => 0 := by
          apply List.map_congr_left
          intro i hi
          rw [List.mem_range] at hi
          have : e.1 ≠ i := by omega
          simp [this]
        rw [this]
        simp [h']

theorem sum_termOp (ρ : Env) (l : List (Block Gate × Expr)) :
    ((List.range l.length).map (termOp (n := n) ρ l)).sum = (l.map fun x => eval ρ x.2 • sem (gateSem n ρ) ρ x.1).sum := by
  have := map_eq_range (n := n) l 0 (fun x => eval ρ x.2 • sem (gateSem n ρ) ρ x.1) id
  simp only [id] at this
  rw [this]
  rfl

theorem productFormula_exact (t : ℂ) (p2 : ℚ) (o : Order) (ρ : Env) {l : List (Block Gate × Expr)}
    (hc : ∀ x ∈ l, ∀ y ∈ l, Commute (sem (gateSem n ρ) ρ x.1) (sem (gateSem n ρ) ρ y.1)) :
    productFormula t (termOp ρ l) (sched p2 l.length o) =
      evolution t ((l.map fun x => eval ρ x.2 • sem (gateSem n ρ) ρ x.1).sum) := by
  have hc' : ∀ i j, Commute (termOp (n := n) ρ l i) (termOp ρ l j) := by
    intro i j
    simp only [termOp, List.getElem?_map]
    cases hi : l[i]? with
    | none => simp
    | some x =>
      cases hj : l[j]? with
      | none => simp
      | some y =>
        simp only [Option.map_some, Option.getD_some]
        exact ((hc x (List.mem_of_getElem? hi) y (List.mem_of_getElem? hj)).smul_left _).smul_right _
  rcases l with _ | ⟨x, l⟩
  · rw [productFormula_commute t _ hc']
    have : (sched p2 ([] : List (Block Gate × Expr)).length o).map (fun e => (e.2 : ℂ) • termOp (n := n) ρ [] e.1) =
        (sched p2 ([] : List (Block Gate × Expr)).length o).map fun _ => 0 := by
      apply List.map_congr_left
      intro e _
      simp [termOp]
    rw [this]
    simp
  · rw [productFormula_commute t _ hc', sum_share _ (x :: l).length _ (sched_lt p2 o (by simp)), ← sum_termOp]
    congr 2
    apply List.map_congr_left
    intro i hi
    rw [share_sched p2 o (List.mem_range.1 hi), Rat.cast_one, one_smul]

/-- C35 (partial): for terms which commute with each other the product formula is exact. Missing as above. -/
theorem C35_commuting_partial {ord : List ℕ → List ℕ} (ho : SetOrder ord) (p2 : ℚ) (ρ : Env) (t : Expr)
    {l : List (Block Gate × Expr)} (o : Order) (hl : l ≠ []) (h : ∀ x ∈ l, ∃ ps, Plain n x.1 ps)
    (he : o = .basic ∨ ∀ x ∈ l.dropLast, ∃ ps, Plain n x.1 ps ∧ Even (countY ps))
    (hc : ∀ x ∈ l, ∀ y ∈ l, Commute (sem (gateSem n ρ) ρ x.1) (sem (gateSem n ρ) ρ y.1)) :
    ∃ bs, trotter ord p2 t l o = .ok bs ∧ sem (primSem n ρ ord ho) ρ (chainOf bs) =
      evolution (eval ρ t) ((l.map fun x => eval ρ x.2 • sem (gateSem n ρ) ρ x.1).sum) := by
  obtain ⟨bs, h1, h2⟩ := trotter_spec ho p2 ρ t o (.inr hl) h he
  refine ⟨bs, h1, ?_⟩
  rw [chainOf, sem_chain, h2, productFormula_exact _ _ _ _ hc]

/-! ### The decomposition of an evolution -/

theorem primitive_unroll (b : Block Gate) : primitiveBlocks b = (unroll b).flatMap fun x => primitiveBlocks x.1 := by
  have hl : ∀ bs : List (Block Gate), primitiveBlocksList bs = bs.flatMap primitiveBlocks := by
    intro bs
    induction bs with
    | nil => rfl
    | cons b bs ih => rw [primitiveBlocksList, ih]; rfl
  induction b using Block.induction with
  | leaf l t => simp [unroll, primitiveBlocks]
  | scale b s t ih =>
    rw [unroll_scale, primitiveBlocks]
    split
    · rw [unroll, unrollAll_eq] at ih
      rw [ih, List.flatMap_map]
    · simp
  | comp k bs t ih =>
    cases k with
    | add =>
      rw [unroll, unrollAll_eq, primitiveBlocks, hl, List.flatMap_assoc]
      exact List.flatMap_congr ih
    | chain => simp [unroll, primitiveBlocks]
    | kron => simp [unroll, primitiveBlocks]

theorem mem_qubits_unroll (b : Block Gate) (q : ℕ) : q ∈ qubits Gate.supp b ↔ ∃ x ∈ unroll b, q ∈ qubits Gate.supp x.1 := by
  induction b using Block.induction with
  | leaf l t => simp [unroll]
  | scale b s t ih =>
    rw [unroll_scale, qubits_scale]
    split
    · rw [unroll, unrollAll_eq] at ih
      rw [ih]
      simp only [List.mem_map, exists_exists_and_eq_and]
    · simp
  | comp k bs t ih =>
    cases k with
    | add =>
      rw [unroll, unrollAll_eq, mem_qubits_comp]
      simp only [List.mem_flatMap]
      constructor
      · rintro ⟨b, hb, hq⟩
        obtain ⟨x, hx, hq⟩ := (ih b hb).1 hq
        exact ⟨x, ⟨b, hb, hx⟩, hq⟩
      · rintro ⟨x, ⟨b, hb, hx⟩, hq⟩
        exact ⟨b, hb, (ih b hb).2 ⟨x, hx, hq⟩⟩
    | chain => simp [unroll]
    | kron => simp [unroll]

theorem isQubitHamiltonian_plain {gen : Block Gate} (h : ∀ x ∈ unroll gen, ∃ ps, Plain n x.1 ps) : isQubitHamiltonian gen = true := by
  rw [isQubitHamiltonian, primitive_unroll, List.all_eq_true]
  intro g hg
  obtain ⟨x, hx, hg⟩ := List.mem_flatMap.1 hg
  obtain ⟨ps, hps⟩ := h x hx
  have hl := Plain.letters hps
  have key : ∀ (bs : List (Block Gate)), List.Forall₂ (fun b p => ∃ t, b = Block.leaf (Gate.fixed p.1 p.2) t) bs ps →
      g ∈ primitiveBlocksList bs → (pauliName g).isSome = true := by
    have hp := hl.pauli
    clear hg hl hps
    intro bs hf hg
    induction hf with
    | nil => simp [primitiveBlocksList] at hg
    | @cons b p bs ps hb _ ih =>
      obtain ⟨t, rfl⟩ := hb
      rw [primitiveBlocksList, primitiveBlocks, List.singleton_append, List.mem_cons] at hg
      rcases hg with rfl | hg
      · obtain ⟨g, q⟩ := p
        rcases hp _ List.mem_cons_self with h | h | h | h | ⟨d, h⟩ <;> simp only at h <;> subst h <;> rfl
      · exact ih (fun r hr => hp r (by simp [hr])) hg
  rcases hl.parts with ⟨g', q, t, he, rfl⟩ | ⟨k, bs, t, he, -, -, hf⟩
  · rw [he] at hg
    exact key [.leaf (.fixed g' q) t] (.cons ⟨t, rfl⟩ .nil) (by simpa [primitiveBlocksList, primitiveBlocks] using hg)
  · rw [he, primitiveBlocks] at hg
    exact key bs hf hg

theorem checkCommutation_error (b : Block Gate) : ∀ s e, checkCommutation b s = .error e → e = .typeError := by
  have hl : ∀ bs : List (Block Gate), (∀ b ∈ bs, ∀ s e, checkCommutation b s = .error e → e = .typeError) →
      ∀ s e, checkCommutationList bs s = .error e → e = .typeError := by
    intro bs
    induction bs with
    | nil => intro _ s e h; rw [checkCommutationList] at h; cases h
    | cons b bs ih =>
      intro hb s e h
      rw [checkCommutationList] at h
      cases h1 : checkCommutation b s with
      | error e' =>
        rw [h1, error_bind] at h
        injection h with h
        subst h
        exact hb b (by simp) s _ h1
      | ok s' =>
        rw [h1, ok_bind] at h
        exact ih (fun c hc => hb c (by simp [hc])) s' e h
  induction b using Block.induction with
  | leaf l t => intro s e h; rw [checkCommutation] at h; cases h
  | scale b c t ih => intro s e h; rw [checkCommutation] at h; exact ih s e h
  | comp k bs t ih =>
    intro s e h
    cases k with
    | chain => rw [checkCommutation] at h; injection h with h; exact h.symm
    | kron => rw [checkCommutation] at h; exact hl bs ih s e h
    | add => rw [checkCommutation] at h; exact hl bs ih s e h

theorem checkCommutation_noChain (b : Block Gate) (hb : noChain b) : ∀ s, ∃ s', checkCommutation b s = .ok s' := by
  have hn : ∀ bs : List (Block Gate), noChainAll bs → ∀ b ∈ bs, noChain b := by
    intro bs
    induction bs with
    | nil => simp
    | cons b bs ih =>
      intro h c hc
      rw [noChainAll] at h
      rcases List.mem_cons.1 hc with rfl | hc
      · exact h.1
      · exact ih h.2 c hc
  have hl : ∀ bs : List (Block Gate), (∀ b ∈ bs, ∀ s, ∃ s', checkCommutation b s = .ok s') →
      ∀ s, ∃ s', checkCommutationList bs s = .ok s' := by
    intro bs
    induction bs with
    | nil => exact fun _ s => ⟨s, by rw [checkCommutationList]⟩
    | cons b bs ih =>
      intro hb s
      obtain ⟨s', h1⟩ := hb b (by simp) s
      obtain ⟨s'', h2⟩ := ih (fun c hc => hb c (by simp [hc])) s'
      exact ⟨s'', by rw [checkCommutationList, h1, ok_bind, h2]⟩
  induction b using Block.induction with
  | leaf l t => intro s; exact ⟨_, by rw [checkCommutation]⟩
  | scale b c t ih => intro s; rw [noChain] at hb; rw [checkCommutation]; exact ih hb s
  | comp k bs t ih =>
    rw [noChain] at hb
    intro s
    have := hl bs (fun b hbm => ih b hbm (hn bs hb.2 b hbm)) s
    cases k with
    | chain => exact absurd rfl hb.1
    | kron => rw [checkCommutation]; exact this
    | add => rw [checkCommutation]; exact this

/-- The order used is order 1 or the order asked for, and order 1 if there is no chain. -/
theorem effectiveOrder_cases (gen : Block Gate) (h : isQubitHamiltonian gen = true) (o : Order) :
    effectiveOrder gen o = .ok .basic ∨ effectiveOrder gen o = .ok o ∧ ¬ noChain gen := by
  unfold effectiveOrder isCommutingHamiltonian
  rw [if_pos h]
  cases h1 : checkCommutation gen [] with
  | ok s => left; rfl
  | error e =>
    obtain rfl := checkCommutation_error gen _ _ h1
    refine .inr ⟨rfl, fun hc => ?_⟩
    obtain ⟨s, h2⟩ := checkCommutation_noChain gen hc []
    rw [h1] at h2
    cases h2

/-- The generators whose evolutions are decomposed exactly: the terms are plain and commute, and terms with an odd number of
letters Y occur only if order 1 is used. -/
structure Decomposable (n : ℕ) (ρ : Env) (o : Order) (gen : Block Gate) : Prop where
  plain : ∀ x ∈ unroll gen, ∃ ps, Plain n x.1 ps
  commute : ∀ x ∈ unroll gen, ∀ y ∈ unroll gen, Commute (sem (gateSem n ρ) ρ x.1) (sem (gateSem n ρ) ρ y.1)
  first : o = .basic ∨ noChain gen ∨
    unroll gen ≠ [] ∧ ∀ x ∈ unroll gen, ∃ ps, Plain n x.1 ps ∧ Even (countY ps)

theorem digitalEvo_trotter {ord : List ℕ → List ℕ} (p2 : ℚ) {ρ : Env} {o : Order} {gen : Block Gate} (t : Expr)
    (h : Decomposable n ρ o gen) : ∃ o', digitalEvo ord p2 o gen t = (do let bs ← trotter ord p2 t (unroll gen) o'; return chainOf bs) ∧
      (o' = .basic ∨ unroll gen ≠ [] ∧ ∀ x ∈ unroll gen, ∃ ps, Plain n x.1 ps ∧ Even (countY ps)) := by
  have hq := isQubitHamiltonian_plain h.plain
  rw [digitalEvo, if_pos hq]
  rcases effectiveOrder_cases gen hq o with h1 | ⟨h1, h2⟩
  · exact ⟨.basic, by rw [h1, ok_bind], .inl rfl⟩
  · refine ⟨o, by rw [h1, ok_bind], ?_⟩
    rcases h.first with h3 | h3 | h3
    · exact .inl h3
    · exact absurd h3 h2
    · exact .inr h3

/-- C35 (partial): `HamEvo.digital_decomposition` is exact for commuting plain terms. Missing as above; for terms which do not
commute see `C35_counterexample_order_ignored`. -/
theorem C35_digital_decomposition_partial {ord : List ℕ → List ℕ} (ho : SetOrder ord) (p2 : ℚ) (ρ : Env) (t : Expr) {o : Order}
    {gen : Block Gate} (h : Decomposable n ρ o gen) : ∃ b, digitalEvo ord p2 o gen t = .ok b ∧
      sem (primSem n ρ ord ho) ρ b = evolution (eval ρ t) (sem (gateSem n ρ) ρ gen) := by
  obtain ⟨o', h1, h2⟩ := digitalEvo_trotter (ord := ord) p2 t h
  obtain ⟨bs, h3, h4⟩ := trotter_spec ho p2 ρ t o' (h2.imp id And.left) h.plain
    (h2.imp id fun h x hx => h.2 x (List.mem_of_mem_dropLast hx))
  refine ⟨chainOf bs, by rw [h1, h3]; rfl, ?_⟩
  rw [chainOf, sem_chain, h4, productFormula_exact _ _ _ _ h.commute, C13_unroll_exact]

end Qadence.Decompose
