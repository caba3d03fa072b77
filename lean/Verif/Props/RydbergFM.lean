import Mathlib.Tactic
import Verif.Model.RydbergFM
import Verif.Props.AnalogRun
import Verif.Props.AnalogBlocks
import Verif.Props.FeatureMap
import Verif.Proofs.Names

/-!
# Property C84: feature maps for neutral atoms
-/

namespace Qadence.RydbergFM

open Spec Block FeatureMap

variable {n : ℕ} {ord : List ℕ → List ℕ}

/-! ## Construction -/

/-- The parts of the feature map for the detuning `d`. -/
def parts (param : String) (d : Expr) (i : ℕ) : List PWeight → List ABlock
  | [] => []
  | w :: ws =>
    .rotation (duration param d) (.num 0 0) (delta d w) (.num 0 0) (.loc [i]) true :: parts param d (i + 1) ws

theorem rotations_ok (param : String) (d : Expr) (ws : List PWeight) (h : ∀ w ∈ ws, delta d w ≠ .num 0 0) (i : ℕ) :
    rotations param d i ws = .ok (parts param d i ws) := by
  induction ws generalizing i with
  | nil => rfl
  | cons w ws ih =>
    rw [rotations, rotation, analogRot, if_neg (fun e => h w (by simp) e.2), ok_bind,
      ih (fun v hv => h v (by simp [hv])), ok_bind]
    rfl

theorem rotations_error (param : String) (d : Expr) (ws : List PWeight) (h : ∃ w ∈ ws, delta d w = .num 0 0) (i : ℕ) :
    rotations param d i ws = .error .valueError := by
  induction ws generalizing i with
  | nil => simp at h
  | cons w ws ih =>
    rw [rotations, rotation, analogRot]
    by_cases hw : delta d w = .num 0 0
    · rw [if_pos ⟨rfl, hw⟩]; rfl
    · rw [if_neg (fun e => hw e.2), ok_bind, ih]
      · rfl
      · obtain ⟨v, hv, e⟩ := h
        rcases List.mem_cons.1 hv with rfl | hv
        · exact absurd e hw
        · exact ⟨v, hv, e⟩

theorem kronCheck_parts (ho : SetOrder ord) (param : String) (d : Expr) (ws : List PWeight) (i : ℕ) (l : List ℕ)
    (hl : ∀ q ∈ l, q < i) : kronCheck ord (.loc l) (parts param d i ws) = .ok () := by
  induction ws generalizing i l with
  | nil => rfl
  | cons w ws ih =>
    obtain ⟨m, h1, h2⟩ := qsAdd_loc ord ho l [i]
    rw [parts, kronCheck, ABlock.support, if_neg (by simp), if_neg, h1, ih]
    · intro q hq
      rcases (h2 q).1 hq with h | h
      · have := hl q h; omega
      · simp at h; omega
    · simp only [QSupport.isDisjoint, Bool.not_eq_true', Bool.not_eq_false, List.all_eq_true]
      intro q hq
      have := hl q hq
      simp; omega

theorem parts_isEmpty (param : String) (d : Expr) (i : ℕ) (ws : List PWeight) :
    (parts param d i ws).isEmpty = ws.isEmpty := by cases ws <;> rfl

/-- A weight which is the number zero. -/
def isZero (w : PWeight) : Prop := w = .num 0

theorem delta_zero_iff (x : ℚ) (hx : x ≠ 0) (w : PWeight) : delta (.num x 0) w = .num 0 0 ↔ w = .num 0 := by
  cases w with
  | num q => simp [delta, hx]
  | param p => simp [delta, hx]

theorem delta_zero (w : PWeight) : delta (.num 0 0) w = .num 0 0 := by
  cases w <;> simp [delta]

theorem delta_mul_iff (a b : Expr) (w : PWeight) : delta (.mul a b) w = .num 0 0 ↔ w = .num 0 := by
  cases w with
  | num q =>
    by_cases hq : q = 0
    · simp [delta, hq]
    · simp [delta, hq]
  | param p => simp [delta]

/-- The sum of weights which are numbers; `none` if there is a parameter among them. -/
def numberSum (ws : List PWeight) : Option ℚ := (ws.mapM number?).map List.sum

/-- The detuning which belongs to the weights. -/
def detOf (m : ℚ) (ws : List PWeight) : Expr :=
  match numberSum ws with
  | some s => .num (m / s) 0
  | none => .mul (.num m 0) (.inv (Pattern.sumExpr (ws.map PWeight.expr)))

theorem rydbergFM_spec (ho : SetOrder ord) (k : ℕ) (param : String) (m : ℚ) (weights : Option (List PWeight))
    (ws : List PWeight) (hws : firstN k (coeffs k param weights) = .ok ws) :
    rydbergFM ord k param m weights =
      if numberSum ws = some 0 then .error .zeroDivisionError
      else if m = 0 ∨ .num 0 ∈ ws then (if ws = [] then .error .zeroDivisionError else .error .valueError)
      else if ws = [] then .error .zeroDivisionError else .ok (parts param (detOf m ws) 0 ws) := by
  by_cases he : ws = []
  · subst he
    rw [rydbergFM, hws, ok_bind, if_pos (by simp [numberSum])]
    rfl
  have hk : kronGenerator ord (parts param (detOf m ws) 0 ws) = .ok (parts param (detOf m ws) 0 ws) := by
    rw [kronGenerator, parts_isEmpty, if_neg (by simpa using he), kronCheck_parts ho _ _ _ _ _ (by simp)]
    rfl
  rw [rydbergFM, hws, ok_bind, if_neg he]
  have hne : ∃ w, w ∈ ws := List.exists_mem_of_ne_nil ws he
  cases hq : ws.mapM number? with
  | some qs =>
    have hns : numberSum ws = some qs.sum := by rw [numberSum, hq]; rfl
    have hd : detOf m ws = .num (m / qs.sum) 0 := by rw [detOf, hns]
    rw [hns]
    by_cases hz : qs.sum = 0
    · rw [if_pos (by rw [hz]), detuning, hq]
      simp only [hz, if_true]
      rfl
    · rw [if_neg (by simpa using hz), detuning, hq]
      simp only [hz, if_false, ok_bind]
      by_cases hm : m = 0
      · rw [if_pos (Or.inl hm), hm, zero_div, rotations_error _ _ _ ⟨_, hne.choose_spec, delta_zero _⟩]
        rfl
      · have hx : m / qs.sum ≠ 0 := div_ne_zero hm hz
        by_cases h0 : PWeight.num 0 ∈ ws
        · rw [if_pos (Or.inr h0), rotations_error _ _ _ ⟨_, h0, (delta_zero_iff _ hx _).2 rfl⟩]
          rfl
        · rw [if_neg (by tauto), rotations_ok _ _ _ (fun w hw e => h0 ((delta_zero_iff _ hx _).1 e ▸ hw)), ok_bind,
            if_neg he, ← hd, hk]
  | none =>
    have hns : numberSum ws = none := by rw [numberSum, hq]; rfl
    have hd : detOf m ws = .mul (.num m 0) (.inv (Pattern.sumExpr (ws.map PWeight.expr))) := by rw [detOf, hns]
    rw [hns, if_neg (by simp), detuning, hq]
    by_cases hm : m = 0
    · simp only [hm, if_true, ok_bind, true_or]
      rw [rotations_error _ _ _ ⟨_, hne.choose_spec, delta_zero _⟩]
      rfl
    · simp only [hm, if_false, ok_bind, false_or]
      by_cases h0 : PWeight.num 0 ∈ ws
      · rw [if_pos h0, rotations_error _ _ _ ⟨_, h0, (delta_mul_iff _ _ _).2 rfl⟩]
        rfl
      · rw [if_neg h0, rotations_ok _ _ _ (fun w hw e => h0 ((delta_mul_iff _ _ _).1 e ▸ hw)), ok_bind,
          if_neg he, ← hd, hk]

/-- **C84.** With weights for all `k` qubits the feature map is built exactly if there is a qubit, the detuning is not
zero, no weight is the number zero and weights which are all numbers do not add up to zero; it has one rotation per
qubit. -/
theorem C84_accepts (ho : SetOrder ord) (k : ℕ) (param : String) (m : ℚ) (ws : List PWeight) (hk : k ≤ ws.length) :
    (∃ bs, rydbergFM ord k param m (some ws) = .ok bs) ↔
      k ≠ 0 ∧ m ≠ 0 ∧ .num 0 ∉ ws.take k ∧ numberSum (ws.take k) ≠ some 0 := by
  have h1 : firstN k (coeffs k param (some ws)) = .ok (ws.take k) := by
    rw [firstN, coeffs, if_neg (by omega)]
  rw [rydbergFM_spec ho k param m (some ws) _ h1]
  have h2 : ws.take k = [] ↔ k = 0 := by
    rw [List.take_eq_nil_iff]
    constructor
    · rintro (h | h)
      · exact h
      · rw [h] at hk; simpa using hk
    · exact Or.inl
  by_cases a : numberSum (ws.take k) = some 0
  · simp [a]
  · rw [if_neg a]
    by_cases b : m = 0 ∨ .num 0 ∈ ws.take k
    · rw [if_pos b]
      constructor
      · rintro ⟨bs, h⟩
        split_ifs at h
      · rintro ⟨_, hm, h0, _⟩
        exact absurd b (by tauto)
    · rw [if_neg b]
      push Not at b
      by_cases c : k = 0
      · rw [if_pos (h2.2 c)]; simp [c]
      · rw [if_neg (by rw [h2]; exact c)]
        exact ⟨fun _ => ⟨c, b.1, b.2, a⟩, fun _ => ⟨_, rfl⟩⟩

/-- **C84.** The errors: no qubits and weights adding up to zero are a ZeroDivisionError, missing weights an IndexError, a
weight zero or the detuning zero a ValueError. Further weights are ignored. -/
theorem C84_errors (ho : SetOrder ord) (k : ℕ) (param : String) (m : ℚ) (ws : List PWeight) :
    rydbergFM ord 0 param m (some ws) = .error .zeroDivisionError ∧
    (ws.length < k → rydbergFM ord k param m (some ws) = .error .indexError) ∧
    (k ≤ ws.length → numberSum (ws.take k) = some 0 →
      rydbergFM ord k param m (some ws) = .error .zeroDivisionError) ∧
    (k ≤ ws.length → k ≠ 0 → numberSum (ws.take k) ≠ some 0 → (m = 0 ∨ .num 0 ∈ ws.take k) →
      rydbergFM ord k param m (some ws) = .error .valueError) ∧
    (k ≤ ws.length → rydbergFM ord k param m (some ws) = rydbergFM ord k param m (some (ws.take k))) := by
  have h1 : ∀ j, j ≤ ws.length → firstN j (coeffs j param (some ws)) = .ok (ws.take j) := fun j hj => by
    rw [firstN, coeffs, if_neg (by omega)]
  refine ⟨?_, fun h => ?_, fun h e => ?_, fun h hk e hm => ?_, fun h => ?_⟩
  · rw [rydbergFM_spec ho 0 param m _ _ (h1 0 (by omega)), if_pos (by simp [numberSum])]
  · rw [rydbergFM, firstN, coeffs, if_pos h]; rfl
  · rw [rydbergFM_spec ho k param m _ _ (h1 k h), if_pos e]
  · rw [rydbergFM_spec ho k param m _ _ (h1 k h), if_neg e, if_pos hm, if_neg]
    rw [List.take_eq_nil_iff]
    rintro (h' | h')
    · exact hk h'
    · rw [h'] at h; simp at h; exact hk h
  · rw [rydbergFM, rydbergFM, h1 k h, firstN, coeffs, if_neg (by simp [h]), List.take_take, min_self]

/-- **C84.** Without weights the feature map is built for every number of qubits and every detuning except zero. -/
theorem C84_default_weights (ho : SetOrder ord) (k : ℕ) (param : String) (m : ℚ) :
    (∃ bs, rydbergFM ord k param m none = .ok bs) ↔ k ≠ 0 ∧ m ≠ 0 := by
  set ws : List PWeight := (List.range k).map fun i => .param (weightName param i) with hws
  have e : rydbergFM ord k param m none = rydbergFM ord k param m (some ws) := rfl
  have ht : ws.take k = ws := List.take_of_length_le (by simp [hws])
  have h0 : PWeight.num 0 ∉ ws := by simp [hws]
  rw [e, C84_accepts ho k param m ws (by simp [hws]), ht]
  refine ⟨fun h => ⟨h.1, h.2.1⟩, fun h => ⟨h.1, h.2, h0, ?_⟩⟩
  obtain ⟨j, rfl⟩ := Nat.exists_eq_succ_of_ne_zero h.1
  have : numberSum ws = none := by
    rw [hws, List.range_succ_eq_map]
    rfl
  rw [this]
  simp

/-- **C84.** The default weights of different qubits and of different features are different parameters, and none of them
is the feature itself. -/
theorem C84_weight_names (p p' : String) (i i' : ℕ) :
    (weightName p i = weightName p' i' → p = p' ∧ i = i') ∧ weightName p i ≠ p := by
  constructor
  · intro h
    unfold weightName at h
    obtain ⟨h1, h2⟩ := Names.numbered_inj h
    have := congrArg String.toList h1
    simp only [String.toList_append, List.append_cancel_left_eq] at this
    exact ⟨String.toList_inj.1 this, h2⟩
  · intro h
    have := congrArg String.length h
    simp only [weightName, String.length_append] at this
    have h2 : "w_".length = 2 := rfl
    omega

/-! ## The operator -/

/-- The value of a weight. -/
noncomputable def value (ρ : Env) (w : PWeight) : ℂ := eval ρ w.expr

theorem eval_neg (ρ : Env) (e : Expr) : eval ρ (.neg e) = -eval ρ e := by
  simp only [Expr.neg, eval]
  have : (⟨((-1 : ℚ) : ℝ), ((0 : ℚ) : ℝ)⟩ : ℂ) = -1 := by apply Complex.ext <;> simp
  rw [this]; ring

theorem eval_mul (ρ : Env) (a b : Expr) : eval ρ (.mul a b) = eval ρ a * eval ρ b := by rw [eval]

theorem eval_delta (ρ : Env) (d : Expr) (hd : ∀ x y, d = .num x y → y = 0) (w : PWeight) :
    eval ρ (delta d w) = -(eval ρ d * value ρ w) := by
  unfold delta value
  split
  · rename_i x y q
    rw [hd x y rfl, PWeight.expr, eval_rat, eval_rat, eval_rat]; push_cast; ring
  · rename_i x y p
    rw [hd x y rfl, PWeight.expr]
    split_ifs with h
    · rw [h, eval_rat]; simp
    · rw [eval_mul, eval_rat, eval_rat]; push_cast; ring
  · rename_i q _
    rw [PWeight.expr]
    split_ifs with h
    · rw [h, eval_rat]; simp
    · rw [eval_mul, eval_neg]; ring
  · rw [PWeight.expr, eval_mul, eval_neg]; ring

theorem eval_sumExpr (ρ : Env) (es : List Expr) : eval ρ (Pattern.sumExpr es) = (es.map (eval ρ)).sum := by
  have : ∀ a, eval ρ (es.foldl .add a) = eval ρ a + (es.map (eval ρ)).sum := by
    induction es with
    | nil => simp
    | cons e es ih => intro a; rw [List.foldl_cons, ih, eval, List.map_cons, List.sum_cons]; ring
  rw [Pattern.sumExpr, this, eval_rat]; simp

theorem mapM_number {ws : List PWeight} {qs : List ℚ} (h : ws.mapM number? = some qs) (ρ : Env) :
    (ws.map (value ρ)).sum = ((qs.sum : ℚ) : ℂ) := by
  induction ws generalizing qs with
  | nil => simp at h; subst h; simp
  | cons w ws ih =>
    rw [List.mapM_cons] at h
    cases w with
    | param p => simp [number?] at h
    | num q =>
      cases hr : ws.mapM number? with
      | none => simp [number?, hr] at h
      | some rs =>
        simp [number?, hr] at h
        subst h
        rw [List.map_cons, List.sum_cons, List.sum_cons, ih hr, value, PWeight.expr, eval_rat]
        push_cast; ring

theorem eval_detOf (ρ : Env) (m : ℚ) (ws : List PWeight) : eval ρ (detOf m ws) = m / (ws.map (value ρ)).sum := by
  unfold detOf
  cases hq : ws.mapM number? with
  | some qs =>
    have hns : numberSum ws = some qs.sum := by rw [numberSum, hq]; rfl
    rw [hns, mapM_number hq]
    simp only [eval_rat]
    push_cast; rfl
  | none =>
    have hns : numberSum ws = none := by rw [numberSum, hq]; rfl
    rw [hns]
    simp only [eval, eval_sumExpr, List.map_map]
    have := eval_rat ρ m
    rw [eval] at this
    rw [this, div_eq_mul_inv]
    rfl

theorem detOf_real (m : ℚ) (ws : List PWeight) : ∀ x y, detOf m ws = .num x y → y = 0 := by
  intro x y h
  unfold detOf at h
  split at h
  · injection h with _ h; exact h.symm
  · cases h

/-- The bit of a qubit as a number. -/
def occ (s : St n) (q : ℕ) : ℂ := if bit s q then 1 else 0

theorem number_diagonal {q : ℕ} (hq : q < n) : (embed1 q (mat1 (.N true)) : Oper n) = Matrix.diagonal fun s => occ s q := by
  rw [DAQC.embed1_dg hq (Or.inr rfl), DAQC.dg]
  congr 1
  funext s
  simp only [DAQC.lv, DAQC.zq, occ]
  rw [if_neg (by simp)]
  split <;> norm_num

theorem evolution_diagonal (t : ℂ) (E : St n → ℂ) :
    evolution t (Matrix.diagonal E) = Matrix.diagonal fun s => Complex.exp (-Complex.I * (t * E s)) := by
  rw [evolution, ← Matrix.diagonal_smul, Matrix.exp_diagonal]
  congr 1
  funext s
  rw [Pi.coe_exp, Pi.smul_apply, smul_eq_mul, ← Complex.exp_eq_exp_ℂ]
  congr 1
  ring

theorem drive_one {i : ℕ} (hi : i < n) (δ : ℂ) :
    (driveOp 0 δ 0 [i] : Oper n) = Matrix.diagonal fun s => -(δ * occ s i) := by
  rw [driveOp, List.map_singleton, List.sum_singleton, driveOne, zero_div, zero_smul, zero_sub, number_diagonal hi,
    ← Matrix.diagonal_smul, ← Matrix.diagonal_neg]
  rfl

/-- The phases of the qubits from `i` on. -/
noncomputable def phases (ρ : Env) (s : St n) : ℕ → List PWeight → ℂ
  | _, [] => 0
  | i, w :: ws => value ρ w * occ s i + phases ρ s (i + 1) ws

theorem kronOps_parts (ho : SetOrder ord) (ρ : Env) (hρ : StandardFns ρ) (r : Register) (hInt : Block Gate)
    (hAddr : Option (Block Gate)) (E : St n → ℂ) (hE : sem (gateSem n ρ) ρ hInt + addrOp n ρ hAddr = Matrix.diagonal E)
    (param : String) (d : Expr) (hr : ∀ x y, d = .num x y → y = 0) (hd : eval ρ d ≠ 0) (ws : List PWeight) (i : ℕ)
    (hi : i + ws.length ≤ n) :
    ∃ cs, kronOps r hInt hAddr (parts param d i ws) = .ok cs ∧ cs.length = ws.length ∧
      opProd (cs.map (sem (primSem n ρ ord ho) ρ)) = Matrix.diagonal fun s => Complex.exp (-Complex.I *
        (ws.length * (ρ.var param / eval ρ d) * E s + ρ.var param * phases ρ s i ws)) := by
  induction ws generalizing i with
  | nil => exact ⟨[], rfl, rfl, by simp [opProd, phases]⟩
  | cons w ws ih =>
    rw [List.length_cons] at hi
    obtain ⟨c, h1, h2⟩ := rotationEvo_ok (n := n) ho ρ hρ r hInt hAddr (duration param d) (.num 0 0) (delta d w)
      (.num 0 0) (.loc [i]) true
    obtain ⟨cs, h3, h4, h5⟩ := ih (i + 1) (by omega)
    refine ⟨c :: cs, ?_, by simp [h4], ?_⟩
    · rw [parts, kronOps, h1, ok_bind, h3]; rfl
    · have h0 : eval ρ (.num 0 0) = 0 := by rw [eval_rat]; simp
      have ht : eval ρ (duration param d) / 1000 = ρ.var param / eval ρ d := by
        have h1000 : eval ρ (.num 1000 0) = 1000 := by rw [eval_rat]; norm_num
        rw [duration, eval_mul, eval_mul, h1000, eval, eval]
        field_simp
      rw [List.map_cons, opProd, h5, h2, if_pos rfl, hE, ht, h0, eval_delta ρ d hr]
      have hdr : driven r (.loc [i]) = [i] := rfl
      rw [hdr, drive_one (by omega), Matrix.diagonal_add, evolution_diagonal, Matrix.diagonal_mul_diagonal]
      congr 1
      funext s
      rw [← Complex.exp_add, phases]
      congr 1
      simp only [List.length_cons]
      push_cast
      field_simp
      ring

theorem parts_kron (ho : SetOrder ord) (ev : Expr → ℝ) (param : String) (d : Expr) (w : PWeight) (ws : List PWeight) (i : ℕ) :
    ∃ b bs, parts param d i (w :: ws) = b :: bs ∧ scalePass ord ev (parts param d i (w :: ws)) = .ok (.kron b bs) := by
  refine ⟨_, _, rfl, ?_⟩
  have hmem : ∀ (ws : List PWeight) (i : ℕ), ∀ c ∈ parts param d i ws,
      ∃ δ q, i ≤ q ∧ c = .rotation (duration param d) (.num 0 0) δ (.num 0 0) (.loc [q]) true := by
    intro ws
    induction ws with
    | nil => intro i c hc; simp [parts] at hc
    | cons w ws ih =>
      intro i c hc
      rcases List.mem_cons.1 hc with rfl | hc
      · exact ⟨_, i, le_refl _, rfl⟩
      · obtain ⟨δ, q, hq, e⟩ := ih (i + 1) c hc
        exact ⟨δ, q, by omega, e⟩
  have hpair : ∀ (ws : List PWeight) (i : ℕ), (parts param d i ws).Pairwise
      (fun c d => QSupport.isDisjoint (c.support ord) (d.support ord) = true) := by
    intro ws
    induction ws with
    | nil => intro i; exact List.Pairwise.nil
    | cons w ws ih =>
      intro i
      refine List.Pairwise.cons (fun c hc => ?_) (ih (i + 1))
      obtain ⟨δ, q, hq, rfl⟩ := hmem ws (i + 1) c hc
      simp [ABlock.support, QSupport.isDisjoint]
      omega
  refine (C55_kron_accepts ho _ _).2.1.2 ⟨fun c hc => ?_, hpair (w :: ws) i, fun c hc => ?_⟩
  · obtain ⟨δ, q, hq, rfl⟩ := hmem (w :: ws) i c hc
    simp [ABlock.support]
  · obtain ⟨δ, q, hq, rfl⟩ := hmem (w :: ws) i c hc
    simp only [ABlock.duration, sub_self, abs_zero]
    positivity

theorem phases_eq (ρ : Env) (s : St n) (ws : List PWeight) (i : ℕ) :
    phases ρ s i ws = ∑ j ∈ Finset.range ws.length, value ρ (ws.getD j (.num 0)) * occ s (i + j) := by
  induction ws generalizing i with
  | nil => simp [phases]
  | cons w ws ih =>
    rw [phases, ih, List.length_cons, Finset.sum_range_succ']
    simp [add_assoc, add_comm 1]
    ring

theorem sum_value (ρ : Env) (ws : List PWeight) :
    (ws.map (value ρ)).sum = ∑ j ∈ Finset.range ws.length, value ρ (ws.getD j (.num 0)) := by
  induction ws with
  | nil => simp
  | cons w ws ih =>
    rw [List.map_cons, List.sum_cons, ih, List.length_cons, Finset.sum_range_succ']
    simp
    ring

/-- The value of the weight of qubit `j`: the number or parameter given, or the parameter created for it. -/
noncomputable def wt (ρ : Env) (k : ℕ) (param : String) (weights : Option (List PWeight)) (j : ℕ) : ℂ :=
  value ρ ((weights.getD ((List.range k).map fun i => .param ("w_" ++ param ++ "_" ++ toString i))).getD j (.num 0))

theorem wt_eq (ρ : Env) (k : ℕ) (param : String) (weights : Option (List PWeight)) (j : ℕ) (hj : j < k) :
    value ρ (((coeffs k param weights).take k).getD j (.num 0)) = wt ρ k param weights j := by
  have : coeffs k param weights =
      weights.getD ((List.range k).map fun i => .param ("w_" ++ param ++ "_" ++ toString i)) := by
    cases weights <;> rfl
  rw [this, wt]
  congr 1
  rw [List.getD_eq_getElem?_getD, List.getD_eq_getElem?_getD, List.getElem?_take, if_pos hj]

/-- **C84.** The operator of the feature map on a device whose interaction and pattern are diagonal with the energies `E`,
as the pyqtorch backend runs it. Every qubit gets the phase `exp(-i w x)` for its weight `w` and the feature `x`; in
addition the background acts once for every qubit of the feature map, for the time x / Δ each. -/
theorem C84_operator (ho : SetOrder ord) (ρ : Env) (hρ : StandardFns ρ) (ev : Expr → ℝ) (r : Register) (hInt : Block Gate)
    (hAddr : Option (Block Gate)) (E : St n → ℂ) (hE : sem (gateSem n ρ) ρ hInt + addrOp n ρ hAddr = Matrix.diagonal E)
    (k : ℕ) (hk : k ≤ n) (param : String) (m : ℚ) (weights : Option (List PWeight)) (bs : List ABlock)
    (hb : rydbergFM ord k param m weights = .ok bs) (hs : ∑ j ∈ Finset.range k, wt ρ k param weights j ≠ 0) :
    ∃ c, backendPasses ord ev r hInt hAddr bs = .ok c ∧
      sem (primSem n ρ ord ho) ρ c = Matrix.diagonal fun s => Complex.exp (-Complex.I *
        (k * (ρ.var param * (∑ j ∈ Finset.range k, wt ρ k param weights j) / m) * E s +
          ρ.var param * ∑ j ∈ Finset.range k, wt ρ k param weights j * occ s j)) := by
  have hlen : k ≤ (coeffs k param weights).length := by
    by_contra h
    rw [rydbergFM, firstN, if_pos (by omega)] at hb
    cases hb
  have h1 : firstN k (coeffs k param weights) = .ok ((coeffs k param weights).take k) := by
    rw [firstN, if_neg (by omega)]
  have hl : ((coeffs k param weights).take k).length = k := by simp [hlen]
  have hw := wt_eq ρ k param weights
  rw [rydbergFM_spec ho k param m weights _ h1] at hb
  generalize (coeffs k param weights).take k = ws at hb hl hw
  have hsum : (ws.map (value ρ)).sum = ∑ j ∈ Finset.range k, wt ρ k param weights j := by
    rw [sum_value, hl]
    exact Finset.sum_congr rfl fun j hj => hw j (Finset.mem_range.1 hj)
  have hph : ∀ s : St n, phases ρ s 0 ws = ∑ j ∈ Finset.range k, wt ρ k param weights j * occ s j := fun s => by
    rw [phases_eq, hl]
    refine Finset.sum_congr rfl fun j hj => ?_
    rw [hw j (Finset.mem_range.1 hj), zero_add]
  have hb' : m ≠ 0 ∧ ws ≠ [] ∧ bs = parts param (detOf m ws) 0 ws := by
    split_ifs at hb with h2 h3 h4 h5
    push Not at h3
    injection hb with hb
    exact ⟨h3.1, h5, hb.symm⟩
  obtain ⟨hm, hne, rfl⟩ := hb'
  obtain ⟨w, ws, rfl⟩ := List.exists_cons_of_ne_nil hne
  have hmC : (m : ℂ) ≠ 0 := by exact_mod_cast hm
  have hd : eval ρ (detOf m (w :: ws)) ≠ 0 := by rw [eval_detOf, hsum]; exact div_ne_zero hmC hs
  obtain ⟨cs, h5, h6, h7⟩ := kronOps_parts (n := n) ho ρ hρ r hInt hAddr E hE param (detOf m (w :: ws))
    (detOf_real m _) hd (w :: ws) 0 (by omega)
  obtain ⟨b, bs, h8, h9⟩ := parts_kron ho ev param (detOf m (w :: ws)) w ws 0
  refine ⟨chainOf cs, ?_, ?_⟩
  · rw [backendPasses, h9, ok_bind, convert, ← h8, h5, ok_bind, if_neg]
    · rfl
    · intro h
      rw [List.isEmpty_iff] at h
      rw [h] at h6; simp at h6
  · rw [chainOf, sem_chain, h7]
    congr 1
    funext s
    rw [hph, hl, eval_detOf, hsum, div_div_eq_mul_div]

/-- **C84.** Without background (for instance for a single atom) the phases depend on the weights and the feature only;
the detuning is without influence. -/
theorem C84_no_background (ho : SetOrder ord) (ρ : Env) (hρ : StandardFns ρ) (ev : Expr → ℝ) (r : Register)
    (hInt : Block Gate) (hAddr : Option (Block Gate)) (h0 : sem (gateSem n ρ) ρ hInt + addrOp n ρ hAddr = 0)
    (k : ℕ) (hk : k ≤ n) (param : String) (m : ℚ) (weights : Option (List PWeight)) (bs : List ABlock)
    (hb : rydbergFM ord k param m weights = .ok bs) (hs : ∑ j ∈ Finset.range k, wt ρ k param weights j ≠ 0) :
    ∃ c, backendPasses ord ev r hInt hAddr bs = .ok c ∧
      sem (primSem n ρ ord ho) ρ c = Matrix.diagonal fun s => Complex.exp (-Complex.I *
        (ρ.var param * ∑ j ∈ Finset.range k, wt ρ k param weights j * occ s j)) := by
  have hE : sem (gateSem n ρ) ρ hInt + addrOp n ρ hAddr = Matrix.diagonal fun _ => (0 : ℂ) := by
    rw [h0]; simp
  obtain ⟨c, h1, h2⟩ := C84_operator ho ρ hρ ev r hInt hAddr _ hE k hk param m weights bs hb hs
  refine ⟨c, h1, ?_⟩
  rw [h2]
  simp

/-- **C84.** The tower: qubit `i` has the weight `i + 1`. It is built for every number of qubits except 0. -/
theorem C84_tower (ho : SetOrder ord) (ρ : Env) (hρ : StandardFns ρ) (ev : Expr → ℝ) (r : Register) (hInt : Block Gate)
    (hAddr : Option (Block Gate)) (h0 : sem (gateSem n ρ) ρ hInt + addrOp n ρ hAddr = 0)
    (k : ℕ) (hk0 : k ≠ 0) (hk : k ≤ n) (param : String) (m : ℚ) (hm : m ≠ 0) :
    ∃ bs c, towerFM ord k param m = .ok bs ∧ backendPasses ord ev r hInt hAddr bs = .ok c ∧
      sem (primSem n ρ ord ho) ρ c = Matrix.diagonal fun s => Complex.exp (-Complex.I *
        (ρ.var param * ∑ j ∈ Finset.range k, ((j : ℂ) + 1) * occ s j)) := by
  set ws : List PWeight := (List.range k).map fun i : ℕ => .num ((i : ℚ) + 1) with hws
  have hlen : ws.length = k := by simp [hws]
  have ht : ws.take k = ws := List.take_of_length_le (by omega)
  have hmap : ws.mapM number? = some ((List.range k).map fun i : ℕ => (i : ℚ) + 1) := by
    rw [hws]
    generalize List.range k = l
    induction l with
    | nil => rfl
    | cons a l ih => rw [List.map_cons, List.mapM_cons, ih]; rfl
  have hpos : 0 < ((List.range k).map fun i : ℕ => (i : ℚ) + 1).sum := by
    apply List.sum_pos
    · intro x hx
      simp only [List.mem_map] at hx
      obtain ⟨i, _, rfl⟩ := hx
      positivity
    · simp [hk0]
  have hns : numberSum ws = some ((List.range k).map fun i : ℕ => (i : ℚ) + 1).sum := by rw [numberSum, hmap]; rfl
  have hz : PWeight.num 0 ∉ ws := by
    intro h
    simp only [hws, List.mem_map] at h
    obtain ⟨i, _, h⟩ := h
    injection h with h
    have : (0 : ℚ) < (i : ℚ) + 1 := by positivity
    linarith
  obtain ⟨bs, hb⟩ := (C84_accepts ho k param m ws (by omega)).2 ⟨hk0, hm, by rwa [ht], by
    rw [ht, hns]; intro h; injection h with h; linarith⟩
  have hw : ∀ j ∈ Finset.range k, wt ρ k param (some ws) j = (j : ℂ) + 1 := by
    intro j hj
    have hj := Finset.mem_range.1 hj
    rw [wt, Option.getD_some, List.getD_eq_getElem?_getD, List.getElem?_eq_getElem (by omega), Option.getD_some]
    have : ws[j] = .num ((j : ℚ) + 1) := by simp [hws]
    rw [this, value, PWeight.expr, eval_rat]
    push_cast
    rfl
  have hsum : ∑ j ∈ Finset.range k, wt ρ k param (some ws) j ≠ 0 := by
    rw [Finset.sum_congr rfl hw]
    have : (0 : ℝ) < ∑ j ∈ Finset.range k, ((j : ℝ) + 1) :=
      Finset.sum_pos (fun j _ => by positivity) (by simpa using hk0)
    exact_mod_cast this.ne'
  obtain ⟨c, h1, h2⟩ := C84_no_background ho ρ hρ ev r hInt hAddr h0 k hk param m (some ws) bs hb hsum
  refine ⟨bs, c, hb, h1, ?_⟩
  rw [h2]
  congr 1
  funext s
  congr 3
  exact Finset.sum_congr rfl fun j hj => by rw [hw j hj]

/-- The energy of a basis state in the van-der-Waals interaction. -/
noncomputable def vdwEnergy (c : ℝ) (P : ℕ → ℝ × ℝ) (r : Register) (s : St n) : ℂ :=
  ∑ e ∈ nodePairs r, ((c / euclid (P e.1) (P e.2) ^ 6 : ℝ) : ℂ) * (occ s e.1 * occ s e.2)

/-- **C84.** The van-der-Waals interaction of a register whose nodes are qubits is diagonal as assumed. -/
theorem C84_van_der_waals (c : ℝ) (P : ℕ → ℝ × ℝ) (r : Register) (hr : ∀ i ∈ r.labels, i < n) :
    (vanDerWaals c P r : Oper n) = Matrix.diagonal (vdwEnergy c P r) := by
  unfold vanDerWaals
  have : ∀ e ∈ nodePairs r, ((c / euclid (P e.1) (P e.2) ^ 6 : ℝ) : ℂ) •
      (embed1 e.1 (mat1 (.N true)) * embed1 e.2 (mat1 (.N true)) : Oper n) =
      Matrix.diagonal fun s => ((c / euclid (P e.1) (P e.2) ^ 6 : ℝ) : ℂ) * (occ s e.1 * occ s e.2) := by
    intro e he
    simp only [nodePairs, Finset.mem_filter, Finset.mem_product, List.mem_toFinset] at he
    rw [number_diagonal (hr _ he.1.1), number_diagonal (hr _ he.1.2), Matrix.diagonal_mul_diagonal,
      ← Matrix.diagonal_smul]
    rfl
  rw [Finset.sum_congr rfl this]
  ext x y
  rw [Matrix.sum_apply]
  by_cases h : x = y
  · subst h; simp [Matrix.diagonal, vdwEnergy]
  · simp [Matrix.diagonal, h]

/-! ## What is not true -/

/-- **C84 is false for the detuning.** On two atoms with an interaction of strength 1 the maximal detuning, which is only
a limit of the device, changes the operator. -/
theorem C84_counterexample_detuning (ho : SetOrder ord) (ρ : Env) (hρ : StandardFns ρ) (hx : ρ.var "x" = Real.pi)
    (ev : Expr → ℝ) (r : Register) : ∃ bs bs' c c',
    rydbergFM ord 2 "x" 4 (some [.num 1, .num 1]) = .ok bs ∧ rydbergFM ord 2 "x" 2 (some [.num 1, .num 1]) = .ok bs' ∧
    backendPasses ord ev r pairInteraction none bs = .ok c ∧ backendPasses ord ev r pairInteraction none bs' = .ok c' ∧
    sem (primSem 2 ρ ord ho) ρ c ≠ sem (primSem 2 ρ ord ho) ρ c' := by
  have hE : sem (gateSem 2 ρ) ρ pairInteraction + addrOp 2 ρ none = Matrix.diagonal fun s => occ s 0 * occ s 1 := by
    rw [pairInteraction, addOf, sem_add]
    have h1 : eval ρ (.num 1 0) = 1 := by rw [eval_rat]; norm_num
    simp only [List.map_cons, List.map_nil, List.sum_cons, List.sum_nil, add_zero, sem_scale, sem_kron, opProd,
      sem_ofFixed, h1, one_smul, one_mul, addrOp]
    rw [number_diagonal (by omega), number_diagonal (by omega), Matrix.diagonal_mul_diagonal]
    congr 1
    funext s
    ring
  have hns : numberSum (([.num 1, .num 1] : List PWeight).take 2) ≠ some 0 := by
    simp [numberSum, number?]
  have hv : value ρ (.num 1) = 1 := by rw [value, PWeight.expr, eval_rat]; norm_num
  have hw0 : wt ρ 2 "x" (some [.num 1, .num 1]) 0 = 1 := hv
  have hw1 : wt ρ 2 "x" (some [.num 1, .num 1]) 1 = 1 := hv
  have hsum : ∑ j ∈ Finset.range 2, wt ρ 2 "x" (some [.num 1, .num 1]) j ≠ 0 := by
    simp [Finset.sum_range_succ, hw0, hw1]
  obtain ⟨bs, hb⟩ := (C84_accepts ho 2 "x" 4 [.num 1, .num 1] (by simp)).2 ⟨by simp, by norm_num, by simp, hns⟩
  obtain ⟨bs', hb'⟩ := (C84_accepts ho 2 "x" 2 [.num 1, .num 1] (by simp)).2 ⟨by simp, by norm_num, by simp, hns⟩
  obtain ⟨c, h1, h2⟩ := C84_operator (n := 2) ho ρ hρ ev r pairInteraction none _ hE 2 (le_refl _) "x" 4 _ bs hb hsum
  obtain ⟨c', h1', h2'⟩ := C84_operator (n := 2) ho ρ hρ ev r pairInteraction none _ hE 2 (le_refl _) "x" 2 _ bs' hb' hsum
  refine ⟨bs, bs', c, c', hb, hb', h1, h1', fun h => ?_⟩
  rw [h2, h2'] at h
  have := congrFun (congrFun h (fun _ => true)) (fun _ => true)
  rw [Matrix.diagonal_apply_eq, Matrix.diagonal_apply_eq] at this
  have o : ∀ q, q < 2 → occ (fun _ => true : St 2) q = 1 := by
    intro q hq
    simp [occ, bit, hq]
  simp only [Finset.sum_range_succ, Finset.sum_range_zero, hw0, hw1, hx, o 0 (by omega), o 1 (by omega)] at this
  have e1 : Complex.exp (-Complex.I * ((2 : ℕ) * (Real.pi * (0 + 1 + 1) / ((4 : ℚ) : ℂ)) * (1 * 1) +
      Real.pi * (0 + 1 * 1 + 1 * 1))) = -1 := by
    rw [show -Complex.I * ((2 : ℕ) * ((Real.pi : ℂ) * (0 + 1 + 1) / ((4 : ℚ) : ℂ)) * (1 * 1) +
      Real.pi * (0 + 1 * 1 + 1 * 1)) = Real.pi * Complex.I + ((-2 : ℤ) : ℂ) * (2 * Real.pi * Complex.I) by push_cast; ring,
      Complex.exp_add, Complex.exp_pi_mul_I, Complex.exp_int_mul_two_pi_mul_I, mul_one]
  have e2 : Complex.exp (-Complex.I * ((2 : ℕ) * (Real.pi * (0 + 1 + 1) / ((2 : ℚ) : ℂ)) * (1 * 1) +
      Real.pi * (0 + 1 * 1 + 1 * 1))) = 1 := by
    rw [show -Complex.I * ((2 : ℕ) * ((Real.pi : ℂ) * (0 + 1 + 1) / ((2 : ℚ) : ℂ)) * (1 * 1) +
      Real.pi * (0 + 1 * 1 + 1 * 1)) = ((-2 : ℤ) : ℂ) * (2 * Real.pi * Complex.I) by push_cast; ring]
    exact Complex.exp_int_mul_two_pi_mul_I _
  rw [e1, e2] at this
  norm_num at this

theorem mem_iadd {a b g : Block Gate} (h : iadd Gate.arith a (.block b) = .ok g) (hz : isZeroBlock Gate.arith a = false)
    {q : ℕ} (hq : q ∈ qubits Gate.supp a) : q ∈ qubits Gate.supp g := by
  rw [iadd, hz] at h
  injection h with h
  subst h
  rw [if_neg (by simp), addOf, mem_qubits_comp]
  cases a with
  | leaf l t => exact ⟨_, List.mem_append_left _ (by simp [unpack]), hq⟩
  | scale b s t => exact ⟨_, List.mem_append_left _ (by simp [unpack]), hq⟩
  | comp k bs t =>
    by_cases hk : k = .add
    · subst hk
      rw [mem_qubits_comp] at hq
      obtain ⟨c, hc, hqc⟩ := hq
      exact ⟨c, List.mem_append_left _ (by simpa [unpack] using hc), hqc⟩
    · exact ⟨_, List.mem_append_left _ (by simp [unpack, hk]), hq⟩

theorem convertList_parts (ho : SetOrder ord) (r : Register) (hInt : Block Gate)
    (hz : isZeroBlock Gate.arith hInt = false) (q : ℕ) (hq : q ∈ qubits Gate.supp hInt)
    (param : String) (d : Expr) (ws : List PWeight) (i : ℕ) :
    ∃ cs, convertList r hInt none (parts param d i ws) = .ok cs ∧ cs.length = ws.length ∧
      ∀ c ∈ cs, q ∈ qubits (Prim.supp ord) c := by
  induction ws generalizing i with
  | nil => exact ⟨[], rfl, rfl, by simp⟩
  | cons w ws ih =>
    obtain ⟨cs, h1, h2, h3⟩ := ih (i + 1)
    obtain ⟨b, hb, _⟩ := C56_drive (n := 0) usualEnv usualEnv_standard (.num 0 0) (delta d w) (.num 0 0) [i]
    obtain ⟨g, hg, _⟩ := C07_iadd (gate_arithOk 0 usualEnv) usualEnv hInt b
    have hqg := mem_iadd hg hz hq
    refine ⟨hamEvoFor g (duration param d) :: cs, ?_, by simp [h2], ?_⟩
    · rw [parts, convertList, convert, rotationEvo, driveQubits, hb, ok_bind, background, ok_bind, hg]
      simp only [ok_bind]
      change (do let cs ← convertList r hInt none (parts param d (i + 1) ws); pure (_ :: cs)) = _
      rw [h1]
      rfl
    · intro c hc
      rcases List.mem_cons.1 hc with rfl | hc
      · rw [hamEvoFor, qubits]
        simp only [Prim.supp]
        exact (mem_support _ _ ho _ _).2 hqg
      · exact h3 c hc

/-- **C84 is false for `add_background_hamiltonian` alone.** The feature map is a `KronBlock`, whose parts become
evolutions on the whole register; for two or more qubits these overlap and the conversion stops with an AssertionError.
The backend succeeds only because another pass is run first. -/
theorem C84_counterexample_conversion (ho : SetOrder ord) (r : Register) (hInt : Block Gate)
    (hz : isZeroBlock Gate.arith hInt = false) (q : ℕ) (hq : q ∈ qubits Gate.supp hInt) (k : ℕ) (hk : 2 ≤ k)
    (param : String) (m : ℚ) (weights : Option (List PWeight)) (bs : List ABlock)
    (hb : rydbergFM ord k param m weights = .ok bs) : convertKron ord r hInt none bs = .error .assertionError := by
  have hlen : k ≤ (coeffs k param weights).length := by
    by_contra h
    rw [rydbergFM, firstN, if_pos (by omega)] at hb
    cases hb
  have h1 : firstN k (coeffs k param weights) = .ok ((coeffs k param weights).take k) := by
    rw [firstN, if_neg (by omega)]
  have hl : ((coeffs k param weights).take k).length = k := by simp [hlen]
  rw [rydbergFM_spec ho k param m weights _ h1] at hb
  generalize (coeffs k param weights).take k = ws at hb hl
  have hb' : bs = parts param (detOf m ws) 0 ws := by
    split_ifs at hb
    injection hb with hb
    exact hb.symm
  subst hb'
  obtain ⟨cs, h2, h3, h4⟩ := convertList_parts ho r hInt hz q hq param (detOf m ws) ws 0
  rw [convertKron, h2, ok_bind]
  match cs, h3, h4 with
  | [], h3, _ => simp at h3; omega
  | [_], h3, _ => simp at h3; omega
  | a :: b :: cs, _, h4 =>
    rcases hr : kronOf (Prim.supp ord) ord (a :: b :: cs) with e | c
    · unfold kronOf at hr
      rw [if_neg (by simp)] at hr
      split_ifs at hr
      exact hr.symm
    · rw [kronOf_ok_iff _ _ ho] at hr
      have := (List.pairwise_cons.1 hr.2.2).1 b (by simp)
      exact absurd (h4 b (by simp)) (Set.disjoint_left.1 this (h4 a (by simp)))

/-! ## Global analog feature maps -/

/-- **C84.** Without ranges the argument of the operation is the multiplier times the feature, for Chebyshev its arccosine.
A callable scaling gets the operation and the same argument. -/
theorem C84_analog {pi : ℚ} (hpi : 0 < pi) (param : String) (op : Expr → Except PyErr ABlock) (mult : Option Expr) :
    ∃ e e' : Expr,
      (analogFM pi param op .fourier .constant none none mult = op e ∧
        ∀ g, analogFM pi param op .fourier (.custom g) none none mult = g op e) ∧
      (analogFM pi param op .chebyshev .constant none none mult = op e' ∧
        ∀ g, analogFM pi param op .chebyshev (.custom g) none none mult = g op e') ∧
      ∀ (ρ : Env) (x : ℝ), ρ.var param = x →
        eval ρ e = eval ρ (mult.getD (.num 1 0)) * x ∧
        eval ρ e' = eval ρ (mult.getD (.num 1 0)) * ρ.fn "acos" x := by
  obtain ⟨e, h1, h2⟩ := C46_scaling_identity hpi .fourier param
  obtain ⟨e', h1', h2'⟩ := C46_scaling_identity hpi .chebyshev param
  refine ⟨.mul (mult.getD (.num 1 0)) e, .mul (mult.getD (.num 1 0)) (.fn "acos" e'), ⟨?_, fun g => ?_⟩, ⟨?_, fun g => ?_⟩,
    fun ρ x hx => ⟨?_, ?_⟩⟩
  · rw [analogFM, h1]; rfl
  · rw [analogFM, h1]; rfl
  · rw [analogFM, h1']; rfl
  · rw [analogFM, h1']; rfl
  · rw [eval, h2 ρ x hx]
  · rw [eval, eval, h2' ρ x hx]

/-- **C84.** Other scalings are not implemented, whatever the other arguments are. -/
theorem C84_analog_scalings (pi : ℚ) (param : String) (op : Expr → Except PyErr ABlock) (t : FmType)
    (fr tr : Option (ℚ × ℚ)) (mult : Option Expr) :
    analogFM pi param op t .other fr tr mult = .error .notImplementedError ∨
      analogFM pi param op t .other fr tr mult = .error .zeroDivisionError := by
  rw [analogFM]
  cases h : scaling pi t param fr tr with
  | error e =>
    right
    rw [scaling] at h
    dsimp only at h
    split_ifs at h
    injection h with h
    rw [← h]; rfl
  | ok x =>
    left
    cases t <;> rfl

/-- Weights of a feature map which is built: a number and a parameter. -/
example (ho : SetOrder ord) : ∃ bs, rydbergFM ord 2 "x" 5 (some [.num 1, .param "w"]) = .ok bs := by
  rw [C84_accepts ho 2 "x" 5 _ (by simp)]
  refine ⟨by simp, by norm_num, by simp, by simp [numberSum, number?]⟩

end Qadence.RydbergFM
