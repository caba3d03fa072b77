import Verif.Spec.AnalogPattern
import Verif.Props.AnalogRun

/-!
# Property C71: addressing patterns
-/

namespace Qadence

open Spec Block Pattern

variable {n : ℕ} {ρ : Env}

theorem eval_minus {a b : Expr} {x y : ℝ} (ha : eval ρ a = x) (hb : eval ρ b = y) :
    eval ρ (Pattern.minus a b) = ((x - y : ℝ) : ℂ) := by
  have : eval ρ (.num (-1) 0) = -1 := by rw [eval_rat]; norm_num
  simp only [Pattern.minus, Expr.neg, eval] at this ⊢
  rw [this, ha, hb]
  push_cast
  ring

theorem eval_mulR {a b : Expr} {x y : ℝ} (ha : eval ρ a = x) (hb : eval ρ b = y) :
    eval ρ (.mul a b) = ((x * y : ℝ) : ℂ) := by
  rw [eval, ha, hb]
  push_cast
  ring

theorem eval_addR {a b : Expr} {x y : ℝ} (ha : eval ρ a = x) (hb : eval ρ b = y) :
    eval ρ (.add a b) = ((x + y : ℝ) : ℂ) := by
  rw [eval, ha, hb]
  push_cast
  ring

theorem eval_negR {a : Expr} {x : ℝ} (ha : eval ρ a = x) : eval ρ (.neg a) = ((-x : ℝ) : ℂ) := by
  have : eval ρ (.num (-1) 0) = -1 := by rw [eval_rat]; norm_num
  simp only [Expr.neg, eval] at this ⊢
  rw [this, ha]
  push_cast
  ring

/-- The step function of sympy. -/
noncomputable def stepR (x : ℝ) : ℝ := if x < 0 then 0 else if x = 0 then 1 / 2 else 1

theorem eval_heaviside (hρ : StandardFns ρ) {a : Expr} {x : ℝ} (ha : eval ρ a = x) :
    eval ρ (Pattern.heaviside a) = (stepR x : ℝ) := by
  rw [Pattern.heaviside, eval, ha, hρ.heaviside, stepR]

theorem eval_abs (hρ : StandardFns ρ) {a : Expr} {x : ℝ} (ha : eval ρ a = x) : eval ρ (Pattern.abs a) = (|x| : ℝ) := by
  rw [Pattern.abs, eval, ha, hρ.abs]

theorem eval_num (q : ℚ) : eval ρ (.num q 0) = ((q : ℝ) : ℂ) := by
  rw [eval_rat]
  push_cast
  rfl

theorem eval_sigmoid (hρ : StandardFns ρ) {e : Expr} {x : ℝ} (he : eval ρ e = x) (a b : ℚ) :
    eval ρ (Pattern.sigmoid e a b) = (logistic (a * (x + b)) : ℝ) := by
  have h1 : eval ρ (.mul (.num (-a) 0) (.add e (.num b 0))) = ((-(a * (x + b)) : ℝ) : ℂ) := by
    rw [eval_mulR (eval_num (-a)) (eval_addR he (eval_num b))]
    congr 1
    push_cast
    ring
  have h2 : eval ρ (.num 1 0) = 1 := by rw [eval_rat]; norm_num
  rw [Pattern.sigmoid, eval, eval, h2, eval, h1, hρ.exp, logistic]
  push_cast
  rw [one_div]

/-! ### Limits -/

/-- The difference of two steps cuts a value off at a limit. -/
theorem step_cutOff {x M : ℝ} (hx : 0 ≤ x) (hM : 0 < M) : x * (stepR x - stepR (x - M)) = cutOff x M := by
  unfold stepR cutOff
  rcases hx.eq_or_lt with rfl | hx
  · simp [hM]
  · rw [if_neg (not_lt.2 hx.le), if_neg hx.ne']
    rcases lt_trichotomy x M with h | h | h
    · rw [if_pos (by linarith), if_pos h]
      ring
    · subst h
      rw [if_neg (by simp), if_pos (by simp), if_neg (lt_irrefl _), if_pos rfl]
      ring
    · rw [if_neg (by linarith), if_neg (by linarith), if_neg (not_lt.2 h.le), if_neg h.ne']
      ring

theorem abs_cutOff {x M : ℝ} (hM : 0 < M) : |x * (stepR (x + M) - stepR (x - M))| = cutOff |x| M := by
  unfold stepR cutOff
  rcases lt_trichotomy x M with h | h | h
  · rcases lt_trichotomy x (-M) with h' | h' | h'
    · have : |x| = -x := abs_of_neg (by linarith)
      rw [if_pos (by linarith), if_pos (by linarith), if_neg (by linarith), if_neg (by linarith)]
      simp
    · subst h'
      rw [if_neg (by simp), if_pos (by simp), if_pos (by linarith), abs_neg, abs_of_pos hM, if_neg (lt_irrefl _),
        if_pos rfl, sub_zero, abs_mul, abs_neg, abs_of_pos hM, abs_of_pos (by norm_num : (0 : ℝ) < 1 / 2)]
      ring
    · rw [if_neg (by linarith), if_neg (by linarith), if_pos (by linarith), if_pos (abs_lt.2 ⟨h', h⟩)]
      simp
  · subst h
    rw [if_neg (by linarith), if_neg (by linarith), if_neg (by simp), if_pos (by simp), abs_of_pos hM,
      if_neg (lt_irrefl _), if_pos rfl, abs_mul, abs_of_pos hM, abs_of_pos (by norm_num)]
    ring
  · have : |x| = x := abs_of_pos (by linarith)
    rw [if_neg (by linarith), if_neg (by linarith), if_neg (by linarith), if_neg (by linarith), this,
      if_neg (not_lt.2 h.le), if_neg h.ne']
    simp

theorem cutOff_lt {x M : ℝ} (hx : 0 ≤ x) (hM : 0 < M) : 0 ≤ cutOff x M ∧ cutOff x M < M ∧ cutOff x M ≤ x := by
  unfold cutOff
  split
  · exact ⟨hx, by assumption, le_refl _⟩
  · split
    · next h =>
      subst h
      exact ⟨by linarith, by linarith, by linarith⟩
    · exact ⟨le_refl _, hM, hx⟩

/-! ### Construction -/

theorem validate_spec (ws : List (ℕ × PWeight)) :
    (validate ws = .ok () ∧ WeightsInRange ws) ∨ (validate ws = .error .valueError ∧ ¬ WeightsInRange ws) := by
  induction ws with
  | nil => exact Or.inl ⟨rfl, by simp [WeightsInRange]⟩
  | cons w ws ih =>
    obtain ⟨k, w⟩ := w
    cases w with
    | num q =>
      rw [validate]
      by_cases hq : 0 ≤ q ∧ q ≤ 1
      · rw [if_neg (by simp [hq])]
        rcases ih with ⟨h1, h2⟩ | ⟨h1, h2⟩
        · refine Or.inl ⟨h1, fun k' q' h => ?_⟩
          rcases List.mem_cons.1 h with e | h
          · cases e
            exact hq
          · exact h2 k' q' h
        · exact Or.inr ⟨h1, fun h => h2 fun k' q' hm => h k' q' (List.mem_cons_of_mem _ hm)⟩
      · rw [if_pos (by
          rw [not_and_or] at hq
          rcases hq with hq | hq <;> simp [hq])]
        exact Or.inr ⟨rfl, fun h => hq (h k q (by simp))⟩
    | param x =>
      rw [validate]
      rcases ih with ⟨h1, h2⟩ | ⟨h1, h2⟩
      · refine Or.inl ⟨h1, fun k' q' h => ?_⟩
        rcases List.mem_cons.1 h with e | h
        · cases e
        · exact h2 k' q' h
      · exact Or.inr ⟨h1, fun h => h2 fun k' q' hm => h k' q' (List.mem_cons_of_mem _ hm)⟩

/-- A pattern is built exactly if its numeric weights lie in [0, 1] and it has at least one qubit; otherwise a ValueError
is raised. -/
theorem C71_accepts (m : ℕ) (wA wD : List (ℕ × PWeight)) (amp det : PWeight) :
    ((∃ p, Pattern.new m wA wD amp det = .ok p) ↔ WeightsInRange wA ∧ WeightsInRange wD ∧ m ≠ 0) ∧
    ((¬ ∃ p, Pattern.new m wA wD amp det = .ok p) → Pattern.new m wA wD amp det = .error .valueError) := by
  unfold Pattern.new
  rcases validate_spec wA with ⟨h1, h2⟩ | ⟨h1, h2⟩
  swap
  · rw [h1, error_bind]
    exact ⟨⟨fun ⟨p, h⟩ => (nomatch h), fun h => absurd h.1 h2⟩, fun _ => rfl⟩
  rcases validate_spec wD with ⟨h3, h4⟩ | ⟨h3, h4⟩
  swap
  · rw [h1, ok_bind, h3, error_bind]
    exact ⟨⟨fun ⟨p, h⟩ => (nomatch h), fun h => absurd h.2.1 h4⟩, fun _ => rfl⟩
  rw [h1, ok_bind, h3, ok_bind]
  by_cases hm : m = 0
  · rw [if_pos hm]
    exact ⟨⟨fun ⟨p, h⟩ => (nomatch h), fun h => absurd hm h.2.2⟩, fun _ => rfl⟩
  · rw [if_neg hm]
    exact ⟨⟨fun _ => ⟨h2, h4, hm⟩, fun _ => ⟨_, rfl⟩⟩, fun h => absurd ⟨_, rfl⟩ h⟩

/-- The fields of an accepted pattern. -/
theorem new_fields {m : ℕ} {wA wD : List (ℕ × PWeight)} {amp det : PWeight} {p : Pattern}
    (h : Pattern.new m wA wD amp det = .ok p) :
    p.amp = constrainMax amp.expr globalMaxAmp ∧ p.det = .neg (constrainMax det.expr globalMaxDet) ∧
    p.weightsAmp = constrainWeights m wA ∧ p.weightsDet = constrainWeights m wD ∧
    p.localAmp = localConstraint p.amp p.weightsAmp localMaxAmp ∧
    p.localDet = localConstraint (.neg p.det) p.weightsDet localMaxDet ∧
    p.globalAmp = globalConstraint p.amp p.weightsAmp globalMaxAmp ∧
    p.globalDet = globalConstraint (.neg p.det) p.weightsDet globalMaxDet := by
  have hm := ((C71_accepts m wA wD amp det).1.1 ⟨p, h⟩).2.2
  unfold Pattern.new at h
  obtain ⟨-, -, h⟩ := bind_ok h
  obtain ⟨-, -, h⟩ := bind_ok h
  rw [if_neg hm] at h
  have := pure_ok h
  subst this
  exact ⟨rfl, rfl, rfl, rfl, rfl, rfl, rfl, rfl⟩

/-! ### Weights -/

theorem logistic_pos (x : ℝ) : 0 < logistic x := by
  unfold logistic
  positivity

theorem logistic_lt_one (x : ℝ) : logistic x < 1 := by
  unfold logistic
  rw [div_lt_one (by positivity)]
  linarith [Real.exp_pos (-x)]

theorem logistic_mono {x y : ℝ} (h : x ≤ y) : logistic x ≤ logistic y := by
  unfold logistic
  have := Real.exp_le_exp.2 (neg_le_neg h)
  exact one_div_le_one_div_of_le (by positivity) (by linarith)

theorem logistic_neg (x : ℝ) : logistic (-x) = 1 - logistic x := by
  unfold logistic
  rw [neg_neg, eq_sub_iff_add_eq, Real.exp_neg]
  have := Real.exp_pos x
  field_simp
  ring

theorem softWeight_neg (v : ℝ) : softWeight (-v) = softWeight v := by
  unfold softWeight
  rw [show 20 * (-v + 1) = -(20 * (v - 1)) by ring, show 20 * (-v - 1) = -(20 * (v + 1)) by ring, logistic_neg,
    logistic_neg, neg_mul, abs_neg]
  congr 2
  ring

theorem softWeight_nonneg_arg {v : ℝ} (hv : 0 ≤ v) :
    softWeight v = v * (logistic (20 * (v + 1)) - logistic (20 * (v - 1))) := by
  unfold softWeight
  rw [abs_of_nonneg]
  exact mul_nonneg hv (sub_nonneg.2 (logistic_mono (by linarith)))

theorem softWeight_range (v : ℝ) : 0 ≤ softWeight v ∧ softWeight v ≤ 1 := by
  refine ⟨abs_nonneg _, ?_⟩
  wlog hv : 0 ≤ v with H
  · rw [← softWeight_neg]
    exact H (-v) (by linarith)
  rw [softWeight_nonneg_arg hv]
  have h1 := logistic_lt_one (20 * (v + 1))
  have h2 := logistic_pos (20 * (v - 1))
  rcases le_or_gt v 1 with h | h
  · nlinarith [logistic_mono (show 20 * (v - 1) ≤ 20 * (v + 1) by linarith)]
  · have h3 : logistic (20 * (v + 1)) - logistic (20 * (v - 1)) ≤ logistic (-(20 * (v - 1))) := by
      rw [logistic_neg]
      linarith
    have h4 : logistic (-(20 * (v - 1))) ≤ 1 / (1 + (20 * (v - 1) + 1)) := by
      unfold logistic
      rw [neg_neg]
      refine one_div_le_one_div_of_le (by nlinarith) ?_
      linarith [Real.add_one_le_exp (20 * (v - 1))]
    calc v * (logistic (20 * (v + 1)) - logistic (20 * (v - 1))) ≤ v * (1 / (1 + (20 * (v - 1) + 1))) :=
          mul_le_mul_of_nonneg_left (h3.trans h4) hv
      _ ≤ 1 := by
          rw [mul_one_div, div_le_one (by nlinarith)]
          linarith

theorem lookup_mem {ws : List (ℕ × PWeight)} {i : ℕ} {w : PWeight} (h : ws.lookup i = some w) : (i, w) ∈ ws := by
  induction ws with
  | nil => cases h
  | cons a ws ih =>
    obtain ⟨k, u⟩ := a
    rw [List.lookup_cons] at h
    by_cases e : i = k
    · subst e
      simp at h
      simp [h]
    · have : (i == k) = false := by simpa using e
      rw [this] at h
      exact List.mem_cons_of_mem _ (ih h)

/-- The weight in effect on a qubit is the number given, 0 if none is given, and the softened value of a parameter; it
lies between 0 and 1. -/
theorem C71_weights (hρ : StandardFns ρ) (ws : List (ℕ × PWeight)) (hw : WeightsInRange ws) (m i : ℕ) (hi : i < m)
    (w : ℝ) (h : HasWeight ρ ws i w) :
    ∃ e, (constrainWeights m ws)[i]? = some e ∧ eval ρ e = (w : ℝ) ∧ 0 ≤ w ∧ w ≤ 1 := by
  refine ⟨constrain (weightOf ws i), ?_, ?_⟩
  · unfold constrainWeights
    rw [List.getElem?_map, List.getElem?_range hi]
    rfl
  · unfold constrain weightOf
    cases h with
    | missing h =>
      rw [h]
      refine ⟨?_, le_refl _, zero_le_one⟩
      have : eval ρ (.num 0 0) = 0 := by rw [eval_rat]; norm_num
      simpa [Expr.isNumber] using this
    | @number q h =>
      rw [h]
      obtain ⟨h1, h2⟩ := hw i q (lookup_mem h)
      refine ⟨?_, by exact_mod_cast h1, by exact_mod_cast h2⟩
      simp only [PWeight.expr, Expr.isNumber, if_true]
      exact eval_num q
    | @parameter x v h hx =>
      rw [h]
      refine ⟨?_, softWeight_range v⟩
      simp only [PWeight.expr, Expr.isNumber, Bool.false_eq_true, if_false]
      have hv : eval ρ (.var x) = v := by rw [eval, hx]
      rw [eval_abs hρ (eval_mulR hv (eval_minus (eval_sigmoid hρ hv 20 1) (eval_sigmoid hρ hv 20 (-1))))]
      congr 1
      unfold softWeight
      norm_num [sub_eq_add_neg]

/-- The effective weight of a parameter with a value `v` in (-1, 1) is `|v|` up to an exponentially small error. -/
theorem C71_soft_weight_partial (v : ℝ) :
    |softWeight v - (|v|)| ≤ |v| * (Real.exp (-(20 * (1 + |v|))) + Real.exp (-(20 * (1 - |v|)))) := by
  wlog hv : 0 ≤ v with H
  · have := H (-v) (by linarith)
    rwa [softWeight_neg, abs_neg] at this
  rw [softWeight_nonneg_arg hv, abs_of_nonneg hv]
  have h1 : 1 - logistic (20 * (v + 1)) ≤ Real.exp (-(20 * (1 + v))) := by
    rw [← logistic_neg]
    unfold logistic
    rw [neg_neg, Real.exp_neg, ← one_div, add_comm 1 v]
    exact one_div_le_one_div_of_le (Real.exp_pos _) (by linarith)
  have h2 : logistic (20 * (v - 1)) ≤ Real.exp (-(20 * (1 - v))) := by
    unfold logistic
    rw [show -(20 * (v - 1)) = 20 * (1 - v) by ring, Real.exp_neg, ← one_div]
    exact one_div_le_one_div_of_le (Real.exp_pos _) (by linarith)
  have h3 := logistic_lt_one (20 * (v + 1))
  have h4 := logistic_pos (20 * (v - 1))
  rw [abs_le]
  constructor
  · nlinarith
  · nlinarith [Real.exp_pos (-(20 * (1 + v))), Real.exp_pos (-(20 * (1 - v)))]

/-- The comment in the code promises that a parameter keeps its value in [0, 1] and is 0 elsewhere. But the value 1
counts for less than one half, and the value -1/2 as much as 1/2. -/
theorem C71_counterexample_soft_weight : softWeight 1 < 1 / 2 ∧ softWeight (-1 / 2) = softWeight (1 / 2) ∧
    0 < softWeight (-1 / 2) := by
  have half : softWeight (-1 / 2) = softWeight (1 / 2) := by
    rw [show (-1 / 2 : ℝ) = -(1 / 2) by norm_num, softWeight_neg]
  refine ⟨?_, half, ?_⟩
  · rw [softWeight_nonneg_arg zero_le_one]
    have h1 := logistic_lt_one (20 * (1 + 1))
    have h2 : logistic (20 * (1 - 1)) = 1 / 2 := by
      unfold logistic
      norm_num
    rw [h2]
    generalize logistic (20 * (1 + 1)) = a at *
    linarith
  · rw [half, softWeight_nonneg_arg (by norm_num)]
    have : logistic (20 * (1 / 2 - 1)) < logistic (20 * (1 / 2 + 1)) := by
      unfold logistic
      refine one_div_lt_one_div_of_lt (by positivity) ?_
      have := Real.exp_lt_exp.2 (show -(20 * (1 / 2 + 1 : ℝ)) < -(20 * (1 / 2 - 1)) by norm_num)
      linarith
    linarith

/-- Weights of qubits outside the pattern are dropped without notice: the check for them looks at the wrong dictionary. -/
theorem C71_counterexample_foreign_qubit (m k : ℕ) (hk : m ≤ k) (hm : m ≠ 0) (w : PWeight) (amp det : PWeight)
    (hw : WeightsInRange [(k, w)]) :
    ∃ p, Pattern.new m [(k, w)] [] amp det = .ok p ∧ Pattern.new m [] [] amp det = .ok p := by
  have h0 : WeightsInRange [] := by simp [WeightsInRange]
  obtain ⟨p, hp⟩ := (C71_accepts m [(k, w)] [] amp det).1.2 ⟨hw, h0, hm⟩
  obtain ⟨p', hp'⟩ := (C71_accepts m [] [] amp det).1.2 ⟨h0, h0, hm⟩
  have e : constrainWeights m [(k, w)] = constrainWeights m [] := by
    unfold constrainWeights
    refine List.map_congr_left fun i hi => ?_
    have : i < m := List.mem_range.1 hi
    have hne : (i == k) = false := by
      simp only [beq_eq_false_iff_ne, ne_eq]
      omega
    simp [weightOf, List.lookup_cons, hne]
  obtain ⟨a1, a2, a3, a4, a5, a6, a7, a8⟩ := new_fields hp
  obtain ⟨b1, b2, b3, b4, b5, b6, b7, b8⟩ := new_fields hp'
  refine ⟨p, hp, ?_⟩
  rw [hp']
  congr 1
  cases p
  cases p'
  simp only at *
  subst a1 a2 a3 a4 b1 b2 b3 b4
  rw [a5, a6, a7, a8, b5, b6, b7, b8, e]

/-! ### The Hamiltonian -/

theorem lookupWeight_ok {ws : List Expr} {i : ℕ} {e : Expr} (h : ws[i]? = some e) : lookupWeight ws i = .ok e := by
  rw [lookupWeight, h]

theorem lookupWeight_error {ws : List Expr} {i : ℕ} (h : ws.length ≤ i) : lookupWeight ws i = .error .keyError := by
  rw [lookupWeight, List.getElem?_eq_none h]

theorem ampTerm_ok (ρ : Env) (p : Pattern) (i : ℕ) {w c : Expr} (hw : p.weightsAmp[i]? = some w)
    (hc : p.localAmp[i]? = some c) :
    ∃ b, ampTerm p i = .ok b ∧
      sem (gateSem n ρ) ρ b = (eval ρ w * eval ρ c) • (embed1 i (mat1 .X) : Oper n) := by
  obtain ⟨b, h1, h2⟩ := C07_mul_scalar (gate_arithOk n ρ) ρ (Block.ofFixed .X i) w
  obtain ⟨b', h3, h4⟩ := C07_mul_scalar (gate_arithOk n ρ) ρ b c
  refine ⟨b', ?_, ?_⟩
  · rw [ampTerm, lookupWeight_ok hw, ok_bind, h1, ok_bind, lookupWeight_ok hc, ok_bind, h3]
  · rw [h4, h2, sem_ofFixed, smul_smul, mul_comm]

theorem half_I_sub_Z (i : ℕ) : ((1 / 2 : ℂ)) • ((embed1 i (mat1 .I) : Oper n) - embed1 i (mat1 .Z)) =
    embed1 i (mat1 (.N true)) := by
  have h : mat1 (.N true) = (1 / 2 : ℂ) • (mat1 .I + (-1 : ℂ) • mat1 .Z) := by
    ext a b
    rw [Matrix.smul_apply, Matrix.add_apply, Matrix.smul_apply]
    cases a <;> cases b <;> simp [mat1, ind] <;> norm_num
  rw [h, embed1_smul, embed1_add, embed1_smul, neg_one_smul, sub_eq_add_neg]

theorem detTerm_ok (ρ : Env) (p : Pattern) (i : ℕ) {w c : Expr} (hw : p.weightsDet[i]? = some w)
    (hc : p.localDet[i]? = some c) :
    ∃ b, detTerm p i = .ok b ∧
      sem (gateSem n ρ) ρ b = (eval ρ w * eval ρ c) • (embed1 i (mat1 (.N true)) : Oper n) := by
  obtain ⟨d, h1, h2⟩ := C07_sub (gate_arithOk n ρ) ρ (Block.ofFixed .I i) (Block.ofFixed .Z i)
  obtain ⟨h, h3, h4⟩ := C07_rmul_scalar (gate_arithOk n ρ) ρ d (.num (1/2) 0)
  obtain ⟨b, h5, h6⟩ := C07_mul_scalar (gate_arithOk n ρ) ρ h w
  obtain ⟨b', h7, h8⟩ := C07_mul_scalar (gate_arithOk n ρ) ρ b c
  refine ⟨b', ?_, ?_⟩
  · rw [detTerm, h1, ok_bind, h3, ok_bind, lookupWeight_ok hw, ok_bind, h5, ok_bind, lookupWeight_ok hc, ok_bind, h7]
  · have : eval ρ (.num (1/2) 0) = 1 / 2 := by rw [eval_rat]; norm_num
    rw [h8, h6, h4, h2, sem_ofFixed, sem_ofFixed, this, half_I_sub_Z, smul_smul, mul_comm]

theorem eval_sumExpr (m : ℕ) (ws : ℕ → Expr) (w : ℕ → ℝ) (h : ∀ i < m, eval ρ (ws i) = w i) :
    eval ρ (sumExpr ((List.range m).map ws)) = ((((List.range m).map w).sum : ℝ) : ℂ) := by
  unfold sumExpr
  induction m with
  | zero => simpa using (eval_num (ρ := ρ) 0)
  | succ m ih =>
    rw [List.range_succ, List.map_append, List.foldl_append, List.map_append, List.sum_append]
    simp only [List.map_cons, List.map_nil, List.foldl_cons, List.foldl_nil, List.sum_cons, List.sum_nil, add_zero]
    exact eval_addR (ih fun i hi => h i (by omega)) (h m (by omega))

theorem eval_globalMaxAmp : eval ρ globalMaxAmp = ((300 : ℝ) : ℂ) := by
  rw [globalMaxAmp, eval_num]
  norm_num

theorem eval_localMaxAmp : eval ρ localMaxAmp = ((3 : ℝ) : ℂ) := by
  rw [localMaxAmp, eval_num]
  norm_num

theorem eval_piR : eval ρ .pi = (Real.pi : ℂ) := by rw [eval]

theorem eval_globalMaxDet : eval ρ globalMaxDet = ((4000 * Real.pi : ℝ) : ℂ) := by
  rw [globalMaxDet, eval_mulR (eval_num 4000) eval_piR]
  norm_num

theorem eval_localMaxDet : eval ρ localMaxDet = ((40 * Real.pi : ℝ) : ℂ) := by
  rw [localMaxDet, eval_mulR (eval_num 40) eval_piR]
  norm_num

theorem eval_constrainMax (hρ : StandardFns ρ) {v M : Expr} {x m : ℝ} (hv : eval ρ v = x) (hM : eval ρ M = m)
    (hm : 0 < m) : eval ρ (constrainMax v M) = (cutOff |x| m : ℝ) := by
  rw [constrainMax, eval_abs hρ (eval_mulR hv (eval_minus (eval_heaviside hρ (eval_addR hv hM))
    (eval_heaviside hρ (eval_minus hv hM)))), abs_cutOff hm]

/-- The product of the three factors on a qubit. -/
theorem felt_eq {v G L : ℝ} (hG : 0 < G) (hL : 0 < L) {w : ℕ → ℝ} {m i : ℕ} (hi : i < m) (hw : ∀ j < m, 0 ≤ w j) :
    cutOff |v| G * (stepR (cutOff |v| G * ((List.range m).map w).sum) -
      stepR (cutOff |v| G * ((List.range m).map w).sum - G)) *
      (w i * (stepR (cutOff |v| G * w i) - stepR (cutOff |v| G * w i - L))) = felt v G L w m i := by
  have hA : 0 ≤ cutOff |v| G := (cutOff_lt (abs_nonneg v) hG).1
  have hle : w i ≤ ((List.range m).map w).sum := by
    refine List.single_le_sum ?_ _ (List.mem_map.2 ⟨i, List.mem_range.2 hi, rfl⟩)
    intro x hx
    obtain ⟨j, hj, rfl⟩ := List.mem_map.1 hx
    exact hw j (List.mem_range.1 hj)
  unfold felt
  generalize cutOff |v| G = A at *
  generalize ((List.range m).map w).sum = S at *
  rw [← step_cutOff (mul_nonneg hA (hw i hi)) hL]
  rcases (mul_nonneg hA ((hw i hi).trans hle)).eq_or_lt with h0 | h0
  · have h1 : A * w i = 0 := le_antisymm (by nlinarith) (mul_nonneg hA (hw i hi))
    rw [h1, zero_mul, mul_zero, mul_right_comm, ← mul_assoc, h1]
    ring
  · have : gate (A * S) G = stepR (A * S) - stepR (A * S - G) := by
      have := step_cutOff h0.le hG
      unfold cutOff at this
      unfold gate
      refine mul_left_cancel₀ h0.ne' ?_
      rw [this]
      split_ifs <;> ring
    rw [this]
    ring

/-- **C71**: the Hamiltonian of an accepted pattern on a register which is not larger than the pattern. -/
theorem C71_operator (hρ : StandardFns ρ) {m : ℕ} {wA wD : List (ℕ × PWeight)} {amp det : PWeight} {p : Pattern}
    (hp : Pattern.new m wA wD amp det = .ok p) (r : Register) (hr : r.nQubits ≤ m) {a d : ℝ}
    (ha : eval ρ amp.expr = a) (hd : eval ρ det.expr = d) (wa wd : ℕ → ℝ)
    (hwa : ∀ i < m, HasWeight ρ wA i (wa i)) (hwd : ∀ i < m, HasWeight ρ wD i (wd i)) :
    ∃ b, rydbergPattern p r = .ok b ∧ sem (gateSem n ρ) ρ b =
      patternOp (felt a 300 3 wa m) (felt d (4000 * Real.pi) (40 * Real.pi) wd m) r.nQubits := by
  have hpi := Real.pi_pos
  obtain ⟨hA, hD, -⟩ := (C71_accepts m wA wD amp det).1.1 ⟨p, hp⟩
  obtain ⟨f1, f2, f3, f4, f5, f6, f7, f8⟩ := new_fields hp
  have eA : eval ρ p.amp = (cutOff |a| 300 : ℝ) := by
    rw [f1]
    exact eval_constrainMax hρ ha eval_globalMaxAmp (by norm_num)
  have eD' : eval ρ p.det = ((-cutOff |d| (4000 * Real.pi) : ℝ) : ℂ) := by
    rw [f2]
    exact eval_negR (eval_constrainMax hρ hd eval_globalMaxDet (by positivity))
  have eD : eval ρ (.neg p.det) = (cutOff |d| (4000 * Real.pi) : ℝ) := by
    rw [eval_negR eD', neg_neg]
  have wAe : ∀ i < m, eval ρ (constrain (weightOf wA i)) = wa i ∧ 0 ≤ wa i := by
    intro i hi
    obtain ⟨e, h1, h2, h3, -⟩ := C71_weights hρ wA hA m i hi _ (hwa i hi)
    unfold constrainWeights at h1
    rw [List.getElem?_map, List.getElem?_range hi] at h1
    cases h1
    exact ⟨h2, h3⟩
  have wDe : ∀ i < m, eval ρ (constrain (weightOf wD i)) = wd i ∧ 0 ≤ wd i := by
    intro i hi
    obtain ⟨e, h1, h2, h3, -⟩ := C71_weights hρ wD hD m i hi _ (hwd i hi)
    unfold constrainWeights at h1
    rw [List.getElem?_map, List.getElem?_range hi] at h1
    cases h1
    exact ⟨h2, h3⟩
  have gA : eval ρ p.globalAmp = ((stepR (cutOff |a| 300 * ((List.range m).map wa).sum) -
      stepR (cutOff |a| 300 * ((List.range m).map wa).sum - 300) : ℝ) : ℂ) := by
    have h := eval_mulR eA (eval_sumExpr m _ wa fun i hi => (wAe i hi).1)
    rw [f7, f3]
    exact eval_minus (eval_heaviside hρ h) (eval_heaviside hρ (eval_minus h eval_globalMaxAmp))
  have gD : eval ρ p.globalDet = ((stepR (cutOff |d| (4000 * Real.pi) * ((List.range m).map wd).sum) -
      stepR (cutOff |d| (4000 * Real.pi) * ((List.range m).map wd).sum - 4000 * Real.pi) : ℝ) : ℂ) := by
    have h := eval_mulR eD (eval_sumExpr m _ wd fun i hi => (wDe i hi).1)
    rw [f8, f4]
    exact eval_minus (eval_heaviside hρ h) (eval_heaviside hρ (eval_minus h eval_globalMaxDet))
  obtain ⟨xs, h1, h2⟩ := terms_ok (n := n) ρ (ampTerm p)
    (fun i => ((wa i * (stepR (cutOff |a| 300 * wa i) - stepR (cutOff |a| 300 * wa i - 3)) : ℝ) : ℂ) •
      (embed1 i (mat1 .X) : Oper n)) (List.range r.nQubits) (by
    intro i hi
    have hi : i < m := (List.mem_range.1 hi).trans_le hr
    have e1 : p.weightsAmp[i]? = some (constrain (weightOf wA i)) := by
      rw [f3, constrainWeights, List.getElem?_map, List.getElem?_range hi]
      rfl
    have e2 : p.localAmp[i]? = some (minus (heaviside (.mul p.amp (constrain (weightOf wA i))))
        (heaviside (minus (.mul p.amp (constrain (weightOf wA i))) localMaxAmp))) := by
      rw [f5, localConstraint, List.getElem?_map, e1]
      rfl
    obtain ⟨b, h1, h2⟩ := ampTerm_ok (n := n) ρ p i e1 e2
    refine ⟨b, h1, ?_⟩
    have h := eval_mulR eA (wAe i hi).1
    rw [h2, (wAe i hi).1, eval_minus (eval_heaviside hρ h) (eval_heaviside hρ (eval_minus h eval_localMaxAmp))]
    push_cast
    rfl)
  obtain ⟨ns, h3, h4⟩ := terms_ok (n := n) ρ (detTerm p)
    (fun i => ((wd i * (stepR (cutOff |d| (4000 * Real.pi) * wd i) -
      stepR (cutOff |d| (4000 * Real.pi) * wd i - 40 * Real.pi)) : ℝ) : ℂ) •
      (embed1 i (mat1 (.N true)) : Oper n)) (List.range r.nQubits) (by
    intro i hi
    have hi : i < m := (List.mem_range.1 hi).trans_le hr
    have e1 : p.weightsDet[i]? = some (constrain (weightOf wD i)) := by
      rw [f4, constrainWeights, List.getElem?_map, List.getElem?_range hi]
      rfl
    have e2 : p.localDet[i]? = some (minus (heaviside (.mul (.neg p.det) (constrain (weightOf wD i))))
        (heaviside (minus (.mul (.neg p.det) (constrain (weightOf wD i))) localMaxDet))) := by
      rw [f6, localConstraint, List.getElem?_map, e1]
      rfl
    obtain ⟨b, h1, h2⟩ := detTerm_ok (n := n) ρ p i e1 e2
    refine ⟨b, h1, ?_⟩
    have h := eval_mulR eD (wDe i hi).1
    rw [h2, (wDe i hi).1, eval_minus (eval_heaviside hρ h) (eval_heaviside hρ (eval_minus h eval_localMaxDet))]
    push_cast
    rfl)
  obtain ⟨x, h5, h6⟩ := scaled_ok (n := n) ρ (.mul (.mul (.num (1/2) 0) p.amp) p.globalAmp) (Block.addOf xs)
  obtain ⟨y, h7, h8⟩ := scaled_ok (n := n) ρ (.mul (.neg p.det) p.globalDet) (Block.addOf ns)
  obtain ⟨b, h9, h10⟩ := C07_add (gate_arithOk n ρ) ρ x y
  refine ⟨b, ?_, ?_⟩
  · rw [rydbergPattern, h1, ok_bind, h5, ok_bind, h3, ok_bind, h7, ok_bind, h9]
  · rw [h10, h6, h8, addOf, addOf, sem_add, sem_add, h2, h4, eval_mulR (eval_mulR (eval_num (1/2)) eA) (by exact gA),
      eval_mulR eD (by exact gD), ← sum_map_smul, ← sum_map_smul, patternOp, ← List.sum_map_add]
    congr 1
    refine List.map_congr_left fun i hi => ?_
    have hi : i < m := (List.mem_range.1 hi).trans_le hr
    rw [smul_smul, smul_smul, ← Complex.ofReal_mul, ← Complex.ofReal_mul,
      ← felt_eq (by norm_num) (by norm_num) hi (fun j hj => (wAe j hj).2),
      ← felt_eq (by positivity) (by positivity) hi (fun j hj => (wDe j hj).2)]
    congr 3
    push_cast
    ring

/-- **C71**: below the limits a qubit feels its weight times the (absolute) value. -/
theorem C71_within_limits {v G L : ℝ} {w : ℕ → ℝ} {m i : ℕ} (hv : |v| < G) (hi : |v| * w i < L)
    (hs : |v| * ((List.range m).map w).sum < G) : felt v G L w m i = |v| * w i := by
  unfold felt gate
  rw [show cutOff |v| G = |v| from if_pos hv, if_pos hs, one_mul]
  exact if_pos hi

theorem felt_nonneg {v G L : ℝ} (hG : 0 < G) (hL : 0 < L) {w : ℕ → ℝ} {m i : ℕ} (hw : 0 ≤ w i) :
    0 ≤ felt v G L w m i ∧ felt v G L w m i < L ∧ felt v G L w m i ≤
      gate (cutOff |v| G * ((List.range m).map w).sum) G * (cutOff |v| G * w i) := by
  have hA := (cutOff_lt (abs_nonneg v) hG).1
  have hc := cutOff_lt (mul_nonneg hA hw) hL
  have hg : 0 ≤ gate (cutOff |v| G * ((List.range m).map w).sum) G ∧
      gate (cutOff |v| G * ((List.range m).map w).sum) G ≤ 1 := by
    unfold gate
    split_ifs <;> norm_num
  unfold felt
  refine ⟨mul_nonneg hg.1 hc.1, ?_, mul_le_mul_of_nonneg_left hc.2.2 hg.1⟩
  calc _ ≤ 1 * cutOff (cutOff |v| G * w i) L := mul_le_mul_of_nonneg_right hg.2 hc.1
    _ < L := by rw [one_mul]; exact hc.2.1

/-- **C71**: whatever the values, no qubit feels the local limit or more, and all qubits together less than the global
limit. -/
theorem C71_limits (v G L : ℝ) (hG : 0 < G) (hL : 0 < L) (w : ℕ → ℝ) (m : ℕ) (hw : ∀ i < m, 0 ≤ w i) :
    (∀ i < m, 0 ≤ felt v G L w m i ∧ felt v G L w m i < L) ∧ ((List.range m).map (felt v G L w m)).sum < G := by
  refine ⟨fun i hi => ⟨(felt_nonneg hG hL (hw i hi)).1, (felt_nonneg hG hL (hw i hi)).2.1⟩, ?_⟩
  have h1 : ((List.range m).map (felt v G L w m)).sum ≤
      ((List.range m).map fun i => gate (cutOff |v| G * ((List.range m).map w).sum) G * (cutOff |v| G * w i)).sum :=
    List.sum_le_sum fun i hi => (felt_nonneg hG hL (hw i (List.mem_range.1 hi))).2.2
  have h2 : ((List.range m).map fun i => gate (cutOff |v| G * ((List.range m).map w).sum) G * (cutOff |v| G * w i)).sum =
      gate (cutOff |v| G * ((List.range m).map w).sum) G * (cutOff |v| G * ((List.range m).map w).sum) := by
    rw [List.sum_map_mul_left, List.sum_map_mul_left]
  rw [h2] at h1
  refine h1.trans_lt ?_
  unfold gate
  generalize cutOff |v| G * ((List.range m).map w).sum = T
  split_ifs with a b
  · linarith
  · subst b
    linarith
  · linarith

theorem terms_error (f : ℕ → Except PyErr (Block Gate)) (e : PyErr) (l : List ℕ) (h : ∃ i ∈ l, f i = .error e)
    (h' : ∀ i ∈ l, (∃ b, f i = .ok b) ∨ f i = .error e) : l.mapM f = .error e := by
  induction l with
  | nil => obtain ⟨i, hi, -⟩ := h; cases hi
  | cons a l ih =>
    rw [List.mapM_cons]
    rcases h' a (by simp) with ⟨b, hb⟩ | hb
    · rw [hb, ok_bind, ih ?_ fun i hi => h' i (by simp [hi])]
      · rfl
      · obtain ⟨i, hi, he⟩ := h
        rcases List.mem_cons.1 hi with rfl | hi
        · rw [hb] at he
          cases he
        · exact ⟨i, hi, he⟩
    · rw [hb]
      rfl

/-- **C71**: a register with more qubits than the pattern is refused with a KeyError. -/
theorem C71_too_many_qubits {m : ℕ} {wA wD : List (ℕ × PWeight)} {amp det : PWeight} {p : Pattern}
    (hp : Pattern.new m wA wD amp det = .ok p) (r : Register) (hr : m < r.nQubits) :
    rydbergPattern p r = .error .keyError := by
  obtain ⟨f1, f2, f3, f4, f5, f6, f7, f8⟩ := new_fields hp
  have hl : p.weightsAmp.length = m := by rw [f3]; simp [constrainWeights]
  have hc : p.localAmp.length = m := by rw [f5]; simp [localConstraint, hl]
  rw [rydbergPattern, terms_error (ampTerm p) .keyError]
  · rfl
  · refine ⟨m, List.mem_range.2 hr, ?_⟩
    rw [ampTerm, lookupWeight_error hl.le]
    rfl
  · intro i hi
    by_cases h : i < m
    · left
      obtain ⟨b, h1, -⟩ := ampTerm_ok (n := 0) ⟨fun _ => 0, fun _ _ => 0⟩ p i (List.getElem?_eq_getElem (by omega))
        (List.getElem?_eq_getElem (by omega))
      exact ⟨b, h1⟩
    · right
      rw [ampTerm, lookupWeight_error (by omega)]
      rfl

/-- **C71**: the whole conversion for a device with van-der-Waals interaction and addressing pattern. The blocks are
those for which C56 holds. -/
theorem C71_device_partial {ord : List ℕ → List ℕ} (ho : SetOrder ord) {r : Register} {P : ℕ → ℝ × ℝ} (hP : Planar r P)
    (hd : ∀ i ∈ r.labels, ∀ j ∈ r.labels, i ≠ j → P i ≠ P j) (hl : ∀ e ∈ r.edges, e.1 ≠ e.2) (num : ℝ → Expr)
    (c6 : ℕ → Option ℝ) (dev : Device) (hdev : dev.interaction = .NN) (c : ℝ) (hc : c6 dev.level = some c)
    (hρ : StandardFns ρ)
    (hnum : ∀ e ∈ nodePairs r, eval ρ (num (c / euclid (P e.1) (P e.2) ^ 6)) = (c / euclid (P e.1) (P e.2) ^ 6 : ℝ))
    {m : ℕ} {wA wD : List (ℕ × PWeight)} {amp det : PWeight} {p : Pattern}
    (hp : Pattern.new m wA wD amp det = .ok p) (hpat : dev.pattern = some p) (hr : r.nQubits ≤ m) {a d : ℝ}
    (ha : eval ρ amp.expr = a) (hd' : eval ρ det.expr = d) (wa wd : ℕ → ℝ)
    (hwa : ∀ i < m, HasWeight ρ wA i (wa i)) (hwd : ∀ i < m, HasWeight ρ wD i (wd i))
    (b : ABlock) (U : Oper n)
    (h : Runs ρ r (vanDerWaals c P r)
      (patternOp (felt a 300 3 wa m) (felt d (4000 * Real.pi) (40 * Real.pi) wd m) r.nQubits) b U)
    (h1 : ∀ c cs, Within (.kron c cs) b → (c :: cs).countP isRotation = 1) :
    ∃ e, addBackground ord num c6 r dev b = .ok e ∧ sem (primSem n ρ ord ho) ρ e = U := by
  obtain ⟨hInt, h2, h3⟩ := C56_van_der_waals (n := n) ho hP hd hl num c6 dev hdev c hc ρ hnum
  obtain ⟨A, h4, h5⟩ := C71_operator (n := n) hρ hp r hr ha hd' wa wd hwa hwd
  obtain ⟨e, h6, h7⟩ := C56_execution_partial ho ρ hρ r hInt (some A) b U (by rw [h3, addrOp, h5]; exact h) h1
  refine ⟨e, ?_, h7⟩
  rw [addBackground, h2, ok_bind]
  unfold patternHamiltonian
  rw [hpat]
  simp only [h4, ok_bind]
  exact h6

/-- The default amplitude is the local limit, so a qubit of weight 1 feels half of it. -/
theorem C71_counterexample_default (m : ℕ) (w : ℕ → ℝ) (hs : 3 * ((List.range m).map w).sum < 300) (i : ℕ)
    (hi : w i = 1) : felt 3 300 3 w m i = 3 / 2 := by
  have h3 : cutOff |(3 : ℝ)| 300 = 3 := by
    unfold cutOff
    norm_num
  unfold felt
  rw [h3, hi, show gate (3 * ((List.range m).map w).sum) 300 = 1 from if_pos hs]
  unfold cutOff
  norm_num

/-! ### Instances -/

/-- A pattern for two qubits, with the number 1/2 on qubit 0 and a parameter on qubit 1. -/
example (r : Register) (hr : r.nQubits = 2) : ∃ p b,
    Pattern.new 2 [(0, .num (1/2)), (1, .param "w")] [(1, .num 1)] (.num 2) (.num 10) = .ok p ∧
    rydbergPattern p r = .ok b ∧ sem (gateSem 2 usualEnv) usualEnv b =
      patternOp (felt 2 300 3 (fun i => if i = 0 then 1 / 2 else softWeight (1 / 4)) 2)
        (felt 10 (4000 * Real.pi) (40 * Real.pi) (fun i => if i = 0 then 0 else 1) 2) 2 := by
  obtain ⟨p, hp⟩ := (C71_accepts 2 [(0, .num (1/2)), (1, .param "w")] [(1, .num 1)] (.num 2) (.num 10)).1.2
    ⟨by
      intro k q h
      simp at h
      rw [h.2]
      norm_num, by
      intro k q h
      simp at h
      rw [h.2]
      norm_num, by norm_num⟩
  obtain ⟨b, h1, h2⟩ := C71_operator (n := 2) usualEnv_standard hp r hr.le (a := 2) (d := 10)
    (by rw [PWeight.expr, eval_num]; norm_num) (by rw [PWeight.expr, eval_num]; norm_num)
    (fun i => if i = 0 then 1 / 2 else softWeight (1 / 4)) (fun i => if i = 0 then 0 else 1)
    (by
      intro i hi
      interval_cases i
      · have := HasWeight.number (ρ := usualEnv) (ws := [(0, .num (1/2)), (1, .param "w")]) (i := 0) (q := 1/2) rfl
        simpa using this
      · exact .parameter (x := "w") rfl (by simp [usualEnv]))
    (by
      intro i hi
      interval_cases i
      · exact .missing rfl
      · have := HasWeight.number (ρ := usualEnv) (ws := [(1, .num 1)]) (i := 1) (q := 1) rfl
        simpa using this)
  refine ⟨p, b, hp, h1, ?_⟩
  rw [h2, hr]

end Qadence
