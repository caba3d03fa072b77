import Verif.Model.Stretch
import Verif.Spec.Stretch
import Verif.Props.AnalogRun

/-!
# Property C63: stretched pulses
-/

namespace Qadence

open Spec Block DAQC Decompose ABlock

variable {n : ℕ} {ord : List ℕ → List ℕ}

theorem eval_overStretch (ρ : Env) (s : ℚ) (e : Expr) : eval ρ (overStretch s e) = eval ρ e / s := by
  unfold overStretch
  split
  · next h =>
    subst h
    have : eval ρ (.num 0 0) = 0 := by rw [eval_rat]; norm_num
    rw [this, zero_div]
  · rw [eval, eval, eval_rat, div_eq_mul_inv]

theorem overStretch_zero (s : ℚ) (e : Expr) : overStretch s e = .num 0 0 ↔ e = .num 0 0 := by
  unfold overStretch
  split
  · next h => simp [h]
  · next h => simp [h]

theorem driveOp_div (Ω δ φ : ℂ) (s : ℂ) (qs : List ℕ) :
    (driveOp (Ω / s) (δ / s) φ qs : Oper n) = s⁻¹ • driveOp Ω δ φ qs := by
  unfold driveOp
  rw [← sum_map_smul]
  congr 1
  refine List.map_congr_left fun i _ => ?_
  unfold driveOne
  module

/-- A stretched rotation: the drive has the same effect, the interaction the one of `s` times its strength. -/
theorem evolution_stretch {s : ℚ} (hs : s ≠ 0) (t : ℂ) (H D : Oper n) :
    evolution (t * s / 1000) (H + (s : ℂ)⁻¹ • D) = evolution (t / 1000) ((s : ℂ) • H + D) := by
  have hs' : (s : ℂ) ≠ 0 := by exact_mod_cast hs
  have : H + (s : ℂ)⁻¹ • D = (s : ℂ)⁻¹ • ((s : ℂ) • H + D) := by
    rw [smul_add, smul_smul, inv_mul_cancel₀ hs', one_smul]
  rw [this, evolution, evolution, smul_smul]
  congr 2
  field_simp

theorem stretch_rotation_ok (s : ℚ) (t o d φ : Expr) (q : QSupport) (p : Bool) (h : o ≠ .num 0 0 ∨ d ≠ .num 0 0) :
    stretch ord s (.rotation t o d φ q p) =
      .ok (.rotation (.mul t (.num s 0)) (overStretch s o) (overStretch s d) φ q true) := by
  rw [stretch, mutateParams, analogRot, if_neg]
  rw [overStretch_zero, overStretch_zero]
  tauto

theorem supportSum_global {as : List ABlock} (h : ∀ a ∈ as, a.support ord = .global) :
    supportSum ord .global as = .global := by
  induction as with
  | nil => rfl
  | cons a as ih =>
    rw [supportSum, h a (by simp), show QSupport.add ord .global .global = .global from rfl]
    exact ih fun x hx => h x (by simp [hx])

theorem support_global {a : ABlock} {as : List ABlock} (h : ∀ x ∈ a :: as, x.support ord = .global) :
    (ABlock.chain (a :: as)).support ord = .global := by
  rw [ABlock.support, supportSum, h a (by simp), show QSupport.add ord (.loc []) .global = .global from rfl]
  exact supportSum_global fun x hx => h x (by simp [hx])

/-- Chains of rotations: if the interaction of the stretched register is `1 / s` times the original one, the stretched
block evolves the register as the original one does. -/
theorem stretch_runs (ρ : Env) {r r' : Register} {H H' : Oper n} {s : ℚ} (hs : s ≠ 0) (hl : r'.labels = r.labels)
    (hH : (s : ℂ) • H' = H) {b : ABlock} {U : Oper n} (h : Runs ρ r H 0 b U) (hb : Pulses ord b) :
    ∃ c, b.stretch ord s = .ok c ∧ c.support ord = b.support ord ∧ (∀ d ds, ¬ Within (.kron d ds) c) ∧
      (∀ cs, c = .chain cs → ∀ x ∈ cs, x.support ord = .global) ∧ Runs ρ r' H' 0 c U := by
  induction h with
  | interaction t p => cases hb
  | rotation t o d φ q p =>
    cases hb with
    | rotation hz =>
      refine ⟨_, stretch_rotation_ok s t o d φ q p hz, rfl, fun d ds hw => (by cases hw), fun cs h => (by cases h), ?_⟩
      have := Runs.rotation (ρ := ρ) (r := r') (H := H') (A := 0) (.mul t (.num s 0)) (overStretch s o) (overStretch s d) φ q true
      convert this using 1
      have hq : driven r' q = driven r q := by cases q <;> simp [driven, hl]
      rw [eval_overStretch, eval_overStretch, driveOp_div, hq, eval, eval_rat]
      simp only [ite_self, add_zero]
      rw [evolution_stretch hs, hH]
  | nil =>
    refine ⟨.chain [], rfl, rfl, ?_, (by rintro cs ⟨⟩ x hx; cases hx), .nil⟩
    intro d ds hw
    cases hw with
    | chain hm _ => cases hm
  | @cons b bs U V h1 h2 i1 i2 =>
    cases hb with
    | chain hp hg =>
      obtain ⟨c, e1, e2, e3, -, e4⟩ := i1 (hp b (by simp))
      obtain ⟨d, f1, -, f3, f5, f4⟩ := i2 (.chain (fun x hx => hp x (by simp [hx])) fun x hx => hg x (by simp [hx]))
      rw [stretch] at f1
      obtain ⟨cs, g1, g2⟩ := bind_ok f1
      obtain ⟨u, g3, g4⟩ := bind_ok g2
      have := pure_ok g4
      subst this
      have hc : ∀ x ∈ c :: cs, x.support ord = .global := by
        intro x hx
        rcases List.mem_cons.1 hx with rfl | hx
        · rw [e2, hg b (by simp)]
        · exact f5 cs rfl x hx
      refine ⟨.chain (c :: cs), ?_, (by rw [support_global hc, support_global hg]), ?_, ?_, .cons e4 f4⟩
      · rw [stretch, stretchList, e1, ok_bind, g1, ok_bind]
        show chainNew ord (c :: cs) = _
        rw [chainNew, chainCheck, if_neg (by simp [e2, hg b (by simp)]), g3, ok_bind]
        rfl
      · intro d ds hw
        cases hw with
        | chain hm hw =>
          rcases List.mem_cons.1 hm with rfl | hm
          · exact e3 d ds hw
          · exact f3 d ds (.chain hm hw)
      · rintro _ ⟨⟩
        exact hc
  | kron hp => cases hb

/-- The operator of one experiment, for rotations of any register: the drive acts as before, the interaction is multiplied
by `s / s^6`. -/
theorem C63_rotation (ho : SetOrder ord) {r : Register} {P : ℕ → ℝ × ℝ} (hP : Planar r P)
    (hd : ∀ i ∈ r.labels, ∀ j ∈ r.labels, i ≠ j → P i ≠ P j) (hl : ∀ e ∈ r.edges, e.1 ≠ e.2) (num : ℝ → Expr)
    (c6 : ℕ → Option ℝ) (dev : Device) (hdev : dev.interaction = .NN) (hpat : dev.pattern = none) (c : ℝ)
    (hc : c6 dev.level = some c) (ρ : Env) (hρ : StandardFns ρ) (s : ℚ) (hs : s ≠ 0)
    (hnum : ∀ e ∈ nodePairs r, eval ρ (num (c / euclid ((s : ℝ) • P e.1) ((s : ℝ) • P e.2) ^ 6)) =
      (c / euclid ((s : ℝ) • P e.1) ((s : ℝ) • P e.2) ^ 6 : ℝ))
    (t o d φ : Expr) (q : QSupport) (p : Bool) (hz : o ≠ .num 0 0 ∨ d ≠ .num 0 0) :
    ∃ e, stretchedRun ord num c6 r dev (.rotation t o d φ q p) s = .ok e ∧ sem (primSem n ρ ord ho) ρ e =
      evolution (eval ρ t / 1000) (((s / s ^ 6 : ℚ) : ℂ) • vanDerWaals c P r +
        driveOp (eval ρ o) (eval ρ d) (eval ρ φ) (driven r q)) := by
  have hs' : (s : ℝ) ≠ 0 := by exact_mod_cast hs
  obtain ⟨r', h1, h2, h3, h4⟩ := Register.scale_ok hP 1 s
  simp only [div_one] at h4
  obtain ⟨e, he, he'⟩ := C56_device_partial (n := n) ho h4 (by
      intro i hi j hj hij e
      rw [h2] at hi hj
      exact hd i hi j hj hij (smul_right_injective _ hs' e)) (by rw [h3]; exact hl) num c6 dev hdev hpat c hc ρ hρ (by
      rw [nodePairs_congr h2]
      exact hnum) _ _ (Runs.rotation (.mul t (.num s 0)) (overStretch s o) (overStretch s d) φ q true)
      (by
        intro c cs hw
        cases hw)
  refine ⟨e, ?_, ?_⟩
  · rw [stretchedRun, stretch_rotation_ok s t o d φ q p hz, ok_bind, Register.rescaleCoords, h1, ok_bind]
    exact he
  · have hq : driven r' q = driven r q := by cases q <;> simp [driven, h2]
    have hv : (vanDerWaals c (fun i => (s : ℝ) • P i) r' : Oper n) = (((|(s : ℝ)| ^ 6)⁻¹ : ℝ) : ℂ) • vanDerWaals c P r := by
      rw [← (C56_scaling c P r s).1]
      unfold vanDerWaals
      rw [nodePairs_congr h2]
    rw [he', eval_overStretch, eval_overStretch, driveOp_div, hq, eval, eval_rat]
    simp only [ite_self, add_zero]
    rw [evolution_stretch hs, hv, smul_smul]
    congr 3
    rw [Even.pow_abs (by decide)]
    push_cast
    rw [div_eq_mul_inv]

/-- Stretching as the code does it leaves the evolution unchanged if no atoms interact: for every chain of rotations on
a register without pairs of atoms, without pattern. -/
theorem C63_noiseless_partial (ho : SetOrder ord) {r : Register} {P : ℕ → ℝ × ℝ} (hP : Planar r P)
    (hl : ∀ e ∈ r.edges, e.1 ≠ e.2) (hone : ∀ i ∈ r.labels, ∀ j ∈ r.labels, i = j) (num : ℝ → Expr)
    (c6 : ℕ → Option ℝ) (dev : Device) (hdev : dev.interaction = .NN) (hpat : dev.pattern = none) (c : ℝ)
    (hc : c6 dev.level = some c) (ρ : Env) (hρ : StandardFns ρ) (s : ℚ) (hs : s ≠ 0)
    (b : ABlock) (U : Oper n) (h : Runs ρ r (vanDerWaals c P r) 0 b U) (hb : Pulses ord b) :
    ∃ e, stretchedRun ord num c6 r dev b s = .ok e ∧ sem (primSem n ρ ord ho) ρ e = U := by
  obtain ⟨r', h1, h2, h3, h4⟩ := Register.scale_ok hP 1 s
  simp only [div_one] at h4
  have hpairs : nodePairs r = ∅ := by
    rw [Finset.eq_empty_iff_forall_notMem]
    intro e he
    rw [nodePairs, Finset.mem_filter, Finset.mem_product, List.mem_toFinset, List.mem_toFinset] at he
    exact absurd he.2 (by rw [hone _ he.1.1 _ he.1.2]; exact lt_irrefl _)
  have hv : ∀ Q : ℕ → ℝ × ℝ, (vanDerWaals c Q r : Oper n) = 0 := by
    intro Q
    rw [vanDerWaals, hpairs, Finset.sum_empty]
  have hv' : ∀ Q : ℕ → ℝ × ℝ, (vanDerWaals c Q r' : Oper n) = 0 := by
    intro Q
    rw [vanDerWaals, nodePairs_congr h2, hpairs, Finset.sum_empty]
  obtain ⟨c', g1, -, g3, -, g4⟩ := stretch_runs (r' := r') (H' := vanDerWaals c (fun i => (s : ℝ) • P i) r') ρ hs h2
    (by rw [hv, hv', smul_zero]) h hb
  obtain ⟨e, he, he'⟩ := C56_device_partial (n := n) ho h4 (by
      intro i hi j hj hij e
      rw [h2] at hi hj
      exact absurd (hone i hi j hj) hij) (by rw [h3]; exact hl) num c6 dev hdev hpat c hc ρ hρ (by
      rw [nodePairs_congr h2, hpairs]
      simp) c' U g4 (fun d ds hw => absurd hw (g3 d ds))
  refine ⟨e, ?_, he'⟩
  rw [stretchedRun, g1, ok_bind, Register.rescaleCoords, h1, ok_bind]
  exact he

/-- With the sixth root of the stretch as factor of the coordinates the evolution would be unchanged on every register. -/
theorem C63_sixth_root (ho : SetOrder ord) {r : Register} {P : ℕ → ℝ × ℝ} (hP : Planar r P)
    (hd : ∀ i ∈ r.labels, ∀ j ∈ r.labels, i ≠ j → P i ≠ P j) (hl : ∀ e ∈ r.edges, e.1 ≠ e.2) (num : ℝ → Expr)
    (c6 : ℕ → Option ℝ) (dev : Device) (hdev : dev.interaction = .NN) (hpat : dev.pattern = none) (c : ℝ)
    (hc : c6 dev.level = some c) (ρ : Env) (hρ : StandardFns ρ) (s : ℚ) (f : ℝ) (hf : 0 < f) (hfs : f ^ 6 = s)
    (hnum : ∀ e ∈ nodePairs r, eval ρ (num (c / euclid (f • P e.1) (f • P e.2) ^ 6)) =
      (c / euclid (f • P e.1) (f • P e.2) ^ 6 : ℝ))
    (b : ABlock) (U : Oper n) (h : Runs ρ r (vanDerWaals c P r) 0 b U) (hb : Pulses ord b) :
    ∃ c' r' e, b.stretch ord s = .ok c' ∧ r.rescaleCoords ord f = .ok r' ∧
      addBackground ord num c6 r' dev c' = .ok e ∧ sem (primSem n ρ ord ho) ρ e = U := by
  have hs : s ≠ 0 := by
    rintro rfl
    rw [Rat.cast_zero] at hfs
    exact absurd hfs (by positivity)
  have hs' : (s : ℂ) ≠ 0 := by exact_mod_cast hs
  obtain ⟨r', h1, h2, h3, h4⟩ := Register.scale_ok hP 1 f
  simp only [div_one] at h4
  have hv : (vanDerWaals c (fun i => f • P i) r' : Oper n) = (s : ℂ)⁻¹ • vanDerWaals c P r := by
    have := (C56_scaling (n := n) c P r f).1
    rw [abs_of_pos hf, hfs] at this
    rw [show (s : ℂ)⁻¹ = (((s : ℝ)⁻¹ : ℝ) : ℂ) by push_cast; rfl, ← this]
    unfold vanDerWaals
    rw [nodePairs_congr h2]
  obtain ⟨c', g1, -, g3, -, g4⟩ := stretch_runs (r' := r') (H' := vanDerWaals c (fun i => f • P i) r') ρ hs h2
    (by rw [hv, smul_smul, mul_inv_cancel₀ hs', one_smul]) h hb
  obtain ⟨e, he, he'⟩ := C56_device_partial (n := n) ho h4 (by
      intro i hi j hj hij e
      rw [h2] at hi hj
      exact hd i hi j hj hij (smul_right_injective _ hf.ne' e)) (by rw [h3]; exact hl) num c6 dev hdev hpat c hc ρ hρ (by
      rw [nodePairs_congr h2]
      exact hnum) c' U g4 (fun d ds hw => absurd hw (g3 d ds))
  refine ⟨c', r', e, g1, ?_, he, he'⟩
  rw [Register.rescaleCoords, h1, ok_bind]
  rfl

/-- The atoms of a stretched register interact differently: a detuned rotation of 1000 ns on two atoms, stretched by two. -/
theorem C63_counterexample_interacting (ho : SetOrder ord) (num : ℝ → Expr) (ρ : Env) (hρ : StandardFns ρ)
    (hnum : eval ρ (num (1 / 64)) = ((1 / 64 : ℝ) : ℂ)) :
    ∃ e U, stretchedRun ord num (fun _ => some 1) twoAtoms ⟨.NN, 60, 0, none⟩ (detuned 0) 2 = .ok e ∧
      Runs ρ twoAtoms (vanDerWaals 1 (fun i => ((i : ℝ), 0)) twoAtoms) 0 (detuned 0) U ∧
      sem (primSem 2 ρ ord ho) ρ e ≠ U := by
  have hdist : euclid (((2 : ℚ) : ℝ) • (((0 : ℕ) : ℝ), (0 : ℝ))) (((2 : ℚ) : ℝ) • (((1 : ℕ) : ℝ), (0 : ℝ))) = 2 := by
    simp [euclid]
  obtain ⟨e, h1, h2⟩ := C63_rotation (n := 2) ho twoAtoms_planar (by
      intro i _ j _ hij h
      simp only [Prod.mk.injEq, Nat.cast_inj, and_true] at h
      exact hij h) (by simp [twoAtoms]) num (fun _ => some 1) ⟨.NN, 60, 0, none⟩ rfl rfl 1 rfl ρ hρ 2 (by norm_num) (by
      rw [twoAtoms_pairs]
      intro e he
      rw [Finset.mem_singleton] at he
      subst he
      simp only [hdist]
      rw [show (1 : ℝ) / 2 ^ 6 = 1 / 64 by norm_num]
      exact hnum) (.num 1000 0) (.num 0 0) (.num 1 0) (.num 0 0) (.loc [0]) true (by simp)
  refine ⟨e, _, h1, Runs.rotation _ _ _ _ _ _, ?_⟩
  have e1 : eval ρ (.num 1000 0) = 1000 := by rw [eval_rat]; norm_num
  have e0 : eval ρ (.num 0 0) = 0 := by rw [eval_rat]; norm_num
  have e2 : eval ρ (.num 1 0) = 1 := by rw [eval_rat]; norm_num
  have hH : (vanDerWaals 1 (fun i => ((i : ℝ), 0)) twoAtoms : Oper 2) = dg fun x => lv (.N true) x 0 * lv (.N true) x 1 := by
    rw [vanDerWaals, twoAtoms_pairs, Finset.sum_singleton, embed1_dg (by norm_num) (Or.inr rfl),
      embed1_dg (by norm_num) (Or.inr rfl), dg_mul]
    simp [euclid]
  have ht : (1000 : ℂ) / 1000 = ((1 : ℚ) : ℂ) := by norm_num
  have hd0 := detuned_drive (n := 2) (q := 0) (by norm_num)
  rw [h2]
  simp only [e0, e1, e2, ite_self, add_zero, driven, hd0, hH, smul_dg, dg_add, ht, evolution_dg]
  intro h
  have := congrFun (congrFun h fun _ => true) fun _ => true
  simp only [ph, Matrix.diagonal_apply, if_true] at this
  have l1 : ∀ q < 2, lv (.N true) (fun _ => true : St 2) q = 1 := by
    intro q hq
    have : bit (fun _ => true : St 2) q = true := by
      unfold bit
      simp [hq]
    simp [lv, zq, this]
  rw [l1 0 (by norm_num), l1 1 (by norm_num)] at this
  norm_num at this
  have hI := Complex.exp_eq_one_iff.1 this
  obtain ⟨k, hk⟩ := hI
  have him := congrArg Complex.im hk
  simp at him
  have hpi := Real.two_le_pi
  rcases le_or_gt k 0 with hk0 | hk0
  · have : (k : ℝ) ≤ 0 := by exact_mod_cast hk0
    nlinarith
  · have : (1 : ℝ) ≤ k := by exact_mod_cast hk0
    nlinarith

/-- Interaction blocks cannot be stretched. -/
theorem C63_counterexample_interaction (s : ℚ) (t : Expr) (q : QSupport) (p : Bool) :
    stretch ord s (.interaction t q p) = .error .attributeError := rfl

/-- Krons are not stretched, although the register is. -/
theorem C63_counterexample_kron (s : ℚ) (b : ABlock) (bs : List ABlock) :
    stretch ord s (.kron b bs) = .ok (.kron b bs) := rfl

/-- A rotation without addressing pattern gets one. -/
theorem C63_counterexample_pattern (s : ℚ) (t d φ : Expr) (q : QSupport) :
    ∃ t' o' d', stretch ord s (.rotation t .pi d φ q false) = .ok (.rotation t' o' d' φ q true) :=
  ⟨_, _, _, stretch_rotation_ok s t .pi d φ q false (by simp)⟩

/-- A chain of two rotations on two atoms, stretched by 64, with coordinates scaled by two. -/
example (ho : SetOrder ord) (t φ : Expr) : ∃ c' r' e U,
    ABlock.stretch ord 64 (.chain [.rotation t .pi (.num 0 0) φ .global true, .rotation t (.num 0 0) (.num 1 0) φ .global true])
      = .ok c' ∧ twoAtoms.rescaleCoords ord 2 = .ok r' ∧
    addBackground ord (fun _ => .num (1 / 64) 0) (fun _ => some 1) r' ⟨.NN, 60, 0, none⟩ c' = .ok e ∧
    Runs usualEnv twoAtoms (vanDerWaals 1 (fun i => ((i : ℝ), 0)) twoAtoms) 0
      (.chain [.rotation t .pi (.num 0 0) φ .global true, .rotation t (.num 0 0) (.num 1 0) φ .global true]) U ∧
    sem (primSem 2 usualEnv ord ho) usualEnv e = U := by
  have hU := Runs.cons (Runs.rotation (ρ := usualEnv) (r := twoAtoms)
    (H := (vanDerWaals 1 (fun i => ((i : ℝ), 0)) twoAtoms : Oper 2)) (A := 0) t .pi (.num 0 0) φ .global true)
    (Runs.cons (Runs.rotation t (.num 0 0) (.num 1 0) φ .global true) Runs.nil)
  obtain ⟨c', r', e, h1, h2, h3, h4⟩ := C63_sixth_root (n := 2) ho twoAtoms_planar (by
      intro i _ j _ hij h
      simp only [Prod.mk.injEq, Nat.cast_inj, and_true] at h
      exact hij h) (by simp [twoAtoms]) (fun _ => .num (1 / 64) 0) (fun _ => some 1) ⟨.NN, 60, 0, none⟩ rfl rfl 1 rfl
    usualEnv usualEnv_standard 64 2 (by norm_num) (by norm_num) (by
      rw [twoAtoms_pairs]
      intro e he
      rw [Finset.mem_singleton] at he
      subst he
      rw [eval_rat]
      simp [euclid]
      norm_num) _ _ hU (.chain (by
        intro b hb
        simp only [List.mem_cons, List.not_mem_nil, or_false] at hb
        rcases hb with rfl | rfl
        · exact .rotation (Or.inl (by simp))
        · exact .rotation (Or.inr (by simp))) (by
        intro b hb
        simp only [List.mem_cons, List.not_mem_nil, or_false] at hb
        rcases hb with rfl | rfl <;> rfl))
  exact ⟨c', r', e, _, h1, h2, h3, hU, h4⟩

/-- A register of one atom. -/
noncomputable def oneAtom : Register := ⟨[(0, some [0, 0])], []⟩

/-- A rotation of one atom, stretched by three. -/
example (ho : SetOrder ord) (t φ : Expr) : ∃ e U,
    stretchedRun ord (fun _ => .num 0 0) (fun _ => some 1) oneAtom ⟨.NN, 60, 0, none⟩ (.rotation t .pi (.num 0 0) φ .global true)
      3 = .ok e ∧
    Runs usualEnv oneAtom (vanDerWaals 1 (fun i => ((i : ℝ), 0)) oneAtom) 0 (.rotation t .pi (.num 0 0) φ .global true) U ∧
    sem (primSem 2 usualEnv ord ho) usualEnv e = U := by
  have hU := Runs.rotation (ρ := usualEnv) (r := oneAtom)
    (H := (vanDerWaals 1 (fun i => ((i : ℝ), 0)) oneAtom : Oper 2)) (A := 0) t .pi (.num 0 0) φ .global true
  obtain ⟨e, h1, h2⟩ := C63_noiseless_partial (n := 2) ho (r := oneAtom) (P := fun i => ((i : ℝ), 0)) (by
      refine ⟨by decide, ?_⟩
      intro m hm
      simp only [oneAtom, List.mem_cons, List.not_mem_nil, or_false] at hm
      subst hm
      simp) (by simp [oneAtom]) (by
      intro i hi j hj
      have : oneAtom.labels = [0] := rfl
      rw [this] at hi hj
      simp at hi hj
      rw [hi, hj]) (fun _ => .num 0 0) (fun _ => some 1) ⟨.NN, 60, 0, none⟩ rfl rfl 1 rfl usualEnv usualEnv_standard 3
    (by norm_num) _ _ hU (.rotation (Or.inl (by simp)))
  exact ⟨e, _, h1, hU, h2⟩

end Qadence
