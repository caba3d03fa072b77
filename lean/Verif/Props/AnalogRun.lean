import Verif.Props.AnalogHam
import Verif.Proofs.PauliExp

/-!
# Property C56: the conversion of analog blocks into Hamiltonian evolutions
-/

namespace Qadence

open Spec Block DAQC Decompose

variable {n : ℕ} {ord : List ℕ → List ℕ}

/-- The operator of the addressing pattern. -/
noncomputable def addrOp (n : ℕ) (ρ : Env) : Option (Block Gate) → Oper n
  | some a => sem (gateSem n ρ) ρ a
  | none => 0

theorem background_ok (ρ : Env) (hInt : Block Gate) (hAddr : Option (Block Gate)) (p : Bool) :
    ∃ b, background hInt hAddr p = .ok b ∧
      sem (gateSem n ρ) ρ b = sem (gateSem n ρ) ρ hInt + if p then addrOp n ρ hAddr else 0 := by
  cases hAddr with
  | none => exact ⟨hInt, rfl, by cases p <;> simp [addrOp]⟩
  | some a =>
    cases p with
    | false => exact ⟨hInt, rfl, by simp⟩
    | true =>
      obtain ⟨b, h1, h2⟩ := C07_iadd (gate_arithOk n ρ) ρ hInt a
      exact ⟨b, by simpa [background] using h1, by simpa [addrOp] using h2⟩

theorem sem_hamEvoFor (ho : SetOrder ord) (ρ : Env) (h : Block Gate) (t : Expr) :
    sem (primSem n ρ ord ho) ρ (hamEvoFor h t) = evolution (eval ρ t / 1000) (sem (gateSem n ρ) ρ h) := by
  rw [hamEvoFor, sem_leaf]
  have : eval ρ (.num (1/1000) 0) = 1 / 1000 := by apply Complex.ext <;> simp [eval]
  rw [show (primSem n ρ ord ho).den (.hamEvo h (.mul t (.num (1/1000) 0))) =
    primDen ρ (.hamEvo h (.mul t (.num (1/1000) 0))) from rfl, primDen, eval, this, mul_one_div]

theorem driveQubits_eq (r : Register) (s : QSupport) : driveQubits r s = driven r s := by cases s <;> rfl

theorem rotationEvo_ok (ho : SetOrder ord) (ρ : Env) (hρ : StandardFns ρ) (r : Register) (hInt : Block Gate)
    (hAddr : Option (Block Gate)) (t o d φ : Expr) (s : QSupport) (p : Bool) :
    ∃ c, rotationEvo r hInt hAddr t o d φ s p = .ok c ∧ sem (primSem n ρ ord ho) ρ c =
      evolution (eval ρ t / 1000) ((sem (gateSem n ρ) ρ hInt + if p then addrOp n ρ hAddr else 0) +
        driveOp (eval ρ o) (eval ρ d) (eval ρ φ) (driven r s)) := by
  obtain ⟨b, h1, h2⟩ := C56_drive (n := n) ρ hρ o d φ (driveQubits r s)
  obtain ⟨c, h3, h4⟩ := background_ok (n := n) ρ hInt hAddr p
  obtain ⟨e, h5, h6⟩ := C07_iadd (gate_arithOk n ρ) ρ c b
  refine ⟨hamEvoFor e t, ?_, ?_⟩
  · rw [rotationEvo, h1, ok_bind, h3, ok_bind, h5, ok_bind]
    rfl
  · rw [sem_hamEvoFor, h6, h4, h2, driveQubits_eq]

theorem kronOps_interaction (r : Register) (hInt : Block Gate) (hAddr : Option (Block Gate)) (t : Expr) (s : QSupport)
    (p : Bool) (bs : List ABlock) : kronOps r hInt hAddr (.interaction t s p :: bs) = kronOps r hInt hAddr bs := rfl

theorem kronOps_chain (r : Register) (hInt : Block Gate) (hAddr : Option (Block Gate)) (cs : List ABlock)
    (bs : List ABlock) : kronOps r hInt hAddr (.chain cs :: bs) = kronOps r hInt hAddr bs := rfl

theorem partDrive_interaction (ρ : Env) (r : Register) (t : Expr) (s : QSupport) (p : Bool) :
    (partDrive ρ r (.interaction t s p) : Oper n) = 0 := rfl

theorem kronOps_none (ρ : Env) (r : Register) (hInt : Block Gate) (hAddr : Option (Block Gate)) (t : ℂ) (p : Bool)
    (bs : List ABlock) (h : ∀ c ∈ bs, PrimPart ρ t p c) (h0 : bs.countP isRotation = 0) :
    kronOps r hInt hAddr bs = .ok [] ∧ (bs.map (partDrive ρ r : ABlock → Oper n)).sum = 0 := by
  induction bs with
  | nil => exact ⟨rfl, rfl⟩
  | cons b bs ih =>
    cases h b (by simp) with
    | interaction s e =>
      rw [List.countP_cons_of_neg (by simp [isRotation])] at h0
      obtain ⟨h1, h2⟩ := ih (fun c hc => h c (by simp [hc])) h0
      exact ⟨by rw [kronOps_interaction]; exact h1, by rw [List.map_cons, List.sum_cons, h2, partDrive_interaction, zero_add]⟩
    | rotation o d φ s e => simp [isRotation] at h0

theorem kronOps_one (ho : SetOrder ord) (ρ : Env) (hρ : StandardFns ρ) (r : Register) (hInt : Block Gate)
    (hAddr : Option (Block Gate)) (t : ℂ) (p : Bool) (bs : List ABlock) (h : ∀ c ∈ bs, PrimPart ρ t p c)
    (h1 : bs.countP isRotation = 1) :
    ∃ c, kronOps r hInt hAddr bs = .ok [c] ∧ sem (primSem n ρ ord ho) ρ c =
      evolution (t / 1000) ((sem (gateSem n ρ) ρ hInt + if p then addrOp n ρ hAddr else 0) +
        (bs.map (partDrive ρ r)).sum) := by
  induction bs with
  | nil => simp at h1
  | cons b bs ih =>
    cases h b (by simp) with
    | interaction s e =>
      rw [List.countP_cons_of_neg (by simp [isRotation])] at h1
      obtain ⟨c, h2, h3⟩ := ih (fun c hc => h c (by simp [hc])) h1
      exact ⟨c, by rw [kronOps_interaction]; exact h2, by rw [h3, List.map_cons, List.sum_cons, partDrive_interaction, zero_add]⟩
    | @rotation d o δ φ s e =>
      rw [List.countP_cons_of_pos (by simp [isRotation])] at h1
      obtain ⟨h2, h3⟩ := kronOps_none (n := n) ρ r hInt hAddr t p bs (fun c hc => h c (by simp [hc])) (by omega)
      obtain ⟨c, h4, h5⟩ := rotationEvo_ok (n := n) ho ρ hρ r hInt hAddr d o δ φ s p
      refine ⟨c, ?_, ?_⟩
      · rw [kronOps, h4, ok_bind, h2, ok_bind]
        rfl
      · rw [h5, List.map_cons, List.sum_cons, h3, add_zero, partDrive, e]

/-- Analog blocks all of whose krons have exactly one rotation among their parts run as documented: the converted block
evolves the register under interaction, pattern and drive, for the given durations, in the given order. In general
(several rotations in a kron, composite parts of a kron, interaction blocks on part of the register) this fails. -/
theorem C56_execution_partial (ho : SetOrder ord) (ρ : Env) (hρ : StandardFns ρ) (r : Register) (hInt : Block Gate)
    (hAddr : Option (Block Gate)) (b : ABlock) (U : Oper n)
    (h : Runs ρ r (sem (gateSem n ρ) ρ hInt) (addrOp n ρ hAddr) b U)
    (h1 : ∀ c cs, Within (.kron c cs) b → (c :: cs).countP isRotation = 1) :
    ∃ c, convert r hInt hAddr b = .ok c ∧ sem (primSem n ρ ord ho) ρ c = U := by
  induction h with
  | interaction t p =>
    obtain ⟨c, h3, h4⟩ := background_ok (n := n) ρ hInt hAddr p
    refine ⟨hamEvoFor c t, ?_, by rw [sem_hamEvoFor, h4]⟩
    rw [convert, h3, ok_bind]
    rfl
  | rotation t o d φ s p =>
    obtain ⟨c, h3, h4⟩ := rotationEvo_ok (n := n) ho ρ hρ r hInt hAddr t o d φ s p
    exact ⟨c, by rw [convert, h3], h4⟩
  | nil =>
    refine ⟨Block.chainOf [], by rw [convert, convertList, ok_bind]; rfl, ?_⟩
    rw [chainOf, sem_chain]
    rfl
  | @cons b bs U V hb hbs i1 i2 =>
    obtain ⟨c, h3, h4⟩ := i1 fun d ds hd => h1 d ds (.chain (by simp) hd)
    obtain ⟨e, h5, h6⟩ := i2 fun d ds hd => by
      cases hd with
      | chain hm hw => exact h1 d ds (.chain (List.mem_cons_of_mem _ hm) hw)
    rw [convert] at h5
    obtain ⟨cs, h7, h8⟩ := bind_ok h5
    have := pure_ok h8
    subst this
    refine ⟨Block.chainOf (c :: cs), ?_, ?_⟩
    · rw [convert, convertList, h3, ok_bind, h7, ok_bind]
      rfl
    · rw [chainOf, sem_chain] at h6 ⊢
      rw [List.map_cons, opProd, h6, h4]
  | @kron b bs t p hp =>
    obtain ⟨c, h3, h4⟩ := kronOps_one (n := n) ho ρ hρ r hInt hAddr t p (b :: bs) hp (h1 b bs (.refl _))
    refine ⟨Block.chainOf [c], ?_, ?_⟩
    · rw [convert, h3, ok_bind]
      rfl
    · rw [chainOf, sem_chain, List.map_singleton, opProd, opProd, one_mul, h4]

/-- The whole conversion for a device with van-der-Waals interaction and without addressing pattern. -/
theorem C56_device_partial (ho : SetOrder ord) {r : Register} {P : ℕ → ℝ × ℝ} (hP : Planar r P)
    (hd : ∀ i ∈ r.labels, ∀ j ∈ r.labels, i ≠ j → P i ≠ P j) (hl : ∀ e ∈ r.edges, e.1 ≠ e.2) (num : ℝ → Expr)
    (c6 : ℕ → Option ℝ) (dev : Device) (hdev : dev.interaction = .NN) (hpat : dev.pattern = none) (c : ℝ)
    (hc : c6 dev.level = some c) (ρ : Env) (hρ : StandardFns ρ)
    (hnum : ∀ e ∈ nodePairs r, eval ρ (num (c / euclid (P e.1) (P e.2) ^ 6)) = (c / euclid (P e.1) (P e.2) ^ 6 : ℝ))
    (b : ABlock) (U : Oper n) (h : Runs ρ r (vanDerWaals c P r) 0 b U)
    (h1 : ∀ c cs, Within (.kron c cs) b → (c :: cs).countP isRotation = 1) :
    ∃ e, addBackground ord num c6 r dev b = .ok e ∧ sem (primSem n ρ ord ho) ρ e = U := by
  obtain ⟨hInt, h2, h3⟩ := C56_van_der_waals (n := n) ho hP hd hl num c6 dev hdev c hc ρ hnum
  obtain ⟨e, h4, h5⟩ := C56_execution_partial ho ρ hρ r hInt none b U (by rw [h3]; exact h) h1
  refine ⟨e, ?_, h5⟩
  rw [addBackground, h2, ok_bind]
  unfold patternHamiltonian
  rw [hpat]
  exact h4

/-! ### Where the conversion deviates -/

/-- A kron of rotations is converted into a sequence: every rotation is run for its full duration, one after the other,
each with the interaction of the whole register. -/
theorem C56_kron_sequence (ho : SetOrder ord) (ρ : Env) (hρ : StandardFns ρ) (r : Register) (hInt : Block Gate)
    (hAddr : Option (Block Gate)) (t o d φ t' o' d' φ' : Expr) (s s' : QSupport) (p p' : Bool) :
    ∃ c, convert r hInt hAddr (.kron (.rotation t o d φ s p) [.rotation t' o' d' φ' s' p']) = .ok c ∧
      sem (primSem n ρ ord ho) ρ c =
        evolution (eval ρ t' / 1000) ((sem (gateSem n ρ) ρ hInt + if p' then addrOp n ρ hAddr else 0) +
          driveOp (eval ρ o') (eval ρ d') (eval ρ φ') (driven r s')) *
        evolution (eval ρ t / 1000) ((sem (gateSem n ρ) ρ hInt + if p then addrOp n ρ hAddr else 0) +
          driveOp (eval ρ o) (eval ρ d) (eval ρ φ) (driven r s)) := by
  obtain ⟨c, h1, h2⟩ := rotationEvo_ok (n := n) ho ρ hρ r hInt hAddr t o d φ s p
  obtain ⟨c', h1', h2'⟩ := rotationEvo_ok (n := n) ho ρ hρ r hInt hAddr t' o' d' φ' s' p'
  refine ⟨Block.chainOf [c, c'], ?_, ?_⟩
  · rw [convert, kronOps, h1, ok_bind, kronOps, h1', ok_bind, kronOps, ok_bind]
    rfl
  · rw [chainOf, sem_chain, List.map_cons, List.map_singleton, opProd, opProd, opProd, one_mul, h2, h2']

/-- A kron without rotation cannot be converted. -/
theorem C56_counterexample_kron_interactions (r : Register) (hInt : Block Gate) (hAddr : Option (Block Gate))
    (t t' : Expr) (s s' : QSupport) (p p' : Bool) :
    convert r hInt hAddr (.kron (.interaction t s p) [.interaction t' s' p']) = .error .unboundLocalError := by
  rw [convert, kronOps_interaction, kronOps_interaction, kronOps, ok_bind]
  rfl

/-- Composite parts of a kron are dropped: here the chain on qubit 1 is never run. -/
theorem C56_counterexample_kron_drops (r : Register) (hInt : Block Gate) (hAddr : Option (Block Gate))
    (t o d φ : Expr) (s : QSupport) (p : Bool) (bs : List ABlock) :
    convert r hInt hAddr (.kron (.rotation t o d φ s p) [.chain bs]) =
      convert r hInt hAddr (.kron (.rotation t o d φ s p) []) := by
  rw [convert, convert, kronOps, kronOps_chain, kronOps, kronOps]
  rfl

/-- The support of an interaction block is ignored: the whole register evolves. -/
theorem C56_counterexample_interaction_support (r : Register) (hInt : Block Gate) (hAddr : Option (Block Gate))
    (t : Expr) (s : QSupport) (p : Bool) :
    convert r hInt hAddr (.interaction t s p) = convert r hInt hAddr (.interaction t .global p) := by
  rw [convert, convert]

/-- The interaction `N N` of two qubits with strength 1. -/
def pairInteraction : Block Gate :=
  Block.addOf [.scale (.comp .kron [Block.ofFixed (.N true) 0, Block.ofFixed (.N true) 1] none) (.num 1 0) none]

/-- A detuned rotation of 1000 ns. -/
def detuned (q : ℕ) : ABlock := .rotation (.num 1000 0) (.num 0 0) (.num 1 0) (.num 0 0) (.loc [q]) true

theorem eval_rat (ρ : Env) (q : ℚ) : eval ρ (.num q 0) = (q : ℂ) := by
  apply Complex.ext <;> simp [eval]

theorem detuned_drive {q : ℕ} (hq : q < n) : (driveOp 0 1 0 [q] : Oper n) = dg fun x => -lv (.N true) x q := by
  rw [driveOp, List.map_singleton, List.sum_singleton, driveOne, zero_div, zero_smul, zero_sub, one_smul,
    embed1_dg hq (Or.inr rfl)]
  have := smul_dg (-1) (fun x : St n => lv (.N true) x q)
  simp only [Rat.cast_neg, Rat.cast_one, neg_smul, one_smul, neg_mul, one_mul] at this
  exact this

theorem dg_add (a b : St n → ℚ) : dg a + dg b = dg fun x => a x + b x := by
  have := dg_sum [a, b]
  simpa using this

/-- `AnalogRot` refuses exactly the rotation whose amplitude and detuning are both the number zero, and keeps the values
given. -/
theorem C56_analog_rot (t o d φ : Expr) (q : QSupport) (p : Bool) :
    (analogRot t o d φ q p = .error .valueError ↔ o = .num 0 0 ∧ d = .num 0 0) ∧
      (¬ (o = .num 0 0 ∧ d = .num 0 0) → analogRot t o d φ q p = .ok (.rotation t o d φ q p)) := by
  refine ⟨?_, fun h => by rw [analogRot, if_neg h]⟩
  rw [analogRot]
  by_cases h : o = .num 0 0 ∧ d = .num 0 0
  · simp [h]
  · rw [if_neg h]
    simp [h]

/-- A kron of two rotations on a register of two interacting qubits is not run as documented: the qubits interact for
2000 ns instead of 1000 ns. -/
theorem C56_counterexample_kron (ho : SetOrder ord) (ρ : Env) (hρ : StandardFns ρ) (r : Register) :
    ∃ c U, convert r pairInteraction none (.kron (detuned 0) [detuned 1]) = .ok c ∧
      Runs ρ r (sem (gateSem 2 ρ) ρ pairInteraction) 0 (.kron (detuned 0) [detuned 1]) U ∧
      sem (primSem 2 ρ ord ho) ρ c ≠ U := by
  obtain ⟨c, h1, h2⟩ := C56_kron_sequence (n := 2) ho ρ hρ r pairInteraction none (.num 1000 0) (.num 0 0) (.num 1 0)
    (.num 0 0) (.num 1000 0) (.num 0 0) (.num 1 0) (.num 0 0) (.loc [0]) (.loc [1]) true true
  refine ⟨c, _, h1, Runs.kron (t := 1000) (p := true) ?_, ?_⟩
  · intro b hb
    simp only [List.mem_cons, List.not_mem_nil, or_false] at hb
    rcases hb with rfl | rfl <;> exact PrimPart.rotation _ _ _ _ (by rw [eval_rat]; norm_num)
  have e1 : eval ρ (.num 1000 0) = 1000 := by rw [eval_rat]; norm_num
  have e0 : eval ρ (.num 0 0) = 0 := by rw [eval_rat]; norm_num
  have e2 : eval ρ (.num 1 0) = 1 := by rw [eval_rat]; norm_num
  have hH : sem (gateSem 2 ρ) ρ pairInteraction = dg fun x => lv (.N true) x 1 * lv (.N true) x 0 := by
    rw [pairInteraction, addOf, sem_add, List.map_singleton, List.sum_singleton, sem_scale, sem_kron, List.map_cons,
      List.map_singleton, opProd, opProd, opProd, one_mul, sem_ofFixed, sem_ofFixed, e2, one_smul,
      embed1_dg (by norm_num) (Or.inr rfl), embed1_dg (by norm_num) (Or.inr rfl), dg_mul]
  have ht : (1000 : ℂ) / 1000 = ((1 : ℚ) : ℂ) := by norm_num
  have hd0 := detuned_drive (n := 2) (q := 0) (by norm_num)
  have hd1 := detuned_drive (n := 2) (q := 1) (by norm_num)
  rw [h2]
  simp only [List.map_cons, List.map_nil, List.sum_cons, List.sum_nil, detuned, partDrive, e0, e1, e2, addrOp, if_true,
    add_zero, driven, hd0, hd1, hH, dg_add, ht, evolution_dg, ph_mul]
  intro h
  have := congrFun (congrFun h fun _ => true) fun _ => true
  simp only [ph, Matrix.diagonal_apply, if_true] at this
  have l1 : ∀ q < 2, lv (.N true) (fun _ => true : St 2) q = 1 := by
    intro q hq
    have : bit (fun _ => true : St 2) q = true := by
      unfold bit
      simp [hq]
    simp [lv, zq, this]
  rw [l1 0 (by norm_num), l1 1 (by norm_num)] at this
  norm_num at this
  have hI := Complex.exp_eq_one_iff.1 this.symm
  obtain ⟨k, hk⟩ := hI
  have him := congrArg Complex.im hk
  simp at him
  have hpi := Real.two_le_pi
  rcases le_or_gt k 0 with hk0 | hk0
  · have : (k : ℝ) ≤ 0 := by exact_mod_cast hk0
    nlinarith
  · have : (1 : ℝ) ≤ k := by exact_mod_cast hk0
    nlinarith

/-! ### Rotations of a single qubit -/

theorem eval_nanoseconds (ρ : Env) (a : Expr) : eval ρ (nanoseconds a .pi) / 1000 = eval ρ a / Real.pi := by
  have : eval ρ (.num 1000 0) = 1000 := by rw [eval_rat]; norm_num
  simp only [nanoseconds, eval] at this ⊢
  rw [this]
  field_simp

theorem evolution_invol {P : Oper n} (hP : P * P = 1) (t : ℂ) :
    evolution t P = Complex.cos t • (1 : Oper n) + (-Complex.I * Complex.sin t) • P := exp_invol_I P hP t

theorem rx_eq (q : ℕ) (θ : ℂ) : (embed1 q (matRot θ .RX) : Oper n) =
    Complex.cos (θ / 2) • (1 : Oper n) + (-Complex.I * Complex.sin (θ / 2)) • embed1 q (mat1 .X) := by
  rw [← embed1_one q, ← embed1_smul, ← embed1_smul, ← embed1_add]
  congr 1
  ext a b
  rw [Matrix.add_apply, Matrix.smul_apply, Matrix.smul_apply]
  cases a <;> cases b <;> simp [matRot, mat1, ind]

theorem ry_eq (q : ℕ) (θ : ℂ) : (embed1 q (matRot θ .RY) : Oper n) =
    Complex.cos (θ / 2) • (1 : Oper n) + (-Complex.I * Complex.sin (θ / 2)) • embed1 q (mat1 .Y) := by
  rw [← embed1_one q, ← embed1_smul, ← embed1_smul, ← embed1_add]
  congr 1
  ext a b
  rw [Matrix.add_apply, Matrix.smul_apply, Matrix.smul_apply]
  cases a <;> cases b <;> simp [matRot, mat1] <;>
    first | linear_combination (Complex.sin (θ / 2)) * Complex.I_sq |
      linear_combination (-Complex.sin (θ / 2)) * Complex.I_sq

theorem embed1_sq {q : ℕ} (hq : q < n) {M : Matrix Bool Bool ℂ} (h : M * M = 1) :
    (embed1 q M * embed1 q M : Oper n) = 1 := by
  rw [embed1_mul hq, h, embed1_one]

/-- Without interaction and pattern (for instance on a register with one node) AnalogRX(θ) is RX(θ), AnalogRY(θ) is RY(θ)
and AnalogRZ(θ) is RZ(θ) up to the phase exp(iθ/2). -/
theorem C56_analog_rotations (ho : SetOrder ord) (ρ : Env) (hρ : StandardFns ρ) (r : Register) (hInt : Block Gate)
    (hAddr : Option (Block Gate)) (p : Bool) (θ : Expr) {q : ℕ} (hq : q < n) (s : QSupport) (hs : driven r s = [q])
    (h0 : sem (gateSem n ρ) ρ hInt = 0) (hA : p = true → addrOp n ρ hAddr = 0) :
    (∃ c, convert r hInt hAddr (analogRX θ s p) = .ok c ∧
      sem (primSem n ρ ord ho) ρ c = gateDen ρ (.rot .RX q θ)) ∧
    (∃ c, convert r hInt hAddr (analogRY θ s p) = .ok c ∧
      sem (primSem n ρ ord ho) ρ c = gateDen ρ (.rot .RY q θ)) ∧
    (∃ c, convert r hInt hAddr (analogRZ θ s p) = .ok c ∧
      sem (primSem n ρ ord ho) ρ c = Complex.exp (Complex.I * eval ρ θ / 2) • gateDen ρ (.rot .RZ q θ)) := by
  have hbg : (sem (gateSem n ρ) ρ hInt + if p then addrOp n ρ hAddr else 0) = 0 := by
    cases p
    · simp [h0]
    · simp [h0, hA]
  have e0 : eval ρ (.num 0 0) = 0 := by rw [eval_rat]; norm_num
  have eh : eval ρ (.num (-1/2) 0) = -1/2 := by rw [eval_rat]; norm_num
  have epi : eval ρ .pi = Real.pi := by rw [eval]
  have hpi : (Real.pi : ℂ) ≠ 0 := by exact_mod_cast Real.pi_ne_zero
  have key : ∀ M : Oper n, M * M = 1 → evolution (eval ρ θ / Real.pi) (((Real.pi : ℂ) / 2) • M) =
      Complex.cos (eval ρ θ / 2) • (1 : Oper n) + (-Complex.I * Complex.sin (eval ρ θ / 2)) • M := by
    intro M hM
    rw [evolution, smul_smul, mul_assoc, ← evolution, show eval ρ θ / Real.pi * (Real.pi / 2) = eval ρ θ / 2 by field_simp, evolution_invol hM]
  have hX : mat1 .X * mat1 .X = 1 := by
    ext a b
    rw [Matrix.mul_apply]
    cases a <;> cases b <;> simp [mat1, ind]
  have hY : mat1 .Y * mat1 .Y = 1 := by
    ext a b
    rw [Matrix.mul_apply]
    cases a <;> cases b <;> simp [mat1]
  refine ⟨?_, ?_, ?_⟩
  · obtain ⟨c, h1, h2⟩ := rotationEvo_ok (n := n) ho ρ hρ r hInt hAddr (nanoseconds θ .pi) .pi (.num 0 0) (.num 0 0) s p
    refine ⟨c, by rw [analogRX, convert, h1], ?_⟩
    rw [h2, hbg, zero_add, eval_nanoseconds, hs, driveOp, List.map_singleton, List.sum_singleton, driveOne, e0, epi,
      Complex.cos_zero, Complex.sin_zero, zero_smul, zero_smul, one_smul, sub_zero, sub_zero, key _ (embed1_sq hq hX),
      gateDen, rx_eq]
  · obtain ⟨c, h1, h2⟩ := rotationEvo_ok (n := n) ho ρ hρ r hInt hAddr (nanoseconds θ .pi) .pi (.num 0 0)
      (.mul (.num (-1/2) 0) .pi) s p
    refine ⟨c, by rw [analogRY, convert, h1], ?_⟩
    have ephi : eval ρ (.mul (.num (-1/2) 0) .pi) = -((Real.pi : ℂ) / 2) := by
      rw [eval, eh, epi]
      ring
    rw [h2, hbg, zero_add, eval_nanoseconds, hs, driveOp, List.map_singleton, List.sum_singleton, driveOne, ephi, e0, epi,
      Complex.cos_neg, Complex.sin_neg, Complex.cos_pi_div_two, Complex.sin_pi_div_two, zero_smul, zero_smul, zero_sub,
      neg_smul, one_smul, neg_neg, sub_zero, key _ (embed1_sq hq hY), gateDen, ry_eq]
  · obtain ⟨c, h1, h2⟩ := rotationEvo_ok (n := n) ho ρ hρ r hInt hAddr (nanoseconds θ .pi) (.num 0 0) .pi (.num 0 0) s p
    refine ⟨c, by rw [analogRZ, convert, h1], ?_⟩
    have hN : (embed1 q (mat1 (.N true)) : Oper n) = (1 / 2 : ℂ) • (1 : Oper n) + (-1 / 2 : ℂ) • embed1 q (mat1 .Z) := by
      rw [← embed1_one q, ← embed1_smul, ← embed1_smul, ← embed1_add]
      congr 1
      ext a b
      rw [Matrix.add_apply, Matrix.smul_apply, Matrix.smul_apply]
      cases a <;> cases b <;> simp [mat1, ind] <;> norm_num
    rw [h2, hbg, zero_add, eval_nanoseconds, hs, driveOp, List.map_singleton, List.sum_singleton, driveOne, e0, epi,
      zero_div, zero_smul, zero_sub, hN, gateDen, rz_eq, evolution]
    have e1 : (-Complex.I * (eval ρ θ / Real.pi)) • -((Real.pi : ℂ) • ((1 / 2 : ℂ) • (1 : Oper n) +
        (-1 / 2 : ℂ) • embed1 q (mat1 .Z))) = (Complex.I * eval ρ θ / 2) • (1 : Oper n) +
        (-Complex.I * (eval ρ θ / 2)) • embed1 q (mat1 .Z) := by
      rw [← neg_smul, smul_smul, smul_add, smul_smul, smul_smul]
      congr 2
      · field_simp
      · field_simp
    rw [e1, Matrix.exp_add_of_commute _ _ ((Commute.one_left _).smul_left _), exp_invol_I _ (embed1_sq hq Z_sq)]
    have e2 : NormedSpace.exp ((Complex.I * eval ρ θ / 2) • (1 : Oper n)) =
        Complex.exp (Complex.I * eval ρ θ / 2) • (1 : Oper n) := by
      rw [← Matrix.diagonal_one, ← Matrix.diagonal_smul, Matrix.exp_diagonal, ← Matrix.diagonal_smul]
      congr 1
      funext x
      rw [Pi.coe_exp, ← Complex.exp_eq_exp_ℂ]
      simp
    rw [e2, Matrix.smul_mul, one_mul]

/-! ### Instances -/

/-- An environment with the usual functions. -/
noncomputable def usualEnv : Env where
  var _ := 1 / 4
  fn f z := if f = "cos" then Complex.cos z else if f = "sin" then Complex.sin z else
    if f = "exp" then Complex.exp z else if f = "Abs" then ((|z.re| : ℝ) : ℂ) else
    (((if z.re < 0 then 0 else if z.re = 0 then 1 / 2 else 1 : ℝ)) : ℂ)

theorem usualEnv_standard : StandardFns usualEnv where
  cos z := by simp [usualEnv]
  sin z := by simp [usualEnv]
  exp z := by simp [usualEnv]
  abs x := by simp [usualEnv]
  heaviside x := by simp [usualEnv]

/-- Two atoms at distance 1. -/
noncomputable def twoAtoms : Register := ⟨[(0, some [0, 0]), (1, some [1, 0])], [(0, 1)]⟩

theorem twoAtoms_planar : Planar twoAtoms fun i => ((i : ℝ), 0) := by
  refine ⟨by decide, ?_⟩
  intro m hm
  simp only [twoAtoms, List.mem_cons, List.not_mem_nil, or_false] at hm
  rcases hm with rfl | rfl <;> simp

theorem twoAtoms_pairs : nodePairs twoAtoms = {(0, 1)} := by
  have : twoAtoms.labels = [0, 1] := rfl
  rw [nodePairs, this]
  decide

/-- An interaction block, a global rotation, and a kron of a rotation and an interaction, on two atoms with `C6 = 1`. -/
example (ho : SetOrder ord) (t o d φ : Expr) (q : ℚ) : ∃ e U,
    addBackground ord (fun _ => .num 1 0) (fun _ => some 1) twoAtoms ⟨.NN, 60, 0, none⟩
      (.chain [.interaction t .global true, .kron (.rotation (.num q 0) o d φ (.loc [0]) true)
        [.interaction (.num q 0) (.loc [1]) true]]) = .ok e ∧
    Runs usualEnv twoAtoms (vanDerWaals 1 (fun i => ((i : ℝ), 0)) twoAtoms) 0
      (.chain [.interaction t .global true, .kron (.rotation (.num q 0) o d φ (.loc [0]) true)
        [.interaction (.num q 0) (.loc [1]) true]]) U ∧
    sem (primSem 2 usualEnv ord ho) usualEnv e = U := by
  have hU := Runs.cons (Runs.interaction (ρ := usualEnv) (r := twoAtoms)
    (H := (vanDerWaals 1 (fun i => ((i : ℝ), 0)) twoAtoms : Oper 2)) (A := 0) t true)
    (Runs.cons (Runs.kron (b := .rotation (.num q 0) o d φ (.loc [0]) true)
      (bs := [.interaction (.num q 0) (.loc [1]) true]) (t := eval usualEnv (.num q 0)) (p := true) (by
        intro c hc
        simp only [List.mem_cons, List.not_mem_nil, or_false] at hc
        rcases hc with rfl | rfl
        · exact .rotation _ _ _ _ rfl
        · exact .interaction _ rfl)) Runs.nil)
  obtain ⟨e, h1, h2⟩ := C56_device_partial (n := 2) ho twoAtoms_planar (by
      intro i _ j _ hij h
      simp only [Prod.mk.injEq, Nat.cast_inj, and_true] at h
      exact hij h) (by simp [twoAtoms]) (fun _ => .num 1 0) (fun _ => some 1) ⟨.NN, 60, 0, none⟩ rfl rfl 1 rfl
    usualEnv usualEnv_standard (by
      rw [twoAtoms_pairs]
      intro e he
      rw [Finset.mem_singleton] at he
      subst he
      rw [eval_rat]
      simp [euclid]) _ _ hU (by
      intro c cs hw
      cases hw with
      | chain hm hw =>
        simp only [List.mem_cons, List.not_mem_nil, or_false] at hm
        rcases hm with rfl | rfl
        · cases hw
        · cases hw with
          | refl => rfl
          | kron hm hw =>
            simp only [List.mem_cons, List.not_mem_nil, or_false] at hm
            rcases hm with rfl | rfl <;> cases hw)
  exact ⟨e, _, h1, hU, h2⟩

end Qadence
