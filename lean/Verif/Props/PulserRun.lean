import Verif.Model.PulserRun
import Verif.Spec.GateSem
import Verif.Proofs.GateSem
import Mathlib.LinearAlgebra.Matrix.DotProduct
import Mathlib.Tactic

/-!
# C81: Calls of the Pulser backend and its expectation values
-/

namespace Qadence.PulserRun

open Qadence.Spec Matrix

variable {n : ℕ} {V C : Type}

/-! ## Wavefunctions -/

theorem flip_flip (ψ : St n → ℂ) : flip (flip ψ) = ψ := by
  funext x; simp [flip]

theorem flip2_flip2 (ρ : Oper n) : flip2 (flip2 ρ) = ρ := by
  funext x y; simp [flip2]

theorem invert_invert (ψ : St n → ℂ) : invert (invert ψ) = ψ := by
  funext x; simp [invert]

/-- A sequence which has neither been measured nor extended. -/
def Fresh (s : Seq) : Prop := s.measured = false ∧ s.channels = false

theorem prepare_some (c : Circuit) (w : World) (hw : Fresh w.native) (v : V) : prepare c w (some v) = (.ok (), w) := by
  obtain ⟨h1, h2⟩ := hw
  cases hp : c.pattern <;> simp [prepare, assign, addPattern, measure, writeBack, h1, h2, hp]

theorem prepare_some_world (c : Circuit) (w : World) (v : V) : (prepare c w (some v)).2 = w := by
  unfold prepare assign
  dsimp only
  split
  · rfl
  · split <;> rfl

theorem forEach_pure {α β : Type} (f : World → α → Except PyErr β × World) (g : α → β) (w : World) (l : List α)
    (h : ∀ a ∈ l, f w a = (.ok (g a), w)) : forEach f w l = (.ok (l.map g), w) := by
  induction l with
  | nil => rfl
  | cons a l ih =>
    have ha := h a (by simp)
    have := ih fun b hb => h b (by simp [hb])
    simp [forEach, ha, this]

theorem forEach_world {α β : Type} (f : World → α → Except PyErr β × World) (P : World → Prop) (l : List α)
    (h : ∀ w, P w → ∀ a ∈ l, P (f w a).2) (w : World) (hw : P w) : P (forEach f w l).2 := by
  induction l generalizing w with
  | nil => exact hw
  | cons a l ih =>
    have ha := h w hw a (by simp)
    unfold forEach
    split
    · rename_i heq; rw [heq] at ha; exact ha
    · rename_i w' heq
      rw [heq] at ha
      have := ih (fun w hw b hb => h w hw b (by simp [hb])) w' ha
      split <;> (rename_i heq2; rw [heq2] at this; exact this)

/-- **C81.** A run with values for the parameters, on a circuit whose sequence is fresh, gives one state per element of
the batch: the emulator's final state with 0 and 1 exchanged, from the initial state with 0 and 1 exchanged, under the
simulation settings of the backend; it changes neither the circuit nor the backend. -/
theorem C81_run (S : Sim n V C) (c : Circuit) (w : World) (hw : Fresh w.native) (hc : w.cloud = false) (vals : List V)
    (init : Option (St n → ℂ)) :
    run S c w (vals.map some) (init.map ([·])) .big =
      (.ok (vals.map fun v => flip (S.state (some v) c.pattern w.simConfig (init.map flip))), w) := by
  have h1 : ¬ (((init.map fun x => [x]).map List.length).getD 1 > 1) := by cases init <;> simp
  have h2 : (init.map fun x => [x]).bind List.head? = init := by cases init <;> rfl
  have := forEach_pure (runElement S c init)
    (fun v => flip (S.state v c.pattern w.simConfig (init.map flip))) w (vals.map some) (by
      intro a ha
      obtain ⟨v, _, rfl⟩ := List.mem_map.1 ha
      simp [runElement, prepare_some c w hw])
  unfold run
  rw [if_neg (by simp [hc]), if_neg h1, h2, this]
  simp [List.map_map, Function.comp_def]

/-- **C81.** If the emulator, in its own basis, evolves the state with the operator `U`, the run gives `U` applied to the
initial state: the two exchanges of 0 and 1 cancel. -/
theorem C81_run_evolution (S : Sim n V C) (c : Circuit) (w : World) (hw : Fresh w.native) (hc : w.cloud = false) (v : V)
    (ψ : St n → ℂ) (U : Oper n)
    (hS : ∀ φ, S.state (some v) c.pattern w.simConfig (some φ) = flip (U *ᵥ flip φ)) :
    run S c w [some v] (some [ψ]) .big = (.ok [U *ᵥ ψ], w) := by
  have := C81_run S c w hw hc [v] (some ψ)
  simp only [List.map_cons, List.map_nil, Option.map_some, hS, flip_flip] at this
  exact this

/-- **C81.** Runs in the other order of qubits give the same states, with the qubits of each basis state reversed. -/
theorem C81_run_little (S : Sim n V C) (c : Circuit) (w : World) (vals : List (Option V))
    (init : Option (List (St n → ℂ))) (l : List (St n → ℂ)) (w' : World) (h : run S c w vals init .big = (.ok l, w')) :
    run S c w vals init .little = (.ok (l.map invert), w') := by
  unfold run at h ⊢
  by_cases h1 : w.cloud = true
  · simp [h1] at h
  by_cases h2 : (init.map List.length).getD 1 > 1
  · simp [h1, h2] at h
  rw [if_neg h1, if_neg h2] at h ⊢
  split at h
  · simp at h
  · simp only [reduceCtorEq, if_false, if_true, Prod.mk.injEq, Except.ok.injEq] at h ⊢
    exact ⟨by rw [h.1], h.2⟩

/-! ## Sequences of calls -/

/-- A call with values for the parameters and without noise. -/
def WithValues : Op n V → Prop
  | .run vals _ _ => ∀ v ∈ vals, v ≠ none
  | .noisy _ _ _ _ => False
  | .sample vals _ _ _ => ∀ v ∈ vals, v ≠ none

theorem run_world (S : Sim n V C) (c : Circuit) (P : World → Prop) (vals : List (Option V))
    (h : ∀ w, P w → ∀ v ∈ vals, P (prepare c w v).2) (init en) (w : World) (hw : P w) :
    P (run S c w vals init en).2 := by
  have := forEach_world (runElement S c (init.bind List.head?)) P vals (by
    intro w hw v hv
    have := h w hw v hv
    unfold runElement
    split <;> (rename_i heq; rw [heq] at this; exact this)) w hw
  unfold run
  by_cases h1 : w.cloud = true
  · rw [if_pos h1]; exact hw
  by_cases h2 : (init.map List.length).getD 1 > 1
  · rw [if_neg h1, if_pos h2]; exact hw
  rw [if_neg h1, if_neg h2]
  split <;> (rename_i heq; rw [heq] at this; exact this)

theorem sample_world (S : Sim n V C) (c : Circuit) (P : World → Prop) (vals : List (Option V))
    (h : ∀ w, P w → ∀ v ∈ vals, P (prepare c w v).2) (init shots noise) (w : World) (hw : P w) :
    P (sample S c w vals init shots noise).2 := by
  have := forEach_world (sampleElement S c (init.bind List.head?) shots.toNat) P vals (by
    intro w hw v hv
    have := h w hw v hv
    unfold sampleElement
    split <;> (rename_i heq; rw [heq] at this; exact this)) w hw
  unfold sample
  split_ifs
  · exact hw
  · exact hw
  · exact this

/-- **C81.** Any sequence of runs and samples with values for the parameters, whether they succeed or fail, leaves the
circuit and the backend as they were: the next call gives what it would have given as the first one. -/
theorem C81_history (S : Sim n V C) (c : Circuit) (w : World) (ops : List (Op n V)) (h : ∀ o ∈ ops, WithValues o) :
    afterAll S c w ops = w := by
  induction ops with
  | nil => rfl
  | cons o ops ih =>
    have ho := h o (by simp)
    have hstep : after S c w o = w := by
      have hp : ∀ vals : List (Option V), (∀ v ∈ vals, v ≠ none) → ∀ w', w' = w → ∀ v ∈ vals, (prepare c w' v).2 = w := by
        rintro vals hv w' rfl v hm
        obtain ⟨u, rfl⟩ := Option.ne_none_iff_exists'.1 (hv v hm)
        exact prepare_some_world c w' u
      cases o with
      | run vals init en => exact run_world S c (· = w) vals (hp vals ho) init en w rfl
      | noisy => exact ho.elim
      | sample vals init shots noise => exact sample_world S c (· = w) vals (hp vals ho) init shots noise w rfl
    unfold afterAll
    rw [List.foldl_cons, hstep]
    exact ih fun o ho => h o (by simp [ho])

/-- **C81, defect.** Without values (a circuit without parameters, called on the backend with the empty dictionary) the
first run works on the circuit's own sequence and measures it; the second run of the same circuit raises. -/
theorem C81_counterexample_second_run (S : Sim n V C) (c : Circuit) (w : World) (hw : Fresh w.native)
    (hp : w.native.parametrized = false) (hc : w.cloud = false) :
    (∃ ψ, (run S c w [none] none .big).1 = .ok [ψ]) ∧
      (run S c (run S c w [none] none .big).2 [none] none .big).1 = .error .runtimeError := by
  obtain ⟨h1, h2⟩ := hw
  cases hpat : c.pattern <;>
    simp [run, forEach, runElement, prepare, assign, addPattern, measure, writeBack, h1, h2, hp, hc, hpat]

/-- **C81.** What the first run without values does to the circuit: its sequence is measured, and extended by the
channels of the addressing pattern if the device has one. -/
theorem C81_first_run (S : Sim n V C) (c : Circuit) (w : World) (hw : Fresh w.native)
    (hp : w.native.parametrized = false) (hc : w.cloud = false) :
    (run S c w [none] none .big).2 = { w with native := ⟨false, true, c.pattern⟩ } := by
  obtain ⟨h1, h2⟩ := hw
  obtain ⟨⟨p, m, ch⟩, sc, cl⟩ := w
  simp only at h1 h2 hp hc
  subst h1 h2 hp hc
  cases hpat : c.pattern <;> simp [run, forEach, runElement, prepare, assign, addPattern, measure, writeBack, hpat]

/-- **C81.** A circuit with parameters and no values is refused and stays as it is. -/
theorem C81_missing_values (S : Sim n V C) (c : Circuit) (w : World) (hp : w.native.parametrized = true)
    (hc : w.cloud = false) : run S c w [none] none .big = (.error .valueError, w) := by
  simp [run, forEach, runElement, prepare, assign, hp, hc]

theorem noisySim_config (S : Sim n V C) (proto : String) (vals : List (Option V)) (init : Option (St n → ℂ)) (w : World)
    (rate : ℝ) : (noisySim S proto vals init w rate).2 = { w with simConfig := some (proto, rate) } :=
  forEach_world (noisyElement S init) (· = { w with simConfig := some (proto, rate) }) vals (by
    rintro w' rfl v _
    unfold noisyElement
    split <;> rfl) _ rfl

theorem noisySim_ok (S : Sim n V C) (proto : String) (vals : List V) (init : Option (St n → ℂ)) (w : World) (rate : ℝ) :
    noisySim S proto (vals.map some) init w rate =
      (.ok (vals.map fun v => flip2 (S.density (some v) false (some (proto, rate)) init)),
        { w with simConfig := some (proto, rate) }) := by
  have := forEach_pure (noisyElement S init) (fun v => flip2 (S.density v false (some (proto, rate)) init))
    { w with simConfig := some (proto, rate) } (vals.map some) (by
      intro a ha
      obtain ⟨v, _, rfl⟩ := List.mem_map.1 ha
      simp [noisyElement, assign])
  rw [noisySim, this]
  simp [List.map_map, Function.comp_def]

/-- **C81.** A run with noise gives, for each rate, one density matrix per element of the batch; the initial state is not
exchanged, the pattern of the device is not applied, and the noise of the last rate stays in the configuration of the
backend. -/
theorem C81_noisy (S : Sim n V C) (w : World) (hc : w.cloud = false) (proto : String) (rates : List ℝ) (vals : List V)
    (init : Option (St n → ℂ)) :
    runNoisy S w proto rates (vals.map some) init =
      (.ok (rates.map fun r => vals.map fun v => flip2 (S.density (some v) false (some (proto, r)) init)),
        match rates.getLast? with
        | none => w
        | some r => { w with simConfig := some (proto, r) }) := by
  have key : ∀ w : World, forEach (noisySim S proto (vals.map some) init) w rates =
      (.ok (rates.map fun r => vals.map fun v => flip2 (S.density (some v) false (some (proto, r)) init)),
        match rates.getLast? with
        | none => w
        | some r => { w with simConfig := some (proto, r) }) := by
    induction rates with
    | nil => intro w; rfl
    | cons r rs ih =>
      intro w
      rw [forEach, noisySim_ok]
      dsimp only
      rw [ih]
      cases h : rs.getLast? with
      | none => simp_all
      | some q =>
        have : (r :: rs).getLast? = some q := by rw [List.getLast?_cons, h]; rfl
        simp [this]
  unfold runNoisy
  rw [if_neg (by simp [hc])]
  exact key w

/-- **C81, defect.** Once a run with noise has happened, no call takes the noise out of the backend's configuration. -/
theorem C81_counterexample_sticky_noise (S : Sim n V C) (c : Circuit) (w : World) (ops : List (Op n V))
    (h : w.simConfig ≠ none) : (afterAll S c w ops).simConfig ≠ none := by
  have hp : ∀ (w : World), w.simConfig ≠ none → ∀ v : Option V, (prepare c w v).2.simConfig ≠ none := by
    intro w hw v
    unfold prepare
    split
    · exact hw
    · split
      · exact hw
      · split <;> (cases v <;> exact hw)
  induction ops generalizing w with
  | nil => exact h
  | cons o ops ih =>
    unfold afterAll
    rw [List.foldl_cons]
    refine ih _ ?_
    cases o with
    | run vals init en =>
      exact run_world S c (fun w => w.simConfig ≠ none) vals (fun w hw v _ => hp w hw v) init en w h
    | sample vals init shots noise =>
      exact sample_world S c (fun w => w.simConfig ≠ none) vals (fun w hw v _ => hp w hw v) init shots noise w h
    | noisy proto rates vals init =>
      show (runNoisy S w proto rates vals init).2.simConfig ≠ none
      unfold runNoisy
      split_ifs
      · exact h
      · exact forEach_world _ (fun w => w.simConfig ≠ none) rates (by
          intro w _ r _
          rw [noisySim_config]
          simp) w h

/-- **C81, defect.** A run without noise after a run with noise is simulated with the noise: its result is not the one
of the same run before. -/
theorem C81_counterexample_noiseless_after_noisy (S : Sim n V C) (c : Circuit) (w : World) (hw : Fresh w.native)
    (hc : w.cloud = false) (proto : String) (r : ℝ) (v u : V) (init : Option (St n → ℂ)) :
    (run S c (after S c w (.noisy proto [r] [some u] init)) [some v] none .big).1 =
      .ok [flip (S.state (some v) c.pattern (some (proto, r)) none)] := by
  have h := C81_noisy S w hc proto [r] [u] init
  simp only [List.map_cons, List.map_nil, List.getLast?_singleton] at h
  have hr := C81_run S c { w with simConfig := some (proto, r) } hw hc [v] none
  simp only [after, h]
  simpa using congrArg Prod.fst hr

/-- **C81, defect.** With noise the initial state is handed over as it is: if the emulator evolves with `U` in its own
basis, the density matrix is the one of the initial state with 0 and 1 exchanged. -/
theorem C81_counterexample_noisy_initial (S : Sim n V C) (w : World) (hc : w.cloud = false) (proto : String) (r : ℝ) (v : V)
    (ψ : St n → ℂ) (U : Oper n)
    (hS : ∀ φ, S.density (some v) false (some (proto, r)) (some φ) =
      Matrix.vecMulVec (flip (U *ᵥ flip φ)) (star (flip (U *ᵥ flip φ)))) :
    (runNoisy S w proto [r] [some v] (some ψ)).1 =
      .ok [[Matrix.vecMulVec (U *ᵥ flip ψ) (star (U *ᵥ flip ψ))]] := by
  have h := C81_noisy S w hc proto [r] [v] (some ψ)
  simp only [List.map_cons, List.map_nil, hS] at h
  rw [h]
  simp only [Except.ok.injEq, List.cons.injEq, and_true]
  funext x y
  simp [flip2, flip, Matrix.vecMulVec_apply]

/-- **C81.** The argument `noise` of `sample` has no effect on the samples. -/
theorem C81_sample_noise (S : Sim n V C) (c : Circuit) (w : World) (vals : List (Option V)) (init) (shots : ℤ)
    (a b : Option String) : sample S c w vals init shots a = sample S c w vals init shots b := rfl

/-- **C81.** Samples with values: one per element, under the settings of the backend. -/
theorem C81_sample (S : Sim n V C) (c : Circuit) (w : World) (hw : Fresh w.native) (vals : List V)
    (init : Option (St n → ℂ)) (shots : ℤ) (hs : 1 ≤ shots) (noise : Option String) :
    sample S c w (vals.map some) (init.map ([·])) shots noise =
      (.ok (vals.map fun v => S.sample (some v) c.pattern w.simConfig (init.map flip) shots.toNat), w) := by
  have h1 : ¬ (((init.map fun x => [x]).map List.length).getD 1 > 1) := by cases init <;> simp
  have h2 : (init.map fun x => [x]).bind List.head? = init := by cases init <;> rfl
  have := forEach_pure (sampleElement S c init shots.toNat)
    (fun v => S.sample v c.pattern w.simConfig (init.map flip) shots.toNat) w (vals.map some) (by
      intro a ha
      obtain ⟨v, _, rfl⟩ := List.mem_map.1 ha
      simp [sampleElement, prepare_some c w hw])
  unfold sample
  rw [if_neg (by omega), if_neg h1, h2, this]
  simp [List.map_map, Function.comp_def]

/-- **C81.** What is refused: cloud credentials for runs, no shots, several initial states. -/
theorem C81_refused (S : Sim n V C) (c : Circuit) (w : World) (vals : List (Option V)) (init) (en : Endian) (shots : ℤ)
    (noise : Option String) (a b : St n → ℂ) (l : List (St n → ℂ)) :
    (w.cloud = true → run S c w vals init en = (.error .valueError, w)) ∧
    (shots ≤ 0 → sample S c w vals init shots noise = (.error .valueError, w)) ∧
    run S c w vals (some (a :: b :: l)) en = (.error .valueError, w) ∧
    sample S c w vals (some (a :: b :: l)) shots noise = (.error .valueError, w) := by
  refine ⟨fun h => by simp [run, h], fun h => by simp [sample, show shots < 1 by omega], ?_, ?_⟩
  · simp [run]
  · simp [sample]

/-! ## Expectation values -/

/-- The expectation value of `M` in the state `ψ`. -/
noncomputable def trueValue (M : Oper n) (ψ : St n → ℂ) : ℂ := star ψ ⬝ᵥ (M *ᵥ ψ)

/-- **C81.** What is computed for a state is the expectation value of the transpose of the observable. -/
theorem C81_value_transpose (M : Oper n) (ψ : St n → ℂ) : obsState M ψ = trueValue Mᵀ ψ := by
  simp only [obsState, trueValue, dotProduct, mulVec, transpose_apply, Pi.star_apply]
  refine Finset.sum_congr rfl fun y _ => ?_
  rw [mul_comm]
  congr 1
  exact Finset.sum_congr rfl fun x _ => mul_comm _ _

/-- **C81.** It is the expectation value for symmetric observables. -/
theorem C81_value_symmetric (M : Oper n) (h : Mᵀ = M) (ψ : St n → ℂ) : obsState M ψ = trueValue M ψ := by
  rw [C81_value_transpose, h]

/-- **C81.** It is the expectation value for all observables in states with real amplitudes. -/
theorem C81_value_real_state (M : Oper n) (ψ : St n → ℂ) (h : star ψ = ψ) :
    obsState M ψ = trueValue M ψ := by
  simp only [obsState, trueValue, dotProduct, mulVec]
  have hs : ∀ x, (starRingEnd ℂ) (ψ x) = ψ x := fun x => congrFun h x
  simp only [h, hs, Finset.sum_mul, Finset.mul_sum]
  rw [Finset.sum_comm]
  refine Finset.sum_congr rfl fun y _ => Finset.sum_congr rfl fun x _ => by ring

/-- The entrywise conjugate. -/
noncomputable def conjM (M : Oper n) : Oper n := M.map (starRingEnd ℂ)

/-- **C81.** The real part is the one of the expectation value of the entrywise conjugate, for every observable. -/
theorem C81_value_conj (M : Oper n) (ψ : St n → ℂ) : (obsState M ψ).re = (trueValue (conjM M) ψ).re := by
  have : obsState M ψ = (starRingEnd ℂ) (trueValue (conjM M) ψ) := by
    simp only [obsState, trueValue, dotProduct, mulVec, conjM, Matrix.map_apply, map_sum, map_mul, Pi.star_apply,
      RCLike.star_def, Complex.conj_conj, Finset.sum_mul, Finset.mul_sum]
    rw [Finset.sum_comm]
    refine Finset.sum_congr rfl fun y _ => Finset.sum_congr rfl fun x _ => by ring
  rw [this, Complex.conj_re]

theorem conjM_mul (A B : Oper n) : conjM (A * B) = conjM A * conjM B := by
  ext x y; simp [conjM, Matrix.mul_apply]

theorem conjM_one : conjM (1 : Oper n) = 1 := by
  ext x y; by_cases h : x = y <;> simp [conjM, Matrix.one_apply, h]

theorem conjM_add (A B : Oper n) : conjM (A + B) = conjM A + conjM B := by
  ext x y; simp [conjM]

theorem conjM_zero : conjM (0 : Oper n) = 0 := by
  ext x y; simp [conjM]

theorem conjM_smul (c : ℂ) (hc : c.im = 0) (A : Oper n) : conjM (c • A) = c • conjM A := by
  ext x y; simp [conjM, Complex.conj_eq_iff_im.2 hc]

theorem conjM_embed1 (q : ℕ) (U : Matrix Bool Bool ℂ) :
    conjM (embed1 q U : Oper n) = embed1 q (U.map (starRingEnd ℂ)) := by
  ext x y
  simp only [conjM, Matrix.map_apply, embed1]
  split_ifs <;> simp

theorem conj_Y : (mat1 .Y).map (starRingEnd ℂ) = -mat1 .Y := by
  ext a b
  rw [Matrix.map_apply, Matrix.neg_apply]
  cases a <;> cases b <;> simp [mat1]

/-- Gates with real matrices. -/
def RealGate : FixedGate → Prop
  | .I | .X | .Z | .H | .Zero | .N _ => True
  | _ => False

theorem conj_real (g : FixedGate) (h : RealGate g) : (mat1 g).map (starRingEnd ℂ) = mat1 g := by
  ext a b
  rw [Matrix.map_apply]
  cases g <;> simp only [RealGate] at h <;> cases a <;> cases b <;>
    simp [mat1, ind]

mutual
/-- Observables made of Pauli gates (and H, N) with real coefficients. -/
def PauliObs (ρ : Env) : Block Gate → Prop
  | .leaf (.fixed g _) _ => g = .Y ∨ RealGate g
  | .leaf _ _ => False
  | .scale b s _ => (eval ρ s).im = 0 ∧ PauliObs ρ b
  | .comp _ bs _ => PauliObsList ρ bs
/-- The same for all elements. -/
def PauliObsList (ρ : Env) : List (Block Gate) → Prop
  | [] => True
  | b :: bs => PauliObs ρ b ∧ PauliObsList ρ bs
end

mutual
/-- The block with -Y in place of every Y. -/
def negY : Block Gate → Block Gate
  | .leaf (.fixed .Y q) t => .scale (.leaf (.fixed .Y q) t) (.num (-1) 0) none
  | .leaf g t => .leaf g t
  | .scale b s t => .scale (negY b) s t
  | .comp k bs t => .comp k (negYList bs) t
/-- The same for all elements. -/
def negYList : List (Block Gate) → List (Block Gate)
  | [] => []
  | b :: bs => negY b :: negYList bs
end

theorem conjM_opProd (l : List (Oper n)) : conjM (opProd l) = opProd (l.map conjM) := by
  induction l with
  | nil => exact conjM_one
  | cons a l ih => simp [opProd, conjM_mul, ih]

theorem conjM_sum (l : List (Oper n)) : conjM l.sum = (l.map conjM).sum := by
  induction l with
  | nil => exact conjM_zero
  | cons a l ih => simp [conjM_add, ih]

mutual
theorem conjM_sem (S : LeafSem Gate n) (ρ : Env) (hS : ∀ g q, S.den (.fixed g q) = embed1 q (mat1 g)) :
    (b : Block Gate) → PauliObs ρ b → conjM (sem S ρ b) = sem S ρ (negY b)
  | .leaf (.fixed g q) t, h => by
    rcases h with rfl | h
    · simp only [negY, sem, hS, conjM_embed1, conj_Y, eval]
      ext x y
      simp only [Matrix.smul_apply, smul_eq_mul, embed1]
      split_ifs <;> simp [Complex.ext_iff]
    · have : negY (.leaf (.fixed g q) t) = .leaf (.fixed g q) t := by
        cases g <;> first | rfl | exact h.elim
      rw [this]
      simp only [sem, hS, conjM_embed1, conj_real g h]
  | .leaf (.rot ..) _, h => h.elim
  | .leaf (.u ..) _, h => h.elim
  | .leaf (.swap ..) _, h => h.elim
  | .leaf (.proj ..) _, h => h.elim
  | .leaf (.matrix ..) _, h => h.elim
  | .leaf (.control ..) _, h => h.elim
  | .scale b s t, h => by
    rw [negY, sem, sem, conjM_smul _ h.1, conjM_sem S ρ hS b h.2]
  | .comp .chain bs t, h => by
    rw [negY, sem, sem, conjM_opProd, conjM_semList S ρ hS bs h]
  | .comp .kron bs t, h => by
    rw [negY, sem, sem, conjM_opProd, conjM_semList S ρ hS bs h]
  | .comp .add bs t, h => by
    rw [negY, sem, sem, conjM_sum, conjM_semList S ρ hS bs h]
theorem conjM_semList (S : LeafSem Gate n) (ρ : Env) (hS : ∀ g q, S.den (.fixed g q) = embed1 q (mat1 g)) :
    (bs : List (Block Gate)) → PauliObsList ρ bs → (semList S ρ bs).map conjM = semList S ρ (negYList bs)
  | [], _ => rfl
  | b :: bs, h => by
    rw [negYList, semList, semList, List.map_cons, conjM_sem S ρ hS b h.1, conjM_semList S ρ hS bs h.2]
end

/-- **C81.** For every observable made of Pauli gates with real coefficients, the value computed is the expectation value
of the observable with -Y in place of each Y: right for terms with an even number of Y, of the opposite sign for the
others. -/
theorem C81_value_block (S : LeafSem Gate n) (ρ : Env) (hS : ∀ g q, S.den (.fixed g q) = embed1 q (mat1 g))
    (b : Block Gate) (hb : PauliObs ρ b) (ψ : St n → ℂ) :
    (obsState (sem S ρ b) ψ).re = (trueValue (sem S ρ (negY b)) ψ).re := by
  rw [C81_value_conj, conjM_sem S ρ hS b hb]

/-- **C81, defect.** The expectation value of Y on any qubit of any register has the opposite sign in every state. -/
theorem C81_counterexample_Y (q : ℕ) (ψ : St n → ℂ) :
    (obsState (embed1 q (mat1 .Y)) ψ).re = -(trueValue (embed1 q (mat1 .Y)) ψ).re := by
  have h : conjM (embed1 q (mat1 .Y) : Oper n) = -embed1 q (mat1 .Y) := by
    rw [conjM_embed1, conj_Y]
    ext x y
    simp only [Matrix.neg_apply, embed1]
    split_ifs <;> simp
  rw [C81_value_conj, h, trueValue, trueValue, neg_mulVec, dotProduct_neg, Complex.neg_re]

/-- **C81.** With noise the value is the right one, so that the two paths differ: for a pure state it is the expectation
value. -/
theorem C81_value_density (M : Oper n) (ψ : St n → ℂ) : obsDensity M (vecMulVec ψ (star ψ)) = trueValue M ψ := by
  simp only [obsDensity, trueValue, Matrix.trace, Matrix.diag_apply, Matrix.mul_apply, vecMulVec_apply, dotProduct, mulVec,
    Finset.mul_sum, Pi.star_apply]
  refine Finset.sum_congr rfl fun x _ => Finset.sum_congr rfl fun y _ => by ring

/-- **C81.** `expectation` gives a row per element of the batch with an entry per observable. -/
theorem C81_expectation (S : Sim n V C) (c : Circuit) (w : World) (hw : Fresh w.native) (hc : w.cloud = false)
    (vals : List V) (init : Option (St n → ℂ)) (obs : List (Oper n)) :
    expectation S c w (vals.map some) (init.map ([·])) .big obs =
      (.ok (vals.map fun v => obs.map fun M =>
        (trueValue Mᵀ (flip (S.state (some v) c.pattern w.simConfig (init.map flip)))).re), w) := by
  unfold expectation
  rw [C81_run S c w hw hc]
  simp [C81_value_transpose]

/-- **C81, defect.** In the other order of qubits the states are reversed and the observables are not: the value of an
observable is the one of the observable on the reversed qubits. -/
theorem C81_counterexample_little (S : Sim n V C) (c : Circuit) (w : World) (hw : Fresh w.native) (hc : w.cloud = false)
    (v : V) (M : Oper n) :
    (expectation S c w [some v] none .little [M]).1 =
      .ok [[(trueValue (M.submatrix (fun x j => x j.rev) fun x j => x j.rev)ᵀ
        (flip (S.state (some v) c.pattern w.simConfig none))).re]] := by
  have h := C81_run_little S c w [some v] none _ _ (C81_run S c w hw hc [v] none)
  have h' : run S c w [some v] none .little =
      (.ok [invert (flip (S.state (some v) c.pattern w.simConfig none))], w) := by simpa using h
  unfold expectation
  rw [h']
  simp only [List.map_cons, List.map_nil, Except.ok.injEq, List.cons.injEq, and_true]
  rw [C81_value_transpose]
  congr 1
  generalize flip (S.state (some v) c.pattern w.simConfig none) = ψ
  have hinv : Function.Involutive (fun (x : St n) (j : Fin n) => x j.rev) := fun x => by funext j; simp
  simp only [trueValue, dotProduct, mulVec, transpose_apply, submatrix_apply, Pi.star_apply]
  refine Fintype.sum_equiv (hinv.toPerm _) _ _ fun x => ?_
  have hx : ∀ (x : St n), (fun j : Fin n => (hinv.toPerm _ x : St n) j.rev) = x := fun x => by
    funext j
    show x j.rev.rev = x j
    rw [Fin.rev_rev]
  rw [hx]
  congr 1
  refine Fintype.sum_equiv (hinv.toPerm _) _ _ fun y => ?_
  rw [hx]
  rfl

/-! ## Instances -/

/-- (|0⟩ + i|1⟩)/√2 without the norm: Y has the value 2 = ⟨ψ|ψ⟩, the backend computes -2. -/
example : obsState (embed1 0 (mat1 .Y)) (fun x : St 1 => if x 0 then Complex.I else 1) = -2 := by
  rw [C81_value_transpose]
  simp only [trueValue, dotProduct, mulVec, transpose_apply, Pi.star_apply]
  rw [Fintype.sum_equiv (Equiv.funUnique (Fin 1) Bool) _ (fun b => star (if b then Complex.I else 1) *
    ∑ a : Bool, (mat1 .Y) a b * (if a then Complex.I else 1))]
  · simp [mat1]; norm_num
  · intro x
    congr 1

/-- The hypotheses hold for a circuit as converted. -/
example : Fresh (World.mk { parametrized := true } none false).native := ⟨rfl, rfl⟩

/-- Z + 2 Y⊗Y is an observable of the theorem; its terms have an even number of Y. -/
example (ρ : Env) : PauliObs ρ (.comp .add [.leaf (.fixed .Z 0) none,
    .scale (.comp .kron [.leaf (.fixed .Y 0) none, .leaf (.fixed .Y 1) none] none) (.num 2 0) none] none) := by
  simp [PauliObs, PauliObsList, RealGate, eval]

end Qadence.PulserRun
