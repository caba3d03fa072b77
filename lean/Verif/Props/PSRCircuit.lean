import Verif.Proofs.Circuit
import Verif.Props.PSR
import Verif.Props.Padding
import Verif.Props.Dagger

/-!
# Parameter-shift rules on circuits (C61)
-/

namespace Qadence.PSR

open Real Qadence.Spec Matrix

variable {ι : Type} {n : ℕ}

/-! ### Gaps of the declared spectra -/

theorem spectralGaps_pairwise (l : List ℝ) : (spectralGaps l).Pairwise (· < ·) := by
  classical
  unfold spectralGaps
  exact List.Pairwise.filter _ (Finset.sortedLT_sort _).pairwise

theorem spectralGaps_eq {l L : List ℝ} (hL : L.Pairwise (· < ·)) (h : ∀ g, g ∈ spectralGaps l ↔ g ∈ L) :
    spectralGaps l = L := by
  have n1 : (spectralGaps l).Nodup := (spectralGaps_pairwise l).imp fun h => ne_of_lt h
  have n2 : L.Nodup := hL.imp fun h => ne_of_lt h
  exact List.Perm.eq_of_pairwise (le := (· < ·)) (fun a b _ _ h1 h2 => absurd h2 (not_lt.2 h1.le))
    (spectralGaps_pairwise l) hL ((List.perm_ext_iff_of_nodup n1 n2).2 h)

theorem mem_spectralGaps_grid {l : List ℝ} (hl : ∀ a ∈ l, ∀ b ∈ l, OnGrid (a - b)) {g : ℝ} :
    g ∈ spectralGaps l ↔ ∃ a ∈ l, ∃ b ∈ l, a ≠ b ∧ g = |a - b| := by
  constructor
  · intro h
    obtain ⟨h0, d, hd, rfl⟩ := mem_spectralGaps.1 h
    obtain ⟨a, ha, b, hb, rfl⟩ := mem_differences hd
    rw [round4_grid (hl a ha b hb)] at h0 ⊢
    exact ⟨a, ha, b, hb, sub_ne_zero.1 (abs_pos.1 h0), rfl⟩
  · rintro ⟨a, ha, b, hb, hab, rfl⟩
    exact gaps_complete hl ha hb hab

theorem onGrid_int (z : ℤ) : OnGrid z := ⟨z * 10 ^ 4, by push_cast; ring⟩

theorem onGrid_sub {a b : ℝ} (ha : OnGrid a) (hb : OnGrid b) : OnGrid (a - b) := by
  obtain ⟨x, hx⟩ := ha
  obtain ⟨y, hy⟩ := hb
  exact ⟨x - y, by push_cast; rw [← hx, ← hy]; ring⟩

theorem onGrid_of_int {l : List ℝ} (h : ∀ a ∈ l, ∃ z : ℤ, a = z) : ∀ a ∈ l, ∀ b ∈ l, OnGrid (a - b) := by
  intro a ha b hb
  obtain ⟨x, rfl⟩ := h a ha
  obtain ⟨y, rfl⟩ := h b hb
  exact onGrid_sub (onGrid_int x) (onGrid_int y)

/-- Two eigenvalues. -/
theorem gaps_two {l : List ℝ} {a b : ℝ} (hab : a < b) (hz : (∃ z : ℤ, a = z) ∧ ∃ z : ℤ, b = z)
    (h : ∀ x, x ∈ l ↔ x = a ∨ x = b) : spectralGaps l = [b - a] := by
  apply spectralGaps_eq (List.pairwise_singleton _ _)
  intro g
  rw [mem_spectralGaps_grid (onGrid_of_int fun x hx => by
    rcases (h x).1 hx with rfl | rfl
    · exact hz.1
    · exact hz.2), List.mem_singleton]
  constructor
  · rintro ⟨x, hx, y, hy, hxy, rfl⟩
    rcases (h x).1 hx with rfl | rfl <;> rcases (h y).1 hy with rfl | rfl
    · exact absurd rfl hxy
    · rw [abs_sub_comm, abs_of_pos (by linarith)]
    · rw [abs_of_pos (by linarith)]
    · exact absurd rfl hxy
  · rintro rfl
    exact ⟨b, (h b).2 (.inr rfl), a, (h a).2 (.inl rfl), hab.ne', by rw [abs_of_pos (by linarith)]⟩

theorem gaps_three {l : List ℝ} (h : ∀ x, x ∈ l ↔ x = 0 ∨ x = 1 ∨ x = -1) : spectralGaps l = [1, 2] := by
  apply spectralGaps_eq (by simp)
  intro g
  rw [mem_spectralGaps_grid (onGrid_of_int fun x hx => by
    rcases (h x).1 hx with rfl | rfl | rfl
    · exact ⟨0, by simp⟩
    · exact ⟨1, by simp⟩
    · exact ⟨-1, by simp⟩)]
  simp only [List.mem_cons, List.not_mem_nil, or_false]
  constructor
  · rintro ⟨x, hx, y, hy, hxy, rfl⟩
    rcases (h x).1 hx with rfl | rfl | rfl <;> rcases (h y).1 hy with rfl | rfl | rfl <;>
      first | exact absurd rfl hxy | norm_num
  · rintro (rfl | rfl)
    · exact ⟨1, (h _).2 (.inr (.inl rfl)), 0, (h _).2 (.inl rfl), by norm_num, by norm_num⟩
    · exact ⟨1, (h _).2 (.inr (.inl rfl)), -1, (h _).2 (.inr (.inr rfl)), by norm_num, by norm_num⟩

theorem solvable_two : Solvable [2] 0.5 := by
  rw [Solvable, if_pos (show [(2 : ℝ)].length = 1 from rfl)]
  have e : (2 : ℝ) * (0.5 * (π / 2)) / 2 = π / 4 := by ring
  rw [List.headD_cons, e, sin_pi_div_four]
  positivity

theorem solvable_one_two : Solvable [1, 2] 0.5 := by
  rw [Solvable, if_neg (show ¬[(1 : ℝ), 2].length = 1 by decide)]
  refine ⟨by simp, ?_⟩
  rw [isUnit_iff_ne_zero]
  set M := shiftMatrix (fun i : Fin [(1 : ℝ), 2].length => [(1 : ℝ), 2][i]) (manualShifts 0.5 [(1 : ℝ), 2].length) with hM
  have hdet : M.det = M 0 0 * M 1 1 - M 0 1 * M 1 0 := Matrix.det_fin_two M
  have hpi := pi_pos
  have m00 : M 0 0 = 4 * sin (π / 16) := by
    simp only [hM, shiftMatrix, Matrix.of_apply, manualShifts, linspace]
    congr 2
    simp
    ring
  have m01 : M 0 1 = 4 * sin (2 * (π / 16)) := by
    simp only [hM, shiftMatrix, Matrix.of_apply, manualShifts, linspace]
    congr 2
    simp
    ring
  have m10 : M 1 0 = 4 * sin (7 * π / 40) := by
    simp only [hM, shiftMatrix, Matrix.of_apply, manualShifts, linspace]
    congr 2
    simp
    ring
  have m11 : M 1 1 = 4 * sin (2 * (7 * π / 40)) := by
    simp only [hM, shiftMatrix, Matrix.of_apply, manualShifts, linspace]
    congr 2
    simp
    ring
  have s1 : 0 < sin (π / 16) := sin_pos_of_pos_of_lt_pi (by positivity) (by linarith)
  have s2 : 0 < sin (7 * π / 40) := sin_pos_of_pos_of_lt_pi (by positivity) (by linarith)
  have c : cos (7 * π / 40) < cos (π / 16) := cos_lt_cos_of_nonneg_of_le_pi (by positivity) (by linarith) (by linarith)
  rw [hdet, m00, m01, m10, m11, sin_two_mul, sin_two_mul]
  have e : 4 * sin (π / 16) * (4 * (2 * sin (7 * π / 40) * cos (7 * π / 40))) -
      4 * (2 * sin (π / 16) * cos (π / 16)) * (4 * sin (7 * π / 40)) =
      -(32 * sin (π / 16) * sin (7 * π / 40) * (cos (π / 16) - cos (7 * π / 40))) := by ring
  rw [e]
  apply neg_ne_zero.2
  have : 0 < cos (π / 16) - cos (7 * π / 40) := by linarith
  positivity

/-! ### Circuits -/

/-- Gates which depend on the parameter `u` through one of their arguments. -/
inductive GateOf (u : String) : Gate → Prop
  | rot (g : RotGate) (q : ℕ) : GateOf u (.rot g q (.var u))
  | uPhi (q : ℕ) (θ ω : Expr) : u ∉ θ.freeSymbols → u ∉ ω.freeSymbols → GateOf u (.u q (.var u) θ ω)
  | uTheta (q : ℕ) (φ ω : Expr) : u ∉ φ.freeSymbols → u ∉ ω.freeSymbols → GateOf u (.u q φ (.var u) ω)
  | uOmega (q : ℕ) (φ θ : Expr) : u ∉ φ.freeSymbols → u ∉ θ.freeSymbols → GateOf u (.u q φ θ (.var u))
  | control (cls : CtrlClass) (cs : List ℕ) (g : RotGate) (q : ℕ) : cs ≠ [] → q ∉ cs →
      GateOf u (.control cls cs (.rot g q (.var u)))

/-- The environment given by the values of the parameters. -/
def envOf (fn : String → ℂ → ℂ) (p : Params) : Env where
  var y := ((PyDict.get? p y).getD 0 : ℝ)
  fn := fn

theorem envOf_set (fn : String → ℂ → ℂ) (p : Params) (u : String) (x : ℝ) :
    envOf fn (PyDict.set p u x) = (envOf fn p).set u x := by
  unfold envOf Env.set
  congr 1
  funext y
  rw [PyDict.get?_set]
  by_cases h : y = u
  · subst h
    simp
  · simp [Function.update_of_ne h, Ne.symm h]

/-- Expectation values of observables in the state prepared by a circuit, as a function of the parameters. -/
noncomputable def circuitExp (fn : String → ℂ → ℂ) {ord : List ℕ → List ℕ} (ho : Block.SetOrder ord) (O : ι → Oper n)
    (ψ : St n → ℂ) (b : Block Prim) (p : Params) : ι → ℝ :=
  fun i => expVal (O i) ψ (sem (primSem n (envOf fn p) ord ho) (envOf fn p) b)

theorem circuit_rule {G : Set ℝ} {R : ExpFn ι → Params → String → Except PyErr (ι → ℝ)} (hR : Rule G R)
    (fn : String → ℂ → ℂ) {ord : List ℕ → List ℕ} (ho : Block.SetOrder ord) (O : ι → Oper n) (ψ : St n → ℂ)
    {b : Block Prim} {u : String} {l : Prim} (hb : OnlyIn u l b) {p : Params} {v : ℝ} (hv : PyDict.get? p u = some v)
    {S : Set ℝ} (hS : Spectral S fun x => (primDen ((envOf fn p).set u x) l : Oper n))
    (hG : ∀ a ∈ S, ∀ b ∈ S, a ≠ b → |a - b| ∈ G) :
    ∃ d, R (fun p => .ok (circuitExp fn ho O ψ b p)) p u = .ok d ∧
      ∀ i, HasDerivAt (fun x => circuitExp fn ho O ψ b (PyDict.set p u x) i) (d i) v := by
  refine hR.exact hv (fun x => rfl) fun i => ?_
  obtain ⟨A, B, h⟩ := sem_hole (n := n) ho hb (envOf fn p)
  have e : (fun x : ℝ => circuitExp fn ho O ψ b (PyDict.set p u x) i) =
      fun x : ℝ => expVal (O i) ψ (A * primDen ((envOf fn p).set u x) l * B) := by
    funext x
    rw [circuitExp, envOf_set, h]
  rw [e]
  exact trig_of_spectral hS hG A B (O i) ψ

/-- Distances of the eigenvalues of the generator of a gate are gaps of the declared spectrum, for which the default
shifts can be used. -/
theorem gate_spectral {u : String} {g : Gate} (hg : GateOf u g) (ρ : Env) : ∃ S : Set ℝ,
    Spectral S (fun x : ℝ => (gateDen (ρ.set u x) g : Oper n)) ∧
    (∀ a ∈ S, ∀ b ∈ S, a ≠ b → |a - b| ∈ spectralGaps (gateSpectrum g)) ∧ Solvable (spectralGaps (gateSpectrum g)) 0.5 := by
  have two : ∀ S : Set ℝ, S = {1, -1} ∨ S = {0, -2} → ∀ a ∈ S, ∀ b ∈ S, a ≠ b → |a - b| ∈ [(2 : ℝ)] := by
    rintro S (rfl | rfl) a (rfl | rfl) b (rfl | rfl) h <;>
      first | exact absurd rfl h | norm_num
  have pm : spectralGaps [-1, 1] = [2] := by
    rw [gaps_two (a := -1) (b := 1) (by norm_num) ⟨⟨-1, by simp⟩, ⟨1, by simp⟩⟩ (by simp)]
    norm_num
  have zt : spectralGaps [0, 2] = [2] := by
    rw [gaps_two (a := 0) (b := 2) (by norm_num) ⟨⟨0, by simp⟩, ⟨2, by simp⟩⟩ (by simp)]
    norm_num
  cases hg with
  | rot g q =>
    refine ⟨{(rotEigs g).1, (rotEigs g).2}, ?_, ?_⟩
    · have h := embed1_rot_spectral (n := n) q g 1 1
      simpa only [gateDen, eval_set_self, one_mul, mul_one] using h
    · have e : spectralGaps (gateSpectrum (.rot g q (.var u))) = [2] := by cases g <;> first | exact pm | exact zt
      rw [e]
      refine ⟨two _ ?_, solvable_two⟩
      cases g <;> simp [rotEigs]
  | uPhi q θ ω h1 h2 =>
    refine ⟨{(rotEigs .RZ).1, (rotEigs .RZ).2}, ?_, ?_⟩
    · have h := embed1_rot_spectral (n := n) q .RZ (matRot (eval ρ ω) .RZ * matRot (eval ρ θ) .RY) 1
      simpa only [gateDen, eval_set_self, eval_set _ h1, eval_set _ h2, mul_one] using h
    · rw [show gateSpectrum (.u q (.var u) θ ω) = [-1, 1] from rfl, pm]
      exact ⟨two _ (.inl rfl), solvable_two⟩
  | uTheta q φ ω h1 h2 =>
    refine ⟨{(rotEigs .RY).1, (rotEigs .RY).2}, ?_, ?_⟩
    · have h := embed1_rot_spectral (n := n) q .RY (matRot (eval ρ ω) .RZ) (matRot (eval ρ φ) .RZ)
      simpa only [gateDen, eval_set_self, eval_set _ h1, eval_set _ h2] using h
    · rw [show gateSpectrum (.u q φ (.var u) ω) = [-1, 1] from rfl, pm]
      exact ⟨two _ (.inl rfl), solvable_two⟩
  | uOmega q φ θ h1 h2 =>
    refine ⟨{(rotEigs .RZ).1, (rotEigs .RZ).2}, ?_, ?_⟩
    · have h := embed1_rot_spectral (n := n) q .RZ 1 (matRot (eval ρ θ) .RY * matRot (eval ρ φ) .RZ)
      simpa only [gateDen, eval_set_self, eval_set _ h1, eval_set _ h2, one_mul, Matrix.mul_assoc] using h
    · rw [show gateSpectrum (.u q φ θ (.var u)) = [-1, 1] from rfl, pm]
      exact ⟨two _ (.inl rfl), solvable_two⟩
  | control cls cs g q h1 h2 =>
    have hlen : 1 ≤ cs.length := List.length_pos_iff.2 h1
    have h4 : 2 ^ 2 ≤ 2 ^ (cs.length + 1) := Nat.pow_le_pow_right (by decide) (by omega)
    refine ⟨insert 0 {(rotEigs g).1, (rotEigs g).2}, ?_, ?_⟩
    · have h := embed1_rot_spectral (n := n) q g 1 1
      simp only [one_mul, mul_one] at h
      have := controlled_spectral h (T := {q}) (fun x => embed1_actsOn q _) (cs := cs)
        (fun c hc hq => h2 (by rw [Set.mem_singleton_iff] at hq; exact hq ▸ hc))
      simpa only [gateDen, eval_set_self] using this
    · by_cases hp : g = .PHASE
      · subst hp
        have e : spectralGaps (gateSpectrum (.control cls cs (.rot .PHASE q (.var u)))) = [2] := by
          rw [gaps_two (a := -2) (b := 0) (by norm_num) ⟨⟨-2, by simp⟩, ⟨0, by simp⟩⟩]
          · norm_num
          · intro x
            simp only [gateSpectrum, List.mem_append, List.mem_cons, List.mem_replicate, List.not_mem_nil, or_false]
            tauto
        rw [e]
        refine ⟨?_, solvable_two⟩
        rw [show rotEigs .PHASE = (0, -2) from rfl, Set.insert_eq_of_mem (by simp)]
        exact two _ (.inr rfl)
      · have e : spectralGaps (gateSpectrum (.control cls cs (.rot g q (.var u)))) = [1, 2] := by
          apply gaps_three
          intro x
          have hne : 2 ^ (cs.length + 1) - 2 ≠ 0 := by omega
          cases g <;> first | exact absurd rfl hp | skip
          all_goals
            simp only [gateSpectrum, List.mem_append, List.mem_cons, List.mem_replicate, List.not_mem_nil, or_false, hne,
              ne_eq, not_false_eq_true, true_and]
        rw [e]
        refine ⟨?_, solvable_one_two⟩
        have : rotEigs g = (1, -1) := by
          cases g <;> first | rfl | exact absurd rfl hp
        rw [this]
        rintro a (rfl | rfl | rfl) b (rfl | rfl | rfl) h <;>
          first | exact absurd rfl h | norm_num

/-- **C61** For a circuit in which a parameter is the angle of one rotation, controlled rotation or `U` gate, the
parameter-shift rule used for this gate with default settings returns the derivatives of the expectation values of all
observables, for any state before the circuit and any values of the other parameters. -/
theorem C61_gates (optimal : (gaps : List ℝ) → Fin gaps.length → ℝ) (eigs : Block Gate → List ℝ)
    (fn : String → ℂ → ℂ) {ord : List ℕ → List ℕ} (ho : Block.SetOrder ord) (O : ι → Oper n) (ψ : St n → ℂ)
    {b : Block Prim} {u : String} {g : Gate} {noise : Option (NoiseHandler ℚ)} (hg : GateOf u g) (hb : OnlyIn u (.gate g noise) b)
    {p : Params} {v : ℝ} (hv : PyDict.get? p u = some v) :
    ∃ d, primRule optimal eigs {} (.gate g noise) (fun p => .ok (circuitExp fn ho O ψ b p)) p u = .ok d ∧
      ∀ i, HasDerivAt (fun x => circuitExp fn ho O ψ b (PyDict.set p u x) i) (d i) v := by
  obtain ⟨S, h1, h2, h3⟩ := gate_spectral (n := n) hg (envOf fn p)
  have hR : Rule {x | x ∈ spectralGaps (gateSpectrum g)} (primRule (ι := ι) optimal eigs {} (.gate g noise)) := by
    have := general_rule (ι := ι) (optimal := optimal) (spectrum := gateSpectrum g) (o := {}) rfl rfl h3
    have e : primRule (ι := ι) optimal eigs {} (.gate g noise) = generalPsr optimal (gateSpectrum g) {} := by
      funext f p name
      simp [primRule, primSpectrum]
    rwa [e]
  exact circuit_rule hR fn ho O ψ hb hv h1 h2

/-- **C61** The same for the duration of an evolution with a Hermitian generator. The eigenvalues computed for the
generator have to contain all eigenvalues; twice their differences have to be multiples of 0.0001 (the code rounds them)
and the linear system for the default shifts has to be solvable. -/
theorem C61_evolution (optimal : (gaps : List ℝ) → Fin gaps.length → ℝ) (eigs : Block Gate → List ℝ)
    (fn : String → ℂ → ℂ) {ord : List ℕ → List ℕ} (ho : Block.SetOrder ord) (O : ι → Oper n) (ψ : St n → ℂ)
    {b : Block Prim} {u : String} {gen : Block Gate} (hb : OnlyIn u (.hamEvo gen (.var u)) b)
    (hu : u ∉ gather gateVars Expr.freeSymbols gen) {p : Params} {v : ℝ} (hv : PyDict.get? p u = some v)
    (hH : (sem (gateSem n (envOf fn p)) (envOf fn p) gen).IsHermitian)
    (he : ∀ (a : ℝ) (w : St n → ℂ), w ≠ 0 → sem (gateSem n (envOf fn p)) (envOf fn p) gen *ᵥ w = (a : ℂ) • w →
      a ∈ eigs gen)
    (hgrid : ∀ a ∈ eigs gen, ∀ b ∈ eigs gen, OnGrid (a * 2 - b * 2))
    (hs : Solvable (spectralGaps ((eigs gen).map fun e => e * 2)) (0.5 * 0.5)) :
    ∃ d, primRule optimal eigs {} (.hamEvo gen (.var u)) (fun p => .ok (circuitExp fn ho O ψ b p)) p u = .ok d ∧
      ∀ i, HasDerivAt (fun x => circuitExp fn ho O ψ b (PyDict.set p u x) i) (d i) v := by
  have hR : Rule {x | x ∈ spectralGaps ((eigs gen).map fun e => e * 2)}
      (primRule (ι := ι) optimal eigs {} (.hamEvo gen (.var u))) := by
    have := general_rule (ι := ι) (optimal := optimal) (spectrum := (eigs gen).map fun e => e * 2)
      (o := { shiftPrefac := some (0.5 * 0.5) }) rfl rfl hs
    have e : primRule (ι := ι) optimal eigs {} (.hamEvo gen (.var u)) =
        generalPsr optimal ((eigs gen).map fun e => e * 2) { shiftPrefac := some (0.5 * 0.5) } := by
      funext f p name
      rw [primRule]
      exact if_neg (show ¬((0.5 : ℝ) = 1) by norm_num)
    rwa [e]
  have hsp : (fun x : ℝ => (primDen ((envOf fn p).set u x) (.hamEvo gen (.var u)) : Oper n)) =
      fun x : ℝ => evolution (x : ℂ) (sem (gateSem n (envOf fn p)) (envOf fn p) gen) := by
    funext x
    rw [primDen, eval_set_self, sem_congr (gateSem n ((envOf fn p).set u x)) (gateSem n (envOf fn p)) _ (envOf fn p)
      gateVars u (fun l hl => gateDen_set l hl _ x) (fun e he => eval_set e he _ x) gen hu]
  refine circuit_rule hR fn ho O ψ hb hv (S := Set.range fun j => hH.eigenvalues j * 2) ?_ ?_
  · rw [hsp]
    exact evolution_spectral hH
  · have hmem : ∀ j, hH.eigenvalues j ∈ eigs gen := by
      intro j
      refine he _ (hH.eigenvectorBasis j) ?_ ?_
      · intro h0
        have h1 := hH.eigenvectorBasis.orthonormal.ne_zero j
        exact h1 (by ext k; exact congrFun h0 k)
      · exact hH.mulVec_eigenvectorBasis j
    rintro _ ⟨i, rfl⟩ _ ⟨j, rfl⟩ hij
    refine gaps_complete ?_ (List.mem_map.2 ⟨_, hmem i, rfl⟩) (List.mem_map.2 ⟨_, hmem j, rfl⟩) hij
    intro a ha b hb
    obtain ⟨a, ha', rfl⟩ := List.mem_map.1 ha
    obtain ⟨b, hb', rfl⟩ := List.mem_map.1 hb
    exact hgrid a ha' b hb'

/-! ### Instances -/

/-- chain(H(0), CRX(0, 1, x), RY(1, y)) with the observables given by `O`, differentiated with respect to `x`. -/
example (fn : String → ℂ → ℂ) (O : ι → Oper 2) (ψ : St 2 → ℂ) :
    let b : Block Prim := .comp .chain ([.leaf (.gate (.fixed .H 0) none) none] ++
      .leaf (.gate (.control .CRX [0] (.rot .RX 1 (.var "x"))) none) none ::
      [.leaf (.gate (.rot .RY 1 (.var "y")) none) none]) none
    ∃ d, primRule (fun _ _ => 0) (fun _ => []) {} (.gate (.control .CRX [0] (.rot .RX 1 (.var "x"))) none)
        (fun p => .ok (circuitExp fn demoOrd_setOrder O ψ b p)) [("x", 0.3), ("y", 1)] "x" = .ok d ∧
      ∀ i, HasDerivAt (fun x => circuitExp fn demoOrd_setOrder O ψ b (PyDict.set [("x", 0.3), ("y", 1)] "x" x) i)
        (d i) 0.3 := by
  intro b
  refine C61_gates _ _ fn demoOrd_setOrder O ψ (.control _ _ _ _ (by decide) (by decide)) ?_ rfl
  refine .comp _ (by decide) _ _ _ (.leaf _) ?_ ?_
  · intro c hc
    rw [List.mem_singleton.1 hc]
    decide
  · intro c hc
    rw [List.mem_singleton.1 hc]
    decide

theorem x_sq : (embed1 0 (mat1 .X) : Oper 1) * embed1 0 (mat1 .X) = 1 := by
  rw [embed1_mul (by decide)]
  have : mat1 .X * mat1 .X = 1 := by
    ext a b
    rw [Matrix.mul_apply]
    cases a <;> cases b <;> simp [mat1, ind]
  rw [this, embed1_one]

/-- HamEvo(X(0), t) meets the hypotheses of the theorem for evolutions. -/
example (fn : String → ℂ → ℂ) (O : ι → Oper 1) (ψ : St 1 → ℂ) :
    let gen : Block Gate := .leaf (.fixed .X 0) none
    ∃ d, primRule (fun _ _ => 0) (fun _ => [-1, 1]) {} (.hamEvo gen (.var "t"))
        (fun p => .ok (circuitExp fn demoOrd_setOrder O ψ (.leaf (.hamEvo gen (.var "t")) none) p)) [("t", 0.3)] "t" =
        .ok d ∧
      ∀ i, HasDerivAt (fun x => circuitExp fn demoOrd_setOrder O ψ (.leaf (.hamEvo gen (.var "t")) none)
        (PyDict.set [("t", 0.3)] "t" x) i) (d i) 0.3 := by
  intro gen
  refine C61_evolution _ _ fn demoOrd_setOrder O ψ (.leaf _) (by decide) rfl ?_ ?_ ?_ ?_
  · show (embed1 0 (mat1 .X) : Oper 1).conjTranspose = _
    rw [embed1_conjTranspose]
    show embed1 0 _ = (embed1 0 (mat1 .X) : Oper 1)
    congr 1
    ext a b
    rw [Matrix.conjTranspose_apply]
    cases a <;> cases b <;> simp [mat1, ind]
  · intro a w hw h
    change (embed1 0 (mat1 .X) : Oper 1) *ᵥ w = (a : ℂ) • w at h
    have h2 : w = ((a : ℂ) * a) • w := by
      conv_lhs => rw [← Matrix.one_mulVec w, ← x_sq, ← Matrix.mulVec_mulVec, h, Matrix.mulVec_smul, h, smul_smul]
    obtain ⟨i, hi⟩ := Function.ne_iff.1 hw
    have h3 := congrFun h2 i
    simp only [Pi.smul_apply, smul_eq_mul] at h3
    have h4 : ((a : ℂ) * a) = 1 := mul_right_cancel₀ (b := w i) hi (by rw [← h3, one_mul])
    have h5 : a * a = 1 := by exact_mod_cast h4
    rcases mul_self_eq_one_iff.1 h5 with rfl | rfl <;> simp
  · intro a ha b hb
    simp only [List.mem_cons, List.not_mem_nil, or_false] at ha hb
    rcases ha with rfl | rfl <;> rcases hb with rfl | rfl
    · exact ⟨0, by norm_num⟩
    · exact ⟨-40000, by norm_num⟩
    · exact ⟨40000, by norm_num⟩
    · exact ⟨0, by norm_num⟩
  · have e : spectralGaps ([-1, 1].map fun e : ℝ => e * 2) = [4] := by
      rw [gaps_two (a := -2) (b := 2) (by norm_num) ⟨⟨-2, by simp⟩, ⟨2, by simp⟩⟩ (by
        intro x
        simp)]
      norm_num
    rw [e, Solvable, if_pos (show [(4 : ℝ)].length = 1 from rfl), List.headD_cons]
    have e : (4 : ℝ) * (0.5 * 0.5 * (π / 2)) / 2 = π / 4 := by ring
    rw [e, sin_pi_div_four]
    positivity

end Qadence.PSR
