import Mathlib.Tactic
import Verif.Model.Observable
import Verif.Props.DAQCRefuse
import Verif.Props.Hamiltonian
import Verif.Spec.Observable

/-!
# C73: named Hamiltonians and configured observables
-/

namespace Qadence.Obs

open Block Matrix Spec Spec.Obs

variable {n : ℕ} {ord : List ℕ → List ℕ} {pos : ℕ → ℕ → Option (List ℝ)}

namespace Spec

/-- The coupling of a pair: 1 without an array, otherwise the value of the entry. -/
noncomputable def couplingAt (ρ : Env) (zz : Option (ℕ → ℕ → Except PyErr Expr)) (i j : ℕ) : ℂ :=
  match zz with
  | none => 1
  | some f => match f i j with
    | .ok e => eval ρ e
    | .error _ => 0

/-- The coefficient of a single qubit. -/
noncomputable def coeffAt (ρ : Env) (s : Strength) (i : ℕ) : ℂ :=
  match s with
  | .default => 1
  | .array l => eval ρ (l.getD i (.num 0 0))
  | .name x => ρ.var (x ++ "_" ++ toString i)
  | .other => 0

end Spec

open Spec

/-! ### Sums over lists as sums over qubits -/

theorem sum_zipIdx {α M : Type} [AddCommMonoid M] (l : List α) (g : α → ℕ → M) (h : α → M)
    (H : ∀ k (hk : k < l.length), g l[k] k = h l[k]) : (l.zipIdx.map fun p => g p.1 p.2).sum = (l.map h).sum := by
  congr 1
  apply List.ext_getElem
  · simp
  · intro k h1 h2
    simp at h1
    simp [H k h1]

theorem sum_range_fin {M : Type} [AddCommMonoid M] (h : ℕ → M) : ((List.range n).map h).sum = ∑ i : Fin n, h i := by
  rw [← Finset.sum_range, ← List.sum_toFinset _ List.nodup_range, List.toFinset_range]

theorem sum_pairs {M : Type} [AddCommMonoid M] (h : ℕ → ℕ → M) :
    ((DAQC.allToAll n).map fun e => h e.1 e.2).sum = ∑ i : Fin n, ∑ j : Fin n, if i < j then h i j else 0 := by
  have hP : (DAQC.allToAll n).toFinset = DAQC.P n := by
    ext p
    rw [List.mem_toFinset, DAQC.mem_allToAll]
  rw [← List.sum_toFinset _ DAQC.allToAll_nodup, hP, DAQC.P, Finset.sum_filter, Finset.sum_product, Finset.sum_range]
  refine Finset.sum_congr rfl fun i _ => ?_
  rw [Finset.sum_range]
  rfl

theorem labels_number : ((RegArg.number n).get pos).labels = List.range n := by
  simp only [RegArg.get, Register.labels, List.map_map]
  exact List.map_id _

theorem strengthAt_none (ρ : Env) (s : Strength) (i : ℕ) : strengthAt ρ none (toString i) i s = coeffAt ρ s i := by
  cases s <;> rfl

theorem detuning_number (ρ : Env) (a : HamArgs) (d : Detuning) (hr : a.randD = none) :
    (detuningSum ρ a d ((RegArg.number n).get pos).labels : Oper n) =
      ∑ i : Fin n, coeffAt ρ a.detuningStrength i • detuningOp d i := by
  rw [labels_number, detuningSum, ← sum_range_fin (n := n) fun i => coeffAt ρ a.detuningStrength i • detuningOp d i]
  refine sum_zipIdx _ (fun i k => strengthAt ρ a.randD (toString i) k a.detuningStrength • detuningOp d i) _ ?_
  intro k hk
  simp only [List.getElem_range, hr, strengthAt_none]

theorem interaction_default (ρ : Env) (a : HamArgs) (t : Interact) (hr : a.randI = none)
    (hs : a.interactionStrength = .default) :
    (interactionSum ρ a t (DAQC.allToAll n) : Oper n) =
      ∑ i : Fin n, ∑ j : Fin n, if i < j then interactionOp ρ t i j else 0 := by
  have h2 := sum_zipIdx (M := Oper n) (DAQC.allToAll n) (fun e k =>
    strengthAt ρ a.randI (toString e.1 ++ toString e.2) k a.interactionStrength • interactionOp ρ t e.1 e.2)
    (fun e => interactionOp ρ t e.1 e.2) fun k _ => by rw [hr, hs, strengthAt, one_smul]
  unfold interactionSum
  rw [h2]
  generalize hF : (fun i j => (interactionOp ρ t i j : Oper n)) = F
  have hF' : ∀ i j, interactionOp ρ t i j = F i j := fun i j => by rw [← hF]
  simp only [hF']
  exact sum_pairs F

/-! ### The named Hamiltonians -/

/-- The total magnetization is the sum of the Z operators, weighted with the given coefficients. -/
theorem C73_total_magnetization (ho : SetOrder ord) (z : Strength) (b : Block Gate) (ρ : Env)
    (h : totalMagnetization ord pos n z = .ok b) : sem (gateSem n ρ) ρ b = magnetization (coeffAt ρ z) := by
  rw [C40_operator ho _ _ b ρ h]
  simp only [add_zero]
  rw [detuning_number ρ _ .Z rfl]
  rfl

theorem zz_strength_spec (ρ : Env) (zz : Option (ℕ → ℕ → Except PyErr Expr)) (s : Strength)
    (h : zzStrength n zz = .ok s) (e : String) (k : ℕ) (hk : k < (DAQC.allToAll n).length) :
    strengthAt ρ none e k s = couplingAt ρ zz (DAQC.allToAll n)[k].1 (DAQC.allToAll n)[k].2 := by
  cases zz with
  | none => cases h; rfl
  | some f =>
    obtain ⟨l, hl, h⟩ := bind_ok h
    cases h
    have hz := mapM_except_forall2 _ _ _ hl
    have hk' : k < l.length := by rw [← hz.length_eq]; exact hk
    have := hz.get hk hk'
    simp only [List.get_eq_getElem] at this
    rw [couplingAt, this, strengthAt, List.getD_eq_getElem?_getD, List.getElem?_eq_getElem hk', Option.getD_some]

/-- The ZZ Hamiltonian is the weighted sum of the Z operators and of the products of the Z operators of all pairs. The
coupling of the pair `i < j` is the entry `[i, j]` of the array. -/
theorem C73_zz (ho : SetOrder ord) (z : Strength) (zz : Option (ℕ → ℕ → Except PyErr Expr)) (b : Block Gate) (ρ : Env)
    (h : zzHamiltonian ord pos n z zz = .ok b) :
    sem (gateSem n ρ) ρ b = magnetization (coeffAt ρ z) + Spec.Obs.coupling (couplingAt ρ zz) := by
  obtain ⟨s, hs, h⟩ := bind_ok h
  rw [C40_operator ho _ _ b ρ h]
  simp only [Bool.false_eq_true, if_false]
  rw [detuning_number ρ _ .Z rfl]
  congr 1
  have h2 := sum_zipIdx (M := Oper n) (DAQC.allToAll n) (fun e k =>
    strengthAt ρ none (toString e.1 ++ toString e.2) k s • interactionOp ρ .ZZ e.1 e.2)
    (fun e => couplingAt ρ zz e.1 e.2 • interactionOp ρ .ZZ e.1 e.2) fun k hk => by
      rw [zz_strength_spec ρ zz s hs _ k hk]
  refine Eq.trans h2 ?_
  generalize hF : (fun i j => couplingAt ρ zz i j • (interactionOp ρ .ZZ i j : Oper n)) = F
  have hF' : ∀ i j, couplingAt ρ zz i j • (interactionOp ρ .ZZ i j : Oper n) = F i j := fun i j => by rw [← hF]
  simp only [hF']
  refine (sum_pairs F).trans ?_
  rw [← hF]
  rfl

/-- The Ising Hamiltonian has a transverse field in addition. -/
theorem C73_ising (ho : SetOrder ord) (x z : Strength) (zz : Option (ℕ → ℕ → Except PyErr Expr)) (b : Block Gate)
    (ρ : Env) (h : isingHamiltonian ord pos n x z zz = .ok b) :
    sem (gateSem n ρ) ρ b =
      magnetization (coeffAt ρ z) + Spec.Obs.coupling (couplingAt ρ zz) + field (coeffAt ρ x) := by
  obtain ⟨b1, h1, h⟩ := bind_ok h
  obtain ⟨b2, h2, h⟩ := bind_ok h
  obtain ⟨r, e1, e2⟩ := C07_add (gate_arithOk n ρ) ρ b1 b2
  rw [h] at e1
  cases e1
  rw [e2, C73_zz ho z zz b1 ρ h1, C40_operator ho _ _ b2 ρ h2]
  simp only [add_zero]
  rw [detuning_number ρ _ .X rfl]
  rfl

namespace Spec

/-- The coefficients are given for `n` qubits. -/
def Fits (n : ℕ) : Strength → Prop
  | .default => True
  | .array l => l.length = n
  | .name _ => True
  | .other => False

end Spec

theorem edges_ne (e : ℕ × ℕ) (he : e ∈ DAQC.allToAll n) : e.1 ≠ e.2 :=
  (DAQC.mem_P.1 (DAQC.mem_allToAll.1 he)).1.ne

theorem fits_other {s : Strength} (h : Fits n s) : s ≠ .other := by rintro rfl; exact h

theorem fits_array {s : Strength} (h : Fits n s) (l : List Expr) (e : s = .array l) : l.length = n := by
  subst e; exact h

/-- With one coefficient per qubit and an array which can be indexed with all pairs `i < j`, the Hamiltonians are
built. -/
theorem C73_built (ho : SetOrder ord) (x z : Strength) (zz : Option (ℕ → ℕ → Except PyErr Expr)) (hx : Fits n x)
    (hz : Fits n z) (hzz : ∀ f, zz = some f → ∀ i j, i < j → j < n → ∃ e, f i j = .ok e) :
    (∃ b, totalMagnetization ord pos n z = .ok b) ∧ (∃ b, zzHamiltonian ord pos n z zz = .ok b) ∧
      ∃ b, isingHamiltonian ord pos n x z zz = .ok b := by
  have hlen : ((RegArg.number n).get pos).labels.length = n := by rw [labels_number, List.length_range]
  have one : ∀ d s, d ≠ Detuning.unknown → Fits n s → ∃ b, hamiltonianFactory ord ((RegArg.number n).get pos)
      { detuning := some d, detuningStrength := s } = .ok b := by
    intro d s hd hs
    refine C40_total ho _ _ (Or.inr rfl) (by simp) (by simpa using hd) ⟨fits_other hs, fun l e => ?_⟩
      ⟨by simp, by simp⟩ edges_ne
    rw [hlen]
    exact fits_array hs l e
  have two : ∃ b, zzHamiltonian ord pos n z zz = .ok b := by
    have hs : ∃ s, zzStrength n zz = .ok s ∧ Fits (DAQC.allToAll n).length s := by
      cases zz with
      | none => exact ⟨_, rfl, trivial⟩
      | some f =>
        have : ∀ e ∈ DAQC.allToAll n, ∃ v, f e.1 e.2 = .ok v := fun e he => by
          have := DAQC.mem_P.1 (DAQC.mem_allToAll.1 he)
          exact hzz f rfl _ _ this.1 this.2
        obtain ⟨l, hl⟩ := mapM_ok_of_forall this
        refine ⟨.array l, by rw [zzStrength, hl]; rfl, ?_⟩
        exact (mapM_except_forall2 _ _ _ hl).length_eq.symm
    obtain ⟨s, hs, hf⟩ := hs
    rw [zzHamiltonian, hs, ok_bind]
    refine C40_total ho _ _ (Or.inl rfl) (by simp) (by simp) ⟨fits_other hz, fun l e => ?_⟩
      ⟨fits_other hf, fun l e => fits_array hf l e⟩ edges_ne
    rw [hlen]
    exact fits_array hz l e
  refine ⟨one .Z z (by simp) hz, two, ?_⟩
  obtain ⟨a, ha⟩ := two
  obtain ⟨b, hb⟩ := one .X x (by simp) hx
  rw [isingHamiltonian, ha, ok_bind, hb, ok_bind]
  exact ⟨_, rfl⟩

/-! ### Configured observables -/

namespace Spec

/-- The value of what is given as scale or shift. -/
noncomputable def argValue (ρ : Env) : PArg → ℂ
  | .num v => (v : ℂ)
  | .tensor v => (v : ℂ)
  | .name s => ρ.var s
  | .param s _ => ρ.var s
  | .expr e => eval ρ e

end Spec

theorem parameterOf_value (ρ : Env) (t : Option Bool) (a : PArg) : eval ρ (parameterOf t a).expr = argValue ρ a := by
  cases a <;> simp only [parameterOf, argValue]
  · exact DAQC.eval_num ρ _
  · exact DAQC.eval_num ρ _
  · rfl
  · rfl

/-- A configuration without interaction and detuning is refused with a ValueError, one with two numbers and a
`trainable_transform` with an AssertionError; all others are accepted, with scale and shift of the given values. A name
becomes a parameter of the requested trainability. -/
theorem C73_config (a : ConfigArgs) :
    (a.interaction.isNone ∧ a.detuning.isNone → a.init = .error .valueError) ∧
    (¬ (a.interaction.isNone ∧ a.detuning.isNone) →
      (∃ u v, a.scale = .num u ∧ a.shift = .num v) → a.trainableTransform ≠ none → a.init = .error .assertionError) ∧
    (¬ (a.interaction.isNone ∧ a.detuning.isNone) →
      ¬ ((∃ u v, a.scale = .num u ∧ a.shift = .num v) ∧ a.trainableTransform ≠ none) →
      ∃ c, a.init = .ok c ∧ c.interaction = a.interaction ∧ c.detuning = a.detuning ∧ c.tag = a.tag ∧
        (∀ ρ, eval ρ c.scale.expr = argValue ρ a.scale ∧ eval ρ c.shift.expr = argValue ρ a.shift) ∧
        (∀ x, a.scale = .name x → c.scale.trainable = some (a.trainableTransform.getD true)) ∧
        ∀ x, a.shift = .name x → c.shift.trainable = some (a.trainableTransform.getD true)) := by
  refine ⟨fun h => ?_, fun h hn ht => ?_, fun h hn => ?_⟩
  · unfold ConfigArgs.init
    simp [h.1, h.2, error_bind]
  · obtain ⟨u, v, hu, hv⟩ := hn
    unfold ConfigArgs.init
    rw [if_neg (by simpa using h)]
    simp [hu, hv, PArg.isNumeric, Option.isSome_iff_ne_none.2 ht, error_bind, pure_eq_ok]
  · have hc : ¬ (a.scale.isNumeric && a.shift.isNumeric && a.trainableTransform.isSome) = true := by
      intro hc
      simp only [Bool.and_eq_true] at hc
      refine hn ⟨?_, Option.isSome_iff_ne_none.1 hc.2⟩
      obtain ⟨⟨h1, h2⟩, -⟩ := hc
      cases hs : a.scale <;> rw [hs] at h1 <;> simp [PArg.isNumeric] at h1
      cases hs' : a.shift <;> rw [hs'] at h2 <;> simp [PArg.isNumeric] at h2
      exact ⟨_, _, rfl, rfl⟩
    refine ⟨⟨a.interaction, a.detuning, parameterOf a.trainableTransform a.scale,
      parameterOf a.trainableTransform a.shift, a.tag⟩, ?_, rfl, rfl, rfl,
      fun ρ => ⟨parameterOf_value ρ _ _, parameterOf_value ρ _ _⟩, ?_, ?_⟩
    · unfold ConfigArgs.init
      rw [if_neg (by simpa using h), if_neg hc]
      rfl
    · intro x hx
      simp [hx, parameterOf]
    · intro x hx
      simp [hx, parameterOf]

theorem sem_identity (ho : SetOrder ord) (r : RegArg) (b : Block Gate) (ρ : Env)
    (h : globalIdentity ord r = .ok b) : sem (gateSem n ρ) ρ b = 1 := by
  rw [globalIdentity, kronOf_ok_iff _ _ ho] at h
  obtain ⟨rfl, -, -⟩ := h
  rw [sem_kron, List.map_map]
  have : ∀ l : List ℕ, opProd (l.map (sem (gateSem n ρ) ρ ∘ ofFixed .I)) = 1 := by
    intro l
    induction l with
    | nil => rfl
    | cons i l ih => rw [List.map_cons, opProd, ih, Function.comp_apply, sem_ofFixed, mat1_I, one_mul]
  exact this _

/-- A configured observable is the shift times the identity plus the scale times the Hamiltonian. -/
theorem C73_observable (ho : SetOrder ord) (r : RegArg) (c : Config) (b : Block Gate)
    (h : createObservable ord pos r c = .ok b) :
    ∃ H, hamiltonianFactory ord (r.get pos) { interaction := c.interaction, detuning := c.detuning } = .ok H ∧
      b.tag = c.tag ∧
      ∀ ρ, sem (gateSem n ρ) ρ b = eval ρ c.shift.expr • 1 + eval ρ c.scale.expr • sem (gateSem n ρ) ρ H := by
  obtain ⟨one, h1, h⟩ := bind_ok h
  obtain ⟨s, h2, h⟩ := bind_ok h
  obtain ⟨H, h3, h⟩ := bind_ok h
  obtain ⟨k, h4, h⟩ := bind_ok h
  refine ⟨H, h3, ?_, fun ρ => ?_⟩
  · revert h
    cases c.tag <;> intro h <;> cases h <;> rfl
  · have : sem (gateSem n ρ) ρ b = sem (gateSem n ρ) ρ s + sem (gateSem n ρ) ρ k := by
      revert h
      cases c.tag <;> intro h <;> cases h <;> simp [addOf, Block.setTag, sem_add]
    rw [this, sem_scaledTerm ρ _ _ _ h2, sem_scaledTerm ρ _ _ _ h4, sem_identity ho r one ρ h1]

theorem qubits_scaledTerm {s : Expr} {b c : Block Gate} (h : scaledTerm s b = .ok c) (hb : isZeroBlock Gate.arith b = false) :
    qubits Gate.supp c = qubits Gate.supp b := by
  unfold scaledTerm rmul mul at h
  rw [hb] at h
  cases h
  cases b <;> simp [mulScalar, qubits]

/-- The observable acts on all qubits of the register and on those of the Hamiltonian, nothing else. -/
theorem C73_support (ho : SetOrder ord) (r : RegArg) (c : Config) (b : Block Gate)
    (h : createObservable ord pos r c = .ok b) :
    ∃ H, hamiltonianFactory ord (r.get pos) { interaction := c.interaction, detuning := c.detuning } = .ok H ∧
      qubits Gate.supp b = {q | q < r.size} ∪ qubits Gate.supp H := by
  obtain ⟨one, h1, h⟩ := bind_ok h
  obtain ⟨s, h2, h⟩ := bind_ok h
  obtain ⟨H, h3, h⟩ := bind_ok h
  obtain ⟨k, h4, h⟩ := bind_ok h
  refine ⟨H, h3, ?_⟩
  have e : qubits Gate.supp b = qubits Gate.supp s ∪ qubits Gate.supp k := by
    revert h
    cases c.tag <;> intro h <;> cases h <;> simp [addOf, Block.setTag, qubits, qubitsList]
  rw [globalIdentity, kronOf_ok_iff _ _ ho] at h1
  obtain ⟨rfl, -, -⟩ := h1
  have hH : isZeroBlock Gate.arith H = false := by
    unfold hamiltonianFactory at h3
    obtain ⟨_, -, h3⟩ := bind_ok h3
    obtain ⟨_, -, h3⟩ := bind_ok h3
    obtain ⟨_, -, h3⟩ := bind_ok h3
    obtain ⟨_, -, h3⟩ := bind_ok h3
    obtain ⟨_, -, h3⟩ := bind_ok h3
    cases h3
    rfl
  rw [e, qubits_scaledTerm h2 rfl, qubits_scaledTerm h4 hH]
  congr 1
  ext q
  rw [mem_qubits_comp]
  simp [qubits_leaf, ofFixed, Gate.supp]

/-- The expectation value of a configured observable in a normalised state is the shift plus the scale times the
expectation value of the Hamiltonian. -/
theorem C73_expectation (ho : SetOrder ord) (r : RegArg) (c : Config) (b : Block Gate)
    (h : createObservable ord pos r c = .ok b) :
    ∃ H, hamiltonianFactory ord (r.get pos) { interaction := c.interaction, detuning := c.detuning } = .ok H ∧
      ∀ ρ (φ : St n → ℂ), star φ ⬝ᵥ φ = 1 → expct (sem (gateSem n ρ) ρ b) φ =
        eval ρ c.shift.expr + eval ρ c.scale.expr * expct (sem (gateSem n ρ) ρ H) φ := by
  obtain ⟨H, h1, -, h2⟩ := C73_observable (n := n) ho r c b h
  refine ⟨H, h1, fun ρ φ hφ => ?_⟩
  rw [h2 ρ, expct, expct, add_mulVec, smul_mulVec, smul_mulVec, one_mulVec, dotProduct_add, dotProduct_smul,
    dotProduct_smul, hφ]
  simp

/-! ### The prepared configurations -/

theorem init_ok (a : ConfigArgs) (c : Config) (h : a.init = .ok c) :
    c.interaction = a.interaction ∧ c.detuning = a.detuning ∧ c.tag = a.tag ∧
      ∀ ρ, eval ρ c.scale.expr = argValue ρ a.scale ∧ eval ρ c.shift.expr = argValue ρ a.shift := by
  obtain ⟨h1, h2, h3⟩ := C73_config a
  by_cases e : a.interaction.isNone ∧ a.detuning.isNone
  · rw [h1 e] at h; cases h
  by_cases e' : (∃ u v, a.scale = .num u ∧ a.shift = .num v) ∧ a.trainableTransform ≠ none
  · rw [h2 e e'.1 e'.2] at h; cases h
  obtain ⟨c', k1, k2, k3, k4, k5, -⟩ := h3 e e'
  rw [h] at k1
  cases k1
  exact ⟨k2, k3, k4, k5⟩

/-- The prepared configurations of the total magnetization and of the ZZ Hamiltonian give the shifted and scaled
operators of the functions of the same names. -/
theorem C73_named_configs (ho : SetOrder ord) (scale shift : PArg) (t : Option Bool) (c : Config) (b : Block Gate)
    (ρ : Env) (hb : createObservable ord pos (.number n) c = .ok b) :
    ((totalMagnetizationConfig scale shift t).init = .ok c → sem (gateSem n ρ) ρ b =
        argValue ρ shift • 1 + argValue ρ scale • magnetization fun _ => 1) ∧
    ((zzHamiltonianConfig scale shift t).init = .ok c → sem (gateSem n ρ) ρ b =
        argValue ρ shift • 1 + argValue ρ scale • (magnetization (fun _ => 1) + Spec.Obs.coupling fun _ _ => 1)) := by
  obtain ⟨H, h1, -, h2⟩ := C73_observable (n := n) ho _ c b hb
  constructor <;> intro hc <;> obtain ⟨e1, e2, -, e3⟩ := init_ok _ c hc <;> rw [e1, e2] at h1 <;>
    rw [h2 ρ, (e3 ρ).1, (e3 ρ).2]
  · rw [C73_total_magnetization (n := n) (pos := pos) ho .default H ρ h1]
    rfl
  · rw [C73_zz (n := n) (pos := pos) ho .default none H ρ h1]
    rfl

theorem zzz_spec (ho : SetOrder ord) (ρ : Env) {i j : ℕ} (hij : i ≠ j) :
    ∃ b, zzz ord i j = .ok b ∧ isQubitHamiltonian b = true ∧ sem (gateSem n ρ) ρ b =
      embed1 i (mat1 .Z) * embed1 j (mat1 .Z) + (if i = 0 then embed1 j (mat1 .Z)
        else if i = 1 ∧ j = 2 then embed1 0 (mat1 .Z) else 0) := by
  have hm := fixed_matmul_ok ho .Z .Z hij
  have hs := (sem_fixed_matmul (n := n) ho ρ .Z .Z i j _ hm).2
  unfold zzz
  rw [hm, ok_bind]
  by_cases h0 : i = 0
  · rw [if_pos h0, if_pos h0]
    obtain ⟨c, e1, e2⟩ := C07_iadd (gate_arithOk n ρ) ρ (.comp .kron [ofFixed .Z i, ofFixed .Z j] none) (ofFixed .Z j)
    refine ⟨c, e1, ?_, by rw [e2, hs, sem_ofFixed]⟩
    cases e1
    rfl
  · rw [if_neg h0, if_neg h0]
    by_cases h1 : i = 1 ∧ j = 2
    · rw [if_pos h1, if_pos h1]
      obtain ⟨c, e1, e2⟩ := C07_iadd (gate_arithOk n ρ) ρ (.comp .kron [ofFixed .Z i, ofFixed .Z j] none) (ofFixed .Z 0)
      refine ⟨c, e1, ?_, by rw [e2, hs, sem_ofFixed]⟩
      cases e1
      rfl
    · rw [if_neg h1, if_neg h1]
      exact ⟨_, rfl, rfl, by rw [hs, add_zero]⟩

/-- The operator of the prepared Ising configuration, before shift and scale. -/
theorem ising_config_operator (ho : SetOrder ord) (ρ : Env) (H : Block Gate)
    (h : hamiltonianFactory ord ((RegArg.number n).get pos)
      { interaction := some (.custom (zzz ord)), detuning := some .X } = .ok H) :
    sem (gateSem n ρ) ρ H = field (fun _ => 1) + Spec.Obs.coupling (fun _ _ => 1) +
      ∑ i : Fin n, ∑ j : Fin n, if i < j then (if (i : ℕ) = 0 then Zq j else if (i : ℕ) = 1 ∧ (j : ℕ) = 2 then
        embed1 0 (mat1 .Z) else 0) else 0 := by
  rw [C40_operator ho _ _ H ρ h]
  simp only [Bool.false_eq_true, if_false]
  rw [detuning_number ρ _ .X rfl, add_assoc]
  congr 1
  refine (interaction_default ρ _ _ rfl rfl).trans ?_
  rw [Spec.Obs.coupling, ← Finset.sum_add_distrib]
  refine Finset.sum_congr rfl fun i _ => ?_
  rw [← Finset.sum_add_distrib]
  refine Finset.sum_congr rfl fun j _ => ?_
  by_cases hij : i < j
  · have hne : (i : ℕ) ≠ j := by
      intro e
      exact hij.ne (Fin.ext e)
    obtain ⟨b, e1, -, e2⟩ := zzz_spec (n := n) ho ρ hne
    rw [if_pos hij, if_pos hij, if_pos hij, interactionOp, e1, one_smul]
    exact e2
  · rw [if_neg hij, if_neg hij, if_neg hij, add_zero]

/-- The additional Z terms make up the sum over all qubits. -/
theorem extra_sum (m : ℕ) : (∑ i : Fin (m + 3), ∑ j : Fin (m + 3), if i < j then (if (i : ℕ) = 0 then Zq j
    else if (i : ℕ) = 1 ∧ (j : ℕ) = 2 then embed1 0 (mat1 .Z) else 0) else 0 : Oper (m + 3)) =
    magnetization fun _ => 1 := by
  rw [Fin.sum_univ_succ, Fin.sum_univ_succ (n := m + 1)]
  have h0 : (∑ j : Fin (m + 3), if (0 : Fin (m + 3)) < j then (if ((0 : Fin (m + 3)) : ℕ) = 0 then Zq j
      else if ((0 : Fin (m + 3)) : ℕ) = 1 ∧ (j : ℕ) = 2 then embed1 0 (mat1 .Z) else 0) else 0 : Oper (m + 3)) =
      ∑ j : Fin (m + 2), Zq j.succ := by
    rw [Fin.sum_univ_succ]
    simp
  have h1 : (∑ j : Fin (m + 3), if (Fin.succ 0 : Fin (m + 3)) < j then (if ((Fin.succ 0 : Fin (m + 3)) : ℕ) = 0 then Zq j
      else if ((Fin.succ 0 : Fin (m + 3)) : ℕ) = 1 ∧ (j : ℕ) = 2 then embed1 0 (mat1 .Z) else 0) else 0 : Oper (m + 3)) =
      Zq 0 := by
    rw [Finset.sum_eq_single (⟨2, by omega⟩ : Fin (m + 3))]
    · rw [if_pos (by rw [Fin.lt_def]; simp), if_neg (by simp), if_pos (by simp)]
      rfl
    · intro j _ hj
      have : ¬ (j : ℕ) = 2 := fun e => hj (Fin.ext e)
      simp [this]
    · simp
  have h2 : (∑ i : Fin (m + 1), ∑ j : Fin (m + 3), if (i.succ.succ : Fin (m + 3)) < j then
      (if ((i.succ.succ : Fin (m + 3)) : ℕ) = 0 then Zq j
      else if ((i.succ.succ : Fin (m + 3)) : ℕ) = 1 ∧ (j : ℕ) = 2 then embed1 0 (mat1 .Z) else 0) else 0 : Oper (m + 3)) =
      0 := by
    refine Finset.sum_eq_zero fun i _ => Finset.sum_eq_zero fun j _ => ?_
    simp
  rw [h0, h1, h2, magnetization, Fin.sum_univ_succ (n := m + 2)]
  simp only [one_smul, add_zero]
  exact add_comm _ _

/-- From three qubits on, the prepared Ising configuration gives the shifted and scaled Ising Hamiltonian. -/
theorem C73_ising_config_partial (ho : SetOrder ord) (hn : 3 ≤ n) (scale shift : PArg) (t : Option Bool) (c : Config)
    (b : Block Gate) (ρ : Env) (hc : (isingHamiltonianConfig ord scale shift t).init = .ok c)
    (hb : createObservable ord pos (.number n) c = .ok b) :
    sem (gateSem n ρ) ρ b = argValue ρ shift • 1 + argValue ρ scale •
      (magnetization (fun _ => 1) + Spec.Obs.coupling (fun _ _ => 1) + field fun _ => 1) := by
  obtain ⟨H, h1, -, h2⟩ := C73_observable (n := n) ho _ c b hb
  obtain ⟨e1, e2, -, e3⟩ := init_ok _ c hc
  rw [e1, e2] at h1
  rw [h2 ρ, (e3 ρ).1, (e3 ρ).2, ising_config_operator ho ρ H h1]
  congr 2
  obtain ⟨m, rfl⟩ := Nat.exists_eq_add_of_le' hn
  rw [extra_sum]
  abel

/-! ### The observables are built -/

theorem ising_config_built (ho : SetOrder ord) : ∃ H, hamiltonianFactory ord ((RegArg.number n).get pos)
    { interaction := some (.custom (zzz ord)), detuning := some .X } = .ok H := by
  obtain ⟨b, e1, e2, -⟩ := zzz_spec (n := 0) ho ⟨fun _ => 0, fun _ _ => 0⟩ (i := 0) (j := 1) (by simp)
  have hc : (HamArgs.check ord { interaction := some (.custom (zzz ord)), detuning := some .X }) = .ok () := by
    unfold HamArgs.check
    simp only [Option.isNone_some, Bool.and_self, Bool.false_eq_true, if_false, Interact.check, e1, ok_bind, e2]
    rfl
  obtain ⟨l1, h1⟩ : ∃ l, detuningTerms (some .X) (List.replicate (((RegArg.number n).get pos).labels.map nodeName).length
      (.num 1 0)) ((RegArg.number n).get pos).labels = .ok l := by
    refine mapM_ok_of_forall fun p _ => ?_
    exact scaledTerm_ok _ _
  obtain ⟨l2, h2⟩ : ∃ l, interactionTerms ord (some (.custom (zzz ord)))
      (List.replicate ((DAQC.allToAll n).map edgeName).length (.num 1 0)) (DAQC.allToAll n) = .ok l := by
    refine mapM_ok_of_forall fun p hp => ?_
    obtain ⟨b, hb, -⟩ := zzz_spec (n := 0) ho ⟨fun _ => 0, fun _ _ => 0⟩ (edges_ne p.2 (List.of_mem_zip hp).2)
    simp only [Interact.block, hb, ok_bind]
    exact scaledTerm_ok _ _
  unfold hamiltonianFactory
  rw [hc, ok_bind]
  simp only [Strength.preprocess, ok_bind, h1]
  refine ⟨addOf (l1 ++ l2), ?_⟩
  show (interactionTerms ord (some (.custom (zzz ord)))
      (List.replicate ((DAQC.allToAll n).map edgeName).length (.num 1 0)) (DAQC.allToAll n) >>= _) = _
  rw [h2, ok_bind]
  rfl

theorem observable_built (ho : SetOrder ord) (r : RegArg) (hr : 0 < r.size) (c : Config)
    (hH : ∃ H, hamiltonianFactory ord (r.get pos) { interaction := c.interaction, detuning := c.detuning } = .ok H) :
    ∃ b, createObservable ord pos r c = .ok b := by
  obtain ⟨H, hH⟩ := hH
  have h1 : globalIdentity ord r = .ok (.comp .kron ((List.range r.size).map (ofFixed .I)) none) := by
    rw [globalIdentity, kronOf_ok_iff _ _ ho]
    refine ⟨rfl, by simpa using hr.ne', ?_⟩
    rw [List.pairwise_map]
    refine List.nodup_range.imp fun {a b} hab => ?_
    simpa [ofFixed, qubits, Gate.supp] using hab
  obtain ⟨s, hs⟩ := scaledTerm_ok c.shift.expr (.comp .kron ((List.range r.size).map (ofFixed .I)) none)
  obtain ⟨k, hk⟩ := scaledTerm_ok c.scale.expr H
  unfold createObservable
  rw [h1, ok_bind, hs, ok_bind, hH, ok_bind, hk, ok_bind]
  cases c.tag <;> exact ⟨_, rfl⟩

/-- For at least one qubit the observables of the three prepared configurations are built. -/
theorem C73_observable_built (ho : SetOrder ord) (hn : 0 < n) (scale shift : PArg) (t : Option Bool)
    (ht : ¬ ((∃ u v, scale = .num u ∧ shift = .num v) ∧ t ≠ none)) :
    (∃ c, (totalMagnetizationConfig scale shift t).init = .ok c ∧ ∃ b, createObservable ord pos (.number n) c = .ok b) ∧
    (∃ c, (zzHamiltonianConfig scale shift t).init = .ok c ∧ ∃ b, createObservable ord pos (.number n) c = .ok b) ∧
    ∃ c, (isingHamiltonianConfig ord scale shift t).init = .ok c ∧
      ∃ b, createObservable ord pos (.number n) c = .ok b := by
  have key : ∀ a : ConfigArgs, a.scale = scale → a.shift = shift → a.trainableTransform = t → a.detuning ≠ none →
      (∃ H, hamiltonianFactory ord ((RegArg.number n).get pos)
        { interaction := a.interaction, detuning := a.detuning } = .ok H) →
      ∃ c, a.init = .ok c ∧ ∃ b, createObservable ord pos (.number n) c = .ok b := by
    intro a h1 h2 h3 h4 h5
    obtain ⟨c, k1, k2, k3, -⟩ := (C73_config a).2.2 (by simp [h4]) (by rw [h1, h2, h3]; exact ht)
    refine ⟨c, k1, observable_built ho (.number n) hn c ?_⟩
    rw [k2, k3]
    exact h5
  obtain ⟨m1, m2, -⟩ := C73_built (n := n) (pos := pos) ho .default .default none trivial trivial (by simp)
  exact ⟨key _ rfl rfl rfl (by simp [totalMagnetizationConfig]) m1, key _ rfl rfl rfl (by simp [zzHamiltonianConfig]) m2,
    key _ rfl rfl rfl (by simp [isingHamiltonianConfig]) (ising_config_built ho)⟩

/-! ### Defects -/

theorem Zq_ne_zero (i : Fin n) : (Zq i : Oper n) ≠ 0 := by
  intro h
  have := congrFun (congrFun h fun _ => false) fun _ => false
  simp [Zq, embed1, mat1] at this

/-- With two qubits (and with one) the prepared Ising configuration lacks the Z operator of qubit 0: it differs from
`ising_hamiltonian`. -/
theorem C73_counterexample_ising_config (ho : SetOrder ord) (h : n = 1 ∨ n = 2) :
    ∃ c a b, (isingHamiltonianConfig ord (.num 1) (.num 0) none).init = .ok c ∧
      createObservable ord pos (.number n) c = .ok a ∧ isingHamiltonian ord pos n .default .default none = .ok b ∧
      ∀ ρ, sem (gateSem n ρ) ρ b - sem (gateSem n ρ) ρ a = embed1 0 (mat1 .Z) ∧
        sem (gateSem n ρ) ρ a ≠ sem (gateSem n ρ) ρ b := by
  have hn : 0 < n := by omega
  obtain ⟨-, -, c, hc, a, ha⟩ := C73_observable_built (n := n) (pos := pos) ho hn (.num 1) (.num 0) none (by simp)
  obtain ⟨-, -, b, hb⟩ := C73_built (n := n) (pos := pos) ho .default .default none trivial trivial (by simp)
  refine ⟨c, a, b, hc, ha, hb, fun ρ => ?_⟩
  obtain ⟨H, h1, -, h2⟩ := C73_observable (n := n) ho _ c a ha
  obtain ⟨e1, e2, -, e3⟩ := init_ok _ c hc
  rw [e1, e2] at h1
  have key : sem (gateSem n ρ) ρ b - sem (gateSem n ρ) ρ a = embed1 0 (mat1 .Z) := by
    rw [h2 ρ, (e3 ρ).1, (e3 ρ).2, ising_config_operator ho ρ H h1, C73_ising ho _ _ _ b ρ hb]
    rcases h with rfl | rfl
    · simp only [magnetization, Spec.Obs.coupling, field, coeffAt, couplingAt, isingHamiltonianConfig, argValue,
        Fin.sum_univ_one, Zq]
      simp
    · simp only [magnetization, Spec.Obs.coupling, field, coeffAt, couplingAt, isingHamiltonianConfig, argValue,
        Fin.sum_univ_two, Zq]
      simp
      abel
  refine ⟨key, fun e => ?_⟩
  rw [e, sub_self] at key
  exact Zq_ne_zero (⟨0, hn⟩ : Fin n) key.symm

/-- A parameter keeps its trainability, whatever `trainable_transform` says. -/
theorem C73_counterexample_trainable (x y : String) (t : Bool) : ∃ c,
    (totalMagnetizationConfig (.param x (!t)) (.param y (!t)) (some t)).init = .ok c ∧
      c.scale.trainable = some (!t) ∧ c.shift.trainable = some (!t) := ⟨_, rfl, rfl, rfl⟩

/-- Three qubits, a scale by name and a numeric shift meet the hypotheses. -/
example (ρ : Env) : ∃ c b, (isingHamiltonianConfig demoOrd (.name "a") (.num 2) (some false)).init = .ok c ∧
    c.scale.trainable = some false ∧ createObservable demoOrd (fun _ _ => none) (.number 3) c = .ok b ∧
    sem (gateSem 3 ρ) ρ b = (2 : ℂ) • 1 + ρ.var "a" •
      (magnetization (fun _ => 1) + Spec.Obs.coupling (fun _ _ => 1) + field fun _ => 1) := by
  obtain ⟨-, -, c, hc, b, hb⟩ := C73_observable_built (n := 3) (pos := fun _ _ => none) demoOrd_setOrder (by simp)
    (.name "a") (.num 2) (some false) (by simp)
  refine ⟨c, b, hc, ?_, hb, ?_⟩
  · cases hc
    rfl
  · rw [C73_ising_config_partial demoOrd_setOrder (le_refl 3) _ _ _ c b ρ hc hb]
    simp [argValue]

/-- Coefficients and couplings given as arrays. -/
example (ρ : Env) : ∃ b, isingHamiltonian demoOrd (fun _ _ => none) 2 (.array [.num 1 0, .num 2 0]) (.name "z")
    (some fun i j => .ok (.num (i + 2 * j) 0)) = .ok b ∧ sem (gateSem 2 ρ) ρ b =
      ρ.var "z_0" • Zq 0 + ρ.var "z_1" • Zq 1 + (2 : ℂ) • (Zq 0 * Zq 1) + Xq 0 + (2 : ℂ) • Xq 1 := by
  obtain ⟨-, -, b, hb⟩ := C73_built (n := 2) (pos := fun _ _ => none) demoOrd_setOrder
    (.array [.num 1 0, .num 2 0]) (.name "z") (some fun i j => .ok (.num (i + 2 * j) 0)) rfl trivial
    (by intro f hf i j _ _; cases hf; exact ⟨_, rfl⟩)
  refine ⟨b, hb, ?_⟩
  rw [C73_ising demoOrd_setOrder _ _ _ b ρ hb]
  simp only [magnetization, Spec.Obs.coupling, field, coeffAt, couplingAt, Fin.sum_univ_two]
  have h1 : eval ρ (.num 1 0) = 1 := by apply Complex.ext <;> simp [eval]
  have h2 : eval ρ (.num 2 0) = 2 := by apply Complex.ext <;> simp [eval]
  have r0 : (Nat.repr 0) = "0" := rfl
  have r1 : (Nat.repr 1) = "1" := rfl
  simp [h1, h2, r0, r1, add_assoc]

end Qadence.Obs
