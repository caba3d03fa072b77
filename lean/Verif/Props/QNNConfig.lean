import Verif.Model.QNNConfig
import Verif.Props.AnsatzALA
import Verif.Props.AnsatzNames
import Verif.Props.DAQCRefuse
import Verif.Props.IIA
import Verif.Props.RydbergHEA

/-!
# C87: Circuits built from configurations
-/

namespace Qadence.QNNConfig

open Spec Block Ansatz Names

variable {ord : List ℕ → List ℕ} {circle : ℕ → Register}

/-! ## Configurations -/

/-- **C87.** Exactly these configurations are accepted. -/
theorem C87_config_accepted (c : Config) :
    (c.postInit = .ok () ↔ (c.type = .iia → c.strategy ≠ .rydberg) ∧
      (c.type = .ala → c.strategy = .digital ∧ ∃ m, c.blockQubits = some m)) ∧
    (c.postInit ≠ .ok () → c.postInit = .error .assertionError) := by
  obtain ⟨d, t, s, a, m, p, g⟩ := c
  cases t <;> cases s <;> cases m <;> simp [Config.postInit]

/-- **C87.** The analog and the banged digital-analog strategy are accepted by the configuration of a hardware efficient or
identity initialised ansatz, and refused when the ansatz is created. -/
theorem C87_strategies (reg : Obs.RegArg) (c : Config) (ht : c.type ≠ .other) (hs : c.strategy = .analog ∨ c.strategy = .bdaqc) :
    (c.postInit = .ok () ↔ c.type ≠ .ala) ∧ createAnsatz circle ord reg c = .error .valueError := by
  obtain ⟨d, t, s, a, m, p, g⟩ := c
  rcases hs with rfl | rfl <;> cases t <;> simp_all [Config.postInit, createAnsatz, createIIA, createHEA, createALA]

/-! ## Interleaving -/

theorem interleaved_ok {layer : ℕ → Except PyErr (Block Prim)} {i : ℕ} {fms : List (Block Prim)}
    (h : ∀ j, j + 1 < fms.length → ∃ b, layer (i + j) = .ok b) : ∃ full, interleaved layer i fms = .ok full := by
  induction fms generalizing i with
  | nil => exact ⟨_, rfl⟩
  | cons f fs ih =>
    cases fs with
    | nil => exact ⟨_, rfl⟩
    | cons g gs =>
      obtain ⟨l, hl⟩ := h 0 (by simp)
      obtain ⟨rest, hr⟩ := ih (i := i + 1) fun j hj => by
        have := h (j + 1) (by simp at hj ⊢; omega)
        rwa [show i + (j + 1) = i + 1 + j by omega] at this
      rw [Nat.add_zero] at hl
      rw [interleaved, hl, ok_bind, hr]
      · exact ⟨_, rfl⟩
      · simp

theorem interleaved_error {layer : ℕ → Except PyErr (Block Prim)} {i : ℕ} {f g : Block Prim} {fs : List (Block Prim)}
    {e : PyErr} (h : layer i = .error e) : interleaved layer i (f :: g :: fs) = .error e := by
  rw [interleaved, h, error_bind]
  simp

/-- The blocks of the feature map keep their order, and between two of them is the layer with the number of the first one. -/
theorem interleaved_spec {layer : ℕ → Except PyErr (Block Prim)} {i : ℕ} {fms full : List (Block Prim)}
    (h : interleaved layer i fms = .ok full) : ∃ ls : List (Block Prim), ls.length = fms.length - 1 ∧
      full.length = 2 * fms.length - 1 ∧ (∀ j, full[2 * j]? = fms[j]?) ∧ (∀ j, full[2 * j + 1]? = ls[j]?) ∧
      (∀ j b, ls[j]? = some b → layer (i + j) = .ok b) ∧ full.Perm (fms ++ ls) := by
  induction fms generalizing i full with
  | nil =>
    cases h
    exact ⟨[], by simp⟩
  | cons f fs ih =>
    cases fs with
    | nil =>
      cases h
      refine ⟨[], rfl, rfl, ?_, ?_, by simp, by simp⟩
      · intro j
        cases j <;> simp [Nat.mul_succ]
      · intro j
        simp
    | cons g gs =>
      rw [interleaved] at h
      · obtain ⟨l, hl, h⟩ := bind_ok h
        obtain ⟨rest, hr, h⟩ := bind_ok h
        obtain rfl := pure_ok h
        obtain ⟨ls, h1, h2, h3, h4, h5, h6⟩ := ih hr
        refine ⟨l :: ls, ?_, ?_, ?_, ?_, ?_, ?_⟩
        · simp only [List.length_cons] at h1 ⊢
          omega
        · simp only [List.length_cons] at h2 ⊢
          omega
        · intro j
          cases j with
          | zero => rfl
          | succ j => rw [show 2 * (j + 1) = 2 * j + 1 + 1 by ring, List.getElem?_cons_succ, List.getElem?_cons_succ, h3,
              List.getElem?_cons_succ]
        · intro j
          cases j with
          | zero => rfl
          | succ j => rw [show 2 * (j + 1) + 1 = 2 * j + 1 + 1 + 1 by ring, List.getElem?_cons_succ, List.getElem?_cons_succ, h4,
              List.getElem?_cons_succ]
        · intro j b hb
          cases j with
          | zero =>
            obtain rfl := Option.some.inj hb
            exact hl
          | succ j =>
            rw [List.getElem?_cons_succ] at hb
            rw [show i + (j + 1) = i + 1 + j by omega]
            exact h5 j b hb
        · rw [List.cons_append]
          refine .cons _ ?_
          exact (h6.cons l).trans (List.perm_middle.symm)
      · simp

/-- **C87.** The circuit: without features only the ansatz; otherwise first a chain with the blocks of the feature map in
their order, separated by one layer of the ansatz each, and then the ansatz. Layer `j` is the ansatz of the same type,
strategy and arguments, with depth one and the prefix `fm_j`. -/
theorem C87_circuit {reg : Obs.RegArg} {features : ℕ} {fms : List (Block Prim)} {t : Option String} {c : Config}
    {bs : List (Block Prim)} (h : qnnBlocks circle ord reg features (.ok fms) t c = .ok bs) :
    ∃ a, createAnsatz circle ord reg c = .ok a ∧ (features = 0 → bs = [retag c.tag a]) ∧
      (0 < features → ∃ full, bs = [retag t (chainOf full), retag c.tag a] ∧ full.length = 2 * fms.length - 1 ∧
        (∀ j, full[2 * j]? = fms[j]?) ∧
        ∀ j, j + 1 < fms.length → ∃ l, full[2 * j + 1]? = some l ∧ createAnsatz circle ord reg
          { depth := 1, type := c.type, strategy := c.strategy, args := c.args, pre := "fm_" ++ toString j } = .ok l) := by
  unfold qnnBlocks at h
  split at h
  next hf =>
    rw [ok_bind] at h
    obtain ⟨full, hfull, h⟩ := bind_ok h
    obtain ⟨a, ha, h⟩ := bind_ok h
    obtain rfl := pure_ok h
    refine ⟨a, ha, fun h0 => by omega, fun _ => ?_⟩
    obtain ⟨ls, h1, h2, h3, h4, h5, -⟩ := interleaved_spec hfull
    refine ⟨full, rfl, h2, h3, fun j hj => ?_⟩
    have hlt : j < ls.length := by omega
    refine ⟨ls[j], by rw [h4, List.getElem?_eq_getElem hlt], ?_⟩
    have := h5 j ls[j] (List.getElem?_eq_getElem hlt)
    rw [Nat.zero_add, ansatzLayer] at this
    obtain ⟨_, -, this⟩ := bind_ok this
    exact this
  next hf =>
    obtain ⟨a, ha, h⟩ := bind_ok h
    obtain rfl := pure_ok h
    exact ⟨a, ha, fun _ => rfl, fun h0 => absurd h0 hf⟩

/-- **C87.** Tags of the configurations replace those of the chains, and change nothing else. -/
theorem C87_tags (t : String) (k : CKind) (bs : List (Block Prim)) (u : Option String) (b : Block Prim) :
    retag (some t) (.comp k bs u) = .comp k bs (some t) ∧ retag none b = b := ⟨rfl, rfl⟩

/-- The layers of an accepted configuration of another type than the alternating one are accepted. -/
theorem layer_accepted {c : Config} (hc : c.postInit = .ok ()) (ht : c.type ≠ .ala) (j : ℕ) : (c.layer j).postInit = .ok () := by
  rw [(C87_config_accepted _).1] at hc ⊢
  exact ⟨hc.1, fun h => absurd h ht⟩

theorem blocks_ok {reg : Obs.RegArg} {features : ℕ} {fms : List (Block Prim)} {t : Option String} {c : Config}
    (hc : c.postInit = .ok ()) (ht : c.type ≠ .ala) (ha : ∃ a, createAnsatz circle ord reg c = .ok a)
    (hl : ∀ j, j + 1 < fms.length → ∃ a, createAnsatz circle ord reg (c.layer j) = .ok a) :
    ∃ bs, qnnBlocks circle ord reg features (.ok fms) t c = .ok bs := by
  obtain ⟨a, ha⟩ := ha
  obtain ⟨full, hf⟩ := interleaved_ok (layer := ansatzLayer circle ord reg c) (i := 0) (fms := fms) fun j hj => by
    obtain ⟨b, hb⟩ := hl j hj
    exact ⟨b, by rw [Nat.zero_add, ansatzLayer, layer_accepted hc ht, ok_bind, hb]⟩
  unfold qnnBlocks
  split
  · rw [ok_bind, hf, ok_bind, ha]
    exact ⟨_, rfl⟩
  · rw [ha]
    exact ⟨_, rfl⟩

/-- **C87.** With at least two qubits a digital hardware efficient ansatz with one of the six entanglers is built, for all
depths, operations, features and blocks of the feature map. -/
theorem C87_hea_digital (ho : SetOrder ord) {reg : Obs.RegArg} (hn : 2 ≤ reg.size) (features : ℕ) (fms : List (Block Prim))
    (t : Option String) {c : Config} (ht : c.type = .hea) (hs : c.strategy = .digital)
    (he : c.args.entangler = none ∨ ∃ e, e ≠ .other ∧ c.args.entangler = some (.cls e)) :
    ∃ bs, qnnBlocks circle ord reg features (.ok fms) t c = .ok bs := by
  have key : ∀ c' : Config, c'.type = .hea → c'.strategy = .digital → c'.args = c.args →
      ∃ a, createAnsatz circle ord reg c' = .ok a := by
    intro c' h1 h2 h3
    rw [createAnsatz, h1]
    simp only [createHEA, h2, createHEADigital, h3]
    refine C42_hea_total ho _ List.nodup_range hn (by simp) _ _ _ ?_
    rcases he with he | ⟨e, h, he⟩ <;> rw [he]
    · simp [EntArg.digital]
    · exact h
  refine blocks_ok ((C87_config_accepted c).1.2 ?_) (by simp [ht]) (key c ht hs rfl) fun j _ => key _ ht hs rfl
  simp [ht]

/-- **C87.** The same for the identity initialised ansatz, with at least one qubit. -/
theorem C87_iia_digital (ho : SetOrder ord) {reg : Obs.RegArg} (hn : 1 ≤ reg.size) (features : ℕ) (fms : List (Block Prim))
    (t : Option String) {c : Config} (ht : c.type = .iia) (hs : c.strategy = .digital)
    (he : c.args.entangler = none ∨ ∃ e, e ≠ .other ∧ c.args.entangler = some (.cls e)) :
    ∃ bs, qnnBlocks circle ord reg features (.ok fms) t c = .ok bs := by
  have key : ∀ c' : Config, c'.type = .iia → c'.strategy = .digital → c'.args = c.args →
      ∃ a, createAnsatz circle ord reg c' = .ok a := by
    intro c' h1 h2 h3
    rw [createAnsatz, h1]
    simp only [createIIA, h2, iiaDigital, h3]
    rcases he with he | ⟨e, h, he⟩ <;> rw [he]
    · exact iia_ok ho (by omega) _ (by rintro e p ⟨⟩; simp) (by simp)
    · exact iia_ok ho (by omega) _ (by rintro e' p ⟨⟩; exact h) (by simp)
  refine blocks_ok ((C87_config_accepted c).1.2 ?_) (by simp [ht]) (key c ht hs rfl) fun j _ => key _ ht hs rfl
  simp [ht, hs]

/-! ## Sums of Pauli operators -/

/-- The default generator of the digital-analog ansatz. -/
theorem default_generator (ho : SetOrder ord) (n : ℕ) :
    hamiltonianFactory ord ((Obs.RegArg.number n).get fun _ _ => none) { interaction := some .NN } =
      .ok (addOf ((DAQC.allToAll n).map RydbergHEA.nnTerm)) :=
  RydbergHEA.interaction_eq ho _ fun e he => ((DAQC.mem_P.1 (DAQC.mem_allToAll.1 he)).1).ne

theorem nn_hamiltonian (es : List (ℕ × ℕ)) : isQubitHamiltonian (addOf (es.map RydbergHEA.nnTerm)) = true := by
  unfold isQubitHamiltonian
  rw [addOf, primitiveBlocks]
  induction es with
  | nil => rfl
  | cons e es ih =>
    rw [List.map_cons, primitiveBlocksList, List.all_append, ih]
    rfl

/-- **C87.** The digital-analog hardware efficient ansatz is built on any number of qubits but zero, with the default generator
or a sum of products of Pauli operators. -/
theorem C87_hea_sdaqc (ho : SetOrder ord) {reg : Obs.RegArg} (hn : 1 ≤ reg.size) (features : ℕ) (fms : List (Block Prim))
    (t : Option String) {c : Config} (ht : c.type = .hea) (hs : c.strategy = .sdaqc)
    (he : c.args.entangler = none ∨ ∃ g, isQubitHamiltonian g = true ∧ c.args.entangler = some (.ham g)) :
    ∃ bs, qnnBlocks circle ord reg features (.ok fms) t c = .ok bs := by
  have hea : ∀ d pre ops g, isQubitHamiltonian g = true → ∃ b, heaSDAQC ord reg.size d pre (List.range reg.size) ops g = .ok b := by
    intro d pre ops g hg
    obtain ⟨rots, hr⟩ := rotationsDigital_ok ho pre (support := List.range reg.size) List.nodup_range (n := reg.size)
      (by omega) (by simp) ops d 0
    refine ⟨tagChain (interleave rots (entanglersAnalog pre g d)) "HEA-sDA", ?_⟩
    rw [heaSDAQC, hg]
    simp only [Bool.not_true, Bool.false_eq_true, if_false, hr, ok_bind]
    rfl
  have key : ∀ c' : Config, c'.type = .hea → c'.strategy = .sdaqc → c'.args = c.args →
      ∃ a, createAnsatz circle ord reg c' = .ok a := by
    intro c' h1 h2 h3
    rw [createAnsatz, h1]
    simp only [createHEA, h2, createHEASDAQC, h3, default_generator ho, ok_bind]
    rcases he with he | ⟨g, h, he⟩ <;> rw [he]
    · exact hea _ _ _ _ (nn_hamiltonian _)
    · exact hea _ _ _ _ h
  refine blocks_ok ((C87_config_accepted c).1.2 ?_) (by simp [ht]) (key c ht hs rfl) fun j _ => key _ ht hs rfl
  simp [ht]

/-- **C87.** Without arguments the hardware efficient and identity initialised ansätze are those with the documented defaults:
rotations RX, RY, RX (hea) or RX, RY (iia), CNOTs and open boundaries, the interaction of all pairs for the digital-analog
one, and only the detuning addressable for the Rydberg one. -/
theorem C87_defaults (ho : SetOrder ord) (reg : Obs.RegArg) (d : ℕ) (p : String) (m : Option ℕ) (t : Option String) :
    createAnsatz circle ord reg ⟨d, .hea, .digital, {}, m, p, t⟩ =
      heaDigital ord reg.size d p (List.range reg.size) false [.RX, .RY, .RX] .CNOT ∧
    createAnsatz circle ord reg ⟨d, .iia, .digital, {}, m, p, t⟩ = iia ord reg.size d p [.RX, .RY] (.digital .CNOT false) ∧
    createAnsatz circle ord reg ⟨d, .hea, .sdaqc, {}, m, p, t⟩ =
      heaSDAQC ord reg.size d p (List.range reg.size) [.RX, .RY, .RX]
        (addOf ((DAQC.allToAll reg.size).map RydbergHEA.nnTerm)) ∧
    createAnsatz circle ord reg ⟨d, .hea, .rydberg, {}, m, p, t⟩ =
      RydbergHEA.rydbergHea ord (match reg with | .number n => circle n | .register r => r)
        { layers := d, addressableDetuning := true, addressableDrive := false, tunablePhase := false, additionalPrefix := some p } := by
  refine ⟨rfl, rfl, ?_, ?_⟩
  · simp only [createAnsatz, createHEA, createHEASDAQC, default_generator ho, ok_bind]
    rfl
  · cases reg <;> rfl

/-- **C87.** Given arguments are passed on. -/
theorem C87_arguments (ho : SetOrder ord) (reg : Obs.RegArg) (d : ℕ) (p : String) (m : ℕ) (t : Option String)
    (ops ops' : List RotGate) (e : Entangler) (g : Block Gate) (b b1 b2 b3 : Bool) :
    createAnsatz circle ord reg ⟨d, .hea, .digital, ⟨some ops, some ops', some (.cls e), some b, some b1, some b2, some b3⟩,
      some m, p, t⟩ = heaDigital ord reg.size d p (List.range reg.size) b ops e ∧
    createAnsatz circle ord reg ⟨d, .iia, .digital, ⟨some ops, some ops', some (.cls e), some b, some b1, some b2, some b3⟩,
      some m, p, t⟩ = iia ord reg.size d p ops (.digital e b) ∧
    createAnsatz circle ord reg ⟨d, .hea, .sdaqc, ⟨some ops, some ops', some (.ham g), some b, some b1, some b2, some b3⟩,
      some m, p, t⟩ = heaSDAQC ord reg.size d p (List.range reg.size) ops g ∧
    createAnsatz circle ord reg ⟨d, .iia, .sdaqc, ⟨some ops, some ops', some (.ham g), some b, some b1, some b2, some b3⟩,
      some m, p, t⟩ = iia ord reg.size d p ops (.sdaqc g) ∧
    createAnsatz circle ord reg ⟨d, .ala, .digital, ⟨some ops, some ops', some (.cls e), some b, some b1, some b2, some b3⟩,
      some m, p, t⟩ = alaDigital ord reg.size m 1 p (List.range reg.size) ops' e ∧
    createAnsatz circle ord reg ⟨d, .hea, .rydberg, ⟨some ops, some ops', some (.cls e), some b, some b1, some b2, some b3⟩,
      some m, p, t⟩ = RydbergHEA.rydbergHea ord (match reg with | .number n => circle n | .register r => r)
        { layers := d, addressableDetuning := b1, addressableDrive := b2, tunablePhase := b3, additionalPrefix := some p } := by
  refine ⟨rfl, rfl, ?_, rfl, rfl, ?_⟩
  · simp only [createAnsatz, createHEA, createHEASDAQC, default_generator ho, ok_bind]
    rfl
  · cases reg <;> rfl

/-- **C87.** A Hamiltonian as entangler of a digital ansatz and a class as entangler of a digital-analog ansatz are refused. -/
theorem C87_wrong_entangler (ho : SetOrder ord) (reg : Obs.RegArg) (hn : 1 ≤ reg.size) {c : Config} (hd : 1 ≤ c.depth)
    (h : (c.strategy = .digital ∧ ∃ g, c.args.entangler = some (.ham g)) ∨
      (c.strategy = .sdaqc ∧ ∃ e, c.args.entangler = some (.cls e))) : ∃ e, createAnsatz circle ord reg c = .error e := by
  obtain ⟨l, hl⟩ : ∃ bs, iiaLeft ord reg.size 0 (c.pre ++ "_α") (c.args.operations.getD [.RX, .RY]) = .ok bs :=
    mapM_ok_of_forall fun g _ => ⟨_, iiaKron_ok ho (by omega) ..⟩
  have h0 : c.depth ≠ 0 := by omega
  rcases h with ⟨hs, g, he⟩ | ⟨hs, e, he⟩ <;> unfold createAnsatz <;> split
  · exact ⟨.typeError, by simp only [createIIA, hs, iiaDigital, he, Option.getD_some, hl, ok_bind, h0, if_false]⟩
  · exact ⟨.valueError, by simp only [createHEA, hs, createHEADigital, he]; rfl⟩
  · simp only [createALA, hs, he]
    split
    · exact ⟨.valueError, rfl⟩
    · exact ⟨_, rfl⟩
  · exact ⟨_, rfl⟩
  · exact ⟨.notImplementedError, by simp only [createIIA, hs, iiaSDAQC, he, Option.getD_some, hl, ok_bind, h0, if_false]⟩
  · exact ⟨.valueError, by simp only [createHEA, hs, createHEASDAQC, default_generator ho, ok_bind, he, Option.getD_some]⟩
  · exact ⟨.valueError, by simp only [createALA, hs]⟩
  · exact ⟨_, rfl⟩

/-! ## Parameters -/

/-- The word in the names of the parameters of the entanglers. -/
def entWord : Strategy → String
  | .sdaqc => "t"
  | _ => "ent"

theorem digit_of_mem {k : ℕ} {x : Char} (h : x ∈ (toString k).toList) : x.isDigit = true := by
  rw [toList_toString] at h
  exact Nat.isDigit_of_mem_toDigits (by norm_num) (by norm_num) h

theorem word_ne (s : Strategy) (k : ℕ) : entWord s ≠ toString k := by
  intro h
  have : ∀ x ∈ (entWord s).toList, x.isDigit = true := by
    rw [h]
    exact fun x hx => digit_of_mem hx
  cases s <;> simp [entWord] at this

theorem word_plain (s : Strategy) : '_' ∉ (entWord s).toList := by
  cases s <;> simp [entWord]

/-- The parameters of a digital or digital-analog hardware efficient ansatz: one for every rotation, numbered after the
prefix, and possibly others for the entanglers, numbered after the prefix and a word. -/
theorem names_hea (ho : SetOrder ord) {reg : Obs.RegArg} {c : Config} (ht : c.type = .hea)
    (hs : c.strategy = .digital ∨ c.strategy = .sdaqc) {b : Block Prim} (h : createAnsatz circle ord reg c = .ok b) :
    ∃ (x : Bool) (k : ℕ), (names b).Perm
      (numbered c.pre 0 (c.depth * (reg.size * (c.args.operations.getD [.RX, .RY, .RX]).length)) ++
        if x then numbered (c.pre ++ "_" ++ entWord c.strategy) 0 k else []) := by
  rw [createAnsatz, ht] at h
  rcases hs with hs | hs
  · simp only [createHEA, hs, createHEADigital] at h
    unfold heaDigital at h
    split at h
    · cases h
    obtain ⟨rots, hr, h⟩ := bind_ok h
    obtain ⟨ents, he, h⟩ := bind_ok h
    obtain rfl := pure_ok h
    obtain ⟨k, hk⟩ := names_entanglersDigital ho he
    refine ⟨(c.args.entangler.getD (EntArg.cls Entangler.CNOT)).digital.parametric, k, ?_⟩
    rw [tagChain, names_comp]
    refine ((interleave_perm rots ents (by rw [rotationsDigital_length hr, entanglersDigital_length he])).flatMap_right
      names).trans (.of_eq ?_)
    rw [List.flatMap_append, names_rotationsDigital ho hr, hk, hs, String.append_assoc (s₁ := c.pre)]
    rfl
  · simp only [createHEA, hs, createHEASDAQC, default_generator ho, ok_bind] at h
    split at h
    · unfold heaSDAQC at h
      split at h
      · cases h
      obtain ⟨rots, hr, h⟩ := bind_ok h
      obtain rfl := pure_ok h
      refine ⟨true, c.depth, ?_⟩
      rw [tagChain, names_comp]
      refine ((interleave_perm rots _ (by rw [rotationsDigital_length hr, entanglersAnalog, List.length_map,
        List.length_range])).flatMap_right names).trans (.of_eq ?_)
      rw [List.flatMap_append, names_rotationsDigital ho hr, hs, if_pos rfl, entanglersAnalog, numbered, numbered,
        List.flatMap_map, List.range_eq_range', List.map_eq_flatMap, List.map_eq_flatMap]
      congr 1
      refine List.flatMap_congr fun d _ => ?_
      rw [names, gather, primNames, Expr.freeSymbols, t_prefix, String.append_assoc (s₁ := c.pre) (s₂ := "_") (s₃ := entWord _)]
      rfl
    · cases h

theorem names_retag (t : Option String) (b : Block Prim) : names (retag t b) = names b := by
  cases t with
  | none => rfl
  | some t => cases b <;> simp [retag, FeatureMap.setTag, names, gather]

/-- The prefix of a layer. -/
theorem fm_prefix (j : ℕ) : "fm_" ++ toString j = "fm" ++ "_" ++ toString j := rfl

theorem mem_hea {p w : String} {m k : ℕ} {x : Bool} {u : String}
    (h : u ∈ numbered p 0 m ++ if x then numbered (p ++ "_" ++ w) 0 k else []) :
    ∃ i : ℕ, u = p ++ "_" ++ toString i ∨ u = p ++ "_" ++ w ++ "_" ++ toString i := by
  rcases List.mem_append.1 h with h | h
  · obtain ⟨i, -, rfl⟩ := List.mem_map.1 h
    exact ⟨i, .inl rfl⟩
  · split at h
    · obtain ⟨i, -, rfl⟩ := List.mem_map.1 h
      exact ⟨i, .inr rfl⟩
    · simp at h

theorem hea_nodup {p : String} {s : Strategy} {m k : ℕ} {x : Bool} :
    (numbered p 0 m ++ if x then numbered (p ++ "_" ++ entWord s) 0 k else []).Nodup := by
  refine List.nodup_append'.2 ⟨numbered_nodup .., ?_, ?_⟩
  · split
    · exact numbered_nodup ..
    · exact List.nodup_nil
  · split
    · refine numbered_disjoint ?_ ..
      rw [String.append_assoc]
      refine prefix_ne p _ ?_
      cases s <;> decide
    · simp

/-- The names of two ansätze are different if neither prefix is the other one, with or without the word. -/
theorem hea_disjoint {p q w : String} {m k m' k' : ℕ} {x x' : Bool} (h1 : p ≠ q) (h2 : p ++ "_" ++ w ≠ q)
    (h3 : p ≠ q ++ "_" ++ w) : (numbered p 0 m ++ if x then numbered (p ++ "_" ++ w) 0 k else []).Disjoint
      (numbered q 0 m' ++ if x' then numbered (q ++ "_" ++ w) 0 k' else []) := by
  intro u hu hu'
  obtain ⟨i, hi⟩ := mem_hea hu
  obtain ⟨j, hj⟩ := mem_hea hu'
  rcases hi with rfl | rfl <;> rcases hj with hj | hj
  · exact h1 (numbered_inj hj).1
  · exact h3 (numbered_inj hj).1
  · exact h2 (numbered_inj hj).1
  · have := (numbered_inj hj).1
    rw [String.append_assoc, String.append_assoc] at this
    exact h1 (String.append_left_inj _ |>.1 this)

/-- The word after a prefix is never the number of a layer. -/
theorem word_layer (p : String) (s : Strategy) (j : ℕ) : p ++ "_" ++ entWord s ≠ "fm_" ++ toString j := by
  rw [fm_prefix]
  intro h
  exact word_ne s j (suffix_inj (word_plain s) (underscore_not_mem j) h).2

/-- **C87.** The parameters of the interleaved layers and of the ansatz are pairwise distinct (no two gates share one), for all
sizes, depths, operations and entanglers, unless the prefix of the ansatz is that of a layer or of its entanglers. The
other parameters of the circuit are those of the feature map. -/
theorem C87_names (ho : SetOrder ord) {reg : Obs.RegArg} {features : ℕ} (hf : 0 < features) {fms : List (Block Prim)}
    {t : Option String} {c : Config} (ht : c.type = .hea) (hs : c.strategy = .digital ∨ c.strategy = .sdaqc)
    (hp : ∀ j, j + 1 < fms.length → c.pre ≠ "fm_" ++ toString j ∧ c.pre ≠ "fm_" ++ toString j ++ "_" ++ entWord c.strategy)
    {bs : List (Block Prim)} (h : qnnBlocks circle ord reg features (.ok fms) t c = .ok bs) :
    ∃ own : List String, own.Nodup ∧ (bs.flatMap names).Perm (fms.flatMap names ++ own) := by
  rw [qnnBlocks, if_pos hf, ok_bind] at h
  obtain ⟨full, hfull, h⟩ := bind_ok h
  obtain ⟨a, ha, h⟩ := bind_ok h
  obtain rfl := pure_ok h
  obtain ⟨ls, h1, -, -, -, h5, h6⟩ := interleaved_spec hfull
  refine ⟨ls.flatMap names ++ names a, ?_, ?_⟩
  · have hlayer : ∀ (j : ℕ) (hj : j < ls.length), ∃ (x : Bool) (k m : ℕ), (names ls[j]).Perm (numbered ("fm_" ++ toString j) 0 m ++
        if x then numbered ("fm_" ++ toString j ++ "_" ++ entWord c.strategy) 0 k else []) := by
      intro j hj
      have := h5 j ls[j] (List.getElem?_eq_getElem hj)
      rw [Nat.zero_add, ansatzLayer] at this
      obtain ⟨_, -, this⟩ := bind_ok this
      obtain ⟨x, k, hk⟩ := names_hea ho (c := c.layer j) ht hs this
      exact ⟨x, k, _, hk⟩
    obtain ⟨x, k, ha⟩ := names_hea ho ht hs ha
    refine List.nodup_append'.2 ⟨?_, ?_, ?_⟩
    · rw [List.nodup_flatMap]
      constructor
      · intro l hl
        obtain ⟨j, hj, rfl⟩ := List.mem_iff_getElem.1 hl
        obtain ⟨x, k, m, hk⟩ := hlayer j hj
        exact hk.nodup_iff.2 hea_nodup
      · rw [List.pairwise_iff_getElem]
        intro i j hi hj hij
        obtain ⟨x, k, m, hk⟩ := hlayer i hi
        obtain ⟨x', k', m', hk'⟩ := hlayer j hj
        intro u hu hu'
        refine hea_disjoint ?_ ?_ ?_ (hk.mem_iff.1 hu) (hk'.mem_iff.1 hu')
        · rw [fm_prefix, fm_prefix]
          exact fun e => absurd (numbered_inj e).2 (by omega)
        · exact word_layer _ _ _
        · exact (word_layer _ _ _).symm
    · exact ha.nodup_iff.2 hea_nodup
    · intro u hu hu'
      obtain ⟨l, hl, hu⟩ := List.mem_flatMap.1 hu
      obtain ⟨j, hj, rfl⟩ := List.mem_iff_getElem.1 hl
      obtain ⟨x, k, m, hk⟩ := hlayer j hj
      obtain ⟨p1, p2⟩ := hp j (by omega)
      exact hea_disjoint p1.symm p2.symm (word_layer _ _ _).symm (hk.mem_iff.1 hu) (ha.mem_iff.1 hu')
  · simp only [List.flatMap_cons, List.flatMap_nil, List.append_nil, names_retag, chainOf, names_comp]
    rw [← List.append_assoc, ← List.flatMap_append]
    exact ((h6.flatMap_right names).append_right _)

/-- **C87.** The number of trainable rotations: every operation on every qubit has a parameter of its own in each of the
interleaved layers and in each of the layers of the ansatz. -/
theorem C87_rotations (ho : SetOrder ord) {reg : Obs.RegArg} {features : ℕ} (hf : 0 < features) {fms : List (Block Prim)}
    {t : Option String} {c : Config} (ht : c.type = .hea) (hs : c.strategy = .digital ∨ c.strategy = .sdaqc)
    {bs : List (Block Prim)} (h : qnnBlocks circle ord reg features (.ok fms) t c = .ok bs) {ops : ℕ}
    (hops : ops = (c.args.operations.getD [.RX, .RY, .RX]).length) :
    (∀ k < c.depth * (reg.size * ops), c.pre ++ "_" ++ toString k ∈ bs.flatMap names) ∧
    ∀ j, j + 1 < fms.length → ∀ k < reg.size * ops, "fm_" ++ toString j ++ "_" ++ toString k ∈ bs.flatMap names := by
  subst hops
  rw [qnnBlocks, if_pos hf, ok_bind] at h
  obtain ⟨full, hfull, h⟩ := bind_ok h
  obtain ⟨a, ha, h⟩ := bind_ok h
  obtain rfl := pure_ok h
  obtain ⟨ls, h1, -, -, -, h5, h6⟩ := interleaved_spec hfull
  simp only [List.flatMap_cons, List.flatMap_nil, List.append_nil, names_retag, chainOf, names_comp, List.mem_append]
  constructor
  · intro k hk
    obtain ⟨x, m, ha⟩ := names_hea ho ht hs ha
    refine .inr (ha.mem_iff.2 (List.mem_append_left _ (List.mem_map.2 ⟨k, ?_, rfl⟩)))
    rw [List.mem_range'_1]
    omega
  · intro j hj k hk
    have hlt : j < ls.length := by omega
    have := h5 j ls[j] (List.getElem?_eq_getElem hlt)
    rw [Nat.zero_add, ansatzLayer] at this
    obtain ⟨_, -, this⟩ := bind_ok this
    obtain ⟨x, m, ha⟩ := names_hea ho (c := c.layer j) ht hs this
    refine .inl (List.mem_flatMap.2 ⟨ls[j], h6.mem_iff.2 (List.mem_append_right _ (List.getElem_mem hlt)), ha.mem_iff.2 ?_⟩)
    refine List.mem_append_left _ (List.mem_map.2 ⟨k, ?_, rfl⟩)
    rw [List.mem_range'_1]
    simp only [Config.layer]
    omega

/-! ## Defects -/

/-- **C87, defect.** An ansatz with the prefix of an interleaved layer shares its parameters: the first rotations of layer 0
and of the ansatz have the same one. -/
theorem C87_counterexample_prefix (ho : SetOrder ord) {reg : Obs.RegArg} (hn : 1 ≤ reg.size) {c : Config} (ht : c.type = .hea)
    (hs : c.strategy = .digital ∨ c.strategy = .sdaqc) (hd : 1 ≤ c.depth) (hops : c.args.operations = none)
    (hp : c.pre = "fm_0") {l a : Block Prim} (hl : ansatzLayer circle ord reg c 0 = .ok l)
    (ha : createAnsatz circle ord reg c = .ok a) : "fm_0_0" ∈ names l ∧ "fm_0_0" ∈ names a := by
  have pos : 0 < c.depth * (reg.size * 3) := Nat.mul_pos (by omega) (by omega)
  rw [ansatzLayer] at hl
  obtain ⟨_, -, hl⟩ := bind_ok hl
  obtain ⟨x, m, h1⟩ := names_hea ho (c := c.layer 0) ht hs hl
  obtain ⟨y, m', h2⟩ := names_hea ho ht hs ha
  constructor
  · refine h1.mem_iff.2 (List.mem_append_left _ (List.mem_map.2 ⟨0, ?_, by rfl⟩))
    rw [List.mem_range'_1]
    simp only [Config.layer, hops, Option.getD_none, List.length_cons, List.length_nil]
    omega
  · refine h2.mem_iff.2 (List.mem_append_left _ (List.mem_map.2 ⟨0, ?_, by rw [hp]; rfl⟩))
    rw [List.mem_range'_1]
    rw [hops]
    exact ⟨le_rfl, by rw [Nat.zero_add]; exact pos⟩

/-- **C87, defect.** The configuration of an interleaved layer forgets the size of the blocks: with two or more blocks in the
feature map (several features in series, or repeated uploads) an alternating layer ansatz always fails. -/
theorem C87_counterexample_ala_layers (reg : Obs.RegArg) {features : ℕ} (hf : 0 < features) (f g : Block Prim)
    (fms : List (Block Prim)) (t : Option String) {c : Config} (ht : c.type = .ala) :
    qnnBlocks circle ord reg features (.ok (f :: g :: fms)) t c = .error .assertionError := by
  have : ansatzLayer circle ord reg c 0 = .error .assertionError := by
    have h : (c.layer 0).postInit = .error .assertionError := by
      refine (C87_config_accepted _).2 fun h => ?_
      obtain ⟨m, hm⟩ := (((C87_config_accepted _).1.1 h).2 ht).2
      cases hm
    rw [ansatzLayer, h, error_bind]
  rw [qnnBlocks, if_pos hf, ok_bind, interleaved_error this, error_bind]

/-- **C87.** With at most one block it is built, for blocks of two or more but not all qubits. -/
theorem C87_ala (ho : SetOrder ord) {reg : Obs.RegArg} {m : ℕ} (hm : 2 ≤ m) (hn : m < reg.size) (features : ℕ)
    {fms : List (Block Prim)} (h1 : fms.length ≤ 1) (t : Option String) {c : Config} (ht : c.type = .ala)
    (hs : c.strategy = .digital) (hb : c.blockQubits = some m)
    (he : c.args.entangler = none ∨ ∃ e, e ≠ .other ∧ c.args.entangler = some (.cls e)) :
    ∃ bs, qnnBlocks circle ord reg features (.ok fms) t c = .ok bs := by
  obtain ⟨a, ha⟩ : ∃ a, createAnsatz circle ord reg c = .ok a := by
    rw [createAnsatz, ht]
    simp only [createALA, hs, hb]
    refine C42_ala_total ho _ List.nodup_range (by simp) hm hn _ _ ?_
    rcases he with he | ⟨e, h, he⟩ <;> rw [he]
    · simp [EntArg.digital]
    · exact h
  obtain ⟨full, hfull⟩ := interleaved_ok (layer := ansatzLayer circle ord reg c) (i := 0) (fms := fms) fun j hj => by omega
  unfold qnnBlocks
  split
  · rw [ok_bind, hfull, ok_bind, ha]
    exact ⟨_, rfl⟩
  · rw [ha]
    exact ⟨_, rfl⟩

/-- **C87, defect.** The depth and the documented key `operations` have no effect on an alternating layer ansatz. -/
theorem C87_counterexample_ala_ignores (reg : Obs.RegArg) (c : Config) (ht : c.type = .ala) (d : ℕ) (ops : Option (List RotGate)) :
    createAnsatz circle ord reg { c with depth := d, args := { c.args with operations := ops } } =
      createAnsatz circle ord reg c := by
  simp only [createAnsatz, ht, createALA]

/-- It has always one layer, and by default three rotations on every qubit. -/
theorem C87_ala_names (ho : SetOrder ord) {reg : Obs.RegArg} {c : Config} (ht : c.type = .ala)
    (hop : c.args.operation = none) {b : Block Prim} (h : createAnsatz circle ord reg c = .ok b) (k : ℕ) :
    c.pre ++ "_" ++ toString k ∈ names b ↔ k < 3 * reg.size := by
  simp only [createAnsatz, ht, createALA] at h
  split at h
  next =>
    split at h
    · unfold alaDigital at h
      split at h
      · cases h
      obtain ⟨rots, hr, h⟩ := bind_ok h
      obtain ⟨ents, he, h⟩ := bind_ok h
      obtain rfl := pure_ok h
      obtain ⟨m, hm⟩ := names_entanglersAla ho he
      rw [tagChain, names_comp, ((interleave_perm rots ents (by rw [rotationsDigital_length hr,
        entanglersAla_length he])).flatMap_right names).mem_iff, List.flatMap_append, names_rotationsDigital ho hr, hm,
        List.mem_append, hop]
      constructor
      · rintro (h | h)
        · obtain ⟨i, hi, he⟩ := List.mem_map.1 h
          rw [List.mem_range'_1] at hi
          obtain rfl := (numbered_inj he).2
          simp only [Option.getD_none, List.length_cons, List.length_nil] at hi
          omega
        · split at h
          · obtain ⟨i, -, he⟩ := List.mem_map.1 h
            have := (numbered_inj he).1
            rw [String.append_assoc] at this
            exact absurd this.symm (prefix_ne _ _ (by decide))
          · simp at h
      · intro h
        refine .inl (List.mem_map.2 ⟨k, ?_, rfl⟩)
        rw [List.mem_range'_1]
        simp only [Option.getD_none, List.length_cons, List.length_nil]
        omega
    · cases h
  next => cases h

/-- **C87, defect.** The default entangler of the digital-analog identity initialised ansatz is a class of digital gates, not
the documented interaction: without an entangler in the arguments the ansatz cannot be created. -/
theorem C87_counterexample_iia_sdaqc (ho : SetOrder ord) {reg : Obs.RegArg} (hn : 1 ≤ reg.size) {c : Config} (ht : c.type = .iia)
    (hs : c.strategy = .sdaqc) (hd : 1 ≤ c.depth) (he : c.args.entangler = none) :
    c.postInit = .ok () ∧ createAnsatz circle ord reg c = .error .notImplementedError := by
  refine ⟨(C87_config_accepted c).1.2 (by simp [ht, hs]), ?_⟩
  obtain ⟨l, hl⟩ : ∃ bs, iiaLeft ord reg.size 0 (c.pre ++ "_α") (c.args.operations.getD [.RX, .RY]) = .ok bs :=
    mapM_ok_of_forall fun g _ => ⟨_, iiaKron_ok ho (by omega) ..⟩
  simp only [createAnsatz, ht, createIIA, hs, iiaSDAQC, he, Option.getD_none, hl, ok_bind]
  rw [if_neg (by omega)]

/-- **C87.** With a sum of products of Pauli operators it is built. -/
theorem C87_iia_sdaqc (ho : SetOrder ord) {reg : Obs.RegArg} (hn : 1 ≤ reg.size) (features : ℕ) (fms : List (Block Prim))
    (t : Option String) {c : Config} (ht : c.type = .iia) (hs : c.strategy = .sdaqc) {g : Block Gate}
    (hg : isQubitHamiltonian g = true) (he : c.args.entangler = some (.ham g)) :
    ∃ bs, qnnBlocks circle ord reg features (.ok fms) t c = .ok bs := by
  have key : ∀ c' : Config, c'.type = .iia → c'.strategy = .sdaqc → c'.args = c.args →
      ∃ a, createAnsatz circle ord reg c' = .ok a := by
    intro c' h1 h2 h3
    simp only [createAnsatz, h1, createIIA, h2, iiaSDAQC, h3, he, Option.getD_some]
    exact iia_ok ho (by omega) _ (by simp) (by rintro g' ⟨⟩; exact hg)
  refine blocks_ok ((C87_config_accepted c).1.2 ?_) (by simp [ht]) (key c ht hs rfl) fun j _ => key _ ht hs rfl
  simp [ht, hs]

/-- **C87.** Only the Rydberg strategy sees the register: for all others the edges have no effect, also not on the default
generator of the digital-analog ansatz, which couples all pairs of qubits. -/
theorem C87_register_ignored (reg : Obs.RegArg) (c : Config) (hs : c.strategy ≠ .rydberg) :
    createAnsatz circle ord reg c = createAnsatz circle ord (.number reg.size) c := by
  obtain ⟨d, ty, s, a, m, p, g⟩ := c
  cases ty <;> cases s <;> first | rfl | exact absurd rfl hs

/-- **C87, defect.** The interleaved layers of a Rydberg ansatz and the ansatz have the same weights of the detuning, whatever
the prefix. -/
theorem C87_counterexample_rydberg (ho : SetOrder ord) {reg : Obs.RegArg} {c : Config} (ht : c.type = .hea)
    (hs : c.strategy = .rydberg) (hd : 1 ≤ c.depth) (hdet : c.args.addressableDetuning = none)
    (hn : 0 < (rydbergRegister circle reg).nQubits) (hl : ∀ e ∈ (rydbergRegister circle reg).edges, e.1 ≠ e.2) (j : ℕ)
    {l a : Block Prim} (h1 : ansatzLayer circle ord reg c j = .ok l) (h2 : createAnsatz circle ord reg c = .ok a) :
    "detmap_0" ∈ vars l ∧ "detmap_0" ∈ vars a := by
  rw [ansatzLayer] at h1
  obtain ⟨_, -, h1⟩ := bind_ok h1
  simp only [createAnsatz, Config.layer, ht, createHEA, hs] at h1 h2
  rw [RydbergHEA.C82_names ho _ hl _ _ h1, RydbergHEA.C82_names ho _ hl _ _ h2]
  simp only [Config.rydberg, hdet, Option.getD_none]
  exact ⟨⟨0, by omega, .inr (.inr (.inr (.inl ⟨trivial, 0, hn, rfl⟩)))⟩, ⟨0, by omega, .inr (.inr (.inr (.inl ⟨trivial, 0, hn, rfl⟩)))⟩⟩

/-! ## Examples -/

/-- The default configuration on three qubits, with two blocks in the feature map. -/
example (ho : SetOrder ord) (f g : Block Prim) : ∃ full a l, qnnBlocks circle ord (.number 3) 2 (.ok [f, g]) none {} =
    .ok [chainOf full, a] ∧ full = [f, l, g] ∧ "fm_0_8" ∈ names l ∧ "theta_8" ∈ names a := by
  obtain ⟨a, ha⟩ := C42_hea_total ho "theta" (support := List.range 3) List.nodup_range (n := 3) (by norm_num) (by simp) 1 false
    [.RX, .RY, .RX] (e := .CNOT) (by simp)
  obtain ⟨l, hl⟩ := C42_hea_total ho "fm_0" (support := List.range 3) List.nodup_range (n := 3) (by norm_num) (by simp) 1 false
    [.RX, .RY, .RX] (e := .CNOT) (by simp)
  refine ⟨[f, l, g], a, l, ?_, rfl, ?_, ?_⟩
  · have e1 : createAnsatz circle ord (.number 3) {} = .ok a := ha
    have e2 : ansatzLayer circle ord (.number 3) {} 0 = .ok l := hl
    rw [qnnBlocks, if_pos (by norm_num), ok_bind]
    simp only [interleaved, e2, e1, ok_bind]
    rfl
  · have := C41_hea_digital_rotations ho hl 8 (by norm_num)
    exact this
  · exact C41_hea_digital_rotations ho ha 8 (by norm_num)

/-- A configuration without block size, and one that is accepted. -/
example : Config.postInit { type := .ala } = .error .assertionError ∧
    Config.postInit { type := .ala, blockQubits := some 2 } = .ok () ∧
    Config.postInit { type := .iia, strategy := .rydberg } = .error .assertionError := ⟨rfl, rfl, rfl⟩

end Qadence.QNNConfig
