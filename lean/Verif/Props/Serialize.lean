import Verif.Proofs.Serialize
import Verif.Props.Register
import Verif.Props.EqualityCases

/-!
# C21: dictionaries of blocks and circuits
-/

namespace Qadence

open Spec Block

variable {E : Type} {ser : Expr → E} {des : E → Except PyErr Expr} {ord : List ℕ → List ℕ}

/-! ## Blocks -/

/-- **C21** (partial): a block is read back with the same gates, qubits, parameters, noise and order of parts. The tag of the
block and the tags of composite blocks are kept.

What is missing: the tags of gates and scale blocks inside the block are lost, and the block must consist of gates in the
list `LoadableGate`, see `C21_loads_iff`. -/
theorem C21_round_trip_partial {b : Block Prim} (h : Storable ser des ord b) (hl : ∀ l t, Occurs (.leaf l t) b → LoadablePrim l) :
    Block.deserialize des ord (b.dump ser ord) = .ok (untagParts b) := by
  rw [Block.deserialize, load_dump b h hl, ok_bind, dump_tag, retag_untag]
  rfl

/-- Exactly the blocks made of the gates in the list are read back: any other gate at any depth raises an exception. -/
theorem C21_loads_iff {b : Block Prim} (h : Storable ser des ord b) :
    (∃ b', Block.deserialize des ord (b.dump ser ord) = .ok b') ↔ ∀ l t, Occurs (.leaf l t) b → LoadablePrim l := by
  constructor
  · rintro ⟨b', hb⟩ l t ho
    by_contra hl
    obtain ⟨e, he⟩ := load_refused b h ⟨l, t, ho, hl⟩
    rw [Block.deserialize, he] at hb
    cases hb
  · exact fun hl => ⟨_, C21_round_trip_partial h hl⟩

/-- What is read back, whenever something is. -/
theorem C21_loaded {b b' : Block Prim} (h : Storable ser des ord b) (hb : Block.deserialize des ord (b.dump ser ord) = .ok b') :
    b' = untagParts b := by
  have := C21_round_trip_partial h ((C21_loads_iff h).1 ⟨b', hb⟩)
  rw [hb] at this
  exact Except.ok.inj this

/-- A block without tags on the gates and scale blocks inside it is read back exactly. -/
theorem C21_exact {k : CKind} {bs : List (Block Prim)} {t : Option String} (h : Storable ser des ord (.comp k bs t))
    (hl : ∀ l u, Occurs (.leaf l u) (.comp k bs t) → LoadablePrim l) (h1 : ∀ l u, Occurs (.leaf l u) (.comp k bs t) → u = none)
    (h2 : ∀ c s u, Occurs (.scale c s u) (.comp k bs t) → u = none) :
    Block.deserialize des ord ((Block.comp k bs t).dump ser ord) = .ok (.comp k bs t) := by
  rw [C21_round_trip_partial h hl]
  have := untag_eq_self _ h1 h2
  rw [untag] at this
  rw [untagParts, this]

theorem sem_untag {L : Type} {n : ℕ} (S : LeafSem L n) (ρ : Env) (b : Block L) : sem S ρ (untag b) = sem S ρ b := by
  induction b using Block.induction with
  | leaf l t => rw [untag, sem_leaf, sem_leaf]
  | scale b s t ih => rw [untag, sem_scale, sem_scale, ih]
  | comp k bs t ih =>
    rw [untag, untags_eq_map]
    have : (bs.map untag).map (sem S ρ) = bs.map (sem S ρ) := by
      rw [List.map_map]
      exact List.map_congr_left fun b hb => ih b hb
    cases k
    · rw [sem_chain, sem_chain, this]
    · rw [sem_kron, sem_kron, this]
    · rw [sem_add, sem_add, this]

/-- A block which is read back denotes the same operator, whatever operators the primitive blocks denote. -/
theorem C21_same_operator {n : ℕ} (S : LeafSem Prim n) (ρ : Env) {b b' : Block Prim} (h : Storable ser des ord b)
    (hb : Block.deserialize des ord (b.dump ser ord) = .ok b') : sem S ρ b' = sem S ρ b := by
  rw [C21_loaded h hb]
  cases b with
  | leaf l t => rfl
  | scale b s t => rw [untagParts, sem_scale, sem_scale, sem_untag]
  | comp k bs t =>
    have := sem_untag S ρ (Block.comp k bs t)
    rw [untag] at this
    rw [untagParts, this]

theorem occurs_untag_leaf {L : Type} {l : L} {t : Option String} (b : Block L) : Occurs (.leaf l t) (untag b) → ∃ t', Occurs (.leaf l t') b := by
  induction b using Block.induction with
  | leaf l' t' =>
    intro h
    rw [untag] at h
    cases h
    exact ⟨t', .self⟩
  | scale b s u ih =>
    intro h
    rw [untag] at h
    cases h with
    | scale _ _ h =>
      obtain ⟨t', h'⟩ := ih h
      exact ⟨t', .scale _ _ h'⟩
  | comp k bs u ih =>
    intro h
    rw [untag, untags_eq_map] at h
    cases h with
    | comp _ _ hb h =>
      obtain ⟨c, hc, rfl⟩ := List.mem_map.1 hb
      obtain ⟨t', h'⟩ := ih c hc h
      exact ⟨t', .comp _ _ hc h'⟩

theorem occurs_untagParts_leaf {L : Type} {l : L} {t : Option String} (b : Block L) (h : Occurs (.leaf l t) (untagParts b)) :
    ∃ t', Occurs (.leaf l t') b := by
  cases b with
  | leaf l' t' => exact ⟨t, h⟩
  | scale b s u =>
    rw [untagParts] at h
    cases h with
    | scale _ _ h =>
      obtain ⟨t', h'⟩ := occurs_untag_leaf b h
      exact ⟨t', .scale _ _ h'⟩
  | comp k bs u =>
    refine occurs_untag_leaf (t := t) _ ?_
    rw [untag]
    exact h

theorem loadable_noU {l : Prim} (h : LoadablePrim l) : NoUPrim l := by
  cases h with
  | gate ν h => cases h <;> simp [NoUPrim, NoU, Gate.cnot, Gate.cz]

/-- A block which is read back is equal to the original one for `==`: this comparison does not see the lost tags. -/
theorem C21_equal (simp : Expr → Expr → Bool) {b b' : Block Prim} (h : Storable ser des ord b)
    (hb : Block.deserialize des ord (b.dump ser ord) = .ok b') : blockEq simp ord b b' = .ok true := by
  have hl := (C21_loads_iff h).1 ⟨b', hb⟩
  rw [C21_loaded h hb]
  refine C20_same_equal (fun l t ho => ?_) (same_untagParts b)
  rcases ho with ho | ho
  · exact loadable_noU (hl l t ho)
  · obtain ⟨t', ho⟩ := occurs_untagParts_leaf b ho
    exact loadable_noU (hl l t' ho)

theorem storable_untag (b : Block Prim) : Storable ser des ord b → Storable ser des ord (untag b) := by
  induction b using Block.induction with
  | leaf l t => intro h; exact storable_leaf _ (h.leaves l t .self)
  | scale b s t ih => intro h; rw [untag]; exact storable_scale _ (ih h.scale) (h.scales b s t .self)
  | comp k bs t ih =>
    intro h
    rw [untag]
    refine storable_comp _ (fun b hb => ?_) (fun hk => ?_)
    · rw [untags_eq_map] at hb
      obtain ⟨c, hc, rfl⟩ := List.mem_map.1 hb
      exact ih c hc (h.part hc)
    · subst hk
      exact kronOf_untags (h.krons bs t .self)

theorem storable_untagParts {b : Block Prim} (h : Storable ser des ord b) : Storable ser des ord (untagParts b) := by
  cases b with
  | leaf l t => exact h
  | scale b s t => exact storable_scale _ (storable_untag b h.scale) (h.scales b s t .self)
  | comp k bs t =>
    have := storable_untag _ h
    rwa [untag] at this

/-- What is read back is stable: a second round trip changes nothing. -/
theorem C21_second_trip {b b' : Block Prim} (h : Storable ser des ord b) (hb : Block.deserialize des ord (b.dump ser ord) = .ok b') :
    Block.deserialize des ord (b'.dump ser ord) = .ok b' := by
  have hl := (C21_loads_iff h).1 ⟨b', hb⟩
  have e := C21_loaded h hb
  have h' : Storable ser des ord b' := e ▸ storable_untagParts h
  rw [C21_round_trip_partial h' fun l t ho => ?_]
  · rw [e]
    congr 1
    have key : ∀ c : Block Prim, untag (untag c) = untag c := by
      intro c
      induction c using Block.induction with
      | leaf l t => rfl
      | scale c s t ih => rw [untag, untag, ih]
      | comp k bs t ih =>
        rw [untag, untag, untags_eq_map, untags_eq_map, List.map_map]
        congr 1
        exact List.map_congr_left fun c hc => ih c hc
    cases b with
    | leaf l t => rfl
    | scale c s t => rw [untagParts, untagParts, key]
    | comp k bs t =>
      have := key (.comp k bs t)
      rw [untag, untag] at this
      rw [untagParts, untagParts, this]
  · subst e
    obtain ⟨t', ho⟩ := occurs_untagParts_leaf b ho
    exact hl l t' ho

/-- The exception for every gate which is not read back. Noise is valid or missing, parameters are readable. -/
theorem C21_counterexample_classes {ν : Option (NoiseHandler Rat)} (hν : NoiseOk ν) (hd : ∀ θ, des (ser θ) = .ok θ) (t : Option String) :
    (∀ q s, load des ord ((Gate.fixed (.N s) q).dump ser t ν) = .error .typeError) ∧
    (∀ q, load des ord ((Gate.fixed .Zero q).dump ser t ν) = .error .typeError) ∧
    (∀ ket bra qs, load des ord ((Gate.proj ket bra qs).dump ser t ν) = .error .typeError) ∧
    (∀ rows q, load des ord ((Gate.matrix rows [q]).dump ser t ν) = .error .attributeError) ∧
    (∀ q θ, load des ord ((Gate.rot .PHASE q θ).dump ser t ν) = .error .typeError) ∧
    (∀ q φ θ ω, load des ord ((Gate.u q φ θ ω).dump ser t ν) = .error .typeError) ∧
    (∀ c cs q, load des ord ((Gate.mcz (c :: cs) q).dump ser t ν) = .error .typeError) ∧
    (∀ c cs q, load des ord ((Gate.toffoli (c :: cs) q).dump ser t ν) = .error .typeError) ∧
    (∀ c a b, load des ord ((Gate.cswap c a b).dump ser t ν) = .error .typeError) ∧
    (∀ c q θ, load des ord ((Gate.crx c q θ).dump ser t ν) = .error .valueError) ∧
    (∀ c q θ, load des ord ((Gate.cry c q θ).dump ser t ν) = .error .valueError) ∧
    (∀ c q θ, load des ord ((Gate.crz c q θ).dump ser t ν) = .error .valueError) ∧
    (∀ c q θ, load des ord ((Gate.cphase c q θ).dump ser t ν) = .error .valueError) ∧
    (∀ gen s, gen.support Gate.supp ord ≠ [] → load des ord ((Prim.hamEvo gen s).dump ser ord t) = .error .valueError) := by
  refine ⟨fun q s => fixed_refused _ (.inr ⟨s, rfl⟩) q hν t, fun q => fixed_refused _ (.inl rfl) q hν t, fun ket bra qs => proj_refused ket bra qs hν t,
    fun rows q => ?_, fun q θ => phase_refused q θ (hd θ) hν t, fun q φ θ ω => u_refused q φ θ ω (hd φ) (hd θ) (hd ω) hν t, ?_, ?_, ?_, ?_, ?_, ?_, ?_, ?_⟩
  · rw [matrix_refused rows [q] hν t]; rfl
  · exact fun c cs q => ctrl_refused .MCZ (by decide) _ (by simp) _ (by simp [Gate.supp]) hν t
  · exact fun c cs q => ctrl_refused .Toffoli (by decide) _ (by simp) _ (by simp [Gate.supp]) hν t
  · exact fun c a b => ctrl_refused .CSWAP (by decide) _ (by simp) _ (by simp [Gate.supp]) hν t
  · exact fun c q θ => ctrl_refused .CRX (by decide) _ (by simp) _ (by simp [Gate.supp]) hν t
  · exact fun c q θ => ctrl_refused .CRY (by decide) _ (by simp) _ (by simp [Gate.supp]) hν t
  · exact fun c q θ => ctrl_refused .CRZ (by decide) _ (by simp) _ (by simp [Gate.supp]) hν t
  · exact fun c q θ => ctrl_refused .CPHASE (by decide) _ (by simp) _ (by simp [Gate.supp]) hν t
  · intro gen s hs
    rw [hamEvo_refused gen s (hd s) t, if_neg hs]

/-- A rotation whose angle is not readable (such as `RX(0, pi)`, see `C70_counterexample_pi`) is not read back. -/
theorem C21_unreadable_angle (q : ℕ) (θ : Expr) (e : PyErr) (hd : des (ser θ) = .error e) (ν : Option (NoiseHandler Rat)) (t : Option String) :
    Block.deserialize des ord ((Block.leaf (.gate (.rot .RX q θ) ν) t).dump ser ord) = .error e := by
  rw [Block.deserialize, Block.dump, Prim.dump, Gate.dump, Block.load, withClass_some (ofName_rot .RX), paramLoad, paramsLoad, hd]
  rfl

/-! ## Registers and circuits -/

open Register in
/-- A register is read back unchanged if and only if its smallest distance is one, or zero (fewer than two nodes, or coincident
nodes). -/
theorem C21_register_iff (ho : Block.SetOrder ord) {r : Register} {P : ℕ → ℝ × ℝ} (h : Planar r P) :
    r.roundTrip ord = .ok r ↔ r.minDistance ord = .ok 1 ∨ r.minDistance ord = .ok 0 := by
  set l := (r.allNodePairs ord).map fun e => euclid (P e.1) (P e.2) with hl
  have hmin : minDistance ord r = .ok (minValue l) := by
    simp only [minDistance, distances_ok ho h, ok_bind, pure_eq_ok, List.map_map, hl]
    rfl
  have hrt : r.roundTrip ord = if minValue l ≠ 0 then scaleNodePositions r (minValue l) 1 else .ok r := by
    simp only [roundTrip, init, hmin, ok_bind]
    rfl
  rw [hrt, hmin]
  simp only [Except.ok.injEq]
  by_cases h0 : minValue l = 0
  · simp [h0]
  · rw [if_pos h0]
    have hs : scaleNodePositions r (minValue l) 1 =
        .ok { r with nodes := r.nodes.map fun n => (n.1, some [(P n.1).1 * (1 / minValue l), (P n.1).2 * (1 / minValue l)]) } := by
      unfold scaleNodePositions
      have : (r.nodes.mapM fun n => do
          let p ← scalePos (1 / minValue l) n.2
          return (n.1, p)) =
          .ok (r.nodes.map fun n => (n.1, some [(P n.1).1 * (1 / minValue l), (P n.1).2 * (1 / minValue l)])) := by
        refine mapM_ok_map fun n hn => ?_
        rw [h.2 n hn]
        simp only [scalePos, ok_bind]
        rfl
      simp only [this, ok_bind]
      rfl
    rw [hs]
    constructor
    · intro hr
      left
      by_contra h1
      have hn : r.nodes.map (fun n => (n.1, some [(P n.1).1 * (1 / minValue l), (P n.1).2 * (1 / minValue l)])) = r.nodes :=
        congrArg Register.nodes (Except.ok.inj hr)
      have hz : ∀ i ∈ r.labels, P i = 0 := by
        intro i hi
        obtain ⟨n, hn', rfl⟩ := List.mem_map.1 hi
        have hfix : (n.1, some [(P n.1).1 * (1 / minValue l), (P n.1).2 * (1 / minValue l)]) = n :=
          (List.map_inj_left.1 (hn.trans (List.map_id r.nodes).symm)) n hn'
        have h2 := congrArg Prod.snd hfix
        simp only at h2
        rw [h.2 n hn'] at h2
        simp only [Option.some.injEq, List.cons.injEq, and_true] at h2
        have hne : 1 / minValue l - 1 ≠ 0 := by
          intro hc
          apply h1
          have : 1 / minValue l = 1 := by linarith
          field_simp at this
          exact this.symm
        refine Prod.ext ?_ ?_
        · have : (P n.1).1 * (1 / minValue l - 1) = 0 := by linarith [h2.1]
          exact (mul_eq_zero.1 this).resolve_right hne
        · have : (P n.1).2 * (1 / minValue l - 1) = 0 := by linarith [h2.2]
          exact (mul_eq_zero.1 this).resolve_right hne
      apply h0
      by_cases hne : l = []
      · rw [hne]; rfl
      · obtain ⟨m1, -⟩ := minValue_spec hne
        obtain ⟨e, he, hev⟩ := List.mem_map.1 m1
        obtain ⟨he1, he2, -⟩ := (mem_allNodePairs ho e.1 e.2).1 he
        rw [← hev, hz _ he1, hz _ he2]
        exact euclid_eq_zero.2 rfl
    · rintro (h1 | h1)
      · rw [h1]
        congr 1
        obtain ⟨nodes, edges⟩ := r
        congr 1
        simp only [div_one, mul_one]
        conv_rhs => rw [← List.map_id nodes]
        exact List.map_congr_left fun n hn => Prod.ext rfl (h.2 n hn).symm
      · exact absurd h1 h0

open Register in
/-- A register of two atoms at distance 8 is read back as a register of two atoms at distance 1. -/
theorem C21_counterexample_register (ho : Block.SetOrder ord) :
    ∃ r r', line ord 2 8 = .ok r ∧ r.minDistance ord = .ok 8 ∧ r.roundTrip ord = .ok r' ∧ r'.minDistance ord = .ok 1 ∧ r' ≠ r := by
  obtain ⟨r, P, h1, h2, h3, -, h5, h6⟩ := C39_line ho (le_refl 2) (show (0 : ℝ) < 8 by norm_num)
  have hne : ∀ i ∈ r.labels, ∀ j ∈ r.labels, i ≠ j → P i ≠ P j := by
    intro i _ j _ hij he
    have := h6 i j
    rw [euclid_eq_zero.2 he] at this
    have : (i : ℝ) - j = 0 := by
      rcases mul_eq_zero.1 this.symm with h | h
      · norm_num at h
      · exact abs_eq_zero.1 h
    exact hij (by exact_mod_cast sub_eq_zero.1 this)
  obtain ⟨r', f, g1, -, -, -, -, g6, -⟩ := C39_spacing ho h3 ⟨0, by simp [h2], 1, by simp [h2], by decide⟩ hne one_pos
  refine ⟨r, r', h1, h5, g1, g6, ?_⟩
  rintro rfl
  rw [h5] at g6
  have := Except.ok.inj g6
  norm_num at this

theorem mapM_ok_length {α β : Type} {f : α → Except PyErr β} {l : List α} : ∀ {m : List β}, l.mapM f = .ok m → m.length = l.length := by
  induction l with
  | nil => intro m h; cases h; rfl
  | cons a l ih =>
    intro m h
    rw [List.mapM_cons] at h
    obtain ⟨b, -, h⟩ := bind_ok h
    obtain ⟨bs, h', h⟩ := bind_ok h
    cases h
    simp [ih h']

theorem roundTrip_nQubits {r r' : Register} (h : r.roundTrip ord = .ok r') : r'.nQubits = r.nQubits := by
  rw [Register.roundTrip, Register.init] at h
  obtain ⟨d, h1, h2⟩ := bind_ok h
  split_ifs at h2 with hd
  · rw [Register.scaleNodePositions] at h2
    obtain ⟨ns, h3, h4⟩ := bind_ok h2
    have h4 := Except.ok.inj h4
    subst h4
    exact mapM_ok_length h3
  · cases h2
    rfl

theorem len_untag (b : Block Prim) : (untag b).len = b.len := by
  cases b with
  | leaf l t => rfl
  | scale b s t => rfl
  | comp k bs t => rw [untag, untags_eq_map]; simp [Block.len]

theorem nQubits_untag (b : Block Prim) : (untag b).nQubits (Prim.supp ord) (Prim.nQubits ord) ord = b.nQubits (Prim.supp ord) (Prim.nQubits ord) ord := by
  induction b using Block.induction with
  | leaf l t => rfl
  | scale b s t ih => rw [untag, Block.nQubits, Block.nQubits, ih]
  | comp k bs t ih =>
    have := support_untag (ord := ord) (Prim.supp ord) (Block.comp k bs t)
    rw [untag] at this ⊢
    rw [Block.nQubits, Block.nQubits, this]

theorem circuit_one {nReg : ℕ} {b : Block Prim} {x : Circuit Prim} : Circuit.new (Prim.supp ord) (Prim.nQubits ord) ord nReg [b] = .ok x ↔
    x = ⟨nReg, b⟩ ∧ (b.len = 0 ∨ ∃ m, b.nQubits (Prim.supp ord) (Prim.nQubits ord) ord = .ok m ∧ m ≤ nReg) := by
  unfold Circuit.new
  simp only [Circuit.rootBlock]
  by_cases h : b.len = 0
  · simp only [h, if_true, pure_eq_ok, Except.ok.injEq, true_or, and_true]
    exact eq_comm
  · simp only [h, if_false, false_or]
    cases hn : b.nQubits (Prim.supp ord) (Prim.nQubits ord) ord with
    | error e => simp [bind, Except.bind]
    | ok m =>
      simp only [ok_bind]
      by_cases hm : m > nReg
      · simp [hm, Nat.not_le.2 hm]
      · simp [hm, Nat.not_lt.1 hm, pure_eq_ok, eq_comm]

/-- **C21** (circuits, partial): a circuit is read back with its register rescaled (see `C21_register_iff`) and its block without
the tags of gates and scale blocks; here also a tag of the block itself is lost if it is a gate or a scale block. -/
theorem C21_circuit_partial {r r' : Register} {b : Block Prim} {c : FullCircuit} (hc : FullCircuit.new ord r b = .ok c)
    (h : Storable ser des ord b) (hl : ∀ l t, Occurs (.leaf l t) b → LoadablePrim l) (hr : r.roundTrip ord = .ok r') :
    c.roundTrip ser des ord = .ok ⟨r', untag b⟩ := by
  rw [FullCircuit.new] at hc
  obtain ⟨x, h1, h2⟩ := bind_ok hc
  obtain ⟨rfl, h3⟩ := circuit_one.1 h1
  cases h2
  rw [FullCircuit.roundTrip]
  simp only [hr, ok_bind, load_dump b h hl]
  rw [FullCircuit.new, circuit_one.2 ⟨rfl, by rwa [len_untag, nQubits_untag, roundTrip_nQubits hr]⟩]
  rfl

/-! ## Lost tags -/

theorem storable_fixed (g : FixedGate) (q : ℕ) : StorablePrim ser des (.gate (.fixed g q) none) :=
  ⟨fun g' ν hg => by cases hg; exact ⟨.fixed _ _, fun _ hn => by cases hn⟩, fun θ hθ => by cases hθ⟩

/-- The tag of a gate in a chain is lost. -/
theorem C21_counterexample_gate_tag : Block.deserialize Except.ok id
      ((Block.comp .chain [.leaf (.gate (.fixed .X 0) none) (some "a")] none).dump id id) =
    .ok (.comp .chain [.leaf (.gate (.fixed .X 0) none) none] none) := by
  refine C21_round_trip_partial (storable_comp _ (fun b hb => ?_) (by simp)) (leaves_comp _ _ fun b hb => ?_)
  · rw [List.mem_singleton] at hb
    subst hb
    exact storable_leaf _ (storable_fixed _ _)
  · rw [List.mem_singleton] at hb
    subst hb
    exact leaves_leaf _ (.gate _ (.one _ _ (by simp)))

/-- A tagged gate keeps its tag if it is read back on its own, and loses it as the block of a circuit. -/
theorem C21_counterexample_circuit_tag (t : String) :
    Block.deserialize Except.ok ord ((Block.leaf (.gate (.fixed .X 0) none) (some t)).dump id ord) =
      .ok (.leaf (.gate (.fixed .X 0) none) (some t)) ∧
    FullCircuit.roundTrip id Except.ok id ⟨{ nodes := [(0, some [0, 0])], edges := [] }, .leaf (.gate (.fixed .X 0) none) (some t)⟩ =
      .ok ⟨{ nodes := [(0, some [0, 0])], edges := [] }, .leaf (.gate (.fixed .X 0) none) none⟩ := by
  have hs : ∀ ord, Storable id Except.ok ord (.leaf (.gate (.fixed .X 0) none) (some t)) := fun ord =>
    storable_leaf _ (storable_fixed _ _)
  have hl := leaves_leaf (p := LoadablePrim) (l := .gate (.fixed .X 0) none) (some t) (.gate _ (.one _ _ (by simp)))
  refine ⟨C21_round_trip_partial (hs ord) hl, ?_⟩
  refine C21_circuit_partial (r := { nodes := [(0, some [0, 0])], edges := [] }) (c := ⟨_, _⟩) ?_ (hs id) hl ?_
  · rfl
  · simp [Register.roundTrip, Register.init, Register.minDistance, Register.distances, Register.allNodePairs, Register.support, Register.labels,
      Register.minValue, List.product, bind, Except.bind, pure, Except.pure]

/-! ## Examples -/

/-- `chain(kron(RX(0, x), 2 * X(1)), CNOT(0, 1))` with tags on the chain and on the kron. -/
def storedBlock : Block Prim :=
  .comp .chain [.comp .kron [rx 0 (.var "x"), .scale (fx .X 1) (.num 2 0) none] (some "layer"),
    .leaf (.gate (.cnot 0 1) none) none] (some "ansatz")

theorem storedBlock_storable : Storable id Except.ok id storedBlock := by
  refine storable_comp _ (fun b hb => ?_) (by simp)
  simp only [List.mem_cons, List.not_mem_nil, or_false] at hb
  rcases hb with rfl | rfl
  · refine storable_comp _ (fun b hb => ?_) (fun _ => by rfl)
    simp only [List.mem_cons, List.not_mem_nil, or_false] at hb
    rcases hb with rfl | rfl
    · exact storable_leaf _ ⟨fun g ν hg => by cases hg; exact ⟨.rot _ _ _, fun _ hn => by cases hn⟩, fun θ _ => rfl⟩
    · exact storable_scale _ (storable_leaf _ (storable_fixed _ _)) rfl
  · exact storable_leaf _ ⟨fun g ν hg => by cases hg; exact ⟨.cnot (by decide), fun _ hn => by cases hn⟩, fun θ hθ => by cases hθ⟩

theorem storedBlock_loadable : ∀ l t, Occurs (.leaf l t) storedBlock → LoadablePrim l := by
  refine leaves_comp _ _ fun b hb => ?_
  simp only [List.mem_cons, List.not_mem_nil, or_false] at hb
  rcases hb with rfl | rfl
  · refine leaves_comp _ _ fun b hb => ?_
    simp only [List.mem_cons, List.not_mem_nil, or_false] at hb
    rcases hb with rfl | rfl
    · exact leaves_leaf _ (.gate _ (.rot _ _ _ (by simp)))
    · exact leaves_scale _ _ (leaves_leaf _ (.gate _ (.one _ _ (by simp))))
  · exact leaves_leaf _ (.gate _ (.cnot _ _))

/-- The hypotheses of `C21_round_trip_partial` are met; this block has no other tags and is read back exactly. -/
example : Block.deserialize Except.ok id (storedBlock.dump id id) = .ok storedBlock :=
  C21_round_trip_partial storedBlock_storable storedBlock_loadable

/-- Controlled rotations are not read back, at any depth. -/
example : ¬ ∃ b', Block.deserialize Except.ok id ((Block.comp .chain [.leaf (.gate (.crx 0 1 (.var "x")) none) none] none).dump id id) = .ok b' := by
  rw [C21_loads_iff (storable_comp _ (fun b hb => ?_) (by simp))]
  · intro h
    have := h _ _ (.comp _ _ (List.mem_singleton.2 rfl) .self)
    cases this with
    | gate _ h =>
      generalize hg : Gate.crx 0 1 (.var "x") = g at h
      cases h <;> simp [Gate.crx, Gate.cnot, Gate.cz] at hg
  · rw [List.mem_singleton] at hb
    subst hb
    exact storable_leaf _ ⟨fun g ν hg => by
      cases hg
      exact ⟨.rotated .CRX .RX (cs := [0]) (t := 1) _ (by simp) (by simp), fun _ hn => by cases hn⟩, fun θ hθ => by cases hθ⟩

end Qadence
