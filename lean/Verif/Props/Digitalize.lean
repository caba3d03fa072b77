import Verif.Props.Trotter
import Verif.Props.Dagger

/-!
# Digitalized blocks (C66)
-/

namespace Qadence.Decompose

open Spec Block Matrix Measure Ansatz QFT

variable {n : ℕ}

/-- The blocks of decompositions: gates with fixed angle axes on the given qubits. -/
def GateOn (ord : List ℕ → List ℕ) (Q : Set ℕ) (x : Block Prim) : Prop :=
  (∃ g, x = gateBlock g ∧ ∀ q φ θ ω, g ≠ .u q φ θ ω) ∧ qubits (Prim.supp ord) x ⊆ Q

theorem zGates_mem {s : ℚ} {ps : List (FixedGate × ℕ)} {x : Block Prim} (h : x ∈ (ps.map (zGates s)).flatten) :
    ∃ q ∈ ps.map Prod.snd, ∃ g, x = gateBlock g ∧ g.supp = [q] ∧ ∀ q φ θ ω, g ≠ .u q φ θ ω := by
  obtain ⟨l, h1, h2⟩ := List.mem_flatten.1 h
  obtain ⟨⟨g, q⟩, h3, rfl⟩ := List.mem_map.1 h1
  refine ⟨q, List.mem_map.2 ⟨_, h3, rfl⟩, ?_⟩
  cases g <;> simp only [zGates, List.mem_singleton, List.not_mem_nil] at h2
  · exact ⟨_, h2, rfl, by simp⟩
  · exact ⟨_, h2, rfl, by simp⟩

theorem gates_mem (ord : List ℕ → List ℕ) {s : ℚ} {ps : List (FixedGate × ℕ)} {a k : ℕ}
    (hr : ∀ q ∈ ps.map Prod.snd, a ≤ q ∧ q ≤ a + k) {θ : Expr} {x : Block Prim} (h : x ∈ gates s ps a (a + k) θ) :
    GateOn ord {q | a ≤ q ∧ q ≤ a + k} x := by
  have hl : ∀ x ∈ ladder a (a + k), GateOn ord {q | a ≤ q ∧ q ≤ a + k} x := by
    intro x hx
    obtain ⟨i, hi, rfl⟩ := List.mem_map.1 hx
    rw [List.mem_range'_1] at hi
    refine ⟨⟨_, rfl, by simp [Gate.cnot]⟩, ?_⟩
    intro q hq
    rw [gateBlock, qubits_leaf] at hq
    have : q = i ∨ q = i + 1 := by simpa [Prim.supp, Gate.supp, Gate.cnot] using hq
    simp only [Set.mem_setOf_eq]
    omega
  have hz : ∀ s ps', (∀ q ∈ List.map Prod.snd ps', a ≤ q ∧ q ≤ a + k) → ∀ x ∈ (ps'.map (zGates s)).flatten,
      GateOn ord {q | a ≤ q ∧ q ≤ a + k} x := by
    intro s ps' hr x hx
    obtain ⟨q, hq, g, rfl, hs, hu⟩ := zGates_mem hx
    refine ⟨⟨g, rfl, hu⟩, ?_⟩
    intro r hr'
    rw [gateBlock, qubits_leaf] at hr'
    have : r = q := by simpa [Prim.supp, hs] using hr'
    rw [this]
    exact hr q hq
  unfold gates at h
  simp only [List.mem_append, List.mem_singleton, List.mem_reverse] at h
  rcases h with (((h | h) | h) | h) | h
  · exact hz s ps hr x h
  · exact hl x h
  · subst h
    refine ⟨⟨_, rfl, by simp⟩, ?_⟩
    intro q hq
    rw [gateBlock, qubits_leaf] at hq
    have : q = a + k := by simpa [Prim.supp, Gate.supp] using hq
    simp [this]
  · exact hl x h
  · refine hz _ ps.reverse ?_ x h
    simpa using hr

theorem qubits_letters {term : Block Gate} {ps : List (FixedGate × ℕ)} (h : Letters n term ps) (q : ℕ) :
    q ∈ qubits Gate.supp term ↔ q ∈ ps.map Prod.snd := by
  rcases h.parts with ⟨g, r, t, rfl, rfl⟩ | ⟨k, bs, t, rfl, -, -, hf⟩
  · rw [qubits_leaf]
    simp [Gate.supp]
  · rw [mem_qubits_comp]
    clear h
    induction hf with
    | nil => simp
    | cons hb _ ih =>
      obtain ⟨u, rfl⟩ := hb
      simp only [List.mem_cons, exists_eq_or_imp, ih, List.map_cons, qubits_leaf]
      simp [Gate.supp]

theorem expTerm_mem {ord : List ℕ → List ℕ} {t : Expr} {x : Block Gate × Expr} {ps : List (FixedGate × ℕ)}
    (h : Plain n x.1 ps) {bs : List (Block Prim)} (hbs : expTerm ord t x = .ok bs) :
    ∀ b ∈ bs, GateOn ord (qubits Gate.supp x.1) b := by
  have hl := Plain.letters h
  obtain ⟨a, k, h1, h2, h3, h4, h5⟩ := min_max (l := ps.map Prod.snd) (by simpa using Letters.ne_nil hl)
  have := expTerm_letters ord t x.2 hl h1 h2
  rw [hbs] at this
  injection this with this
  subst this
  intro b hb
  obtain ⟨g1, g2⟩ := gates_mem ord h5 hb
  refine ⟨g1, g2.trans ?_⟩
  intro q hq
  rw [qubits_letters hl]
  obtain ⟨a', k', hi⟩ := h.interval
  have e1 := (hi a).1 h3
  have e2 := (hi (a + k)).1 h4
  rw [hi q]
  simp only [Set.mem_setOf_eq] at hq
  omega

/-- The qubits of a list of terms. -/
def termQubits (l : List (Block Gate × Expr)) : Set ℕ := {q | ∃ x ∈ l, q ∈ qubits Gate.supp x.1}

theorem GateOn.mono {ord : List ℕ → List ℕ} {Q R : Set ℕ} (h : Q ⊆ R) {x : Block Prim} (hx : GateOn ord Q x) : GateOn ord R x :=
  ⟨hx.1, hx.2.trans h⟩

theorem pauliExp_mem {ord : List ℕ → List ℕ} {t : Expr} {l : List (Block Gate × Expr)} (h : ∀ x ∈ l, ∃ ps, Plain n x.1 ps)
    {bs : List (Block Prim)} (hbs : pauliExp ord t l = .ok bs) : ∀ b ∈ bs, GateOn ord (termQubits l) b := by
  rw [pauliExp] at hbs
  obtain ⟨ls, h1, h2⟩ := bind_ok hbs
  obtain rfl := pure_ok h2
  intro b hb
  obtain ⟨c, hc, hb⟩ := List.mem_flatten.1 hb
  obtain ⟨x, hx, hxc⟩ := (mapM_ok_mem h1).2 c hc
  obtain ⟨ps, hps⟩ := h x hx
  exact (expTerm_mem hps hxc b hb).mono (fun q hq => ⟨x, hx, hq⟩ : qubits Gate.supp x.1 ⊆ termQubits l)

theorem suzuki2_mem {ord : List ℕ → List ℕ} {t : Expr} {l : List (Block Gate × Expr)} (h : ∀ x ∈ l, ∃ ps, Plain n x.1 ps)
    {bs : List (Block Prim)} (hbs : suzuki2 ord t l = .ok bs) : ∀ b ∈ bs, GateOn ord (termQubits l) b := by
  rw [suzuki2] at hbs
  obtain ⟨o, h1, h2⟩ := bind_ok hbs
  cases h3 : l.getLast? with
  | none => rw [h3] at h2; cases h2
  | some x =>
    rw [h3] at h2
    obtain ⟨i, h4, h5⟩ := bind_ok h2
    obtain rfl := pure_ok h5
    have hx : x ∈ l := List.mem_of_getLast? h3
    have ho := pauliExp_mem (fun y hy => h y (List.mem_of_mem_dropLast hy)) h1
    have hi := pauliExp_mem (fun y hy => by rw [List.mem_singleton] at hy; subst hy; exact h y hx) h4
    have so : termQubits l.dropLast ⊆ termQubits l := fun q ⟨y, hy, hq⟩ => ⟨y, List.mem_of_mem_dropLast hy, hq⟩
    have si : termQubits [x] ⊆ termQubits l := fun q ⟨y, hy, hq⟩ => by
      rw [List.mem_singleton] at hy
      subst hy
      exact ⟨y, hx, hq⟩
    intro b hb
    have := mem_times hb
    simp only [List.mem_append, List.mem_reverse] at this
    rcases this with (hb | hb) | hb
    · exact (ho b hb).mono so
    · exact (hi b hb).mono si
    · exact (ho b hb).mono so

theorem trotter_mem {ord : List ℕ → List ℕ} {p2 : ℚ} {t : Expr} {l : List (Block Gate × Expr)}
    (h : ∀ x ∈ l, ∃ ps, Plain n x.1 ps) (o : Order) {bs : List (Block Prim)} (hbs : trotter ord p2 t l o = .ok bs) :
    ∀ b ∈ bs, GateOn ord (termQubits l) b := by
  cases o with
  | basic => exact pauliExp_mem h hbs
  | st2 => exact suzuki2_mem h hbs
  | st4 =>
    rw [trotter, suzuki4] at hbs
    obtain ⟨a, h1, h2⟩ := bind_ok hbs
    obtain ⟨c, h3, h4⟩ := bind_ok h2
    obtain rfl := pure_ok h4
    intro b hb
    have := mem_times hb
    simp only [List.mem_append] at this
    rcases this with (hb | hb) | hb
    · exact suzuki2_mem h h1 b (mem_times hb)
    · exact suzuki2_mem h h3 b hb
    · exact suzuki2_mem h h1 b (mem_times hb)

theorem digitalEvo_mem {ord : List ℕ → List ℕ} {p2 : ℚ} {ρ : Env} {o : Order} {gen : Block Gate} {t : Expr}
    (h : Decomposable n ρ o gen) {b : Block Prim} (hb : digitalEvo ord p2 o gen t = .ok b) :
    ∃ bs, b = chainOf bs ∧ ∀ c ∈ bs, GateOn ord (qubits Gate.supp gen) c := by
  obtain ⟨o', h1, -⟩ := digitalEvo_trotter (ord := ord) p2 t h
  rw [h1] at hb
  obtain ⟨bs, h2, h3⟩ := bind_ok hb
  refine ⟨bs, (pure_ok h3).symm, fun c hc => (trotter_mem h.plain o' h2 c hc).mono ?_⟩
  rintro q ⟨x, hx, hq⟩
  exact (mem_qubits_unroll gen q).2 ⟨x, hx, hq⟩

theorem forall₂_left {α β : Type} {R : α → β → Prop} {l : List α} {m : List β} (h : List.Forall₂ R l m) {a : α} (ha : a ∈ l) :
    ∃ b ∈ m, R a b := by
  induction h with
  | nil => simp at ha
  | @cons x y l m hxy _ ih =>
    rcases List.mem_cons.1 ha with rfl | ha
    · exact ⟨y, by simp, hxy⟩
    · obtain ⟨b, hb, h⟩ := ih ha
      exact ⟨b, by simp [hb], h⟩

/-- A leaf which is kept or decomposed exactly. -/
def Digital (n : ℕ) (ρ : Env) (o : Order) : Prim → Prop
  | .hamEvo gen _ => Decomposable n ρ o gen
  | .gate (.u _ _ _ _) _ => False
  | .gate _ _ => True

theorem digitalizeAll_eq (ord : List ℕ → List ℕ) (p2 : ℚ) (o : Order) (bs : List (Block Prim)) :
    digitalizeAll ord p2 o bs = bs.mapM (digitalize ord p2 o) := by
  induction bs with
  | nil => rw [digitalizeAll]; rfl
  | cons b bs ih => rw [digitalizeAll, List.mapM_cons, ih]

/-- C66 (partial): a digitalized block has the same operator and acts on no other qubits, and no exception is raised. Missing:
U gates, for which the claim is false, and evolutions outside the hypotheses of C35. -/
theorem C66_digitalize_partial {ord : List ℕ → List ℕ} (ho : SetOrder ord) (p2 : ℚ) (ρ : Env) (o : Order) (b : Block Prim)
    (hw : WellFormed (Prim.supp ord) b) (hl : AllLeaves (Digital n ρ o) b) : ∃ b', digitalize ord p2 o b = .ok b' ∧
      sem (primSem n ρ ord ho) ρ b' = sem (primSem n ρ ord ho) ρ b ∧
      qubits (Prim.supp ord) b' ⊆ qubits (Prim.supp ord) b ∧ WellFormed (Prim.supp ord) b' := by
  induction b using Block.induction with
  | leaf l t =>
    rw [AllLeaves] at hl
    match l, hl with
    | .hamEvo gen τ, hl =>
      obtain ⟨b', h1, h2⟩ := C35_digital_decomposition_partial ho p2 ρ τ hl
      obtain ⟨bs, rfl, h3⟩ := digitalEvo_mem hl h1
      refine ⟨chainOf bs, by rw [digitalize, h1], ?_, ?_, ?_⟩
      · rw [h2]
        rfl
      · intro q hq
        rw [chainOf, mem_qubits_comp] at hq
        obtain ⟨c, hc, hq⟩ := hq
        have := (h3 c hc).2 hq
        rw [qubits_leaf]
        exact (mem_support Gate.supp ord ho gen q).2 this
      · rw [chainOf, wellFormed_chain]
        intro c hc
        obtain ⟨⟨g, rfl, -⟩, -⟩ := h3 c hc
        simp [gateBlock, WellFormed]
    | .gate g noise, hl =>
      refine ⟨_, ?_, rfl, subset_rfl, hw⟩
      cases g <;> first | rfl | exact absurd hl (by simp [Digital])
  | scale b s t _ => exact ⟨_, by rw [digitalize], rfl, subset_rfl, hw⟩
  | comp k bs t ih =>
    rw [AllLeaves, allLeavesList_iff] at hl
    have hwp := wellFormed_comp_parts hw
    have h1 : ∃ cs, bs.mapM (digitalize ord p2 o) = .ok cs ∧ List.Forall₂ (fun b' b =>
        sem (primSem n ρ ord ho) ρ b' = sem (primSem n ρ ord ho) ρ b ∧
        qubits (Prim.supp ord) b' ⊆ qubits (Prim.supp ord) b ∧ WellFormed (Prim.supp ord) b') cs bs := by
      clear hw
      induction bs with
      | nil => exact ⟨[], rfl, .nil⟩
      | cons b bs ihl =>
        obtain ⟨b', e1, e2⟩ := ih b (by simp) (hwp b (by simp)) (hl b (by simp))
        obtain ⟨cs, e3, e4⟩ := ihl (fun c hc => ih c (by simp [hc])) (fun c hc => hl c (by simp [hc]))
          (fun c hc => hwp c (by simp [hc]))
        refine ⟨b' :: cs, ?_, .cons e2 e4⟩
        rw [List.mapM_cons, e1, ok_bind, e3]
        rfl
    obtain ⟨cs, h1, h2⟩ := h1
    have hsem : cs.map (sem (primSem n ρ ord ho) ρ) = bs.map (sem (primSem n ρ ord ho) ρ) := by
      clear hw hwp hl ih h1
      induction h2 with
      | nil => rfl
      | cons h _ ih => rw [List.map_cons, List.map_cons, h.1, ih]
    have hq : ∀ k t u, qubits (Prim.supp ord) (.comp k cs t) ⊆ qubits (Prim.supp ord) (.comp k bs u) := by
      intro k t u q hq
      rw [mem_qubits_comp] at hq ⊢
      obtain ⟨c, hc, hq⟩ := hq
      obtain ⟨b, hb, h⟩ := forall₂_left h2 hc
      exact ⟨b, hb, h.2.1 hq⟩
    have hwc : ∀ c ∈ cs, WellFormed (Prim.supp ord) c := by
      intro c hc
      obtain ⟨b, hb, h⟩ := forall₂_left h2 hc
      exact h.2.2
    cases k with
    | chain =>
      refine ⟨chainOf cs, ?_, ?_, hq _ _ _, wellFormed_chain.2 hwc⟩
      · rw [digitalize, digitalizeAll_eq, h1]
        rfl
      · rw [chainOf, sem_chain, sem_chain, hsem]
    | add =>
      refine ⟨addOf cs, ?_, ?_, hq _ _ _, wellFormed_add.2 hwc⟩
      · rw [digitalize, digitalizeAll_eq, h1]
        rfl
      · rw [addOf, sem_add, sem_add, hsem]
    | kron =>
      obtain ⟨hne, hpw, -⟩ := wellFormed_kron.1 hw
      have hpw' : cs.Pairwise fun a b => Disjoint (qubits (Prim.supp ord) a) (qubits (Prim.supp ord) b) := by
        clear hw hwp hl ih h1 hsem hq hwc hne
        induction h2 with
        | nil => exact .nil
        | @cons c b cs bs h h2 ih =>
          rw [List.pairwise_cons] at hpw ⊢
          refine ⟨fun d hd => ?_, ih hpw.2⟩
          obtain ⟨e, he, h'⟩ := forall₂_left h2 hd
          exact (hpw.1 e he).mono h.2.1 h'.2.1
      have hne' : cs ≠ [] := by
        rintro rfl
        exact hne (List.forall₂_nil_left_iff.1 h2)
      refine ⟨.comp .kron cs none, ?_, ?_, hq _ _ _, wellFormed_kron.2 ⟨hne', hpw', hwc⟩⟩
      · rw [digitalize, digitalizeAll_eq, h1]
        exact (kronOf_ok_iff _ _ ho _ _).2 ⟨rfl, hne', hpw'⟩
      · rw [sem_kron, sem_kron, hsem]

end Qadence.Decompose
