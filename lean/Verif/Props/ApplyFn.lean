import Verif.Model.ApplyFn
import Verif.Spec.ApplyFn
import Verif.Proofs.GateSem
import Verif.Props.Passes
import Verif.Proofs.Except

/-!
# Property C62: functions on the leaves of blocks
-/

namespace Qadence

open Spec Block

variable {L : Type} {n : ℕ} {ord : List ℕ → List ℕ}

theorem applyFns_ok (supp : L → List ℕ) (ord) (f : Block L → Except PyErr (Block L)) (bs cs : List (Block L)) :
    applyFns supp ord f bs = .ok cs ↔ List.Forall₂ (fun b c => applyFn supp ord f b = .ok c) bs cs := by
  induction bs generalizing cs with
  | nil =>
    rw [applyFns]
    constructor
    · intro h
      cases h
      exact .nil
    · intro h
      cases h
      rfl
  | cons b bs ih =>
    rw [applyFns]
    constructor
    · intro h
      obtain ⟨c, h1, h⟩ := bind_ok h
      obtain ⟨cs', h2, h⟩ := bind_ok h
      have := pure_ok h
      subst this
      exact .cons h1 ((ih _).1 h2)
    · intro h
      cases h with
      | cons h1 h2 =>
        rw [h1, ok_bind, (ih _).2 h2, ok_bind]
        rfl

theorem compose_ok (supp : L → List ℕ) (ho : SetOrder ord) (k : CKind) (bs : List (Block L)) (c : Block L) :
    compose supp ord k bs = .ok c ↔ c = .comp k bs none ∧ (k = .kron → bs ≠ [] ∧
      bs.Pairwise (fun a b => Disjoint (qubits supp a) (qubits supp b))) := by
  cases k with
  | chain =>
    rw [compose, chainOf]
    simp [eq_comm]
  | add =>
    rw [compose, addOf]
    simp [eq_comm]
  | kron =>
    rw [compose, kronOf_ok_iff supp ord ho]
    simp

theorem forall2_mono {α β : Type} {R S : α → β → Prop} {as : List α} {bs : List β} (h : List.Forall₂ R as bs)
    (hm : ∀ a ∈ as, ∀ b, R a b → S a b) : List.Forall₂ S as bs := by
  induction h with
  | nil => exact .nil
  | cons h1 h2 ih => exact .cons (hm _ (by simp) _ h1) (ih fun a ha b => hm a (by simp [ha]) b)

/-- Whatever the function, the result is the block with every leaf (and every scale block as a whole) replaced by its
image, with the same composite blocks around them. -/
theorem C62_replaced (supp : L → List ℕ) (ho : SetOrder ord) (f : Block L → Except PyErr (Block L)) (b c : Block L)
    (h : applyFn supp ord f b = .ok c) : Replaced (fun x y => f x = .ok y) b c := by
  induction b using Block.induction generalizing c with
  | leaf l t => exact .leaf (by rwa [applyFn] at h)
  | scale b s t => exact .scale (by rwa [applyFn] at h)
  | comp k bs t ih =>
    rw [applyFn] at h
    obtain ⟨cs, h1, h2⟩ := bind_ok h
    rw [((compose_ok supp ho k cs c).1 h2).1]
    exact .comp (forall2_mono ((applyFns_ok supp ord f bs cs).1 h1) ih)

theorem forall2_qubits {supp : L → List ℕ} {bs cs : List (Block L)}
    (h : List.Forall₂ (fun b c => qubits supp c ⊆ qubits supp b) bs cs) :
    (∀ q ∈ qubitsList supp cs, q ∈ qubitsList supp bs) ∧
    (bs.Pairwise (fun a b => Disjoint (qubits supp a) (qubits supp b)) →
      cs.Pairwise (fun a b => Disjoint (qubits supp a) (qubits supp b))) := by
  induction h with
  | nil => exact ⟨fun _ h => h, fun _ => .nil⟩
  | @cons b c bs cs h1 h2 ih =>
    refine ⟨fun q hq => ?_, fun hp => ?_⟩
    · rw [qubitsList] at hq ⊢
      exact hq.imp (fun h => h1 h) (ih.1 q)
    · rw [List.pairwise_cons] at hp ⊢
      refine ⟨fun d hd => ?_, ih.2 hp.2⟩
      obtain ⟨e, he, hde⟩ : ∃ e ∈ bs, qubits supp d ⊆ qubits supp e := by
        clear ih hp
        induction h2 with
        | nil => cases hd
        | cons g1 g2 ihh =>
          rcases List.mem_cons.1 hd with rfl | hd
          · exact ⟨_, by simp, g1⟩
          · obtain ⟨e, he, h⟩ := ihh hd
            exact ⟨e, by simp [he], h⟩
      exact (hp.1 e he).mono h1 hde

/-- If the function keeps leaves on their qubits, no block which was built by the constructors is refused, and the
result is built correctly if the images are. -/
theorem C62_total (supp : L → List ℕ) (ho : SetOrder ord) (f : Block L → Except PyErr (Block L)) (b : Block L)
    (hb : WellFormed supp b)
    (hf : ∀ x, (∀ k bs t, x ≠ .comp k bs t) → WellFormed supp x →
      ∃ y, f x = .ok y ∧ qubits supp y ⊆ qubits supp x ∧ WellFormed supp y) :
    ∃ c, applyFn supp ord f b = .ok c ∧ qubits supp c ⊆ qubits supp b ∧ WellFormed supp c := by
  induction b using Block.induction with
  | leaf l t =>
    rw [applyFn]
    exact hf _ (by simp) hb
  | scale b s t =>
    rw [applyFn]
    exact hf _ (by simp) hb
  | comp k bs t ih =>
    have hall : ∀ x ∈ bs, WellFormed supp x := fun x hx => wellFormed_comp_parts hb x hx
    have : ∃ cs, List.Forall₂ (fun b c => applyFn supp ord f b = .ok c ∧ qubits supp c ⊆ qubits supp b ∧
        WellFormed supp c) bs cs := by
      clear hb
      induction bs with
      | nil => exact ⟨[], .nil⟩
      | cons b bs ih' =>
        obtain ⟨c, hc⟩ := ih b (by simp) (hall b (by simp))
        obtain ⟨cs, hcs⟩ := ih' (fun x hx => ih x (by simp [hx])) (fun x hx => hall x (by simp [hx]))
        exact ⟨c :: cs, .cons hc hcs⟩
    obtain ⟨cs, hcs⟩ := this
    have h1 := (applyFns_ok supp ord f bs cs).2 (hcs.imp fun _ _ h => h.1)
    have h2 := forall2_qubits (hcs.imp fun _ _ h => h.2.1)
    have h3 : ∀ c ∈ cs, WellFormed supp c := by
      clear h1 h2 ih hb hall
      induction hcs with
      | nil => simp
      | cons g1 g2 ih =>
        intro c hc
        rcases List.mem_cons.1 hc with rfl | hc
        · exact g1.2.2
        · exact ih c hc
    refine ⟨.comp k cs none, ?_, ?_, ?_⟩
    · rw [applyFn, h1, ok_bind]
      refine (compose_ok supp ho k cs _).2 ⟨rfl, ?_⟩
      rintro rfl
      rw [wellFormed_kron] at hb
      refine ⟨?_, h2.2 hb.2.1⟩
      rintro rfl
      cases hcs
      exact hb.1 rfl
    · rw [qubits, qubits]
      exact h2.1
    · cases k with
      | chain => rw [wellFormed_chain]; exact h3
      | add => rw [wellFormed_add]; exact h3
      | kron =>
        rw [wellFormed_kron] at hb ⊢
        refine ⟨?_, h2.2 hb.2.1, h3⟩
        rintro rfl
        cases hcs
        exact hb.1 rfl

/-- A function which keeps the operator of leaves and scale blocks keeps the operator of the whole block. -/
theorem C62_operator (S : LeafSem L n) (ρ : Env) (ho : SetOrder ord) (f : Block L → Except PyErr (Block L))
    (b c : Block L) (h : applyFn S.supp ord f b = .ok c)
    (hf : ∀ x y, (∀ k bs t, x ≠ .comp k bs t) → f x = .ok y → sem S ρ y = sem S ρ x) : sem S ρ c = sem S ρ b := by
  induction b using Block.induction generalizing c with
  | leaf l t =>
    rw [applyFn] at h
    exact hf _ _ (by simp) h
  | scale b s t =>
    rw [applyFn] at h
    exact hf _ _ (by simp) h
  | comp k bs t ih =>
    rw [applyFn] at h
    obtain ⟨cs, h1, h2⟩ := bind_ok h
    rw [((compose_ok S.supp ho k cs c).1 h2).1]
    have h3 := forall2_mono ((applyFns_ok S.supp ord f bs cs).1 h1) ih
    have h4 : cs.map (sem S ρ) = bs.map (sem S ρ) := by
      clear h1 h2 h ih
      induction h3 with
      | nil => rfl
      | cons g1 g2 ih => rw [List.map_cons, List.map_cons, g1, ih]
    cases k with
    | chain => rw [sem_chain, sem_chain, h4]
    | kron => rw [sem_kron, sem_kron, h4]
    | add => rw [sem_add, sem_add, h4]

/-- The identity gives back every correctly built block without tags on composite blocks. -/
theorem C62_identity_partial (supp : L → List ℕ) (ho : SetOrder ord) (b : Block L) (hb : WellFormed supp b)
    (ht : NoCompTags b) : applyFn supp ord .ok b = .ok b := by
  induction b using Block.induction with
  | leaf l t => rw [applyFn]
  | scale b s t => rw [applyFn]
  | comp k bs t ih =>
    cases ht with
    | comp ht =>
      have : applyFns supp ord .ok bs = .ok bs := by
        rw [applyFns_ok]
        have hall : ∀ x ∈ bs, WellFormed supp x := fun x hx => wellFormed_comp_parts hb x hx
        clear hb
        induction bs with
        | nil => exact .nil
        | cons b bs ih' =>
          exact .cons (ih b (by simp) (hall b (by simp)) (ht b (by simp)))
            (ih' (fun x hx => ih x (by simp [hx])) (fun x hx => ht x (by simp [hx])) (fun x hx => hall x (by simp [hx])))
      rw [applyFn, this, ok_bind]
      refine (compose_ok supp ho k bs _).2 ⟨rfl, ?_⟩
      rintro rfl
      rw [wellFormed_kron] at hb
      exact ⟨hb.1, hb.2.1⟩

/-- Tags of composite blocks are lost, even by the identity. -/
theorem C62_counterexample_tag (supp : L → List ℕ) (ord) (bs : List (Block L)) (s : String) (c : Block L)
    (h : applyFn supp ord .ok (.comp .chain bs (some s)) = .ok c) : c ≠ .comp .chain bs (some s) := by
  rw [applyFn] at h
  obtain ⟨cs, h1, h2⟩ := bind_ok h
  rw [compose, chainOf] at h2
  cases h2
  simp

/-! ### Noise -/

theorem noiseInPlaces_eq (target : Gate → Bool) (ν : Option (NoiseHandler ℚ)) (bs : List (Block Prim)) :
    noiseInPlaces target ν bs = bs.map (noiseInPlace target ν) := by
  induction bs with
  | nil => rfl
  | cons b bs ih => rw [noiseInPlaces, ih, List.map_cons]

theorem qubits_setNoiseTop (target : Gate → Bool) (ν : Option (NoiseHandler ℚ)) (b : Block Prim) :
    qubits (Prim.supp ord) (setNoiseTop target ν b) = qubits (Prim.supp ord) b := by
  cases b with
  | leaf l t => cases l <;> rfl
  | scale b s t => rfl
  | comp k bs t => rfl

theorem setNoise_ok (ho : SetOrder ord) (target : Gate → Bool) (ν : Option (NoiseHandler ℚ)) (b : Block Prim)
    (hb : WellFormed (Prim.supp ord) b) : setNoise ord target ν b = .ok (noiseInPlace target ν b) := by
  obtain ⟨c, h, -⟩ := C62_total (Prim.supp ord) ho (fun c => .ok (setNoiseTop target ν c)) b hb (by
    intro x hx hw
    refine ⟨_, rfl, (qubits_setNoiseTop target ν x).le, ?_⟩
    cases x with
    | leaf l t => exact trivial
    | scale b s t => exact hw
    | comp k bs t => exact absurd rfl (hx k bs t))
  rw [setNoise, h, ok_bind]
  rfl

/-- Blocks without scale blocks: the noise of exactly the gates of the target class is set, everything else (gates,
order, tags, other noise) stays. -/
theorem C62_set_noise_partial (ho : SetOrder ord) (target : Gate → Bool) (ν : Option (NoiseHandler ℚ)) (b : Block Prim)
    (hb : WellFormed (Prim.supp ord) b) (hs : NoScale b) :
    ∃ c, setNoise ord target ν b = .ok c ∧ NoiseSet target ν b c := by
  refine ⟨_, setNoise_ok ho target ν b hb, ?_⟩
  clear hb
  induction b using Block.induction with
  | leaf l t =>
    cases l with
    | gate g old =>
      cases h : target g with
      | true => simpa [noiseInPlace, setNoiseTop, setNoiseLeaf, h] using NoiseSet.gate (old := old) (t := t) (ν := ν) h
      | false => simpa [noiseInPlace, setNoiseTop, setNoiseLeaf, h] using NoiseSet.other (old := old) (t := t) (ν := ν) h
    | hamEvo g e => exact .evolution
  | scale b s t => cases hs
  | comp k bs t ih =>
    cases hs with
    | comp hs =>
      rw [noiseInPlace, noiseInPlaces_eq]
      refine .comp ?_
      induction bs with
      | nil => exact .nil
      | cons b bs ih' =>
        exact .cons (ih b (by simp) (hs b (by simp))) (ih' (fun x hx => ih x (by simp [hx])) (fun x hx => hs x (by simp [hx])))

/-- Setting the noise changes neither the operator nor the qubits, for all blocks. -/
theorem C62_noise_operator (ho : SetOrder ord) (ρ : Env) (target : Gate → Bool) (ν : Option (NoiseHandler ℚ))
    (b c : Block Prim) (h : setNoise ord target ν b = .ok c) :
    sem (primSem n ρ ord ho) ρ c = sem (primSem n ρ ord ho) ρ b ∧ qubits (Prim.supp ord) c = qubits (Prim.supp ord) b := by
  obtain ⟨d, -, h'⟩ := bind_ok h
  have := pure_ok h'
  subst this
  clear h h'
  induction b using Block.induction with
  | leaf l t => cases l <;> exact ⟨rfl, rfl⟩
  | scale b s t => exact ⟨rfl, rfl⟩
  | comp k bs t ih =>
    rw [noiseInPlace, noiseInPlaces_eq]
    have e : (bs.map (noiseInPlace target ν)).map (sem (primSem n ρ ord ho) ρ) = bs.map (sem (primSem n ρ ord ho) ρ) := by
      rw [List.map_map]
      exact List.map_congr_left fun b hb => (ih b hb).1
    constructor
    · cases k with
      | chain => rw [sem_chain, sem_chain, e]
      | kron => rw [sem_kron, sem_kron, e]
      | add => rw [sem_add, sem_add, e]
    · ext q
      rw [mem_qubits_comp, mem_qubits_comp]
      simp only [List.mem_map, exists_exists_and_eq_and]
      exact exists_congr fun b => and_congr_right fun hb => by rw [(ih b hb).2]

/-- A gate below a scale block keeps its noise. -/
theorem C62_counterexample_scaled (ho : SetOrder ord) (ν : NoiseHandler ℚ) (g : Gate) (s : Expr) :
    setNoise ord (fun _ => true) (some ν) (.scale (.leaf (.gate g none) none) s none) =
      .ok (.scale (.leaf (.gate g none) none) s none) ∧
    ¬ NoiseSet (fun _ => true) (some ν) (.scale (.leaf (.gate g none) none) s none)
      (.scale (.leaf (.gate g none) none) s none) := by
  refine ⟨setNoise_ok ho _ _ _ trivial, fun h => ?_⟩
  cases h with
  | scale h =>
    cases h with
    | other h => cases h

/-- A kron of two gates inside a chain. -/
example (ho : SetOrder ord) (ν : NoiseHandler ℚ) :
    setNoise ord (fun g => decide (g = .fixed .X 0)) (some ν)
      (.comp .chain [.comp .kron [.leaf (.gate (.fixed .X 0) none) (some "a"), .leaf (.gate (.fixed .Y 1) none) none]
        (some "k"), .leaf (.gate (.fixed .X 0) none) none] none) =
    .ok (.comp .chain [.comp .kron [.leaf (.gate (.fixed .X 0) (some ν)) (some "a"), .leaf (.gate (.fixed .Y 1) none) none]
        (some "k"), .leaf (.gate (.fixed .X 0) (some ν)) none] none) := by
  rw [setNoise_ok ho]
  · rfl
  · rw [wellFormed_chain]
    intro b hb
    simp only [List.mem_cons, List.not_mem_nil, or_false] at hb
    rcases hb with rfl | rfl
    · rw [wellFormed_kron]
      refine ⟨by simp, ?_, ?_⟩
      · simp [qubits, Prim.supp, Gate.supp]
      · intro b hb
        simp only [List.mem_cons, List.not_mem_nil, or_false] at hb
        rcases hb with rfl | rfl <;> exact trivial
    · exact trivial

end Qadence
