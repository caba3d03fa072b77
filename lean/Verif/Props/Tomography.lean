import Verif.Props.Measure
import Verif.Props.Passes
import Verif.Props.Support
import Verif.Props.Dagger

/-!
# C33 (measurement rotations and tomography), C64 (expectation values from samples)
-/

namespace Qadence.Measure

open Spec Matrix Block

variable {n : ℕ}

/-! ### Rotations -/

/-- The rotation appended for a letter. -/
noncomputable def rotMat : FixedGate → Matrix Bool Bool ℂ
  | .X => mat1 .H * mat1 .I
  | .Y => mat1 .H * mat1 .SDagger
  | _ => 1

theorem sqrt_two_sq : ((Real.sqrt 2 : ℝ) : ℂ) * ((Real.sqrt 2 : ℝ) : ℂ) = 2 := by
  rw [← Complex.ofReal_mul, Real.mul_self_sqrt (by norm_num)]; norm_num

theorem sqrt_two_ne : ((Real.sqrt 2 : ℝ) : ℂ) ≠ 0 := by
  intro h
  have := sqrt_two_sq
  rw [h] at this
  norm_num at this

theorem rotMat_intertwine (p : FixedGate) (hp : p = .X ∨ p = .Y ∨ p = .Z) :
    rotMat p * mat1 p = mat1 .Z * rotMat p := by
  rcases hp with rfl | rfl | rfl
  · simp only [rotMat]
    rw [show mat1 .I = 1 from rfl, mul_one]
    ext a b
    rw [Matrix.mul_apply, Matrix.mul_apply]
    cases a <;> cases b <;> simp [mat1, ind] <;> ring
  · simp only [rotMat]
    ext a b
    rw [Matrix.mul_apply, Matrix.mul_apply]
    simp only [Matrix.mul_apply]
    cases a <;> cases b <;> simp [mat1] <;> ring_nf <;> simp [mul_assoc]
  · simp [rotMat]

theorem mat1_H_sq : mat1 .H * mat1 .H = 1 := by
  have h2 := sqrt_two_sq
  have h0 := sqrt_two_ne
  ext a b
  rw [Matrix.mul_apply]
  cases a <;> cases b <;> simp [mat1] <;> field_simp <;> rw [pow_two, h2] <;> norm_num

theorem mat1_H_herm : (mat1 .H)ᴴ = mat1 .H := (mat1_dagger .H).symm

theorem rotMat_unitary (p : FixedGate) : (rotMat p)ᴴ * rotMat p = 1 := by
  have hS : (mat1 .SDagger)ᴴ * mat1 .SDagger = 1 := by
    rw [← mat1_dagger]
    ext a b
    rw [Matrix.mul_apply]
    cases a <;> cases b <;> simp [mat1, FixedGate.dagger]
  cases p <;> simp only [rotMat, Matrix.conjTranspose_one, mul_one]
  · rw [show mat1 .I = 1 from rfl, mul_one, mat1_H_herm, mat1_H_sq]
  · rw [Matrix.conjTranspose_mul, mat1_H_herm]
    calc _ = (mat1 .SDagger)ᴴ * (mat1 .H * mat1 .H) * mat1 .SDagger := by simp only [mul_assoc]
      _ = 1 := by rw [mat1_H_sq, mul_one, hS]

/-- One-qubit matrices applied one after the other. -/
noncomputable def locals (l : List (ℕ × Matrix Bool Bool ℂ)) : Oper n := opProd (l.map fun p => embed1 p.1 p.2)

theorem locals_cons (p : ℕ × Matrix Bool Bool ℂ) (l) : (locals (p :: l) : Oper n) = locals l * embed1 p.1 p.2 := rfl

theorem locals_commute {l : List (ℕ × Matrix Bool Bool ℂ)} {q : ℕ} (h : ∀ p ∈ l, p.1 ≠ q) (M : Matrix Bool Bool ℂ) :
    (locals l : Oper n) * embed1 q M = embed1 q M * locals l := by
  induction l with
  | nil => simp [locals, opProd]
  | cons p l ih =>
    rw [locals_cons, mul_assoc, embed1_commute_of_ne (h p (by simp)), ← mul_assoc, ih fun r hr => h r (by simp [hr]),
      mul_assoc]

theorem locals_intertwine {l : List (ℕ × Matrix Bool Bool ℂ)} (hnd : (l.map Prod.fst).Nodup) {q : ℕ} (hq : q < n)
    {U M N : Matrix Bool Bool ℂ} (hmem : (q, U) ∈ l) (h : U * M = N * U) :
    (locals l : Oper n) * embed1 q M = embed1 q N * locals l := by
  induction l with
  | nil => simp at hmem
  | cons p l ih =>
    have hnd' : p.1 ∉ l.map Prod.fst ∧ (l.map Prod.fst).Nodup := by simpa using hnd
    rw [locals_cons, mul_assoc]
    by_cases hp : p = (q, U)
    · subst hp
      have hne : ∀ r ∈ l, r.1 ≠ q := fun r hr e => hnd'.1 (List.mem_map.2 ⟨r, hr, e⟩)
      rw [embed1_mul hq, h, ← embed1_mul hq, ← mul_assoc, locals_commute hne, mul_assoc]
    · have hm : (q, U) ∈ l := by
        rcases List.mem_cons.1 hmem with h' | h'
        · exact absurd h'.symm hp
        · exact h'
      have hne : p.1 ≠ q := fun e => hnd'.1 (List.mem_map.2 ⟨(q, U), hm, e.symm⟩)
      rw [embed1_commute_of_ne hne, ← mul_assoc, ih hnd'.2 hm, mul_assoc]

theorem locals_unitary {l : List (ℕ × Matrix Bool Bool ℂ)} (hq : ∀ p ∈ l, p.1 < n) (hU : ∀ p ∈ l, p.2ᴴ * p.2 = 1) :
    (locals l : Oper n)ᴴ * locals l = 1 := by
  induction l with
  | nil => simp [locals, opProd]
  | cons p l ih =>
    rw [locals_cons, Matrix.conjTranspose_mul, mul_assoc, ← mul_assoc _ (locals l),
      ih (fun r hr => hq r (by simp [hr])) fun r hr => hU r (by simp [hr]), one_mul, embed1_conjTranspose,
      embed1_mul (hq p (by simp)), hU p (by simp), embed1_one]

/-! ### Pauli strings -/

theorem pauliLetter_some {b : Block Gate} {p : FixedGate × ℕ} (h : pauliLetter b = some p) :
    (∃ t, b = .leaf (.fixed p.1 p.2) t) ∧ (p.1 = .X ∨ p.1 = .Y ∨ p.1 = .Z) := by
  unfold pauliLetter at h
  split at h
  · next g q t =>
    split at h
    · next hg => cases h; exact ⟨⟨t, rfl⟩, hg⟩
    · cases h
  · cases h

/-- The parts of a Pauli string. -/
theorem _root_.Qadence.Spec.PauliString.inner {term : Block Gate} {ps : List (FixedGate × ℕ)} (h : PauliString n term ps) :
    (innerBlocks term).map pauliLetter = ps.map some := by
  rcases h.parts with h1 | ⟨k, bs, t, rfl, -, h1⟩
  · cases h2 : pauliLetter term with
    | none => rw [h2] at h1; exact absurd h1.symm h.nonempty
    | some p =>
      rw [h2] at h1
      obtain ⟨⟨t, rfl⟩, -⟩ := pauliLetter_some h2
      rw [← h1]
      simp [innerBlocks, h2]
  · exact h1

theorem indices_aux (ord : List ℕ → List ℕ) (f : Block Gate → Bool) (g : FixedGate × ℕ → Bool)
    (hfg : ∀ b p, pauliLetter b = some p → f b = g p) (bs : List (Block Gate)) (ps : List (FixedGate × ℕ))
    (h : bs.map pauliLetter = ps.map some) : (bs.filter f).mapM (firstQubit ord) = .ok ((ps.filter g).map Prod.snd) := by
  induction bs generalizing ps with
  | nil =>
    have : ps = [] := by simpa using h.symm
    subst this; rfl
  | cons b bs ih =>
    cases ps with
    | nil => simp at h
    | cons p ps =>
      simp only [List.map_cons, List.cons.injEq] at h
      have ih := ih ps h.2
      rw [List.filter_cons, List.filter_cons, hfg b p h.1]
      obtain ⟨⟨t, rfl⟩, -⟩ := pauliLetter_some h.1
      split
      · rw [List.mapM_cons, ih]; rfl
      · exact ih

theorem indices_none (ord : List ℕ → List ℕ) {term : Block Gate} {ps : List (FixedGate × ℕ)} (h : PauliString n term ps) :
    qubitIndicesForOp ord term none = .ok (ps.map Prod.snd) := by
  have := indices_aux ord (fun _ => true) (fun _ => true) (fun _ _ _ => rfl) _ ps h.inner
  rw [show ps.filter (fun _ => true) = ps from List.filter_true ps] at this
  exact this

theorem indices_some (ord : List ℕ → List ℕ) {term : Block Gate} {ps : List (FixedGate × ℕ)} (h : PauliString n term ps)
    (g : FixedGate) : qubitIndicesForOp ord term (some g) = .ok ((ps.filter fun p => p.1 = g).map Prod.snd) := by
  apply indices_aux ord _ _ _ _ ps h.inner
  intro b p hb
  obtain ⟨⟨t, rfl⟩, -⟩ := pauliLetter_some hb
  rfl

/-- The operator of a Pauli string. -/
theorem sem_pauliString (ρ : Env) {term : Block Gate} {ps : List (FixedGate × ℕ)} (h : PauliString n term ps) :
    sem (gateSem n ρ) ρ term = opProd (ps.map fun p => embed1 p.2 (mat1 p.1)) := by
  have key : ∀ (bs : List (Block Gate)) (ps : List (FixedGate × ℕ)), bs.map pauliLetter = ps.map some →
      bs.map (sem (gateSem n ρ) ρ) = ps.map fun p => embed1 p.2 (mat1 p.1) := by
    intro bs
    induction bs with
    | nil =>
      intro ps h
      have : ps = [] := by simpa using h.symm
      subst this; rfl
    | cons b bs ih =>
      intro ps h
      cases ps with
      | nil => simp at h
      | cons p ps =>
        simp only [List.map_cons, List.cons.injEq] at h
        obtain ⟨⟨t, rfl⟩, -⟩ := pauliLetter_some h.1
        rw [List.map_cons, List.map_cons, ih ps h.2, sem_leaf]; rfl
  have hk := key _ _ h.inner
  rcases h.parts with h1 | ⟨k, bs, t, rfl, hk', h1⟩
  · cases h2 : pauliLetter term with
    | none => rw [h2] at h1; exact absurd h1.symm h.nonempty
    | some p =>
      rw [h2] at h1
      obtain ⟨⟨t, rfl⟩, -⟩ := pauliLetter_some h2
      rw [← h1, sem_leaf]
      simp [opProd, gateDen]
  · cases k
    · rw [sem_chain]; exact congrArg opProd hk
    · rw [sem_kron]; exact congrArg opProd hk
    · exact absurd rfl hk'

theorem isIdentity_pauliString {term : Block Gate} {ps : List (FixedGate × ℕ)} (h : PauliString n term ps) :
    isIdentity term = false := by
  rcases h.parts with h1 | ⟨k, bs, t, rfl, hk', h1⟩
  · cases h2 : pauliLetter term with
    | none => rw [h2] at h1; exact absurd h1.symm h.nonempty
    | some p =>
      obtain ⟨⟨t, rfl⟩, hp⟩ := pauliLetter_some h2
      rcases p with ⟨p, q⟩
      rcases hp with hp | hp | hp <;> simp only at hp <;> subst hp <;> rfl
  · rw [isIdentity]
    cases bs with
    | nil => exact absurd (by simpa using h1.symm) h.nonempty
    | cons b bs =>
      cases ps with
      | nil => exact absurd rfl h.nonempty
      | cons p ps =>
        simp only [List.map_cons, List.cons.injEq] at h1
        obtain ⟨⟨t, rfl⟩, hp⟩ := pauliLetter_some h1.1
        rcases p with ⟨p, q⟩
        rcases hp with hp | hp | hp <;> simp only at hp <;> subst hp <;> rfl

/-! ### C33 -/

/-- The rotations of a Pauli string. -/
noncomputable def rotations (ps : List (FixedGate × ℕ)) : Oper n :=
  locals (((ps.filter fun p => p.1 = .X).map fun p => (p.2, rotMat .X)) ++
    (ps.filter fun p => p.1 = .Y).map fun p => (p.2, rotMat .Y))

theorem rotations_spec {ps : List (FixedGate × ℕ)} (hl : ∀ p ∈ ps, p.1 = .X ∨ p.1 = .Y ∨ p.1 = .Z)
    (hin : ∀ p ∈ ps, p.2 < n) (honce : ps.Pairwise fun a b => a.2 ≠ b.2 ∨ a.1 = .Z ∧ b.1 = .Z) :
    (rotations ps : Oper n)ᴴ * rotations ps = 1 ∧
      rotations ps * opProd (ps.map fun p => embed1 p.2 (mat1 p.1)) = zString (ps.map Prod.snd) * (rotations ps : Oper n) := by
  obtain ⟨l, hldef⟩ : ∃ l : List (ℕ × Matrix Bool Bool ℂ), l = ((ps.filter fun p => p.1 = .X).map fun p => (p.2, rotMat .X)) ++
    (ps.filter fun p => p.1 = .Y).map fun p => (p.2, rotMat .Y) := ⟨_, rfl⟩
  have hR : (rotations ps : Oper n) = locals l := by rw [rotations, hldef]
  have hmem : ∀ r ∈ l, ∃ p ∈ ps, (p.1 = .X ∨ p.1 = .Y) ∧ r = (p.2, rotMat p.1) := by
    intro r hr
    rw [hldef] at hr
    rcases List.mem_append.1 hr with hr | hr
    all_goals
      obtain ⟨p, hp, rfl⟩ := List.mem_map.1 hr
      rw [List.mem_filter] at hp
      have hp2 := of_decide_eq_true hp.2
      exact ⟨p, hp.1, by simp [hp2], by rw [hp2]⟩
  have hmem' : ∀ p ∈ ps, p.1 = .X ∨ p.1 = .Y → (p.2, rotMat p.1) ∈ l := by
    intro p hp h
    rw [hldef]
    rcases h with h | h
    · apply List.mem_append_left
      exact List.mem_map.2 ⟨p, List.mem_filter.2 ⟨hp, by simp [h]⟩, by rw [h]⟩
    · apply List.mem_append_right
      exact List.mem_map.2 ⟨p, List.mem_filter.2 ⟨hp, by simp [h]⟩, by rw [h]⟩
  have hsym : ∀ a ∈ ps, ∀ b ∈ ps, a ≠ b → a.2 ≠ b.2 ∨ a.1 = .Z ∧ b.1 = .Z := by
    haveI : Std.Symm fun a b : FixedGate × ℕ => a.2 ≠ b.2 ∨ a.1 = .Z ∧ b.1 = .Z := ⟨fun a b h => by
      rcases h with h | h
      · exact Or.inl (Ne.symm h)
      · exact Or.inr ⟨h.2, h.1⟩⟩
    intro a ha b hb hab
    exact honce.forall ha hb hab
  have hnd : (l.map Prod.fst).Nodup := by
    have hsub : ∀ g, g = .X ∨ g = .Y → ((ps.filter fun p => p.1 = g).map Prod.snd).Nodup := by
      intro g hg
      rw [List.Nodup, List.pairwise_map]
      have := honce.filter (fun p => p.1 = g)
      refine this.imp_of_mem ?_
      intro a b ha hb h
      rcases h with h | h
      · exact h
      · rw [List.mem_filter] at ha
        have := of_decide_eq_true ha.2
        rw [h.1] at this
        rcases hg with rfl | rfl <;> simp at this
    rw [hldef, List.map_append, List.map_map, List.map_map, List.nodup_append]
    refine ⟨hsub .X (Or.inl rfl), hsub .Y (Or.inr rfl), ?_⟩
    intro a ha b hb
    obtain ⟨p, hp, rfl⟩ := List.mem_map.1 ha
    obtain ⟨r, hr, rfl⟩ := List.mem_map.1 hb
    rw [List.mem_filter] at hp hr
    have hp2 := of_decide_eq_true hp.2
    have hr2 := of_decide_eq_true hr.2
    have hne : p ≠ r := by rintro rfl; rw [hp2] at hr2; simp at hr2
    rcases hsym p hp.1 r hr.1 hne with h | h
    · exact h
    · rw [hp2] at h; simp at h
  have hint : ∀ p ∈ ps, (locals l : Oper n) * embed1 p.2 (mat1 p.1) = embed1 p.2 (mat1 .Z) * locals l := by
    intro p hp
    by_cases hz : p.1 = .Z
    · rw [hz]
      apply locals_commute
      intro r hr e
      obtain ⟨p', hp', hl', rfl⟩ := hmem r hr
      have hne : p' ≠ p := by rintro rfl; rw [hz] at hl'; simp at hl'
      rcases hsym p' hp' p hp hne with h | h
      · exact h e
      · rw [h.1] at hl'; simp at hl'
    · have hxy : p.1 = .X ∨ p.1 = .Y := by
        rcases hl p hp with h | h | h
        · exact Or.inl h
        · exact Or.inr h
        · exact absurd h hz
      exact locals_intertwine hnd (hin p hp) (hmem' p hp hxy) (rotMat_intertwine p.1 (hl p hp))
  constructor
  · rw [hR]
    apply locals_unitary
    · intro r hr
      obtain ⟨p, hp, -, rfl⟩ := hmem r hr
      exact hin p hp
    · intro r hr
      obtain ⟨p, hp, -, rfl⟩ := hmem r hr
      exact rotMat_unitary _
  · rw [hR]
    clear hmem hmem' hsym hnd hR honce hl hin hldef
    induction ps with
    | nil => simp [zString, opProd]
    | cons p ps ih =>
      have ih := ih fun r hr => hint r (by simp [hr])
      have e1 : opProd ((p :: ps).map fun p => (embed1 p.2 (mat1 p.1) : Oper n)) =
          opProd (ps.map fun p => embed1 p.2 (mat1 p.1)) * embed1 p.2 (mat1 p.1) := rfl
      have e2 : (zString ((p :: ps).map Prod.snd) : Oper n) = zString (ps.map Prod.snd) * embed1 p.2 (mat1 .Z) := rfl
      rw [e1, e2, ← mul_assoc, ih, mul_assoc, hint p (by simp), mul_assoc]

theorem sem_rotation (ρ : Env) (ord : List ℕ → List ℕ) (ho : SetOrder ord) {q : ℕ} (hq : q < n) (g : FixedGate) :
    sem (primSem n ρ ord ho) ρ (rotation g q) = embed1 q (mat1 .H * mat1 g) := by
  rw [rotation, chainOf, sem_chain]
  simp only [List.map_cons, List.map_nil, sem_leaf, opProd, one_mul]
  exact embed1_mul hq _ _

/-- **C33**: for every Pauli string, `rotate` succeeds and appends an operator R which turns the string into the Z string on
the same qubits: R is unitary and R P R† = Z...Z. -/
theorem C33_rotate {ord : List ℕ → List ℕ} (ho : SetOrder ord) {c : Circuit Prim}
    (hc : ∀ q ∈ qubits (Prim.supp ord) c.block, q < c.nReg) {term : Block Gate} {ps : List (FixedGate × ℕ)}
    (h : PauliString c.nReg term ps) : ∃ c' R, rotate ord c term = .ok c' ∧ c'.nReg = c.nReg ∧
      qubitIndicesForOp ord term none = .ok (ps.map Prod.snd) ∧
      (∀ ρ, sem (primSem c.nReg ρ ord ho) ρ c'.block = R * sem (primSem c.nReg ρ ord ho) ρ c.block) ∧
      Rᴴ * R = 1 ∧ R * Rᴴ = 1 ∧
      ∀ ρ, R * sem (gateSem c.nReg ρ) ρ term * Rᴴ = zString (ps.map Prod.snd) ∧
        Rᴴ * zString (ps.map Prod.snd) * R = sem (gateSem c.nReg ρ) ρ term := by
  have hl : ∀ p ∈ ps, p.1 = .X ∨ p.1 = .Y ∨ p.1 = .Z := by
    intro p hp
    have : some p ∈ (innerBlocks term).map pauliLetter := by rw [h.inner]; exact List.mem_map.2 ⟨p, hp, rfl⟩
    obtain ⟨b, -, hb⟩ := List.mem_map.1 this
    exact (pauliLetter_some hb).2
  obtain ⟨hU, hR⟩ := rotations_spec hl h.inside h.once
  have hU' : (rotations ps : Oper c.nReg) * (rotations ps)ᴴ = 1 := mul_eq_one_comm.1 hU
  set xs := (ps.filter fun p => p.1 = .X).map Prod.snd with hxs
  set ys := (ps.filter fun p => p.1 = .Y).map Prod.snd with hys
  have hin : ∀ q, q ∈ xs ∨ q ∈ ys → q < c.nReg := by
    rintro q (hq | hq) <;>
    · obtain ⟨p, hp, rfl⟩ := List.mem_map.1 hq
      exact h.inside p (List.mem_filter.1 hp).1
  set bs : List (Block Prim) := c.block :: (xs.map (rotation .I) ++ ys.map (rotation .SDagger)) with hbs
  have hq : ∀ q ∈ qubits (Prim.supp ord) (chainOf bs), q < c.nReg := by
    intro q hq
    rw [chainOf, mem_qubits_comp] at hq
    obtain ⟨b, hb, hq⟩ := hq
    rcases List.mem_cons.1 hb with rfl | hb
    · exact hc q hq
    · have hrot : ∀ g r, q ∈ qubits (Prim.supp ord) (rotation g r) → q = r := by
        intro g r hq
        rw [rotation, chainOf, mem_qubits_comp] at hq
        obtain ⟨b, hb, hq⟩ := hq
        simp only [List.mem_cons, List.not_mem_nil, or_false] at hb
        rcases hb with rfl | rfl <;> simpa [qubits_leaf, Prim.supp, Gate.supp] using hq
      rcases List.mem_append.1 hb with hb | hb
      · obtain ⟨r, hr, rfl⟩ := List.mem_map.1 hb
        rw [hrot _ _ hq]; exact hin r (Or.inl hr)
      · obtain ⟨r, hr, rfl⟩ := List.mem_map.1 hb
        rw [hrot _ _ hq]; exact hin r (Or.inr hr)
  have hnew : Circuit.new (Prim.supp ord) (Prim.nQubits ord) ord c.nReg [chainOf bs] = .ok ⟨c.nReg, chainOf bs⟩ := by
    obtain ⟨m, h1, h2⟩ := C18_composite_size (Prim.supp ord) (Prim.nQubits ord) ho .chain bs none
    have hlen : (chainOf bs).len ≠ 0 := by simp [chainOf, Block.len, hbs]
    have hm : ¬ m > c.nReg := by
      have := (h2 c.nReg).2 hq
      omega
    have hr : Circuit.rootBlock [chainOf bs] = .comp .chain bs none := rfl
    simp only [Circuit.new]
    rw [hr]
    split
    · next h0 => exact absurd h0 hlen
    · rw [h1, ok_bind, if_neg hm]; rfl
  refine ⟨⟨c.nReg, chainOf bs⟩, rotations ps, ?_, rfl, indices_none ord h, ?_, hU, hU', ?_⟩
  · rw [rotate, indices_some ord h, ok_bind, indices_some ord h, ok_bind]
    exact hnew
  · intro ρ
    simp only
    rw [chainOf, sem_chain, hbs, List.map_cons, opProd]
    congr 1
    rw [rotations, locals, List.map_append, List.map_append, hxs, hys]
    simp only [List.map_map]
    congr 2
    · apply List.map_congr_left
      intro p hp
      exact sem_rotation ρ ord ho (h.inside p (List.mem_filter.1 hp).1) .I
    · apply List.map_congr_left
      intro p hp
      exact sem_rotation ρ ord ho (h.inside p (List.mem_filter.1 hp).1) .SDagger
  · intro ρ
    rw [sem_pauliString ρ h]
    constructor
    · rw [hR, mul_assoc, hU', mul_one]
    · rw [mul_assoc, ← hR, ← mul_assoc, hU, one_mul]

/-! ### Estimates -/

theorem stackSum_map {α β : Type} (ts : List α) (hts : ts ≠ []) (batch : List β) (f : α → β → ℂ) :
    stackSum (ts.map fun t => batch.map (f t)) = .ok (batch.map fun e => (ts.map fun t => f t e).sum) := by
  have key : ∀ (ts : List α) (g : β → ℂ), (ts.map fun t => batch.map (f t)).foldl (fun acc w => List.zipWith (· + ·) acc w)
      (batch.map g) = batch.map fun e => g e + (ts.map fun t => f t e).sum := by
    intro ts
    induction ts with
    | nil => intro g; simp
    | cons t ts ih =>
      intro g
      have e : List.zipWith (· + ·) (batch.map g) (batch.map (f t)) = batch.map fun e => g e + f t e := by
        rw [List.zipWith_map, List.zipWith_self]
      rw [List.map_cons, List.foldl_cons, e, ih]
      apply List.map_congr_left
      intro e _
      simp [add_assoc]
  cases ts with
  | nil => exact absurd rfl hts
  | cons t ts =>
    rw [List.map_cons, stackSum, if_pos (by simp), key]
    simp

/-- The sampler returns, for every circuit to be measured and every element of the batch (values of the parameters and
initial state), a counter with the exact frequencies. -/
def IdealSampler {ord : List ℕ → List ℕ} (ho : SetOrder ord) (c : Circuit Prim) (batch : List (Env × (St c.nReg → ℂ)))
    (N : ℕ) (terms : List (Block Gate × Expr)) (sample : Circuit Prim → List (PyDict Bits ℕ)) : Prop :=
  ∀ t ∈ terms, isIdentity t.1 = false → ∀ c', rotate ord c t.1 = .ok c' →
    List.Forall₂ (fun e s => BornCounter N (sem (primSem c.nReg e.1 ord ho) e.1 c'.block *ᵥ e.2) s) batch (sample c')

theorem expct_conj (R O : Oper n) (φ : St n → ℂ) : expct O (R *ᵥ φ) = expct (Rᴴ * O * R) φ := by
  unfold expct
  rw [Matrix.star_mulVec, Matrix.dotProduct_mulVec, Matrix.dotProduct_mulVec, Matrix.dotProduct_mulVec]
  simp only [Matrix.vecMul_vecMul, mul_assoc]

theorem expct_smul (a : ℂ) (O : Oper n) (φ : St n → ℂ) : expct (a • O) φ = a * expct O φ := by
  simp [expct, Matrix.smul_mulVec, dotProduct_smul]

theorem expct_one (φ : St n → ℂ) (h : ∑ x, ‖φ x‖ ^ 2 = 1) : expct (1 : Oper n) φ = 1 := by
  have := expct_zString (n := n) [] (by simp) φ
  rw [show (zString [] : Oper n) = 1 from rfl] at this
  rw [this, ← Complex.ofReal_sum]
  simp [parity, h]

theorem expct_sum (Os : List (Oper n)) (φ : St n → ℂ) : expct Os.sum φ = (Os.map fun O => expct O φ).sum := by
  induction Os with
  | nil => simp [expct]
  | cons O Os ih =>
    rw [List.sum_cons, List.map_cons, List.sum_cons, ← ih]
    simp [expct, Matrix.add_mulVec, dotProduct_add]

theorem forall₂_mean {N : ℕ} (hN : 0 < N) {β : Type} {φ : β → St n → ℂ} {batch : List β} {samples : List (PyDict Bits ℕ)}
    (h : List.Forall₂ (fun e s => BornCounter N (φ e) s) batch samples) (hb : batch ≠ []) (qs : List ℕ) (hq : ∀ q ∈ qs, q < n)
    (a : ℂ) : ∃ avg, empiricalAverage samples qs = .ok avg ∧
      scaleBy a avg = batch.map fun e => a * expct (zString qs) (φ e) := by
  have hs : ∀ s ∈ samples, ∃ e, BornCounter N (φ e) s := by
    clear hb
    induction h with
    | nil => simp
    | cons h _ ih =>
      intro s hs
      rcases List.mem_cons.1 hs with rfl | hs
      · exact ⟨_, h⟩
      · exact ih s hs
  refine ⟨_, C31_mean hN ?_ ?_ ?_, ?_⟩
  · rintro rfl
    cases h
    exact hb rfl
  · intro s hs'
    obtain ⟨e, he⟩ := hs s hs'
    exact he.shots
  · intro s hs' kv hkv i hi
    obtain ⟨e, he⟩ := hs s hs'
    rw [he.width kv hkv]
    exact hq i hi
  · clear hs hb
    unfold scaleBy
    induction h with
    | nil => rfl
    | cons h _ ih =>
      simp only [List.map_cons]
      rw [ih, C31_born hN h qs hq, mul_comm]

/-- **C33**: with exact frequencies the tomography protocol returns the exact expectation values of the observable in the
state prepared by the circuit, for all sums of scaled Pauli strings and every batch (with identity terms: for
a batch of size one), if the coefficients have the values given by `evaluate`. -/
theorem C33_tomography_partial {ord : List ℕ → List ℕ} (ho : SetOrder ord) {c : Circuit Prim}
    (hc : ∀ q ∈ qubits (Prim.supp ord) c.block, q < c.nReg) {obs : Block Gate} (hne : unroll obs ≠ []) {N : ℕ} (hN : 0 < N)
    {value : Expr → ℂ} {batch : List (Env × (St c.nReg → ℂ))} (hb : batch ≠ [])
    (hvalue : ∀ e ∈ batch, ∀ t ∈ unroll obs, eval e.1 t.2 = value t.2)
    (hnorm : ∀ e ∈ batch, ∑ x, ‖(sem (primSem c.nReg e.1 ord ho) e.1 c.block *ᵥ e.2) x‖ ^ 2 = 1)
    (hterms : ∀ t ∈ unroll obs, (∃ ps, PauliString c.nReg t.1 ps) ∨
      isIdentity t.1 = true ∧ batch.length = 1 ∧ ∀ ρ, sem (gateSem c.nReg ρ) ρ t.1 = 1)
    {sample : Circuit Prim → List (PyDict Bits ℕ)} (hs : IdealSampler ho c batch N (unroll obs) sample) :
    tomography ord value sample c obs = .ok (batch.map fun e =>
      expct (sem (gateSem c.nReg e.1) e.1 obs) (sem (primSem c.nReg e.1 ord ho) e.1 c.block *ᵥ e.2)) := by
  have key : ∀ t ∈ unroll obs, estimateTerm ord value sample c t = .ok (batch.map fun e =>
      expct (eval e.1 t.2 • sem (gateSem c.nReg e.1) e.1 t.1) (sem (primSem c.nReg e.1 ord ho) e.1 c.block *ᵥ e.2)) := by
    intro t ht
    rcases hterms t ht with ⟨ps, hps⟩ | ⟨hid, hlen, hone⟩
    · obtain ⟨c', R, h1, -, h3, h4, -, -, h7⟩ := C33_rotate ho hc hps
      have hq : ∀ q ∈ ps.map Prod.snd, q < c.nReg := by
        intro q hq
        obtain ⟨p, hp, rfl⟩ := List.mem_map.1 hq
        exact hps.inside p hp
      obtain ⟨avg, a1, a2⟩ := forall₂_mean hN (hs t ht (isIdentity_pauliString hps) c' h1) hb _ hq (value t.2)
      rw [estimateTerm, isIdentity_pauliString hps, if_neg (by simp), h3, ok_bind, h1, ok_bind, a1, ok_bind, pure_eq_ok, a2]
      congr 1
      apply List.map_congr_left
      intro e he
      rw [expct_smul, hvalue e he t ht, h4, ← Matrix.mulVec_mulVec, expct_conj, (h7 e.1).2]
    · rw [estimateTerm, if_pos hid]
      obtain ⟨e, rfl⟩ := List.length_eq_one_iff.1 hlen
      rw [List.map_singleton, hone, expct_smul, expct_one _ (hnorm e (by simp)), hvalue e (by simp) t ht, mul_one]
  rw [tomography, iteratePauli, mapM_ok_map key, ok_bind, stackSum_map _ hne]
  congr 1
  apply List.map_congr_left
  intro e _
  rw [← C13_unroll_exact (gateSem c.nReg e.1) e.1 obs, expct_sum, List.map_map]
  rfl

/-! ### Observables for which the protocol is wrong -/

/-- The empty circuit. -/
def emptyCircuit (n : ℕ) : Circuit Prim := ⟨n, chainOf []⟩

theorem sem_empty {ord : List ℕ → List ℕ} (ho : SetOrder ord) (ρ : Env) :
    sem (primSem n ρ ord ho) ρ (chainOf []) = 1 := by
  rw [chainOf, sem_chain]; rfl

theorem empty_inside (ord : List ℕ → List ℕ) : ∀ q ∈ qubits (Prim.supp ord) (emptyCircuit n).block, q < (emptyCircuit n).nReg := by
  intro q hq
  rw [emptyCircuit, chainOf, mem_qubits_comp] at hq
  simp at hq

/-- The basis state `y` as initial state. -/
noncomputable def basisState (y : St n) : St n → ℂ := Pi.single y 1

theorem basisState_norm (y : St n) : ∑ x, ‖basisState y x‖ ^ 2 = 1 := by
  rw [Finset.sum_eq_single y]
  · simp [basisState]
  · intro x _ hx; simp [basisState, hx]
  · simp

theorem born_basis (y : St n) (N : ℕ) : BornCounter N (basisState y) [(List.ofFn y, N)] := by
  refine ⟨by simp, by simp [totalShots], fun x => ?_⟩
  by_cases h : x = y
  · subst h; simp [countOf, basisState]
  · have : List.ofFn y ≠ List.ofFn x := fun e => h (List.ofFn_injective e).symm
    simp [countOf, basisState, h, this]

theorem expct_basis (O : Oper n) (y : St n) : expct O (basisState y) = O y y := by
  simp [expct, basisState, Matrix.mulVec_single, Pi.star_single]

/-- A term without X and Y among its parts is measured without rotations. -/
theorem rotate_empty (ord : List ℕ → List ℕ) (term : Block Gate) (hX : (innerBlocks term).all fun b => !isFixed .X b && !isFixed .Y b) :
    rotate ord (emptyCircuit n) term = .ok ⟨n, chainOf [chainOf []]⟩ := by
  have h : ∀ g, g = .X ∨ g = .Y → qubitIndicesForOp ord term (some g) = .ok [] := by
    intro g hg
    have : (innerBlocks term).filter (isFixed g) = [] := by
      rw [List.filter_eq_nil_iff]
      intro b hb
      have := List.all_eq_true.1 hX b hb
      simp at this
      rcases hg with rfl | rfl
      · simp [this.1]
      · simp [this.2]
    simp only [qubitIndicesForOp]
    rw [this]; rfl
  rw [rotate, h _ (Or.inl rfl), ok_bind, h _ (Or.inr rfl), ok_bind]
  rfl

/-- Ideal samples of the basis state `y`. -/
theorem ideal_basis {ord : List ℕ → List ℕ} (ho : SetOrder ord) (ρ : Env) (y : St n) (N : ℕ) (terms : List (Block Gate × Expr))
    (hX : ∀ t ∈ terms, (innerBlocks t.1).all fun b => !isFixed .X b && !isFixed .Y b) :
    IdealSampler ho (emptyCircuit n) [(ρ, basisState y)] N terms fun _ => [[(List.ofFn y, N)]] := by
  intro t ht _ c' hc'
  rw [rotate_empty ord t.1 (hX t ht)] at hc'
  cases hc'
  refine .cons ?_ .nil
  have : sem (primSem n ρ ord ho) ρ (chainOf [chainOf []]) = 1 := by
    rw [chainOf, sem_chain, List.map_singleton, sem_empty, opProd_singleton]
  simp only
  change BornCounter N (sem (primSem n ρ ord ho) ρ (chainOf [chainOf []]) *ᵥ basisState y) _
  rw [this, Matrix.one_mulVec]
  exact born_basis y N

/-- Exact value in a basis state. -/
theorem exact_basis {ord : List ℕ → List ℕ} (ho : SetOrder ord) (ρ : Env) (y : St n) (obs : Block Gate) :
    expct (sem (gateSem n ρ) ρ obs) (sem (primSem n ρ ord ho) ρ (emptyCircuit n).block *ᵥ basisState y) =
      sem (gateSem n ρ) ρ obs y y := by
  rw [emptyCircuit, sem_empty, Matrix.one_mulVec, expct_basis]

/-- The protocol on the ideal samples of the basis state `y`, for an observable with a single term. -/
theorem tomography_basis {ord : List ℕ → List ℕ} {value : Expr → ℂ} {y : St n} {N : ℕ} (hN : 0 < N) {obs : Block Gate}
    {t : Block Gate × Expr} (hu : unroll obs = [t]) (hX : (innerBlocks t.1).all fun b => !isFixed .X b && !isFixed .Y b)
    (hid : isIdentity t.1 = false) {qs : List ℕ} (hqs : qubitIndicesForOp ord t.1 none = .ok qs) (hq : ∀ q ∈ qs, q < n) :
    tomography ord value (fun _ => [[(List.ofFn y, N)]]) (emptyCircuit n) obs =
      .ok [(parity qs (List.ofFn y) : ℂ) * value t.2] := by
  have e : empiricalAverage [[(List.ofFn y, N)]] qs = .ok [(parity qs (List.ofFn y) : ℚ)] := by
    rw [C31_mean hN (by simp) (by simp [totalShots]) (by simpa using hq)]
    simp [meanParity, totalShots]
    have : (N : ℚ) ≠ 0 := by positivity
    field_simp
  rw [tomography, hu, iteratePauli, List.mapM_cons, List.mapM_nil, estimateTerm, hid, if_neg (by simp), hqs, ok_bind,
    rotate_empty ord _ hX, ok_bind, e]
  simp [scaleBy, stackSum, ok_bind, pure_eq_ok]

/-- A Z on a qubit as an observable. -/
abbrev fx (g : FixedGate) (q : ℕ) : Block Gate := .leaf (.fixed g q) none

theorem eval_one' (ρ : Env) : eval ρ (.num 1 0) = 1 := by apply Complex.ext <;> simp [eval]

/-- **C33** is false for strings with an explicit identity: the identity is measured as a Z. For `kron(Z(0), I(1))` in the
state |01> the exact value is 1, the protocol returns -1. -/
theorem C33_counterexample_identity {ord : List ℕ → List ℕ} (ho : SetOrder ord) (ρ : Env) {value : Expr → ℂ}
    (hv : value (.num 1 0) = 1) :
    let obs : Block Gate := .comp .kron [fx .Z 0, fx .I 1] none
    let y : St 2 := ![false, true]
    ∃ sample, IdealSampler ho (emptyCircuit 2) [(ρ, basisState y)] 100 (unroll obs) sample ∧
      tomography ord value sample (emptyCircuit 2) obs = .ok [-1] ∧
      expct (sem (gateSem 2 ρ) ρ obs) (sem (primSem 2 ρ ord ho) ρ (emptyCircuit 2).block *ᵥ basisState y) = 1 := by
  intro obs y
  refine ⟨_, ideal_basis ho ρ y 100 _ ?_, ?_, ?_⟩
  · intro t ht
    have : t = (obs, .num 1 0) := by simpa [unroll, obs] using ht
    subst this; decide
  · rw [tomography_basis (by norm_num) (t := (obs, .num 1 0)) rfl (by decide) (by decide) (qs := [0, 1]) rfl (by simp)]
    simp only [hv, y]
    simp [parity]
  · rw [exact_basis, sem_kron]
    simp only [List.map_cons, List.map_nil, sem_leaf, gateSem_den, gateDen, opProd, one_mul, mat1_I]
    rw [embed1_Z_apply 0 (by norm_num)]
    simp [y, bit]

/-- **C33** is false for the number operator, which is measured as a Z: for `N(0)` in the state |1> the exact value is 1,
the protocol returns -1. -/
theorem C33_counterexample_number {ord : List ℕ → List ℕ} (ho : SetOrder ord) (ρ : Env) {value : Expr → ℂ}
    (hv : value (.num 1 0) = 1) :
    let obs : Block Gate := fx (.N true) 0
    let y : St 1 := ![true]
    ∃ sample, IdealSampler ho (emptyCircuit 1) [(ρ, basisState y)] 100 (unroll obs) sample ∧
      tomography ord value sample (emptyCircuit 1) obs = .ok [-1] ∧
      expct (sem (gateSem 1 ρ) ρ obs) (sem (primSem 1 ρ ord ho) ρ (emptyCircuit 1).block *ᵥ basisState y) = 1 := by
  intro obs y
  refine ⟨_, ideal_basis ho ρ y 100 _ ?_, ?_, ?_⟩
  · intro t ht
    have : t = (obs, .num 1 0) := by simpa [unroll, obs] using ht
    subst this; decide
  · rw [tomography_basis (by norm_num) (t := (obs, .num 1 0)) rfl (by decide) (by decide) (qs := [0]) rfl (by simp)]
    simp only [hv, y]
    simp [parity]
  · rw [exact_basis, sem_leaf]
    simp [gateDen, embed1, mat1, ind, y, bit]

/-- **C33** is false for nested krons as built by `Z(0) @ Z(1) @ Z(2)`: only one qubit of the inner kron is measured. In the
state |110> the exact value is 1, the protocol returns -1. -/
theorem C33_counterexample_nested {ord : List ℕ → List ℕ} (ho : SetOrder ord) (ρ : Env) {value : Expr → ℂ}
    (hv : value (.num 1 0) = 1) :
    let obs : Block Gate := .comp .kron [.comp .kron [fx .Z 0, fx .Z 1] none, fx .Z 2] none
    let y : St 3 := ![true, true, false]
    ∃ sample, IdealSampler ho (emptyCircuit 3) [(ρ, basisState y)] 100 (unroll obs) sample ∧
      tomography ord value sample (emptyCircuit 3) obs = .ok [-1] ∧
      expct (sem (gateSem 3 ρ) ρ obs) (sem (primSem 3 ρ ord ho) ρ (emptyCircuit 3).block *ᵥ basisState y) = 1 := by
  intro obs y
  have hinner : ∃ a l, Block.support Gate.supp ord (.comp .kron [fx .Z 0, fx .Z 1] none) = a :: l ∧ (a = 0 ∨ a = 1) := by
    have hm := fun q => Block.mem_support Gate.supp ord ho (.comp .kron [fx .Z 0, fx .Z 1] none) q
    have hq : ∀ q, q ∈ qubits Gate.supp (.comp .kron [fx .Z 0, fx .Z 1] none) ↔ q = 0 ∨ q = 1 := by
      intro q
      rw [mem_qubits_comp]
      simp [qubits_leaf, Gate.supp]
    cases h : Block.support Gate.supp ord (.comp .kron [fx .Z 0, fx .Z 1] none) with
    | nil =>
      have := (hm 0).2 ((hq 0).2 (Or.inl rfl))
      rw [h] at this; simp at this
    | cons a l => exact ⟨a, l, rfl, (hq a).1 ((hm a).1 (by rw [h]; simp))⟩
  obtain ⟨a, l, hal, ha⟩ := hinner
  have hind : qubitIndicesForOp ord obs none = .ok [a, 2] := by
    change ([Block.comp .kron [fx .Z 0, fx .Z 1] none, fx .Z 2] : List (Block Gate)).mapM (firstQubit ord) = _
    rw [List.mapM_cons, firstQubit, hal]; rfl
  refine ⟨_, ideal_basis ho ρ y 100 _ ?_, ?_, ?_⟩
  · intro t ht
    have : t = (obs, .num 1 0) := by simpa [unroll, obs] using ht
    subst this; decide
  · rw [tomography_basis (by norm_num) (t := (obs, .num 1 0)) rfl (by decide) (by decide) hind ?_]
    · simp only [hv, y]
      rcases ha with rfl | rfl <;> simp [parity]
    · rcases ha with rfl | rfl <;> simp
  · rw [exact_basis, sem_kron]
    simp only [List.map_cons, List.map_nil, sem_leaf, sem_kron, gateSem_den, gateDen, opProd, one_mul]
    have := zString_eq (n := 3) [0, 1, 2] (by simp)
    simp only [zString, List.map_cons, List.map_nil, opProd, one_mul] at this
    rw [← mul_assoc, this, Matrix.diagonal_apply_eq]
    simp [parity, y]

/-- **C33** is false for scale factors inside a kron, as in `(2 * Z(0)) @ Z(1)`: the factor is dropped. In the state |00> the
exact value is 2, the protocol returns 1. -/
theorem C33_counterexample_inner_scale {ord : List ℕ → List ℕ} (ho : SetOrder ord) (ρ : Env) {value : Expr → ℂ}
    (hv : value (.num 1 0) = 1) :
    let obs : Block Gate := .comp .kron [.scale (fx .Z 0) (.num 2 0) none, fx .Z 1] none
    let y : St 2 := ![false, false]
    ∃ sample, IdealSampler ho (emptyCircuit 2) [(ρ, basisState y)] 100 (unroll obs) sample ∧
      tomography ord value sample (emptyCircuit 2) obs = .ok [1] ∧
      expct (sem (gateSem 2 ρ) ρ obs) (sem (primSem 2 ρ ord ho) ρ (emptyCircuit 2).block *ᵥ basisState y) = 2 := by
  intro obs y
  refine ⟨_, ideal_basis ho ρ y 100 _ ?_, ?_, ?_⟩
  · intro t ht
    have : t = (obs, .num 1 0) := by simpa [unroll, obs] using ht
    subst this; decide
  · rw [tomography_basis (by norm_num) (t := (obs, .num 1 0)) rfl (by decide) (by decide) (qs := [0, 1]) rfl (by simp)]
    simp only [hv, y]
    simp [parity]
  · rw [exact_basis, sem_kron]
    simp only [List.map_cons, List.map_nil, sem_leaf, sem_scale, gateSem_den, gateDen, opProd, one_mul]
    have := zString_eq (n := 2) [0, 1] (by simp)
    simp only [zString, List.map_cons, List.map_nil, opProd, one_mul] at this
    rw [Matrix.mul_smul, this, Matrix.smul_apply, Matrix.diagonal_apply_eq]
    have h2 : eval ρ (.num 2 0) = 2 := by apply Complex.ext <;> simp [eval]
    rw [h2]
    simp [parity, y]

/-- **C33**: an identity term raises a RuntimeError as soon as the batch has more than one element. -/
theorem C33_counterexample_identity_batch (ord : List ℕ → List ℕ) (value : Expr → ℂ) {samples : List (PyDict Bits ℕ)}
    {s₁ s₂ : PyDict Bits ℕ} (h : samples = [s₁, s₂]) {N : ℕ} (hN : 0 < N) (h₁ : totalShots s₁ = N) (h₂ : totalShots s₂ = N)
    (hw : ∀ s ∈ samples, ∀ kv ∈ s, kv.1.length = 1) :
    tomography ord value (fun _ => samples) (emptyCircuit 1) (.comp .add [fx .I 0, fx .Z 0] none) = .error .runtimeError := by
  have e : empiricalAverage samples [0] = .ok (samples.map (meanParity [0])) := by
    apply C31_mean hN (by simp [h])
    · intro s hs
      rw [h] at hs
      simp at hs
      rcases hs with rfl | rfl
      · exact h₁
      · exact h₂
    · intro s hs kv hkv i hi
      rw [hw s hs kv hkv]
      simp at hi
      omega
  have e1 : estimateTerm ord value (fun _ => samples) (emptyCircuit 1) (fx .I 0, .num 1 0) = .ok [value (.num 1 0)] := rfl
  have e2 : estimateTerm ord value (fun _ => samples) (emptyCircuit 1) (fx .Z 0, .num 1 0) =
      .ok (scaleBy (value (.num 1 0)) (samples.map (meanParity [0]))) := by
    rw [estimateTerm, if_neg (by decide), show qubitIndicesForOp ord (fx .Z 0) none = .ok [0] from rfl, ok_bind,
      rotate_empty ord _ (by decide), ok_bind, e]
    rfl
  have hu : unroll (.comp .add [fx .I 0, fx .Z 0] none) = [(fx .I 0, .num 1 0), (fx .Z 0, .num 1 0)] := rfl
  rw [tomography, hu, iteratePauli, List.mapM_cons, List.mapM_cons, List.mapM_nil, e1, ok_bind, e2, ok_bind]
  rw [h]
  rfl

/-! ### C64: expectation values from given samples -/

/-- **C64** (partial: no identities inside Z strings, no nested or scaled parts): expectation values of sums of scaled Z
strings computed from counters with exact frequencies are exact. -/
theorem C64_samples_partial {ord : List ℕ → List ℕ} {observables : List (Block Gate)} {value : Expr → ℂ}
    (hdiag : ∀ obs ∈ observables, isDiagPauli obs = true ∧ isIdentity obs = false ∧ unroll obs ≠ [] ∧
      ∀ t ∈ unroll obs, ∃ ps, PauliString n t.1 ps ∧ ∀ p ∈ ps, p.1 = .Z)
    {batch : List (Env × (St n → ℂ))} (hb : batch ≠ [])
    (hvalue : ∀ e ∈ batch, ∀ obs ∈ observables, ∀ t ∈ unroll obs, eval e.1 t.2 = value t.2)
    {N : ℕ} (hN : 0 < N) {samples : List (PyDict Bits ℕ)} (hs : List.Forall₂ (fun e s => BornCounter N e.2 s) batch samples) :
    samplesExpectation ord value observables samples =
      .ok (observables.map fun obs => batch.map fun e => expct (sem (gateSem n e.1) e.1 obs) e.2) := by
  apply mapM_ok_map
  intro obs hobs
  obtain ⟨h1, h2, hne, hterms⟩ := hdiag obs hobs
  rw [h1, h2, if_neg (by simp)]
  have key : ∀ t ∈ unroll obs, (do
      let support ← qubitIndicesForOp ord t.1 none
      let avg ← empiricalAverage samples support
      return scaleBy (value t.2) avg : Except PyErr (List ℂ)) =
      .ok (batch.map fun e => expct (eval e.1 t.2 • sem (gateSem n e.1) e.1 t.1) e.2) := by
    intro t ht
    obtain ⟨ps, hps, hz⟩ := hterms t ht
    have hq : ∀ q ∈ ps.map Prod.snd, q < n := by
      intro q hq
      obtain ⟨p, hp, rfl⟩ := List.mem_map.1 hq
      exact hps.inside p hp
    obtain ⟨avg, a1, a2⟩ := forall₂_mean hN hs hb _ hq (value t.2)
    rw [indices_none ord hps, ok_bind, a1, ok_bind, pure_eq_ok, a2]
    congr 1
    apply List.map_congr_left
    intro e he
    rw [expct_smul, hvalue e he obs hobs t ht, sem_pauliString e.1 hps, zString, List.map_map]
    congr 3
    apply List.map_congr_left
    intro p hp
    rw [hz p hp]; rfl
  rw [pauliZExpectation, mapM_ok_map key, ok_bind, stackSum_map _ hne]
  congr 1
  apply List.map_congr_left
  intro e _
  rw [← C13_unroll_exact (gateSem n e.1) e.1 obs, expct_sum, List.map_map]
  rfl

/-- **C64**: observables which are not diagonal, and identities, are refused. -/
theorem C64_refused (ord : List ℕ → List ℕ) (value : Expr → ℂ) {obs : Block Gate} (h : isDiagPauli obs = false ∨ isIdentity obs = true)
    (rest : List (Block Gate)) (samples : List (PyDict Bits ℕ)) :
    samplesExpectation ord value (obs :: rest) samples = .error .typeError := by
  rw [samplesExpectation, List.mapM_cons, if_pos (by rcases h with h | h <;> simp [h])]
  rfl

/-- **C64** is false for identities inside sums and strings: for `Z(0) + I(1)` in the state |01> the exact value is 2, the
result is 0. -/
theorem C64_counterexample_identity (ord : List ℕ → List ℕ) (ρ : Env) {value : Expr → ℂ} (hv : value (.num 1 0) = 1) :
    let obs : Block Gate := .comp .add [fx .Z 0, fx .I 1] none
    let y : St 2 := ![false, true]
    BornCounter 100 (basisState y) [(List.ofFn y, 100)] ∧
      samplesExpectation ord value [obs] [[(List.ofFn y, 100)]] = .ok [[0]] ∧
      expct (sem (gateSem 2 ρ) ρ obs) (basisState y) = 2 := by
  intro obs y
  refine ⟨born_basis y 100, ?_, ?_⟩
  · have e : ∀ qs : List ℕ, (∀ q ∈ qs, q < 2) → empiricalAverage [[(List.ofFn y, 100)]] qs = .ok [(parity qs (List.ofFn y) : ℚ)] := by
      intro qs hq
      rw [C31_mean (N := 100) (by norm_num) (by simp) (by simp [totalShots]) (by simpa using hq)]
      simp [meanParity, totalShots]
    have hu : unroll obs = [(fx .Z 0, .num 1 0), (fx .I 1, .num 1 0)] := rfl
    rw [samplesExpectation, List.mapM_cons, List.mapM_nil, if_neg (by decide), pauliZExpectation, hu, List.mapM_cons,
      List.mapM_cons, List.mapM_nil, show qubitIndicesForOp ord (fx .Z 0) none = .ok [0] from rfl,
      show qubitIndicesForOp ord (fx .I 1) none = .ok [1] from rfl]
    simp only [ok_bind]
    rw [e [0] (by simp), e [1] (by simp)]
    simp [ok_bind, pure_eq_ok, scaleBy, stackSum, hv, parity, y]
  · rw [expct_basis, sem_add]
    simp only [List.map_cons, List.map_nil, sem_leaf, gateSem_den, gateDen, mat1_I, List.sum_cons, List.sum_nil, add_zero]
    rw [Matrix.add_apply, embed1_Z_apply 0 (by norm_num)]
    simp [y, bit]
    norm_num

/-! ### The hypotheses can be met -/

/-- 3 Z(0)Z(1) - 1/2 Z(1) in the state |01>. -/
example (ord : List ℕ → List ℕ) (ρ : Env) :
    samplesExpectation ord (eval ρ) [.comp .add [.scale (.comp .kron [fx .Z 0, fx .Z 1] none) (.num 3 0) none,
        .scale (fx .Z 1) (.num (-1/2) 0) none] none] [[([false, true], 100)]] =
      .ok [[expct (sem (gateSem 2 ρ) ρ (.comp .add [.scale (.comp .kron [fx .Z 0, fx .Z 1] none) (.num 3 0) none,
        .scale (fx .Z 1) (.num (-1/2) 0) none] none)) (basisState ![false, true])]] := by
  refine C64_samples_partial (n := 2) (batch := [(ρ, basisState ![false, true])]) ?_ (by simp) ?_ (N := 100) (by norm_num)
    (.cons ?_ .nil)
  · intro obs hobs
    rw [List.mem_singleton] at hobs
    subst hobs
    refine ⟨by decide +kernel, by decide +kernel, by simp [unroll, unrollAll], ?_⟩
    intro t ht
    simp only [unroll, unrollAll, List.map_cons, List.map_nil, List.append_nil, List.cons_append, List.nil_append,
      List.mem_cons, List.not_mem_nil, or_false] at ht
    rcases ht with rfl | rfl
    · refine ⟨[(.Z, 0), (.Z, 1)], ⟨.inr ⟨.kron, _, _, rfl, by simp, rfl⟩, by simp, by simp, by simp⟩, by simp⟩
    · refine ⟨[(.Z, 1)], ⟨.inl rfl, by simp, by simp, by simp⟩, by simp⟩
  · intro e he _ _ t _
    rw [List.mem_singleton] at he
    subst he; rfl
  · have := born_basis (n := 2) ![false, true] 100
    simpa using this

/-- X(0) in the state |0>: the rotated circuit prepares `|+>`. -/
example {ord : List ℕ → List ℕ} (ho : SetOrder ord) (ρ : Env) :
    tomography ord (eval ρ) (fun _ => [[([false], 50), ([true], 50)]]) (emptyCircuit 1) (fx .X 0) =
      .ok [expct (sem (gateSem 1 ρ) ρ (fx .X 0)) (sem (primSem 1 ρ ord ho) ρ (chainOf []) *ᵥ basisState ![false])] := by
  refine C33_tomography_partial ho (c := emptyCircuit 1) (empty_inside ord) (by simp [unroll]) (N := 100) (by norm_num)
    (batch := [(ρ, basisState ![false])]) (by simp) ?_ ?_ ?_ ?_
  · intro e he t _
    rw [List.mem_singleton] at he
    subst he; rfl
  · intro e he
    rw [List.mem_singleton] at he
    subst he
    change ∑ x : St 1, ‖(sem (primSem 1 ρ ord ho) ρ (chainOf []) *ᵥ basisState ![false]) x‖ ^ 2 = 1
    rw [sem_empty, Matrix.one_mulVec]
    exact basisState_norm _
  · intro t ht
    left
    have : t = (fx .X 0, .num 1 0) := by simpa [unroll] using ht
    subst this
    exact ⟨[(.X, 0)], ⟨.inl rfl, by simp, by simp [emptyCircuit], by simp⟩⟩
  · intro t ht _ c' hc'
    have : t = (fx .X 0, .num 1 0) := by simpa [unroll] using ht
    subst this
    have hps : PauliString (emptyCircuit 1).nReg (fx .X 0) [(.X, 0)] := ⟨.inl rfl, by simp, by simp [emptyCircuit], by simp⟩
    obtain ⟨c'', R, h1, -, -, h4, h5, -, h7⟩ : ∃ c' , ∃ R : Oper 1, rotate ord (emptyCircuit 1) (fx .X 0) = .ok c' ∧ c'.nReg = 1 ∧
      qubitIndicesForOp ord (fx .X 0) none = .ok [0] ∧
      (∀ ρ, sem (primSem 1 ρ ord ho) ρ c'.block = R * sem (primSem 1 ρ ord ho) ρ (chainOf [])) ∧
      Rᴴ * R = 1 ∧ R * Rᴴ = 1 ∧
      ∀ ρ, R * sem (gateSem 1 ρ) ρ (fx .X 0) * Rᴴ = zString [0] ∧
        Rᴴ * (zString [0] : Oper 1) * R = sem (gateSem 1 ρ) ρ (fx .X 0) := C33_rotate ho (empty_inside ord) hps
    rw [h1] at hc'
    obtain rfl : c'' = c' := by injection hc'
    refine .cons ?_ .nil
    have hs : ∀ f : St 1 → ℝ, ∑ x, f x = f ![false] + f ![true] := by
      intro f
      rw [← (Equiv.funUnique (Fin 1) Bool).symm.sum_comp f, Fintype.sum_bool, add_comm]
      congr 2 <;> ext i <;> fin_cases i <;> rfl
    have e1 : expct (1 : Oper 1) (R *ᵥ basisState ![false]) = 1 := by
      rw [expct_conj, mul_one, h5]
      exact expct_one _ (basisState_norm _)
    have e2 : expct (zString [0] : Oper 1) (R *ᵥ basisState ![false]) = 0 := by
      rw [expct_conj]
      rw [(h7 ρ).2, expct_basis, sem_leaf]
      simp [gateDen, embed1, mat1, bit, ind]
    have z := fun qs h => expct_zString (n := 1) qs h (R *ᵥ basisState ![false])
    have z1 := z [] (by simp)
    have z2 := z [0] (by simp)
    rw [show (zString [] : Oper 1) = 1 from rfl, e1, ← Complex.ofReal_sum, hs] at z1
    rw [e2, ← Complex.ofReal_sum, hs] at z2
    have z1' := Complex.ofReal_injective (Complex.ofReal_one.trans z1)
    have z2' := Complex.ofReal_injective (Complex.ofReal_zero.trans z2)
    simp [parity] at z1' z2'
    have hb : sem (primSem 1 ρ ord ho) ρ c''.block = R := by
      rw [h4 ρ, sem_empty, mul_one]
    change BornCounter (n := 1) 100 (sem (primSem 1 ρ ord ho) ρ c''.block *ᵥ basisState ![false]) _
    rw [hb]
    refine ⟨by simp, by simp [totalShots], fun x => ?_⟩
    have hx : x = ![x 0] := by ext i; fin_cases i; rfl
    rw [hx]
    cases x 0 <;> simp [countOf] <;> linarith

end Qadence.Measure
