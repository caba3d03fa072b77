import Mathlib.Tactic
import Verif.Model.QCNN
import Verif.Spec.Params
import Verif.Proofs.Ansatz
import Verif.Proofs.BlockSem
import Verif.Proofs.Except
import Verif.Proofs.GateSem
import Verif.Proofs.Names
import Verif.Proofs.TensorSem
import Verif.Props.FeatureMapGates
import Verif.Props.FeatureMapSplit

/-!
# C86: the circuit of a quantum convolutional neural network
-/

namespace Qadence.QCNN

open Block Spec Ansatz

variable {ord : List ℕ → List ℕ}

/-! ## The qubits of the layers -/

theorem everyOther_getElem? {α : Type} (l : List α) (i : ℕ) : (everyOther l)[i]? = l[2 * i]? := by
  induction l using everyOther.induct generalizing i with
  | case1 => simp [everyOther]
  | case2 a => cases i <;> simp [everyOther]
  | case3 a b l ih =>
    cases i with
    | zero => simp [everyOther]
    | succ i => rw [everyOther, List.getElem?_cons_succ, ih]; rfl

theorem getElem?_map_range {α : Type} (f : ℕ → α) (m i : ℕ) :
    ((List.range m).map f)[i]? = if i < m then some (f i) else none := by
  rw [List.getElem?_map]
  by_cases h : i < m
  · rw [List.getElem?_range h, if_pos h]; rfl
  · rw [if_neg h, List.getElem?_eq_none (by simpa using h)]; rfl

/-- The qubits of layer `ℓ`: the last qubit of every group of `2 ^ ℓ` neighbours. -/
def layerQubits (n l : ℕ) : List ℕ := (List.range (n / 2 ^ l)).map fun j => (j + 1) * 2 ^ l - 1

theorem next_map {α : Type} (f : ℕ → α) (m : ℕ) :
    everyOther (((List.range m).map f).drop 1) = (List.range (m / 2)).map fun j => f (2 * j + 1) := by
  apply List.ext_getElem?
  intro i
  rw [everyOther_getElem?, List.getElem?_drop, getElem?_map_range, getElem?_map_range]
  rw [Nat.add_comm 1]
  by_cases h : i < m / 2
  · rw [if_pos h, if_pos (by omega)]
  · rw [if_neg h, if_neg (by omega)]

theorem layerQubits_zero (n : ℕ) : layerQubits n 0 = List.range n := by
  simp [layerQubits]

theorem layerQubits_succ (n l : ℕ) : everyOther ((layerQubits n l).drop 1) = layerQubits n (l + 1) := by
  rw [layerQubits, next_map, layerQubits, Nat.pow_succ, Nat.div_div_eq_div_mul]
  refine List.map_congr_left fun j _ => ?_
  congr 1; ring

theorem zip_getElem? {α β : Type} (l : List α) (l' : List β) (i : ℕ) :
    (l.zip l')[i]? = match l[i]?, l'[i]? with
      | some a, some b => some (a, b)
      | _, _ => none := by
  rw [List.zip, List.getElem?_zipWith]
  rcases l[i]? with _ | a <;> rcases l'[i]? with _ | b <;> rfl

theorem evenPairs_map (f : ℕ → ℕ) (m : ℕ) :
    evenPairs ((List.range m).map f) = (List.range (m / 2)).map fun j => (f (2 * j), f (2 * j + 1)) := by
  apply List.ext_getElem?
  intro i
  rw [evenPairs, zip_getElem?, next_map, everyOther_getElem?, getElem?_map_range, getElem?_map_range, getElem?_map_range]
  by_cases h : i < m / 2
  · rw [if_pos h, if_pos (by omega), if_pos h]
  · rw [if_neg h, if_neg h]; split <;> simp_all

theorem oddPairs_map (f : ℕ → ℕ) (m : ℕ) :
    oddPairs ((List.range m).map f) = (List.range ((m - 2) / 2)).map fun j => (f (2 * j + 1), f (2 * j + 2)) := by
  have hd : ((List.range m).map f).dropLast = (List.range (m - 1)).map f := by
    cases m with
    | zero => rfl
    | succ m => simp [List.range_succ]
  apply List.ext_getElem?
  intro i
  rw [oddPairs, zip_getElem?, hd, everyOther_getElem?, everyOther_getElem?, List.getElem?_drop, List.getElem?_drop,
    getElem?_map_range, getElem?_map_range, getElem?_map_range]
  by_cases h : i < (m - 2) / 2
  · rw [if_pos h, if_pos (by omega), if_pos (by omega)]; simp only [Nat.add_comm 1, Nat.add_comm 2]
  · rw [if_neg h]
    by_cases h2 : 2 + 2 * i < m - 1
    · omega
    · rw [if_neg h2]; split <;> simp_all

/-- The pairs of cells of a repetition, by the positions of their qubits among the qubits of the layer: neighbours, starting
with the first qubit, and in odd repetitions of the first two layers with the second one. -/
def starts (n l rep : ℕ) : List ℕ :=
  if (l = 0 ∨ l = 1) ∧ rep % 2 = 1 then (List.range ((n / 2 ^ l - 2) / 2)).map fun j => 2 * j + 1
  else (List.range (n / 2 ^ l / 2)).map fun j => 2 * j

/-- The cell starting at the position `a` of layer `ℓ`. -/
def pairAt (l a : ℕ) : ℕ × ℕ := ((a + 1) * 2 ^ l - 1, (a + 2) * 2 ^ l - 1)

theorem pairs_even (n l rep : ℕ) (h : ¬((l = 0 ∨ l = 1) ∧ rep % 2 = 1)) :
    evenPairs (layerQubits n l) = (starts n l rep).map (pairAt l) := by
  rw [layerQubits, evenPairs_map, starts, if_neg h, List.map_map]
  rfl

theorem pairs_odd (n l rep : ℕ) (h : (l = 0 ∨ l = 1) ∧ rep % 2 = 1) :
    oddPairs (layerQubits n l) = (starts n l rep).map (pairAt l) := by
  rw [layerQubits, oddPairs_map, starts, if_pos h, List.map_map]
  rfl

/-- All cells of a repetition lie inside the qubits of the layer, and different cells are apart. -/
theorem starts_spec (n l rep : ℕ) : (∀ a ∈ starts n l rep, a + 1 < n / 2 ^ l) ∧
    (starts n l rep).Pairwise fun a b => a + 2 ≤ b := by
  have hp : ∀ (m c : ℕ), ((List.range m).map fun j => 2 * j + c).Pairwise fun a b => a + 2 ≤ b := by
    intro m c
    rw [List.pairwise_map]
    exact List.pairwise_lt_range.imp fun {a b} h => by omega
  unfold starts
  split
  · refine ⟨fun a ha => ?_, hp _ 1⟩
    obtain ⟨j, hj, rfl⟩ := List.mem_map.1 ha
    have := List.mem_range.1 hj
    omega
  · refine ⟨fun a ha => ?_, hp _ 0⟩
    obtain ⟨j, hj, rfl⟩ := List.mem_map.1 ha
    have := List.mem_range.1 hj
    omega

theorem pairAt_snd (l u : ℕ) : (pairAt l u).2 = (pairAt l u).1 + 2 ^ l := by
  have h0 : 0 < (u + 1) * 2 ^ l := by positivity
  obtain ⟨x, hx⟩ : ∃ x, (u + 1) * 2 ^ l = x + 1 := ⟨(u + 1) * 2 ^ l - 1, by omega⟩
  have h2 : (u + 2) * 2 ^ l = x + 1 + 2 ^ l := by rw [← hx]; ring
  show (u + 2) * 2 ^ l - 1 = (u + 1) * 2 ^ l - 1 + 2 ^ l
  rw [hx, h2]
  generalize 2 ^ l = y
  omega

theorem pairAt_next (l : ℕ) {s s' : ℕ} (h : s + 2 ≤ s') : (pairAt l s).2 + 2 ^ l ≤ (pairAt l s').1 := by
  have h0 : 0 < (s + 2) * 2 ^ l := by positivity
  obtain ⟨x, hx⟩ : ∃ x, (s + 2) * 2 ^ l = x + 1 := ⟨(s + 2) * 2 ^ l - 1, by omega⟩
  have h3 : (s + 3) * 2 ^ l ≤ (s' + 1) * 2 ^ l := Nat.mul_le_mul_right _ (by omega)
  have h4 : (s + 3) * 2 ^ l = x + 1 + 2 ^ l := by rw [← hx]; ring
  rw [h4] at h3
  show (s + 2) * 2 ^ l - 1 + 2 ^ l ≤ (s' + 1) * 2 ^ l - 1
  rw [hx]
  generalize (s' + 1) * 2 ^ l = y at *
  omega

theorem pairAt_lt (l a : ℕ) : (pairAt l a).1 < (pairAt l a).2 := by
  have h : 0 < 2 ^ l := by positivity
  have := pairAt_snd l a
  omega

/-! ## One cell -/

theorem mem_padQubits (c t s n q : ℕ) : q ∈ padQubits c t s n ↔ q ≠ c ∧ q ≠ t ∧ q < n ∧ c ≤ q + s ∧ q ≤ c + s := by
  rw [padQubits, List.mem_filterMap]
  constructor
  · rintro ⟨z, hz, h⟩
    obtain ⟨i, hi, rfl⟩ := List.mem_map.1 hz
    have := List.mem_range.1 hi
    split at h
    · next hc => injection h with h; omega
    · cases h
  · rintro ⟨h1, h2, h3, h4, h5⟩
    refine ⟨(q : ℤ), List.mem_map.2 ⟨q + s - c, List.mem_range.2 (by omega), by omega⟩, ?_⟩
    rw [if_pos (by omega)]; simp

theorem padQubits_nodup (c t s n : ℕ) : (padQubits c t s n).Nodup := by
  rw [padQubits]
  refine List.Nodup.filterMap ?_ (List.Nodup.map (fun a b h => by simpa using h) List.nodup_range)
  intro a b q ha hb
  simp only [Option.mem_def] at ha hb
  split at ha
  · split at hb
    · injection ha with ha; injection hb with hb; omega
    · cases hb
  · cases ha

/-- The leaves of a kron of a cell. -/
def padPrims (pads : List ℕ) (a b : Gate) : List Prim :=
  pads.map (fun q => .gate (.fixed .I q) none) ++ [.gate a none, .gate b none]

def opPrims (pads : List ℕ) (name : ℕ → String) (c t : ℕ) : List RotGate → ℕ → List Prim
  | [], _ => []
  | g :: gs, i => padPrims pads (.rot g c (.var (name i))) (.rot g t (.var (name (i + 1)))) ++ opPrims pads name c t gs (i + 2)

/-- The entangling gate. -/
def entOf (e : Entangler) (a b : ℕ) : Gate := if e = .CZ then .cz a b else .cnot a b

/-- The primitive blocks of a cell. -/
def cellPrims (pads : List ℕ) (ops : List RotGate) (e : Entangler) (name : ℕ → String) (last : Bool) (c t i : ℕ) : List Prim :=
  opPrims pads name c t ops i ++ [.gate (entOf e t c) none] ++
    padPrims pads (.rot .RZ c (.var (name (i + 2 * ops.length)))) (.rot .RY t (.var (name (i + 2 * ops.length + 1)))) ++
    [.gate (entOf e c t) none] ++ padPrims pads (.fixed .I c) (.rot .RY t (.var (name (i + 2 * ops.length + 2)))) ++
    [.gate (entOf e t c) none] ++ opPrims pads name c t ops (i + 2 * ops.length + 3) ++
    (if last then [.gate (entOf e c t) none] else [])

/-- The entanglers without a parameter. -/
def Plain (e : Entangler) : Prop := e = .CNOT ∨ e = .CZ

theorem entangle_ok (e : Entangler) (a b : ℕ) (x : Block Prim) :
    entangle e a b = .ok x ↔ Plain e ∧ x = gateBlock (entOf e a b) := by
  cases e <;> simp [entangle, Plain, entOf, eq_comm]

theorem padKron_ok (ho : SetOrder ord) {pads : List ℕ} {a b : Gate} {x y : ℕ} (ha : a.supp = [x]) (hb : b.supp = [y])
    (hp : pads.Nodup) (hx : x ∉ pads) (hy : y ∉ pads) (hxy : x ≠ y) :
    padKron ord pads a b = .ok (.comp .kron (pads.map (fun q => gateBlock (.fixed .I q)) ++ [gateBlock a, gateBlock b]) none) := by
  rw [padKron, kronOf_ok_iff _ _ ho]
  refine ⟨rfl, by simp, ?_⟩
  have hq : ∀ g : Gate, qubits (Prim.supp ord) (gateBlock g) = {q | q ∈ g.supp} := fun g => by
    rw [gateBlock, qubits_leaf]; rfl
  rw [List.pairwise_append]
  refine ⟨?_, ?_, ?_⟩
  · rw [List.pairwise_map]
    refine hp.imp fun {i j} hij => ?_
    rw [hq, hq, Set.disjoint_left]
    intro q h1 h2
    simp only [Gate.supp, List.mem_singleton, Set.mem_ofPred_eq] at h1 h2
    exact hij (h1.symm.trans h2)
  · rw [List.pairwise_pair, hq, hq, ha, hb, Set.disjoint_left]
    intro q h1 h2
    simp only [List.mem_singleton, Set.mem_ofPred_eq] at h1 h2
    exact hxy (h1.symm.trans h2)
  · intro g hg k hk
    obtain ⟨q, hqp, rfl⟩ := List.mem_map.1 hg
    rw [hq, Set.disjoint_left]
    simp only [List.mem_cons, List.not_mem_nil, or_false] at hk
    rcases hk with rfl | rfl
    · rw [hq, ha]
      intro z h1 h2
      simp only [Gate.supp, List.mem_singleton, Set.mem_ofPred_eq] at h1 h2
      exact hx (h2 ▸ h1 ▸ hqp)
    · rw [hq, hb]
      intro z h1 h2
      simp only [Gate.supp, List.mem_singleton, Set.mem_ofPred_eq] at h1 h2
      exact hy (h2 ▸ h1 ▸ hqp)

/-- The primitive blocks of the blocks are `ps`, and there are no scale blocks. -/
def Gathers (bs : List (Block Prim)) (ps : List Prim) : Prop :=
  ∀ (α : Type) (f : Prim → List α) (g : Expr → List α), bs.flatMap (gather f g) = ps.flatMap f

theorem Gathers.nil : Gathers [] [] := fun _ _ _ => rfl

theorem Gathers.append {bs bs' : List (Block Prim)} {ps ps' : List Prim} (h : Gathers bs ps) (h' : Gathers bs' ps') :
    Gathers (bs ++ bs') (ps ++ ps') := fun α f g => by
  rw [List.flatMap_append, List.flatMap_append, h α f g, h' α f g]

theorem Gathers.comp {bs : List (Block Prim)} {ps : List Prim} (h : Gathers bs ps) (k : CKind) (t) :
    Gathers [.comp k bs t] ps := fun α f g => by
  rw [List.flatMap_singleton, gather_comp, h α f g]

theorem Gathers.gate (g : Gate) : Gathers [gateBlock g] [.gate g none] := fun α f s => by
  rw [List.flatMap_singleton, List.flatMap_singleton, gateBlock, gather]

theorem Gathers.pads (pads : List ℕ) :
    Gathers (pads.map fun q => gateBlock (.fixed .I q)) (pads.map fun q => .gate (.fixed .I q) none) := by
  induction pads with
  | nil => exact .nil
  | cons q qs ih => exact (Gathers.gate _).append ih

theorem Gathers.padKron (pads : List ℕ) (a b : Gate) :
    Gathers [.comp .kron (pads.map (fun q => gateBlock (.fixed .I q)) ++ [gateBlock a, gateBlock b]) none]
      (padPrims pads a b) :=
  ((Gathers.pads pads).append ((Gathers.gate a).append (Gathers.gate b))).comp _ _

section cell

variable {pads : List ℕ} {c t : ℕ}

theorem opKrons_ok (ho : SetOrder ord) (hp : pads.Nodup) (hc : c ∉ pads) (ht : t ∉ pads) (hct : c ≠ t) (name : ℕ → String)
    (ops : List RotGate) (i : ℕ) :
    ∃ ks, opKrons ord pads name c t ops i = .ok ks ∧ Gathers ks (opPrims pads name c t ops i) := by
  induction ops generalizing i with
  | nil => exact ⟨[], rfl, .nil⟩
  | cons g gs ih =>
    obtain ⟨ks, h1, h2⟩ := ih (i + 2)
    rw [opKrons, padKron_ok ho rfl rfl hp hc ht hct, ok_bind, h1, ok_bind]
    exact ⟨_, rfl, (Gathers.padKron _ _ _).append h2⟩

theorem cellGates_ok (ho : SetOrder ord) (hp : pads.Nodup) (hc : c ∉ pads) (ht : t ∉ pads) (hct : c ≠ t) (name : ℕ → String)
    (ops : List RotGate) {e : Entangler} (he : Plain e) (last : Bool) (i : ℕ) :
    ∃ gs, cellGates ord pads ops e name last c t i = .ok gs ∧ Gathers gs (cellPrims pads ops e name last c t i) := by
  obtain ⟨k₁, h1, l1⟩ := opKrons_ok ho hp hc ht hct name ops i
  obtain ⟨k₂, h2, l2⟩ := opKrons_ok ho hp hc ht hct name ops (i + 2 * ops.length + 3)
  have hent : ∀ a b, entangle e a b = .ok (gateBlock (entOf e a b)) := fun a b => (entangle_ok e a b _).2 ⟨he, rfl⟩
  rw [cellGates, h1, ok_bind, hent t c, ok_bind]
  dsimp only
  rw [padKron_ok ho rfl rfl hp hc ht hct, ok_bind, hent c t, ok_bind, padKron_ok ho rfl rfl hp hc ht hct, ok_bind, ok_bind,
    h2, ok_bind]
  have key := (((((l1.append (Gathers.gate (entOf e t c))).append (Gathers.padKron pads (.rot .RZ c (.var (name (i +
    2 * ops.length)))) (.rot .RY t (.var (name (i + 2 * ops.length + 1)))))).append (Gathers.gate (entOf e c t))).append
    (Gathers.padKron pads (.fixed .I c) (.rot .RY t (.var (name (i + 2 * ops.length + 2)))))).append
    (Gathers.gate (entOf e t c))).append l2
  cases last
  · refine ⟨_, rfl, ?_⟩
    have := key.append Gathers.nil
    simp only [List.append_assoc, List.append_nil, cellPrims, List.cons_append, List.nil_append,
      Bool.false_eq_true, if_false] at this ⊢
    exact this
  · refine ⟨_, rfl, ?_⟩
    have := key.append (Gathers.gate (entOf e c t))
    simp only [List.append_assoc, List.append_nil, cellPrims, List.cons_append, List.nil_append,
      if_true] at this ⊢
    exact this

theorem cellGates_plain {name : ℕ → String} {ops : List RotGate} {e : Entangler} {last : Bool} {i : ℕ} {gs : List (Block Prim)}
    (h : cellGates ord pads ops e name last c t i = .ok gs) : Plain e := by
  obtain ⟨k, -, h⟩ := bind_ok h
  obtain ⟨x, hx, -⟩ := bind_ok h
  exact ((entangle_ok _ _ _ _).1 hx).1

end cell

/-! ## The cells of a repetition -/

/-- The pairs with the number of their first parameter. -/
def numbered (k : ℕ) : List (ℕ × ℕ) → ℕ → List ((ℕ × ℕ) × ℕ)
  | [], _ => []
  | p :: ps, c => (p, c) :: numbered k ps (c + k)

/-- The primitive blocks of the cell on the qubits `x.1` with the first parameter number `x.2`. -/
def cellOf (a : Args) (l rep : ℕ) (last : Bool) (x : (ℕ × ℕ) × ℕ) : List Prim :=
  cellPrims (padQubits x.1.1 x.1.2 l a.n) a.ops a.ent (paramName a.corr l rep) last x.1.1 x.1.2 x.2

theorem cells_ok (ho : SetOrder ord) (a : Args) (l rep : ℕ) (last tagged : Bool) (ps : List (ℕ × ℕ)) (i : ℕ)
    (hps : ∀ p ∈ ps, p.1 < p.2) (he : ps ≠ [] → Plain a.ent) :
    ∃ ws, cells ord a l rep last tagged ps i = .ok ws ∧
      List.Forall₂ (fun x w => Gathers [w] (cellOf a l rep last x)) (numbered (cellParams a.ops) ps i) ws := by
  induction ps generalizing i with
  | nil => exact ⟨[], rfl, .nil⟩
  | cons p ps ih =>
    have hp := hps p (by simp)
    have he := he (by simp)
    obtain ⟨gs, h1, h2⟩ := cellGates_ok (pads := padQubits p.1 p.2 l a.n) ho (padQubits_nodup ..)
      (fun h => ((mem_padQubits ..).1 h).1 rfl) (fun h => ((mem_padQubits ..).1 h).2.1 rfl) hp.ne
      (paramName a.corr l rep) a.ops he last i
    obtain ⟨ws, h3, h4⟩ := ih (i + cellParams a.ops) (fun q hq => hps q (by simp [hq])) fun _ => he
    rw [cells, h1, ok_bind, h3, ok_bind]
    exact ⟨_, rfl, .cons (h2.comp _ _) h4⟩

theorem cells_plain {a : Args} {l rep : ℕ} {last tagged : Bool} {ps : List (ℕ × ℕ)} {i : ℕ} {ws : List (Block Prim)}
    (h : cells ord a l rep last tagged ps i = .ok ws) (hp : ps ≠ []) : Plain a.ent := by
  cases ps with
  | nil => exact absurd rfl hp
  | cons p ps =>
    obtain ⟨gs, hg, -⟩ := bind_ok h
    exact cellGates_plain hg

theorem Gathers.forall₂ {β : Type} {F : β → List Prim} {xs : List β} {ws : List (Block Prim)}
    (h : List.Forall₂ (fun x w => Gathers [w] (F x)) xs ws) : Gathers ws (xs.flatMap F) := by
  induction h with
  | nil => exact .nil
  | cons h _ ih => exact h.append ih

theorem forall₂_mem {β γ : Type} {S : β → γ → Prop} {xs : List β} {ws : List γ} (h : List.Forall₂ S xs ws) :
    ∀ w ∈ ws, ∃ x ∈ xs, S x w := by
  induction h with
  | nil => simp
  | cons h _ ih =>
    intro w hw
    rcases List.mem_cons.1 hw with rfl | hw
    · exact ⟨_, by simp, h⟩
    · obtain ⟨x, hx, h⟩ := ih w hw; exact ⟨x, by simp [hx], h⟩

theorem forall₂_pairwise {β γ : Type} {S : β → γ → Prop} {R : β → β → Prop} {R' : γ → γ → Prop} {xs : List β} {ws : List γ}
    (h : List.Forall₂ S xs ws) (hR : xs.Pairwise R) (hRR : ∀ x y v w, R x y → S x v → S y w → R' v w) : ws.Pairwise R' := by
  induction h with
  | nil => exact .nil
  | cons h ht ih =>
    rw [List.pairwise_cons] at hR ⊢
    refine ⟨fun w hw => ?_, ih hR.2⟩
    obtain ⟨y, hy, hS⟩ := forall₂_mem ht w hw
    exact hRR _ _ _ _ (hR.1 y hy) h hS

theorem numbered_fst (k : ℕ) (ps : List (ℕ × ℕ)) (c : ℕ) : (numbered k ps c).map Prod.fst = ps := by
  induction ps generalizing c with
  | nil => rfl
  | cons p ps ih => rw [numbered, List.map_cons, ih]

theorem mem_qubits_gather (b : Block Prim) (q : ℕ) : q ∈ qubits (Prim.supp ord) b ↔
    q ∈ gather (Prim.supp ord) (fun _ => []) b := by
  induction b using Block.induction with
  | leaf l t => rw [qubits_leaf, gather]; rfl
  | scale b s t ih => rw [qubits_scale, gather, ih]; simp
  | comp k bs t ih =>
    rw [mem_qubits_comp, gather_comp, List.mem_flatMap]
    exact ⟨fun ⟨b, hb, h⟩ => ⟨b, hb, (ih b hb).1 h⟩, fun ⟨b, hb, h⟩ => ⟨b, hb, (ih b hb).2 h⟩⟩

theorem mem_qubits_of_gathers {b : Block Prim} {ps : List Prim} (h : Gathers [b] ps) (q : ℕ) :
    q ∈ qubits (Prim.supp ord) b ↔ ∃ p ∈ ps, q ∈ Prim.supp ord p := by
  have := h ℕ (Prim.supp ord) (fun _ => [])
  rw [List.flatMap_singleton] at this
  rw [mem_qubits_gather, this, List.mem_flatMap]

/-- A padding identity, or a gate on the two qubits of the cell. -/
def InCell (pads : List ℕ) (c t : ℕ) (p : Prim) : Prop :=
  (∃ q ∈ pads, p = .gate (.fixed .I q) none) ∨ ∃ g : Gate, p = .gate g none ∧ ∀ z ∈ g.supp, z = c ∨ z = t

theorem padPrims_inCell {pads : List ℕ} {c t : ℕ} {a b : Gate} (ha : a.supp = [c]) (hb : b.supp = [t]) {p : Prim}
    (hp : p ∈ padPrims pads a b) : InCell pads c t p := by
  rw [padPrims, List.mem_append, List.mem_map] at hp
  rcases hp with ⟨q, hq, rfl⟩ | hp
  · exact .inl ⟨q, hq, rfl⟩
  · simp only [List.mem_cons, List.not_mem_nil, or_false] at hp
    rcases hp with rfl | rfl
    · exact .inr ⟨a, rfl, fun z hz => by rw [ha] at hz; simp at hz; exact .inl hz⟩
    · exact .inr ⟨b, rfl, fun z hz => by rw [hb] at hz; simp at hz; exact .inr hz⟩

theorem opPrims_inCell {pads : List ℕ} {name : ℕ → String} {c t : ℕ} {ops : List RotGate} {i : ℕ} {p : Prim}
    (hp : p ∈ opPrims pads name c t ops i) : InCell pads c t p := by
  induction ops generalizing i with
  | nil => cases hp
  | cons g gs ih =>
    rw [opPrims, List.mem_append] at hp
    rcases hp with hp | hp
    · exact padPrims_inCell rfl rfl hp
    · exact ih hp

theorem entOf_inCell (pads : List ℕ) (e : Entangler) (a b : ℕ) :
    InCell pads a b (.gate (entOf e a b) none) ∧ InCell pads b a (.gate (entOf e a b) none) := by
  have : ∀ z ∈ (entOf e a b).supp, z = a ∨ z = b := by
    intro z hz
    unfold entOf at hz
    split at hz <;> simpa [Gate.cz, Gate.cnot, Gate.supp] using hz
  exact ⟨.inr ⟨_, rfl, this⟩, .inr ⟨_, rfl, fun z hz => (this z hz).symm⟩⟩

theorem cellPrims_inCell {pads : List ℕ} {ops : List RotGate} {e : Entangler} {name : ℕ → String} {last : Bool} {c t i : ℕ}
    {p : Prim} (hp : p ∈ cellPrims pads ops e name last c t i) : InCell pads c t p := by
  rw [cellPrims] at hp
  simp only [List.mem_append, List.mem_singleton] at hp
  rcases hp with ((((((hp | rfl) | hp) | rfl) | hp) | rfl) | hp) | hp
  · exact opPrims_inCell hp
  · exact (entOf_inCell ..).2
  · exact padPrims_inCell rfl rfl hp
  · exact (entOf_inCell ..).1
  · exact padPrims_inCell rfl rfl hp
  · exact (entOf_inCell ..).2
  · exact opPrims_inCell hp
  · split at hp
    · rw [List.mem_singleton] at hp; subst hp; exact (entOf_inCell ..).1
    · cases hp

theorem two_pow_gt (l : ℕ) : l < 2 ^ l := Nat.lt_two_pow_self

/-- Cells at different places of a layer have no qubit in common, padding included. -/
theorem cells_disjoint {a : Args} {l rep : ℕ} {last : Bool} {s s' i i' : ℕ} (h : s + 2 ≤ s') {v w : Block Prim}
    (hv : Gathers [v] (cellOf a l rep last (pairAt l s, i))) (hw : Gathers [w] (cellOf a l rep last (pairAt l s', i'))) :
    Disjoint (qubits (Prim.supp ord) v) (qubits (Prim.supp ord) w) := by
  have hin : ∀ (u i : ℕ) (b : Block Prim), Gathers [b] (cellOf a l rep last (pairAt l u, i)) →
      ∀ q ∈ qubits (Prim.supp ord) b, (pairAt l u).1 ≤ q + l ∧ q ≤ (pairAt l u).2 := by
    intro u i b hb q hq
    obtain ⟨p, hp, hq⟩ := (mem_qubits_of_gathers hb q).1 hq
    have h1 := pairAt_snd l u
    have h2 := two_pow_gt l
    rcases cellPrims_inCell hp with ⟨z, hz, rfl⟩ | ⟨g, rfl, hg⟩
    · rw [Prim.supp, Gate.supp, List.mem_singleton] at hq
      have := (mem_padQubits ..).1 hz
      dsimp only at this
      omega
    · rw [Prim.supp] at hq
      rcases hg q hq with h | h <;> dsimp only at h <;> omega
  rw [Set.disjoint_left]
  intro q h1 h2
  have h1 := (hin _ _ _ hv q h1).2
  have h2 := (hin _ _ _ hw q h2).1
  have h3 := pairAt_next l h
  have h4 := two_pow_gt l
  omega

theorem numbered_pairwise {l k : ℕ} {ss : List ℕ} (h : ss.Pairwise fun a b => a + 2 ≤ b) (c : ℕ) :
    (numbered k (ss.map (pairAt l)) c).Pairwise fun x y => ∃ s s', x.1 = pairAt l s ∧ y.1 = pairAt l s' ∧ s + 2 ≤ s' := by
  induction ss generalizing c with
  | nil => exact .nil
  | cons s ss ih =>
    rw [List.pairwise_cons] at h
    rw [List.map_cons, numbered, List.pairwise_cons]
    refine ⟨fun y hy => ?_, ih h.2 _⟩
    have : y.1 ∈ ss.map (pairAt l) := by
      rw [← numbered_fst k (ss.map (pairAt l)) (c + k)]; exact List.mem_map_of_mem hy
    obtain ⟨s', hs', he⟩ := List.mem_map.1 this
    exact ⟨s, s', rfl, he.symm, h.1 s' hs'⟩

/-- The primitive blocks of a repetition. -/
def repPrims (a : Args) (l : ℕ) (reps : ℤ) (rep : ℕ) : List Prim :=
  (numbered (cellParams a.ops) ((starts a.n l rep).map (pairAt l)) 0).flatMap (cellOf a l rep (decide ((rep : ℤ) = reps - 1)))

theorem starts_pairs (n l rep : ℕ) : ∀ p ∈ (starts n l rep).map (pairAt l), p.1 < p.2 := by
  intro p hp
  obtain ⟨s, -, rfl⟩ := List.mem_map.1 hp
  exact pairAt_lt l s

theorem repKron_pairs (n l rep : ℕ) (hl : l = 0 ∨ l = 1) :
    (if rep % 2 = 0 then evenPairs (layerQubits n l) else oddPairs (layerQubits n l)) = (starts n l rep).map (pairAt l) := by
  by_cases h : rep % 2 = 0
  · rw [if_pos h, pairs_even n l rep (by omega)]
  · rw [if_neg h, pairs_odd n l rep ⟨hl, by omega⟩]

/-- A repetition of one of the first two layers is accepted iff it has a cell and the entangler takes two qubits only. -/
theorem repKron_iff (ho : SetOrder ord) (a : Args) {l : ℕ} (hl : l = 0 ∨ l = 1) (reps : ℤ) (rep : ℕ) :
    (∃ b, repKron ord a l reps (layerQubits a.n l) rep = .ok b) ↔ Plain a.ent ∧ starts a.n l rep ≠ [] := by
  constructor
  · rintro ⟨b, hb⟩
    unfold repKron at hb
    dsimp only at hb
    rw [repKron_pairs a.n l rep hl] at hb
    obtain ⟨ws, hw, hb⟩ := bind_ok hb
    have hne : starts a.n l rep ≠ [] := by
      intro h
      rw [h] at hw
      cases hw
      cases hb
    exact ⟨cells_plain hw (by simpa using hne), hne⟩
  · rintro ⟨he, hne⟩
    unfold repKron
    dsimp only
    rw [repKron_pairs a.n l rep hl]
    obtain ⟨ws, hw, hf⟩ := cells_ok ho a l rep (decide ((rep : ℤ) = reps - 1)) true _ 0 (starts_pairs a.n l rep) fun _ => he
    rw [hw, ok_bind]
    refine ⟨_, (kronOf_ok_iff _ _ ho _ _).2 ⟨rfl, ?_, ?_⟩⟩
    · rintro rfl
      rw [List.forall₂_nil_right_iff] at hf
      have := numbered_fst (cellParams a.ops) ((starts a.n l rep).map (pairAt l)) 0
      rw [hf] at this
      exact hne (by simpa using this.symm)
    · refine forall₂_pairwise hf (numbered_pairwise (starts_spec a.n l rep).2 0) ?_
      rintro ⟨x, i⟩ ⟨y, j⟩ v w ⟨s, s', hx, hy, hs⟩ hv hw
      dsimp only at hx hy
      subst hx hy
      exact cells_disjoint hs hv hw

theorem repKron_gathers (ho : SetOrder ord) {a : Args} {l : ℕ} (hl : l = 0 ∨ l = 1) {reps : ℤ} {rep : ℕ} {b : Block Prim}
    (h : repKron ord a l reps (layerQubits a.n l) rep = .ok b) : Gathers [b] (repPrims a l reps rep) := by
  have he := ((repKron_iff ho a hl reps rep).1 ⟨b, h⟩).1
  unfold repKron at h
  dsimp only at h
  rw [repKron_pairs a.n l rep hl] at h
  obtain ⟨ws, hw, hf⟩ := cells_ok ho a l rep (decide ((rep : ℤ) = reps - 1)) true _ 0 (starts_pairs a.n l rep) fun _ => he
  rw [hw, ok_bind] at h
  obtain ⟨rfl, -⟩ := kronOf_blocks ho h
  exact (Gathers.forall₂ hf).comp _ _

/-! ## Layers -/

/-- The primitive blocks of a layer. -/
def layerPrims (a : Args) (l : ℕ) (reps : ℤ) : List Prim := (List.range reps.toNat).flatMap (repPrims a l reps)

theorem mapM_forall₂ {β γ : Type} {f : β → Except PyErr γ} {xs : List β} {ys : List γ} (h : xs.mapM f = .ok ys) :
    List.Forall₂ (fun x y => f x = .ok y) xs ys := by
  induction xs generalizing ys with
  | nil =>
    rw [List.mapM_nil] at h
    have := pure_ok h
    subst this
    exact .nil
  | cons x xs ih =>
    rw [List.mapM_cons] at h
    obtain ⟨y, hy, h⟩ := bind_ok h
    obtain ⟨zs, hz, h⟩ := bind_ok h
    have := pure_ok h
    subst this
    exact .cons hy (ih hz)

/-- A layer hands on the qubits of the next layer and consists of its repetitions. -/
theorem convLayer_spec (ho : SetOrder ord) {a : Args} {l : ℕ} {reps : ℤ} {r : Block Prim × List ℕ}
    (h : convLayer ord a l reps (layerQubits a.n l) = .ok r) :
    r.2 = layerQubits a.n (l + 1) ∧ Gathers [r.1] (layerPrims a l reps) := by
  unfold convLayer at h
  dsimp only at h
  by_cases hl : l = 0 ∨ l = 1
  · rw [if_pos hl] at h
    obtain ⟨ks, hk, h⟩ := bind_ok h
    have := pure_ok h
    subst this
    refine ⟨layerQubits_succ .., ?_⟩
    have hf := (mapM_forall₂ hk).imp fun x y hxy => repKron_gathers ho hl hxy
    exact ((Gathers.forall₂ hf).comp _ _).comp _ _
  · rw [if_neg hl] at h
    obtain ⟨ws, hk, h⟩ := bind_ok h
    have := pure_ok h
    subst this
    clear h
    refine ⟨layerQubits_succ .., Gathers.comp ?_ _ _⟩
    have hf := mapM_forall₂ hk
    rw [layerPrims]
    clear hk
    revert hf
    generalize List.range reps.toNat = rs
    clear * - ho hl
    intro hf
    induction hf with
    | nil => exact .nil
    | @cons rep ws rs wss hw _ ih =>
      rw [List.flatten_cons, List.flatMap_cons]
      refine Gathers.append ?_ ih
      rw [pairs_even a.n l rep (by omega)] at hw
      obtain ⟨ws', hw', hf⟩ := cells_ok ho a l rep (decide ((rep : ℤ) = reps - 1)) false _ 0 (starts_pairs a.n l rep)
        fun hne => cells_plain hw hne
      rw [hw'] at hw
      cases hw
      exact Gathers.forall₂ hf

theorem starts_ne_nil (n l rep : ℕ) : starts n l rep ≠ [] ↔
    if (l = 0 ∨ l = 1) ∧ rep % 2 = 1 then 4 ≤ n / 2 ^ l else 2 ≤ n / 2 ^ l := by
  unfold starts
  split
  · simp only [ne_eq, List.map_eq_nil_iff, List.range_eq_nil]; generalize n / 2 ^ l = m; omega
  · simp only [ne_eq, List.map_eq_nil_iff, List.range_eq_nil]; generalize n / 2 ^ l = m; omega

/-- A layer with at least two qubits is accepted iff every repetition of the first two layers has a cell. -/
theorem convLayer_iff (ho : SetOrder ord) (a : Args) {l : ℕ} (h2 : 2 ≤ a.n / 2 ^ l) {reps : ℤ} (hr : 0 < reps) :
    (∃ r, convLayer ord a l reps (layerQubits a.n l) = .ok r) ↔
      Plain a.ent ∧ ((l = 0 ∨ l = 1) → 2 ≤ reps → 4 ≤ a.n / 2 ^ l) := by
  unfold convLayer
  dsimp only
  by_cases hl : l = 0 ∨ l = 1
  · rw [if_pos hl]
    constructor
    · rintro ⟨r, h⟩
      obtain ⟨ks, hk, h⟩ := bind_ok h
      have hall : ∀ rep < reps.toNat, Plain a.ent ∧ starts a.n l rep ≠ [] := fun rep hrep => by
        obtain ⟨b, hb⟩ : ∃ b, repKron ord a l reps (layerQubits a.n l) rep = .ok b := by
          have hf := mapM_forall₂ hk
          obtain ⟨b, -, hb⟩ := forall₂_mem hf.flip rep (List.mem_range.2 hrep)
          exact ⟨b, hb⟩
        exact (repKron_iff ho a hl reps rep).1 ⟨b, hb⟩
      refine ⟨(hall 0 (by omega)).1, fun _ h2r => ?_⟩
      have := (starts_ne_nil ..).1 (hall 1 (by omega)).2
      rwa [if_pos ⟨hl, by norm_num⟩] at this
    · rintro ⟨he, h4⟩
      have hall : ∀ rep ∈ List.range reps.toNat, ∃ b, repKron ord a l reps (layerQubits a.n l) rep = .ok b := by
        intro rep hrep
        have hrep := List.mem_range.1 hrep
        refine (repKron_iff ho a hl reps rep).2 ⟨he, (starts_ne_nil ..).2 ?_⟩
        split
        · next h => exact h4 hl (by omega)
        · exact h2
      obtain ⟨ks, hk⟩ := mapM_ok_of_forall hall
      rw [hk, ok_bind]
      exact ⟨_, rfl⟩
  · rw [if_neg hl]
    constructor
    · rintro ⟨r, h⟩
      obtain ⟨ws, hk, h⟩ := bind_ok h
      refine ⟨?_, fun h => absurd h hl⟩
      obtain ⟨b, -, hb⟩ := forall₂_mem (mapM_forall₂ hk).flip 0 (List.mem_range.2 (by omega))
      rw [pairs_even a.n l 0 (by omega)] at hb
      refine cells_plain hb ?_
      have := (starts_ne_nil a.n l 0).2 (by rw [if_neg (by omega)]; exact h2)
      simpa using this
    · rintro ⟨he, -⟩
      have hall : ∀ rep ∈ List.range reps.toNat, ∃ b, cells ord a l rep (decide ((rep : ℤ) = reps - 1)) false
          (evenPairs (layerQubits a.n l)) 0 = .ok b := by
        intro rep _
        rw [pairs_even a.n l rep (by omega)]
        obtain ⟨ws, h, -⟩ := cells_ok ho a l rep (decide ((rep : ℤ) = reps - 1)) false _ 0 (starts_pairs a.n l rep) fun _ => he
        exact ⟨ws, h⟩
      obtain ⟨ks, hk⟩ := mapM_ok_of_forall hall
      rw [hk, ok_bind]
      exact ⟨_, rfl⟩

/-- The layers from `l` on are accepted iff each has two qubits, the entangler takes two qubits only, and with several
repetitions in one of the first two layers there are at least four qubits. -/
theorem convLayers_iff (ho : SetOrder ord) (a : Args) (l : ℕ) (ds : List ℤ) (hd : ∀ d ∈ ds, 0 < d) :
    (∃ ls, convLayers ord a l ds (layerQubits a.n l) = .ok ls) ↔ ∀ i (hi : i < ds.length), Plain a.ent ∧
      2 ≤ a.n / 2 ^ (l + i) ∧ ((l + i = 0 ∨ l + i = 1) → 2 ≤ ds[i] → 4 ≤ a.n / 2 ^ (l + i)) := by
  induction ds generalizing l with
  | nil => simp [convLayers]
  | cons d ds ih =>
    have hd0 : 0 < d := hd d (by simp)
    have ih := ih (l + 1) fun e he => hd e (by simp [he])
    have hlen : (layerQubits a.n l).length = a.n / 2 ^ l := by simp [layerQubits]
    rw [convLayers, if_neg hd0.ne', hlen]
    by_cases h2 : a.n / 2 ^ l < 2
    · rw [if_pos h2]
      constructor
      · rintro ⟨ls, h⟩; cases h
      · intro h
        have := (h 0 (by simp)).2.1
        rw [Nat.add_zero] at this
        omega
    · rw [if_neg h2]
      constructor
      · rintro ⟨ls, h⟩
        obtain ⟨r, hr, h⟩ := bind_ok h
        obtain ⟨rest, hrest, -⟩ := bind_ok h
        rw [(convLayer_spec ho hr).1] at hrest
        have h0 := (convLayer_iff ho a (by omega) hd0).1 ⟨r, hr⟩
        have h1 := ih.1 ⟨rest, hrest⟩
        intro i hi
        cases i with
        | zero => exact ⟨h0.1, by rw [Nat.add_zero]; omega, h0.2⟩
        | succ i =>
          have := h1 i (by simpa using hi)
          rw [show l + (i + 1) = l + 1 + i by omega]
          exact this
      · intro h
        have h0 := h 0 (by simp)
        obtain ⟨r, hr⟩ := (convLayer_iff ho a (l := l) (by omega) hd0).2 ⟨h0.1, h0.2.2⟩
        obtain ⟨rest, hrest⟩ := ih.2 fun i hi => by
          have := h (i + 1) (by simpa using hi)
          rw [show l + (i + 1) = l + 1 + i by omega] at this
          exact this
        rw [hr, ok_bind, (convLayer_spec ho hr).1, hrest, ok_bind]
        exact ⟨_, rfl⟩

/-- The number of layers, and the primitive blocks of each. -/
theorem convLayers_spec (ho : SetOrder ord) {a : Args} {l : ℕ} {ds : List ℤ} {ls : List (Block Prim)}
    (h : convLayers ord a l ds (layerQubits a.n l) = .ok ls) :
    List.Forall₂ (fun x b => Gathers [b] (layerPrims a x.2 x.1)) (ds.zipIdx l) ls := by
  induction ds generalizing l ls with
  | nil => cases h; exact .nil
  | cons d ds ih =>
    rw [convLayers] at h
    split at h
    · cases h
    split at h
    · cases h
    obtain ⟨r, hr, h⟩ := bind_ok h
    obtain ⟨rest, hrest, h⟩ := bind_ok h
    have := pure_ok h
    subst this
    have hs := convLayer_spec ho hr
    rw [hs.1] at hrest
    exact .cons hs.2 (ih hrest)

/-! ## What holds of the circuit -/

/-- C86, acceptance: for positive depths and a feature map which can be built, the circuit is built exactly for an even number
of qubits from four on, odd depths, an entangler without parameter, at least two qubits in every layer, and at least eight
qubits if the second layer is repeated. -/
theorem C86_accepts (ho : SetOrder ord) (pi : ℚ) (t : FeatureMap.FmType) (op : Option RotGate) (k : ℕ) (a : Args)
    (depth : List ℤ) (hd : ∀ d ∈ depth, 0 < d) (hfm : ∃ fm, featureMaps pi ord t op a.n k = .ok fm) :
    (∃ r, circuit pi ord t op k a depth = .ok r) ↔ 4 ≤ a.n ∧ a.n % 2 = 0 ∧ (∀ d ∈ depth, d % 2 = 1) ∧
      (depth ≠ [] → Plain a.ent) ∧ (∀ i < depth.length, 2 ^ (i + 1) ≤ a.n) ∧ (∀ d, depth[1]? = some d → d ≠ 1 → 8 ≤ a.n) := by
  obtain ⟨fm, hfm⟩ := hfm
  unfold circuit
  by_cases h4 : a.n < 4
  · rw [if_pos h4]
    constructor
    · rintro ⟨r, h⟩; cases h
    · rintro ⟨h, -⟩; omega
  rw [if_neg h4]
  by_cases he : a.n % 2 ≠ 0
  · rw [if_pos he]
    constructor
    · rintro ⟨r, h⟩; cases h
    · rintro ⟨-, h, -⟩; exact absurd h he
  rw [if_neg he]
  by_cases ho' : depth.any (fun d => d % 2 == 0) = true
  · rw [if_pos ho']
    constructor
    · rintro ⟨r, h⟩; cases h
    · rintro ⟨-, -, h, -⟩
      obtain ⟨d, hd', hd2⟩ := List.any_eq_true.1 ho'
      have := h d hd'
      simp only [beq_iff_eq] at hd2
      omega
  rw [if_neg ho']
  have hodd : ∀ d ∈ depth, d % 2 = 1 := by
    intro d hd'
    by_contra hne
    exact ho' (List.any_eq_true.2 ⟨d, hd', by simp only [beq_iff_eq]; omega⟩)
  rw [hfm, ok_bind]
  have key := convLayers_iff ho a 0 depth hd
  rw [layerQubits_zero] at key
  have hiff : (∃ r, (do let ls ← convLayers ord a 0 depth (List.range a.n); pure (fm, chainOf ls) :
      Except PyErr (Block Prim × Block Prim)) = .ok r) ↔ ∃ ls, convLayers ord a 0 depth (List.range a.n) = .ok ls := by
    constructor
    · rintro ⟨r, h⟩; obtain ⟨ls, h, -⟩ := bind_ok h; exact ⟨ls, h⟩
    · rintro ⟨ls, h⟩; rw [h, ok_bind]; exact ⟨_, rfl⟩
  rw [hiff, key]
  have hpow : ∀ i, 2 ≤ a.n / 2 ^ (0 + i) ↔ 2 ^ (i + 1) ≤ a.n := fun i => by
    rw [Nat.zero_add, Nat.le_div_iff_mul_le (by positivity), Nat.pow_succ, Nat.mul_comm]
  constructor
  · intro h
    refine ⟨by omega, by omega, hodd, fun hne => (h 0 (List.length_pos_iff.2 hne)).1, fun i hi => (hpow i).1 (h i hi).2.1, ?_⟩
    intro d hd1 hne
    obtain ⟨hi, rfl⟩ := List.getElem?_eq_some_iff.1 hd1
    have := (h 1 hi).2.2 (.inr rfl) (by have := hd _ (List.getElem_mem hi); omega)
    simp only [Nat.zero_add, pow_one] at this
    omega
  · rintro ⟨-, -, -, hp, h2, h8⟩ i hi
    refine ⟨hp (List.length_pos_iff.1 (by omega)), (hpow i).2 (h2 i hi), fun h01 hr => ?_⟩
    rcases h01 with h01 | h01
    · have : i = 0 := by omega
      subst this
      simp only [Nat.zero_add, pow_zero, Nat.div_one]
      omega
    · have : i = 1 := by omega
      subst this
      have := h8 _ (List.getElem?_eq_getElem hi) (by omega)
      simp only [Nat.zero_add, pow_one]
      omega

/-- C86, what the ansatz consists of: one layer for every depth, in order. -/
theorem C86_layers (ho : SetOrder ord) {pi : ℚ} {t : FeatureMap.FmType} {op : Option RotGate} {k : ℕ} {a : Args}
    {depth : List ℤ} {r : Block Prim × Block Prim} (h : circuit pi ord t op k a depth = .ok r) :
    ∃ ls, r.2 = chainOf ls ∧ ls.length = depth.length ∧
      List.Forall₂ (fun x b => Gathers [b] (layerPrims a x.2 x.1)) depth.zipIdx ls := by
  unfold circuit at h
  split at h
  · cases h
  split at h
  · cases h
  split at h
  · cases h
  obtain ⟨fm, -, h⟩ := bind_ok h
  obtain ⟨ls, hl, h⟩ := bind_ok h
  have := pure_ok h
  subst this
  rw [← layerQubits_zero] at hl
  have hf := convLayers_spec ho hl
  exact ⟨ls, rfl, by rw [← hf.length_eq, List.length_zipIdx], hf⟩

/-- The operator of a block acts on a set of qubits if those of its primitive blocks do. -/
theorem sem_actsOn_of_gathers {m : ℕ} (S : LeafSem Prim m) (ρ : Env) {T : Set ℕ} (b : Block Prim)
    (h : ∀ p ∈ leaves b, ActsOn T (S.den p)) : ActsOn T (sem S ρ b) := by
  unfold leaves at h
  induction b using Block.induction with
  | leaf l t => rw [sem_leaf]; exact h l (by rw [gather]; simp)
  | scale b s t ih => rw [sem_scale]; exact (ih fun p hp => h p (by rw [gather]; simpa using hp)).smul _
  | comp c bs t ih =>
    have hall : ∀ A ∈ bs.map (sem S ρ), ActsOn T A := by
      intro A hA
      obtain ⟨b, hb, rfl⟩ := List.mem_map.1 hA
      exact ih b hb fun p hp => h p (by rw [gather_comp]; exact List.mem_flatMap.2 ⟨b, hb, hp⟩)
    cases c
    · rw [sem_chain]; exact ActsOn.opProd hall
    · rw [sem_kron]; exact ActsOn.opProd hall
    · rw [sem_add]; exact ActsOn.listSum hall

theorem layerPrims_inCell {a : Args} {l : ℕ} {reps : ℤ} {p : Prim} (hp : p ∈ layerPrims a l reps) :
    ∃ s pads, s + 1 < a.n / 2 ^ l ∧ InCell pads (pairAt l s).1 (pairAt l s).2 p := by
  obtain ⟨rep, -, hp⟩ := List.mem_flatMap.1 hp
  obtain ⟨x, hx, hp⟩ := List.mem_flatMap.1 hp
  have hx' : x.1 ∈ (starts a.n l rep).map (pairAt l) := by
    rw [← numbered_fst (cellParams a.ops) ((starts a.n l rep).map (pairAt l)) 0]; exact List.mem_map_of_mem hx
  obtain ⟨s, hs, he⟩ := List.mem_map.1 hx'
  refine ⟨s, padQubits x.1.1 x.1.2 l a.n, (starts_spec a.n l rep).1 s hs, ?_⟩
  rw [he]
  exact cellPrims_inCell hp

/-- C86, pooling: the operator of layer `i` acts only on every `2 ^ i`-th qubit (counted from the end of the groups); the
padding identities do nothing. -/
theorem C86_layer_acts (ho : SetOrder ord) {pi : ℚ} {t : FeatureMap.FmType} {op : Option RotGate} {k : ℕ} {a : Args}
    {depth : List ℤ} {r : Block Prim × Block Prim} (h : circuit pi ord t op k a depth = .ok r) (m : ℕ) (ρ : Env) :
    ∃ ls, r.2 = chainOf ls ∧ ls.length = depth.length ∧ ∀ i (hi : i < ls.length),
      ActsOn {q | 2 ^ i ∣ q + 1 ∧ q < a.n} (sem (primSem m ρ ord ho) ρ ls[i]) := by
  obtain ⟨ls, h1, h2, hf⟩ := C86_layers ho h
  refine ⟨ls, h1, h2, fun i hi => ?_⟩
  have hg := (List.forall₂_iff_get.1 hf).2 i (by simpa using h2 ▸ hi) hi
  simp only [List.get_eq_getElem, List.getElem_zipIdx, Nat.zero_add] at hg
  refine sem_actsOn_of_gathers _ ρ _ fun p hp => ?_
  have hp' : p ∈ layerPrims a i (depth[i]'(h2 ▸ hi)) := by
    have := hg Prim (fun l => [l]) (fun _ => [])
    rw [List.flatMap_singleton] at this
    rw [leaves, this] at hp
    simpa using hp
  obtain ⟨s, pads, hs, hc⟩ := layerPrims_inCell hp'
  have hpos : 0 < 2 ^ i := by positivity
  have hmem : ∀ u, u < a.n / 2 ^ i → (u + 1) * 2 ^ i - 1 ∈ ({q | 2 ^ i ∣ q + 1 ∧ q < a.n} : Set ℕ) := by
    intro u hu
    have hx : 0 < (u + 1) * 2 ^ i := by positivity
    have hle : (u + 1) * 2 ^ i ≤ a.n := (Nat.le_div_iff_mul_le hpos).1 hu
    refine ⟨⟨u + 1, ?_⟩, by omega⟩
    rw [Nat.sub_add_cancel hx, Nat.mul_comm]
  rcases hc with ⟨q, -, rfl⟩ | ⟨g, rfl, hg'⟩
  · have : (primSem m ρ ord ho).den (.gate (.fixed .I q) none) = 1 := by
      show primDen ρ (.gate (.fixed .I q) none) = 1
      rw [primDen, gateDen, mat1_I]
    rw [this]; exact ActsOn.one _
  · refine (gateDen_actsOn ρ g).mono ?_
    intro z hz
    rcases hg' z hz with hz | hz
    · rw [hz]; exact hmem s (by omega)
    · rw [hz]; exact hmem (s + 1) hs

/-- C86, pooling: from layer `i` on, the circuit commutes with everything done to qubits which do not belong to the layer; so
they may be measured (or traced out) before layer `i`. -/
theorem C86_deferred (ho : SetOrder ord) {pi : ℚ} {t : FeatureMap.FmType} {op : Option RotGate} {k : ℕ} {a : Args}
    {depth : List ℤ} {r : Block Prim × Block Prim} (h : circuit pi ord t op k a depth = .ok r) (m : ℕ) (ρ : Env) (i : ℕ)
    (M : Oper m) (T : Set ℕ) (hM : ActsOn T M) (hT : ∀ q ∈ T, ¬2 ^ i ∣ q + 1) :
    ∃ ls, r.2 = chainOf ls ∧ ls.length = depth.length ∧
      Commute (opProd ((ls.drop i).map (sem (primSem m ρ ord ho) ρ))) M := by
  obtain ⟨ls, h1, h2, hf⟩ := C86_layer_acts ho h m ρ
  refine ⟨ls, h1, h2, ?_⟩
  refine ActsOn.commute_of_disjoint (S := {q | 2 ^ i ∣ q + 1}) (ActsOn.opProd ?_) hM (Set.disjoint_left.2 fun q hq hq' => hT q hq' hq)
  intro A hA
  obtain ⟨b, hb, rfl⟩ := List.mem_map.1 hA
  obtain ⟨j, hj, rfl⟩ := List.getElem_of_mem hb
  rw [List.getElem_drop]
  refine (hf (i + j) (by rw [List.length_drop] at hj; omega)).mono fun q hq => ?_
  exact (pow_dvd_pow 2 (by omega)).trans hq.1

end Qadence.QCNN
