import Mathlib.Tactic
import Verif.Model.Ansatz
import Verif.Spec.Params
import Verif.Proofs.BlockSem
import Verif.Proofs.Except

/-!
# The gates of the ansätze
-/

namespace Qadence.Ansatz

open Spec Block

variable {ord : List ℕ → List ℕ} {α : Type}

/-- `mapM` followed by gathering. -/
theorem flatMap_mapM {β : Type} {γ : Type} {f : β → Except PyErr γ} {g : γ → List α} {h : β → List α} {l : List β}
    {m : List γ} (hm : l.mapM f = .ok m) (hf : ∀ a ∈ l, ∀ b, f a = .ok b → g b = h a) :
    m.flatMap g = l.flatMap h := by
  induction l generalizing m with
  | nil =>
    have : [] = m := by rw [List.mapM_nil] at hm; exact pure_ok hm
    subst this; simp
  | cons a l ih =>
    rw [List.mapM_cons] at hm
    obtain ⟨b, hb, hm⟩ := bind_ok hm
    obtain ⟨bs, hl, hm⟩ := bind_ok hm
    have := pure_ok hm
    subst this
    rw [List.flatMap_cons, List.flatMap_cons, hf a (by simp) b hb, ih hl fun c hc => hf c (by simp [hc])]

theorem kronOf_blocks {bs : List (Block Prim)} {b : Block Prim} (ho : SetOrder ord)
    (h : kronOf (Prim.supp ord) ord bs = .ok b) :
    b = .comp .kron bs none ∧ bs.Pairwise fun a b => Disjoint (qubits (Prim.supp ord) a) (qubits (Prim.supp ord) b) := by
  rw [kronOf_ok_iff _ _ ho] at h
  exact ⟨h.1, h.2.2⟩

/-- A kron of rotations contains the rotations on the qubits of the support, numbered consecutively. -/
theorem rotKron_gather (ho : SetOrder ord) {pre : String} {support : List ℕ} {n : ℕ} {g : RotGate} {c : ℕ}
    {b : Block Prim} (h : rotKron ord pre support n g c = .ok b) (f : Prim → List α) (s : Expr → List α) :
    gather f s b = (List.range n).flatMap fun i =>
      f (.gate (.rot g (support.getD i 0) (.var (pre ++ "_" ++ toString (c + i)))) none) := by
  unfold rotKron at h
  obtain ⟨bs, hbs, h⟩ := bind_ok h
  obtain ⟨rfl, -⟩ := kronOf_blocks ho h
  rw [gather_comp]
  refine flatMap_mapM hbs fun i hi b hb => ?_
  obtain ⟨q, hq, hb⟩ := bind_ok hb
  have := pure_ok hb
  subst this
  rw [gateBlock, gather]
  unfold item at hq
  split at hq
  · next hs =>
    cases hq
    rw [List.getD_eq_getElem?_getD, hs, Option.getD_some]
  · cases hq

/-- The entangling gate between two qubits. -/
def entGate (e : Entangler) (c t : ℕ) (name : String) : Gate :=
  match e with
  | .CNOT => .cnot c t
  | .CZ => .cz c t
  | .CRX => .crx c t (.var name)
  | .CRY => .cry c t (.var name)
  | .CRZ => .crz c t (.var name)
  | .CPHASE => .cphase c t (.var name)
  | .other => .cnot c t

theorem entanglerBlock_ok {e : Entangler} {c t : ℕ} {name : String} {b : Block Prim} :
    entanglerBlock e c t name = .ok b ↔ e ≠ .other ∧ b = gateBlock (entGate e c t name) := by
  cases e <;> simp [entanglerBlock, entGate, eq_comm]

theorem entKron_gather (ho : SetOrder ord) {pre : String} {support : List ℕ} {e : Entangler} {ps : List (ℕ × ℕ)} {c : ℕ}
    {b : Block Prim} (h : entKron ord pre support e ps c = .ok b) (f : Prim → List α) (s : Expr → List α) :
    gather f s b = (ps.zipIdx c).flatMap fun p =>
      f (.gate (entGate e (support.getD p.1.1 0) (support.getD p.1.2 0) (pre ++ "_ent_" ++ toString p.2)) none) := by
  unfold entKron at h
  obtain ⟨bs, hbs, h⟩ := bind_ok h
  obtain ⟨rfl, -⟩ := kronOf_blocks ho h
  rw [gather_comp]
  refine flatMap_mapM hbs fun i hi b hb => ?_
  obtain ⟨q, hq, hb⟩ := bind_ok hb
  obtain ⟨q', hq', hb⟩ := bind_ok hb
  obtain ⟨-, rfl⟩ := entanglerBlock_ok.1 hb
  rw [gateBlock, gather]
  unfold item at hq hq'
  split at hq
  · next hs =>
    split at hq'
    · next hs' =>
      cases hq
      cases hq'
      rw [List.getD_eq_getElem?_getD, hs, Option.getD_some, List.getD_eq_getElem?_getD, hs', Option.getD_some]
    · cases hq'
  · cases hq

theorem interleave_perm (as bs : List (Block Prim)) (h : as.length = bs.length) : (interleave as bs).Perm (as ++ bs) := by
  induction as generalizing bs with
  | nil =>
    cases bs with
    | nil => simp [interleave]
    | cons b bs => simp at h
  | cons a as ih =>
    cases bs with
    | nil => simp at h
    | cons b bs =>
      rw [interleave, List.cons_append]
      refine List.Perm.cons a ?_
      refine (List.Perm.cons b (ih bs (by simpa using h))).trans ?_
      exact List.perm_middle.symm

theorem rotationsDigital_length {pre : String} {support : List ℕ} {n : ℕ} {ops : List RotGate} {d c : ℕ}
    {bs : List (Block Prim)} (h : rotationsDigital ord pre support n ops d c = .ok bs) : bs.length = d := by
  induction d generalizing c bs with
  | zero => cases h; rfl
  | succ d ih =>
    rw [rotationsDigital] at h
    obtain ⟨ks, -, h⟩ := bind_ok h
    obtain ⟨rest, hr, h⟩ := bind_ok h
    have := pure_ok h
    subst this
    simp [ih hr]

theorem entanglersDigital_length {pre : String} {support : List ℕ} {n : ℕ} {p : Bool} {e : Entangler} {d c : ℕ}
    {bs : List (Block Prim)} (h : entanglersDigital ord pre support n p e d c = .ok bs) : bs.length = d := by
  induction d generalizing c bs with
  | zero => cases h; rfl
  | succ d ih =>
    rw [entanglersDigital] at h
    obtain ⟨ks, -, h⟩ := bind_ok h
    obtain ⟨rest, hr, h⟩ := bind_ok h
    have := pure_ok h
    subst this
    simp [ih hr]

theorem entanglersAla_length {pre : String} {support : List ℕ} {n m : ℕ} {e : Entangler} {r d c : ℕ}
    {bs : List (Block Prim)} (h : entanglersAla ord pre support n m e r d c = .ok bs) : bs.length = r := by
  induction r generalizing c d bs with
  | zero => cases h; rfl
  | succ r ih =>
    rw [entanglersAla] at h
    obtain ⟨ks, -, h⟩ := bind_ok h
    obtain ⟨rest, hr, h⟩ := bind_ok h
    have := pure_ok h
    subst this
    simp [ih hr]

end Qadence.Ansatz
