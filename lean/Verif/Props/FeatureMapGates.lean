import Verif.Props.FeatureMap

/-!
# Feature maps: gates and angles (C46)
-/

namespace Qadence.FeatureMap

open Spec Block

variable {ord : List ℕ → List ℕ}

/-- What the basis of a feature map does to the scaled feature. -/
def Transforms (ρ : Env) (F : ℂ → ℂ) : FmType → Prop
  | .fourier => F = id
  | .chebyshev => F = ρ.fn "acos"
  | .custom f => ∀ e, eval ρ (f e) = F (eval ρ e)
  | .other => False

/-- The factor of the gate number `i`. -/
def Weights (c : ℕ → ℚ) : Reupload → Prop
  | .constant => ∀ i, c i = 1
  | .tower => ∀ i, c i = i + 1
  | .exp => ∀ i, c i = 2 ^ i
  | .custom f => c = f
  | .other => False

/-- The rotations of a feature map: `op` on qubit number `i` of the support by `m * c i * F (w i * y)`. -/
noncomputable def encoding {N : ℕ} (op : RotGate) (m : ℂ) (c : ℕ → ℚ) (F : ℂ → ℂ) (w : ℕ → ℂ) (y : ℂ) (support : List ℕ) :
    Oper N :=
  opProd (support.zipIdx.map fun q : ℕ × ℕ => embed1 q.1 (matRot (m * (c q.2 : ℝ) * F (w q.2 * y)) op))

/-- The trainable factor of the gate number `i`. -/
def prefixWeight (ρ : Env) (pre : Option String) (i : ℕ) : ℂ :=
  match pre with
  | some p => ρ.var (p ++ "_" ++ toString i)
  | none => 1

theorem gates_eq (op : RotGate) (mult : Expr) (rs : ℕ → ℚ) (tf : Expr → Expr) (scaled : Expr) (pre : Option String) (i : ℕ)
    (qs : List ℕ) :
    gates op mult rs tf scaled pre i qs = (qs.zipIdx i).map fun q : ℕ × ℕ =>
      Block.leaf (.gate (.rot op q.1 (.mul (.mul mult (.num (rs q.2) 0)) (tf (gateParam scaled pre q.2)))) none) none := by
  induction qs generalizing i with
  | nil => rfl
  | cons q qs ih => rw [gates, List.zipIdx_cons, List.map_cons, ih]

theorem gates_qubits (op : RotGate) (mult : Expr) (rs : ℕ → ℚ) (tf : Expr → Expr) (scaled : Expr) (pre : Option String)
    (i : ℕ) (qs : List ℕ) :
    (gates op mult rs tf scaled pre i qs).map (qubits (Prim.supp ord)) = qs.map fun q => {q} := by
  induction qs generalizing i with
  | nil => rfl
  | cons q qs ih =>
    rw [gates, List.map_cons, List.map_cons, ih, qubits_leaf]
    congr 1
    ext x; simp [Prim.supp, Gate.supp]

theorem gates_disjoint (op : RotGate) (mult : Expr) (rs : ℕ → ℚ) (tf : Expr → Expr) (scaled : Expr) (pre : Option String)
    (i : ℕ) (qs : List ℕ) :
    (gates op mult rs tf scaled pre i qs).Pairwise (fun a b => Disjoint (qubits (Prim.supp ord) a) (qubits (Prim.supp ord) b)) ↔
      qs.Nodup := by
  have := List.pairwise_map (l := gates op mult rs tf scaled pre i qs) (f := qubits (Prim.supp ord)) (R := Disjoint)
  rw [← this, gates_qubits, List.pairwise_map]
  simp [List.Nodup]

theorem gates_length (op : RotGate) (mult : Expr) (rs : ℕ → ℚ) (tf : Expr → Expr) (scaled : Expr) (pre : Option String)
    (i : ℕ) (qs : List ℕ) : (gates op mult rs tf scaled pre i qs).length = qs.length := by
  rw [gates_eq, List.length_map, List.length_zipIdx]

/-- The tests of `feature_map`. -/
structure Accepts (pi : ℚ) (n : ℕ) (a : Args) : Prop where
  op : a.op ≠ none
  pos : 0 < n
  support : ∀ s, a.support = some s → s.length = n ∧ s.Nodup
  range : (a.featureRange.getD (setRange pi a.fmType)).1 ≠ (a.featureRange.getD (setRange pi a.fmType)).2
  fmType : a.fmType ≠ .other
  reupload : a.reupload ≠ .other

theorem featureMap_spec (ho : SetOrder ord) (pi : ℚ) (n : ℕ) (a : Args) (b : Block Prim) :
    featureMap pi ord n a = .ok b ↔ ∃ sup op scaled tf rs, sup = a.support.getD (List.range n) ∧ sup.length = n ∧ sup.Nodup ∧
      0 < n ∧ a.op = some op ∧
      scaling pi a.fmType a.param a.featureRange a.targetRange = .ok scaled ∧ paramFunc a.fmType = .ok tf ∧
      reuploadFn a.reupload = .ok rs ∧
      b = .comp .kron (gates op (a.multiplier.getD (.num 1 0)) rs.1 tf scaled a.paramPrefix 0 sup)
        (some (rs.2 ++ " " ++ basisTag a.fmType ++ " FM")) := by
  have key : ∀ sup : List ℕ, sup.length = n → (featureMapOn pi ord a sup = Except.ok b ↔ ∃ op scaled tf rs, sup.Nodup ∧
      0 < n ∧ a.op = some op ∧
      scaling pi a.fmType a.param a.featureRange a.targetRange = .ok scaled ∧ paramFunc a.fmType = .ok tf ∧
      reuploadFn a.reupload = .ok rs ∧
      b = .comp .kron (gates op (a.multiplier.getD (.num 1 0)) rs.1 tf scaled a.paramPrefix 0 sup)
        (some (rs.2 ++ " " ++ basisTag a.fmType ++ " FM"))) := by
    intro sup hl
    rw [featureMapOn]
    cases hop : a.op with
    | none => simp
    | some op =>
      simp only
      constructor
      · intro h
        obtain ⟨scaled, h1, h⟩ := bind_ok h
        obtain ⟨tf, h2, h⟩ := bind_ok h
        obtain ⟨rs, h3, h⟩ := bind_ok h
        obtain ⟨fm, h4, h⟩ := bind_ok h
        obtain ⟨rfl, h5, h6⟩ := (kronOf_ok_iff _ _ ho _ _).1 h4
        refine ⟨op, scaled, tf, rs, (gates_disjoint ..).1 h6, ?_, rfl, h1, h2, h3, (pure_ok h).symm⟩
        rw [← hl, ← gates_length op (a.multiplier.getD (.num 1 0)) rs.1 tf scaled a.paramPrefix 0 sup]
        exact List.length_pos_iff.2 h5
      · rintro ⟨op', scaled, tf, rs, hn, hp, ho', h1, h2, h3, rfl⟩
        injection ho' with ho'
        subst ho'
        rw [h1, ok_bind, h2, ok_bind, h3, ok_bind]
        have h4 : kronOf (Prim.supp ord) ord (gates op (a.multiplier.getD (.num 1 0)) rs.1 tf scaled a.paramPrefix 0 sup) =
            .ok (.comp .kron (gates op (a.multiplier.getD (.num 1 0)) rs.1 tf scaled a.paramPrefix 0 sup) none) := by
          refine (kronOf_ok_iff _ _ ho _ _).2 ⟨rfl, ?_, (gates_disjoint ..).2 hn⟩
          rw [← List.length_pos_iff, gates_length]; omega
        rw [h4, ok_bind]
        rfl
  rw [featureMap]
  cases hs : a.support with
  | none =>
    simp only [Option.getD_none]
    rw [key _ (by simp)]
    constructor
    · rintro ⟨op, scaled, tf, rs, h⟩; exact ⟨_, op, scaled, tf, rs, rfl, by simp, h⟩
    · rintro ⟨_, op, scaled, tf, rs, rfl, _, h⟩; exact ⟨op, scaled, tf, rs, h⟩
  | some s =>
    by_cases hl : s.length ≠ n
    · simp only [if_pos hl, Option.getD_some]
      constructor
      · intro h; cases h
      · rintro ⟨_, op, scaled, tf, rs, rfl, h, _⟩; exact absurd h hl
    · simp only [if_neg hl, Option.getD_some]
      rw [key _ (by simpa using hl)]
      constructor
      · rintro ⟨op, scaled, tf, rs, h⟩; exact ⟨_, op, scaled, tf, rs, rfl, by simpa using hl, h⟩
      · rintro ⟨_, op, scaled, tf, rs, rfl, _, h⟩; exact ⟨op, scaled, tf, rs, h⟩

/-- C46, feature maps: accepted are exactly a rotation, a positive number of qubits, a support of that many different qubits, a
feature range with a length, and known bases and reupload scalings. -/
theorem C46_feature_map_accepts (ho : SetOrder ord) (pi : ℚ) (n : ℕ) (a : Args) :
    (∃ b, featureMap pi ord n a = .ok b) ↔ Accepts pi n a := by
  constructor
  · rintro ⟨b, hb⟩
    obtain ⟨sup, op, scaled, tf, rs, rfl, hl, hn, hp, h1, h2, h3, h4, _⟩ := (featureMap_spec ho _ _ _ _).1 hb
    refine ⟨by simp [h1], hp, fun s hs => ?_, ?_, ?_, ?_⟩
    · rw [hs] at hl hn; exact ⟨hl, hn⟩
    · intro hr
      have := (C46_scaling_degenerate pi a.fmType a.param _ (a.targetRange.getD (setRange pi a.fmType))).1 hr
      have h : scaling pi a.fmType a.param a.featureRange a.targetRange = _ := this
      rw [h] at h2; cases h2
    · intro h; rw [h] at h3; cases h3
    · intro h; rw [h] at h4; cases h4
  · intro h
    obtain ⟨op, h1⟩ := Option.ne_none_iff_exists'.1 h.op
    obtain ⟨e, h2⟩ := (C46_scaling_degenerate pi a.fmType a.param _ (a.targetRange.getD (setRange pi a.fmType))).2 h.range
    have h3 : ∃ tf, paramFunc a.fmType = .ok tf := by
      have := h.fmType
      cases ht : a.fmType with
      | other => exact absurd ht this
      | _ => exact ⟨_, rfl⟩
    have h4 : ∃ rs, reuploadFn a.reupload = .ok rs := by
      have := h.reupload
      cases ht : a.reupload with
      | other => exact absurd ht this
      | _ => exact ⟨_, rfl⟩
    obtain ⟨tf, h3⟩ := h3
    obtain ⟨rs, h4⟩ := h4
    refine ⟨_, (featureMap_spec ho _ _ _ _).2 ⟨_, op, e, tf, rs, rfl, ?_, ?_, h.pos, h1, h2, h3, h4, rfl⟩⟩
    · cases hs : a.support with
      | none => simp
      | some s => exact (h.support s hs).1
    · cases hs : a.support with
      | none => exact List.nodup_range
      | some s => exact (h.support s hs).2

/-- C46, feature maps: the operator is one rotation per qubit of the support; the rotation number `i` has the angle
`multiplier * c i * F (w i * y)`, where `y` is the scaled feature, `F` the basis and `c` the reupload scaling. -/
theorem C46_feature_map_operator (ho : SetOrder ord) {pi : ℚ} {n : ℕ} {a : Args} {b : Block Prim}
    (h : featureMap pi ord n a = .ok b) (N : ℕ) (ρ : Env) {F : ℂ → ℂ} (hF : Transforms ρ F a.fmType) {c : ℕ → ℚ}
    (hc : Weights c a.reupload) :
    ∃ op scaled, a.op = some op ∧ scaling pi a.fmType a.param a.featureRange a.targetRange = .ok scaled ∧
      (sem (primSem N ρ ord ho) ρ b : Oper N) = encoding op ((a.multiplier.map (eval ρ)).getD 1) c F (prefixWeight ρ a.paramPrefix)
        (eval ρ scaled) (a.support.getD (List.range n)) := by
  obtain ⟨sup, op, scaled, tf, rs, rfl, hl, hn, hp, h1, h2, h3, h4, rfl⟩ := (featureMap_spec ho _ _ _ _).1 h
  refine ⟨op, scaled, h1, h2, ?_⟩
  rw [sem_kron, encoding, gates_eq, List.map_map]
  congr 1
  refine List.map_congr_left fun q _ => ?_
  rw [Function.comp_apply, sem_leaf]
  show embed1 q.1 (matRot (eval ρ _) op) = _
  congr 2
  have e1 : rs.1 q.2 = c q.2 := by
    cases hr : a.reupload with
    | constant => rw [hr] at h4 hc; injection h4 with h4; rw [← h4]; exact (hc _).symm
    | tower => rw [hr] at h4 hc; injection h4 with h4; rw [← h4]; exact (hc _).symm
    | exp => rw [hr] at h4 hc; injection h4 with h4; rw [← h4]; exact (hc _).symm
    | custom f => rw [hr] at h4 hc; injection h4 with h4; rw [← h4]; exact congrFun (Eq.symm hc) _
    | other => rw [hr] at hc; exact hc.elim
  have e2 : ∀ e, eval ρ (tf e) = F (eval ρ e) := by
    intro e
    cases ht : a.fmType with
    | fourier => rw [ht] at h3 hF; injection h3 with h3; rw [← h3, show F = id from hF]; rfl
    | chebyshev => rw [ht] at h3 hF; injection h3 with h3; rw [← h3, show F = _ from hF]; rfl
    | custom f => rw [ht] at h3 hF; injection h3 with h3; rw [← h3]; exact hF e
    | other => rw [ht] at hF; exact hF.elim
  have e3 : eval ρ (a.multiplier.getD (.num 1 0)) = (a.multiplier.map (eval ρ)).getD 1 := by
    cases a.multiplier with
    | none => simp [eval_real]
    | some m => rfl
  rw [eval, eval, e2, e3, eval_real, e1]
  congr 2
  cases a.paramPrefix with
  | none => simp [prefixWeight, gateParam]
  | some p => simp [prefixWeight, eval, gateParam]

theorem zipIdx_range (n : ℕ) : (List.range n).zipIdx = (List.range n).map fun i => (i, i) := by
  apply List.ext_getElem <;> simp

/-- C46, exponential Fourier feature maps: the layer of Hadamard gates, then RZ on qubit number `i` by
`2 ^ i * 2 * pi * x / 2 ^ n`. -/
theorem C46_exp_fourier (ho : SetOrder ord) {pi : ℚ} (hpi : 3 < pi) (hpi4 : pi < 7 / 2) {n : ℕ} (hn : 0 < n) (param : String) :
    ∃ b, expFourier pi ord n none param none = .ok b ∧ ∀ (N : ℕ) (ρ : Env) (x : ℝ), ρ.var param = x →
      (sem (primSem N ρ ord ho) ρ b : Oper N) = opProd [opProd ((List.range n).map fun q => embed1 q (mat1 .H)),
        opProd ((List.range n).map fun i => embed1 i (matRot ((2 ^ i * (2 * pi) * x / 2 ^ n : ℝ) : ℂ) .RZ))] := by
  have hacc : Accepts pi n (Args.mk (some (List.range n)) param (some .RZ) .fourier .exp (some (0, 2 ^ n))
      (some (0, 2 * pi)) none none) := by
    refine ⟨by simp, hn, ?_, ?_, by simp, by simp⟩
    · intro s hs
      injection hs with hs
      subst hs
      exact ⟨by simp, List.nodup_range⟩
    · show (0 : ℚ) ≠ 2 ^ n
      positivity
  obtain ⟨r, hr⟩ := (C46_feature_map_accepts ho _ _ _).2 hacc
  have hh : kronOf (Prim.supp ord) ord ((List.range n).map fun q => Block.leaf (.gate (.fixed .H q) none) none) =
      .ok (.comp .kron ((List.range n).map fun q => .leaf (.gate (.fixed .H q) none) none) none) := by
    refine (kronOf_ok_iff _ _ ho _ _).2 ⟨rfl, by simp; omega, ?_⟩
    rw [List.pairwise_map]
    refine List.nodup_range.imp fun {i j} hij => ?_
    rw [qubits_leaf, qubits_leaf, Set.disjoint_left]
    intro q hq hq'
    simp only [Prim.supp, Gate.supp, List.mem_singleton, Set.mem_setOf_eq] at hq hq'
    exact hij (hq.symm.trans hq')
  obtain ⟨sup, op, scaled, tf, rs, hsup, -, -, -, -, hscaled, -, -, hr'⟩ := (featureMap_spec ho _ _ _ _).1 hr
  have hsem := fun N ρ => C46_feature_map_operator ho hr N ρ (F := id) rfl (c := fun i => 2 ^ i) (fun i => rfl)
  refine ⟨.comp .chain [.comp .kron ((List.range n).map fun q => .leaf (.gate (.fixed .H q) none) none) none,
    .comp .kron (gates op (.num 1 0) rs.1 tf scaled none 0 sup) none] (some ("ExpFourierFM(" ++ param ++ ")")), ?_, ?_⟩
  · simp only [expFourier, Option.getD_none]
    rw [hh, ok_bind, hr, ok_bind, hr']
    rfl
  · intro N ρ x hx
    obtain ⟨op', scaled', hop, hsc, hsem⟩ := hsem N ρ
    injection hop with hop
    subst hop
    rw [sem_chain, List.map_cons, List.map_cons, List.map_nil, sem_kron, List.map_map]
    congr 2
    rw [hr', sem_kron] at hsem
    have hrw : (sem (primSem N ρ ord ho) ρ (.comp .kron (gates op (.num 1 0) rs.1 tf scaled none 0 sup) none) : Oper N) =
      encoding .RZ 1 (fun i => 2 ^ i) id (prefixWeight ρ none) (eval ρ scaled') (List.range n) := by
      rw [sem_kron]; exact hsem
    rw [hrw, encoding]
    have hev : eval ρ scaled' = ((2 * pi * x / 2 ^ n : ℝ) : ℂ) := by
      have hx' : max (0 : ℚ) (2 ^ n) - min 0 (2 ^ n) = 2 ^ n := by
        rw [max_eq_right (by positivity), min_eq_left (by positivity), sub_zero]
      have hy' : max (0 : ℚ) (2 * pi) - min 0 (2 * pi) = 2 * pi := by
        rw [max_eq_right (by positivity), min_eq_left (by positivity), sub_zero]
      rw [C46_scaling_affine_partial hsc ?_ ρ x hx, affine]
      · congr 1
        have hx'' : (((max (0 : ℚ) (2 ^ n) : ℚ) : ℝ) - ((min 0 (2 ^ n) : ℚ) : ℝ)) = 2 ^ n := by exact_mod_cast hx'
        have hy'' : (((max (0 : ℚ) (2 * pi) : ℚ) : ℝ) - ((min 0 (2 * pi) : ℚ) : ℝ)) = 2 * pi := by exact_mod_cast hy'
        simp only
        rw [hx'', hy'', min_eq_left (by positivity), min_eq_left (by positivity)]
        push_cast
        ring
      · right
        simp only
        rw [hx', hy']
        rcases lt_or_ge n 3 with h3 | h3
        · have h4 : (2 : ℚ) ^ n ≤ 4 := by
            calc (2 : ℚ) ^ n ≤ 2 ^ 2 := pow_le_pow_right₀ (by norm_num) (by omega)
              _ = 4 := by norm_num
          rw [abs_of_pos (by linarith), max_eq_left (by linarith)]
          linarith
        · have h4 : (8 : ℚ) ≤ 2 ^ n := by
            calc (8 : ℚ) = 2 ^ 3 := by norm_num
              _ ≤ 2 ^ n := pow_le_pow_right₀ (by norm_num) h3
          rw [abs_of_neg (by linarith), max_eq_right (by linarith)]
          linarith
    rw [hev, zipIdx_range, List.map_map]
    refine congrArg (fun l => [opProd l]) (List.map_congr_left fun i _ => ?_)
    simp only [Function.comp_apply, prefixWeight, id]
    congr 2
    push_cast
    ring

end Qadence.FeatureMap
