import Mathlib.Analysis.Real.Pi.Bounds
import Mathlib.Data.List.GetD
import Verif.Proofs.GateSem
import Verif.Props.Flatten
import Verif.Props.Noise
import Verif.Props.Padding
import Verif.Props.Passes
import Verif.Spec.Pyq

/-!
# C72: conversion to PyQTorch operations
-/

namespace Qadence

open Spec Spec.Pyq Block Matrix Complex

namespace Pyq

variable {n : ℕ} {L T : Type}

/-! ## Parameters -/

theorem paramName_value {W : ParamWorld T} {cfg : Config} {V : Values} {ρ : Env} {es : List Expr}
    (hV : Delivers W cfg V ρ es) {e : Expr} (he : e ∈ es) : paramValue V (paramName W cfg e) = .ok (eval ρ e) := by
  unfold paramName
  cases h : cfg.useGateParams with
  | true => rw [if_pos rfl, paramValue, hV.uuid h e he, need]
  | false => rw [if_neg (by simp), paramValue, hV.str h e he, need]

theorem extractParameter_value {W : ParamWorld T} {cfg : Config} {V : Values} {ρ : Env} {es : List Expr}
    (hV : Delivers W cfg V ρ es) {e : Expr} (he : e ∈ es) {p : Bool} (hp : p = false → e.isNumber = true) :
    paramValue V (extractParameter W cfg p e) = .ok (eval ρ e) := by
  unfold extractParameter
  cases p with
  | true => exact paramName_value hV he
  | false => rw [if_neg (by simp), paramValue, hV.num e (hp rfl)]

/-- The names of functions are translated correctly. -/
theorem fnName_name {f g : String} (h : fnName f = some g) : nameInSympy g = f := by
  unfold fnName at h
  split at h <;> cases h <;> rfl

/-- `sympy_to_pyq` keeps the value. -/
theorem sympyToPyq_value {V : Values} {ρ : Env} (hn : ∀ e : Expr, e.isNumber = true → V.num e = eval ρ e)
    (hf : ∀ f g, fnName f = some g → V.fn g = ρ.fn f) :
    ∀ (e : Expr) (c : Callable), RealNumbers e → (∀ x ∈ e.freeSymbols, V.str x = some (ρ.var x)) → sympyToPyq e = .ok c →
      callableValue V c = .ok (eval ρ e) := by
  have h2 : ∀ {m₁ m₂ : Except PyErr Callable} {c : Callable} {f : String},
      (do return Callable.call2 f (← m₁) (← m₂)) = Except.ok (ε := PyErr) c → ∃ a b, m₁ = .ok a ∧ m₂ = .ok b ∧ c = .call2 f a b := by
    intro m₁ m₂ c f h
    cases m₁ with
    | error e => cases h
    | ok a => cases m₂ with
      | error e => cases h
      | ok b => exact ⟨a, b, rfl, rfl, by cases h; rfl⟩
  have h1 : ∀ {m₁ : Except PyErr Callable} {b c : Callable} {f : String},
      (do return Callable.call2 f (← m₁) b) = Except.ok (ε := PyErr) c → ∃ a, m₁ = .ok a ∧ c = .call2 f a b := by
    intro m₁ b c f h
    cases m₁ with
    | error e => cases h
    | ok a => exact ⟨a, rfl, by cases h; rfl⟩
  intro e
  induction e with
  | num re im =>
    intro c hr _ h
    simp only [RealNumbers] at hr
    subst hr
    simp only [sympyToPyq, if_true] at h
    cases h
    rw [callableValue, hn _ rfl]
  | pi =>
    intro c _ _ h
    cases h
    rw [callableValue, hn _ rfl]
  | var x =>
    intro c _ hx h
    cases h
    rw [callableValue, hx x (by simp [Expr.freeSymbols]), need, eval]
  | add a b iha ihb =>
    intro c hr hx h
    obtain ⟨ca, cb, ha, hb, rfl⟩ := h2 h
    rw [callableValue, iha ca hr.1 (fun x hx' => hx x (by simp [Expr.freeSymbols, hx'])) ha,
      ihb cb hr.2 (fun x hx' => hx x (by simp [Expr.freeSymbols, hx'])) hb, eval]
    rfl
  | mul a b iha ihb =>
    intro c hr hx h
    obtain ⟨ca, cb, ha, hb, rfl⟩ := h2 h
    rw [callableValue, iha ca hr.1 (fun x hx' => hx x (by simp [Expr.freeSymbols, hx'])) ha,
      ihb cb hr.2 (fun x hx' => hx x (by simp [Expr.freeSymbols, hx'])) hb, eval]
    rfl
  | pow a k iha =>
    intro c hr hx h
    obtain ⟨ca, ha, rfl⟩ := h1 h
    rw [callableValue, iha ca hr hx ha, callableValue, hn _ rfl, eval, eval]
    have : (⟨((k : Rat) : ℝ), ((0 : Rat) : ℝ)⟩ : ℂ) = (k : ℂ) := by apply Complex.ext <;> simp
    change Except.ok _ = _
    rw [this, cpow_natCast]
  | inv a iha =>
    intro c hr hx h
    obtain ⟨ca, ha, rfl⟩ := h1 h
    rw [callableValue, iha ca hr hx ha, callableValue, hn _ rfl, eval, eval]
    have : (⟨((-1 : Rat) : ℝ), ((0 : Rat) : ℝ)⟩ : ℂ) = -1 := by apply Complex.ext <;> simp
    change Except.ok _ = _
    rw [this, cpow_neg_one]
  | conj a _ => intro c _ _ h; cases h
  | fn f a iha =>
    intro c hr hx h
    rw [sympyToPyq] at h
    cases ha : sympyToPyq a with
    | error e => rw [ha] at h; cases h
    | ok ca =>
      rw [ha] at h
      cases hg : fnName f with
      | none => simp only [hg] at h; cases h
      | some g =>
        simp only [hg] at h
        cases h
        rw [callableValue, iha ca hr hx ha, eval, ← hf f g hg]
        rfl

/-- Without parameters called `pi` the expression is read as it was written. -/
theorem reread_eq {isF : String → Bool} : ∀ (e e' : Expr), "pi" ∉ e.freeSymbols → reread isF e = .ok e' → e' = e := by
  intro e
  induction e with
  | num re im => intro e' _ h; cases h; rfl
  | pi => intro e' _ h; cases h; rfl
  | var x =>
    intro e' hx h
    have hx' : x ≠ "pi" := fun hc => hx (by simp [Expr.freeSymbols, hc])
    unfold reread at h
    split at h
    · cases h
    · cases h; rfl
  | add a b iha ihb =>
    intro e' hx h
    simp only [Expr.freeSymbols, List.mem_append, not_or] at hx
    rw [reread] at h
    cases ha : reread isF a with
    | error e => rw [ha] at h; cases h
    | ok a' => cases hb : reread isF b with
      | error e => rw [ha, hb] at h; cases h
      | ok b' => rw [ha, hb] at h; cases h; rw [iha a' hx.1 ha, ihb b' hx.2 hb]
  | mul a b iha ihb =>
    intro e' hx h
    simp only [Expr.freeSymbols, List.mem_append, not_or] at hx
    rw [reread] at h
    cases ha : reread isF a with
    | error e => rw [ha] at h; cases h
    | ok a' => cases hb : reread isF b with
      | error e => rw [ha, hb] at h; cases h
      | ok b' => rw [ha, hb] at h; cases h; rw [iha a' hx.1 ha, ihb b' hx.2 hb]
  | pow a k iha =>
    intro e' hx h
    rw [reread] at h
    cases ha : reread isF a with
    | error e => rw [ha] at h; cases h
    | ok a' => rw [ha] at h; cases h; rw [iha a' hx ha]
  | inv a iha =>
    intro e' hx h
    rw [reread] at h
    cases ha : reread isF a with
    | error e => rw [ha] at h; cases h
    | ok a' => rw [ha] at h; cases h; rw [iha a' hx ha]
  | conj a iha =>
    intro e' hx h
    rw [reread] at h
    cases ha : reread isF a with
    | error e => rw [ha] at h; cases h
    | ok a' => rw [ha] at h; cases h; rw [iha a' hx ha]
  | fn f a iha =>
    intro e' hx h
    rw [reread] at h
    cases ha : reread isF a with
    | error e => rw [ha] at h; cases h
    | ok a' => rw [ha] at h; cases h; rw [iha a' hx ha]

/-- The parameter of a scale block has the value of the scale factor. -/
theorem scaleParam_value {W : ParamWorld T} {cfg : Config} {V : Values} {ρ : Env} {es : List Expr}
    (hV : Delivers W cfg V ρ es) {s : Expr} (hs : s ∈ es) {p : Bool} (hp : p = false → s.isNumber = true)
    (hr : cfg.useGateParams = false → p = true → Readable W s) {q : NParam} (h : scaleParam W cfg p s = .ok q) :
    paramValue V q = .ok (eval ρ s) := by
  unfold scaleParam at h
  split at h
  · rename_i hc
    simp only [Bool.and_eq_true, Bool.not_eq_true'] at hc
    obtain ⟨hr1, hr2⟩ := hr hc.2 hc.1
    cases he : parseName W cfg s with
    | error e => rw [he] at h; cases h
    | ok e =>
      rw [he] at h
      cases hcl : sympyToPyq e with
      | error e' => simp only [ok_bind, hcl] at h; cases h
      | ok c =>
        simp only [ok_bind, hcl] at h
        cases h
        rw [paramValue]
        unfold parseName at he
        split at he
        · rename_i hn
          rw [if_pos (hr1 hn)] at he
          cases he
          cases hcl
          rw [callableValue, hV.str hc.2 s hs, need]
        · rename_i hn
          have hn' : s.isNumber = false := by simpa using hn
          obtain ⟨h1, h2⟩ := hr2 hn'
          have := reread_eq s e h2 he
          subst this
          exact sympyToPyq_value hV.num (fun f g h => by rw [hV.fn, fnName_name h]) e c h1 (hV.var hc.2 e hs) hcl
  · cases h
    exact extractParameter_value hV hs hp

/-! ## Gates -/

theorem digitalNoise_bind {α : Type} {ν : Option (NoiseHandler Rat)} {f : NNoise → Except PyErr α} {a : α}
    (h : (digitalNoise ν >>= f) = .ok a) : ∃ μ, digitalNoise ν = .ok μ ∧ f μ = .ok a := by
  cases hd : digitalNoise ν with
  | error e => rw [hd] at h; cases h
  | ok μ => exact ⟨μ, rfl, by rw [hd] at h; exact h⟩

theorem ctrl_run {V : Values} {c : NCtrl} {cs ts : List ℕ} {p : Option NParam} {ν : NNoise} {z : Option ℂ}
    (h : optValue V p = .ok z) : runNative (n := n) V (.ctrl c cs ts p ν) = .ok (controlled cs (nctrlTarget ts c z)) := by
  rw [runNative, h]; rfl

theorem num_getD {V : Values} {ρ : Env} (hn : ∀ e : Expr, e.isNumber = true → V.num e = eval ρ e) {rows : List (List Expr)}
    (h : ∀ r ∈ rows, ∀ e ∈ r, e.isNumber = true) (i j : ℕ) :
    V.num ((rows.getD i []).getD j (.num 0 0)) = eval ρ ((rows.getD i []).getD j (.num 0 0)) := by
  apply hn
  have hr : rows.getD i [] ∈ rows ∨ rows.getD i [] = [] := by
    rcases lt_or_ge i rows.length with hi | hi
    · left; rw [List.getD_eq_getElem _ _ hi]; exact List.getElem_mem hi
    · right; exact List.getD_eq_default _ _ hi
  rcases lt_or_ge j (rows.getD i []).length with hj | hj
  · rw [List.getD_eq_getElem _ _ hj]
    rcases hr with hr | hr
    · exact h _ hr _ (List.getElem_mem hj)
    · rw [hr] at hj; simp at hj
  · rw [List.getD_eq_default _ _ hj]; rfl

/-- The native operation of a gate applies the operator of the gate. -/
theorem convGate_run {W : ParamWorld T} {cfg : Config} {V : Values} {ρ : Env} {es : List Expr}
    (hV : Delivers W cfg V ρ es) {g : Gate} (hg : Good g) (he : ∀ e ∈ gateExprs g, e ∈ es) {ν : Option (NoiseHandler Rat)}
    {o : Native} (h : convGate W cfg g ν = .ok o) : runNative V o = .ok (gateDen (n := n) ρ g) := by
  obtain ⟨hb, hN⟩ := hg
  unfold convGate at h
  obtain ⟨μ, -, h⟩ := digitalNoise_bind h
  have hrot : ∀ θ ∈ es, paramValue V (extractParameter W cfg (!θ.isNumber) θ) = .ok (eval ρ θ) := fun θ hθ =>
    extractParameter_value hV hθ (by simp)
  have hopt : ∀ θ ∈ es, optValue V (some (extractParameter W cfg (!θ.isNumber) θ)) = .ok (some (eval ρ θ)) := fun θ hθ => by
    rw [optValue, hrot θ hθ]; rfl
  cases hb with
  | fixed g q =>
    cases g with
    | TDagger => cases h
    | Zero =>
      simp only at h
      split at h
      · cases h; rw [runNative, gateDen]
      · cases h
    | N s =>
      cases s with
      | true => cases h; rw [runNative, gateDen]
      | false => exact absurd rfl (hN q)
    | _ => cases h; rw [runNative, gateDen]
  | rot g q θ =>
    cases h
    rw [runNative, hrot θ (he θ (by simp [gateExprs])), gateDen]
    rfl
  | u q φ θ ω =>
    cases h
    rw [runNative, paramName_value hV (he φ (by simp [gateExprs])), paramName_value hV (he θ (by simp [gateExprs])),
      paramName_value hV (he ω (by simp [gateExprs])), gateDen]
    rfl
  | swap a b => cases h; rw [runNative, gateDen]
  | proj ket bra qs => cases h; rw [runNative, gateDen]
  | matrix rows qs hr =>
    cases h
    rw [runNative, gateDen]
    simp only [num_getD hV.num hr]
  | cnot c t => cases h; rw [twoQubit, ctrl_run rfl]; rfl
  | cz c t => cases h; rw [twoQubit, ctrl_run rfl]; rfl
  | mcz cs t =>
    cases h
    rw [multiQubit, ctrl_run rfl]
    simp [Gate.mcz, gateDen, Gate.supp, nctrlTarget]
  | toffoli cs t =>
    cases h
    rw [multiQubit, ctrl_run rfl]
    simp [Gate.toffoli, gateDen, Gate.supp, nctrlTarget]
  | cswap c a b => cases h; rw [ctrl_run rfl]; rfl
  | crx c t θ => cases h; rw [twoQubit, ctrl_run (hopt θ (he θ (by simp [Gate.crx, gateExprs])))]; rfl
  | cry c t θ => cases h; rw [twoQubit, ctrl_run (hopt θ (he θ (by simp [Gate.cry, gateExprs])))]; rfl
  | crz c t θ => cases h; rw [twoQubit, ctrl_run (hopt θ (he θ (by simp [Gate.crz, gateExprs])))]; rfl
  | cphase c t θ => cases h; rw [twoQubit, ctrl_run (hopt θ (he θ (by simp [Gate.cphase, gateExprs])))]; rfl
  | mcrx cs t θ =>
    cases h
    rw [multiQubit, ctrl_run (hopt θ (he θ (by simp [Gate.mcrx, gateExprs])))]
    simp [Gate.mcrx, gateDen, Gate.supp, nctrlTarget]
  | mcry cs t θ =>
    cases h
    rw [multiQubit, ctrl_run (hopt θ (he θ (by simp [Gate.mcry, gateExprs])))]
    simp [Gate.mcry, gateDen, Gate.supp, nctrlTarget]
  | mcrz cs t θ =>
    cases h
    rw [multiQubit, ctrl_run (hopt θ (he θ (by simp [Gate.mcrz, gateExprs])))]
    simp [Gate.mcrz, gateDen, Gate.supp, nctrlTarget]
  | mcphase cs t θ =>
    cases h
    rw [multiQubit, ctrl_run (hopt θ (he θ (by simp [Gate.mcphase, gateExprs])))]
    simp [Gate.mcphase, gateDen, Gate.supp, nctrlTarget]

/-! ## Blocks -/

theorem exprsOfAll_eq (le : L → List Expr) (bs : List (Block L)) : exprsOfAll le bs = bs.flatMap (exprsOf le) := by
  induction bs with
  | nil => rfl
  | cons b bs ih => simp [exprsOfAll, ih]

theorem convBlocks_eq (W : ParamWorld T) (cfg : Config) (C : LeafConv L) (ord : List ℕ → List ℕ) (bs : List (Block L)) :
    convBlocks W cfg C ord bs = bs.mapM (convBlock W cfg C ord) := by
  induction bs with
  | nil => rfl
  | cons b bs ih => rw [convBlocks, List.mapM_cons, ih]

theorem runNatives_eq (V : Values) (os : List Native) : runNatives (n := n) V os = os.mapM (runNative V) := by
  induction os with
  | nil => rfl
  | cons o os ih => rw [runNatives, List.mapM_cons, ih]

theorem composite_run {cfg : Config} {C : LeafConv L} {ord : List ℕ → List ℕ} {k : CKind} {bs : List (Block L)} {os : List Native}
    {V : Values} {Us : List (Oper n)} (h : runNatives V os = .ok Us) :
    runNative V (composite cfg C ord k bs os) = .ok (match k with | .add => Us.sum | _ => opProd Us) := by
  cases k with
  | add => rw [composite, runNative, h]; rfl
  | kron => rw [composite, runNative, h]; rfl
  | chain =>
    rw [composite]
    split
    · rw [runNative, h]; rfl
    · rw [runNative, h]; rfl

theorem convBlock_run {W : ParamWorld T} {cfg : Config} {V : Values} {ρ : Env} {es : List Expr} (hV : Delivers W cfg V ρ es)
    (C : LeafConv L) (S : LeafSem L n) (ord : List ℕ → List ℕ) (P : L → Prop)
    (hleaf : ∀ l o, P l → (∀ e ∈ C.exprs l, e ∈ es) → C.conv l = .ok o → runNative V o = .ok (S.den l)) :
    ∀ (b : Block L), EveryScale P (ScaleOk W cfg C.exprs) b → (∀ e ∈ exprsOf C.exprs b, e ∈ es) →
      ∀ o, convBlock W cfg C ord b = .ok o → runNative V o = .ok (sem S ρ b) := by
  intro b
  induction b using Block.induction with
  | leaf l t =>
    intro hb he o h
    cases hb with
    | leaf _ hp =>
      rw [convBlock] at h
      rw [sem_leaf]
      exact hleaf l o hp he h
  | scale b s t ih =>
    intro hb he o h
    cases hb with
    | scale _ hb hs =>
      rw [convBlock] at h
      cases ho : convBlock W cfg C ord b with
      | error e => rw [ho] at h; cases h
      | ok o' =>
        rw [ho] at h
        cases hq : scaleParam W cfg (anyParam (s :: exprsOf C.exprs b)) s with
        | error e => simp only [ok_bind, hq] at h; cases h
        | ok q =>
          simp only [ok_bind, hq] at h
          cases h
          have hse : s ∈ es := he s (by simp [exprsOf])
          have hrun := ih hb (fun e h' => he e (by simp [exprsOf, h'])) o' ho
          have hval := scaleParam_value hV hse (p := anyParam (s :: exprsOf C.exprs b))
            (by intro hf; simp only [anyParam, List.any_cons, Bool.or_eq_false_iff] at hf; simpa using hf.1)
            (by
              intro hu hp
              apply hs hu
              simp only [anyParam, List.any_eq_true, Bool.not_eq_true'] at hp
              exact hp) hq
          rw [runNative, runNative, runNatives_eq]
          simp only [List.mapM_cons, List.mapM_nil, hrun, hval]
          rw [sem_scale]
          change Except.ok (eval ρ s • opProd [sem S ρ b]) = _
          simp [opProd]
  | comp k bs t ih =>
    intro hb he o h
    cases hb with
    | comp _ _ hb =>
      rw [convBlock] at h
      cases ho : convBlocks W cfg C ord bs with
      | error e => rw [ho] at h; cases h
      | ok os =>
        rw [ho] at h
        cases h
        rw [convBlocks_eq] at ho
        have hall : runNatives (n := n) V os = .ok (bs.map (sem S ρ)) := by
          rw [runNatives_eq]
          have he' : ∀ b ∈ bs, ∀ e ∈ exprsOf C.exprs b, e ∈ es := fun b hbm e h' =>
            he e (by rw [exprsOf, exprsOfAll_eq]; exact List.mem_flatMap.2 ⟨b, hbm, h'⟩)
          clear he
          induction bs generalizing os with
          | nil => cases ho; rfl
          | cons b bs ih2 =>
            rw [List.mapM_cons] at ho
            cases h1 : convBlock W cfg C ord b with
            | error e => rw [h1] at ho; cases ho
            | ok o1 =>
              rw [h1] at ho
              cases h2 : bs.mapM (convBlock W cfg C ord) with
              | error e => simp only [ok_bind, h2] at ho; cases ho
              | ok os2 =>
                simp only [ok_bind, h2] at ho
                cases ho
                rw [List.mapM_cons, ih b (by simp) (hb b (by simp)) (he' b (by simp)) o1 h1,
                  ih2 (fun b' hb' => ih b' (by simp [hb'])) (fun b' hb' => hb b' (by simp [hb'])) os2 h2
                    (fun b' hb' => he' b' (by simp [hb']))]
                rfl
        rw [composite_run hall]
        cases k with
        | chain => rw [sem_chain]
        | kron => rw [sem_kron]
        | add => rw [sem_add]

theorem convPrim_run {W : ParamWorld T} {cfg : Config} {V : Values} {ρ : Env} {es : List Expr} (hV : Delivers W cfg V ρ es)
    (ord : List ℕ → List ℕ) {l : Prim} (hl : GoodPrim W cfg l) (he : ∀ e ∈ primExprs l, e ∈ es) {o : Native}
    (h : convPrim W cfg ord l = .ok o) : runNative V o = .ok (primDen (n := n) ρ l) := by
  cases l with
  | gate g ν => exact convGate_run hV hl he h
  | hamEvo gen t =>
    rw [convPrim] at h
    cases ho : convBlock W cfg (gateConv W cfg) ord gen with
    | error e => rw [ho] at h; cases h
    | ok G =>
      rw [ho] at h
      cases h
      have hG : runNative (n := n) V G = .ok (sem (gateSem n ρ) ρ gen) :=
        convBlock_run hV (gateConv W cfg) (gateSem n ρ) ord Good (fun g o hg he h => convGate_run hV hg he h) gen hl
          (fun e h' => he e (by simp only [primExprs, List.mem_cons]; exact Or.inr h')) G ho
      rw [runNative, hG, paramName_value hV (he t (by simp [primExprs]))]
      rfl

/-- **C72** Partial (gates other than `N` with state 0, readable scale factors): the native operation of a block applies the operator of the
block, if the values given to it are those of the assignment, with ids as well as with expressions as parameters. -/
theorem C72_operator_partial {W : ParamWorld T} {cfg : Config} {V : Values} {ρ : Env} {ord : List ℕ → List ℕ} (ho : SetOrder ord)
    {b : Block Prim} (hb : EveryScale (GoodPrim W cfg) (ScaleOk W cfg primExprs) b)
    (hV : Delivers W cfg V ρ (exprsOf primExprs b)) {o : Native} (h : convBlock W cfg (primConv W cfg ord) ord b = .ok o) :
    runNative V o = .ok (sem (primSem n ρ ord ho) ρ b) :=
  convBlock_run hV (primConv W cfg ord) (primSem n ρ ord ho) ord (GoodPrim W cfg)
    (fun _ _ hl he h => convPrim_run hV ord hl he h) b hb (fun _ h => h) o h

/-- **C72** Partial (also: no empty products, different objects in krons, as for C10 and C12): the default passes of the backend yield a
block with the same operator, and this block is converted; the native operation applies the operator of the circuit. -/
theorem C72_circuit_partial {W : ParamWorld T} {cfg : Config} {ord : List ℕ → List ℕ} (ho : SetOrder ord)
    {ids : List (Block Prim) → List ℕ} (hids : DistinctObjects ids) {b : Block Prim} (hne : NonEmptyProducts b) :
    ∃ b', transpile (passes cfg ord ids) b = .ok b' ∧ convCircuit W cfg ord ids b = convBlock W cfg (primConv W cfg ord) ord b' ∧
      (∀ ρ, sem (primSem n ρ ord ho) ρ b' = sem (primSem n ρ ord ho) ρ b) ∧
      ∀ V ρ o, EveryScale (GoodPrim W cfg) (ScaleOk W cfg primExprs) b' → Delivers W cfg V ρ (exprsOf primExprs b') →
        convCircuit W cfg ord ids b = .ok o → runNative V o = .ok (sem (primSem n ρ ord ho) ρ b) := by
  have key : ∃ b', transpile (passes cfg ord ids) b = .ok b' ∧
      ∀ ρ, sem (primSem n ρ ord ho) ρ b' = sem (primSem n ρ ord ho) ρ b := by
    unfold passes
    rw [C17_transpile_cons, C17_transpile_cons, C17_transpile_nil, ok_bind, ok_bind]
    split
    · exact ⟨_, rfl, fun ρ => by
        rw [show Prim.supp ord = (primSem n ρ ord ho).supp from rfl, C12_chain_single_qubit_ops_partial _ ρ ho ids hids,
          C10_scale_pushed_same_operator_partial _ ρ b hne]⟩
    · exact ⟨_, rfl, fun ρ => by rw [C09_flatten_same_operator, C10_scale_pushed_same_operator_partial _ ρ b hne]⟩
  obtain ⟨b', hb', hs⟩ := key
  have hc : convCircuit W cfg ord ids b = convBlock W cfg (primConv W cfg ord) ord b' := by
    unfold convCircuit; rw [hb', ok_bind]
  refine ⟨b', hb', hc, hs, fun V ρ o hg hV h => ?_⟩
  rw [hc] at h
  rw [C72_operator_partial ho hg hV h, hs]

/-! ## Which blocks are converted -/

/-- Gates which PyQTorch has. -/
def _root_.Qadence.Spec.Pyq.Offered (cfg : Config) (g : Gate) : Prop :=
  (∀ q, g ≠ .fixed .TDagger q) ∧ ∀ q, g = .fixed .Zero q → cfg.hasZero = true

/-- Noise of a gate: nothing, or a valid handler. -/
def _root_.Qadence.Spec.Pyq.NoiseOk : Option (NoiseHandler Rat) → Prop
  | none => True
  | some h => ValidNoise h.protocol h.options

/-- **C72** a gate gets the digital noise of its block: its digital protocols with their probabilities, in order. -/
theorem C72_noise (h : NoiseHandler Rat) (hv : ValidNoise h.protocol h.options) :
    digitalNoise (some h) = .ok
      (if ∃ p ∈ h.protocol, p.kind = .digital then
        some (((h.protocol.zip h.options).filter fun po => po.1.kind = .digital).map
          fun po => (po.1, NoiseHandler.optGet po.2 "error_probability"))
      else none) := by
  rcases C24_filter h .digital hv with ⟨h1, h2⟩ | ⟨h1, g, h2, -, -, h3⟩
  · rw [digitalNoise, h2, if_neg (by rintro ⟨p, hp, hk⟩; exact h1 p hp hk)]
    rfl
  · rw [digitalNoise, h2, if_pos h1, ← h3]
    rfl

theorem digitalNoise_ok {ν : Option (NoiseHandler Rat)} (h : NoiseOk ν) : ∃ μ, digitalNoise ν = .ok μ := by
  cases ν with
  | none => exact ⟨none, rfl⟩
  | some h' => exact ⟨_, C72_noise h' h⟩

/-- **C72** exactly `TDagger` (and `Zero`, if PyQTorch has none) are rejected among the gates, with a NotImplementedError (AttributeError). -/
theorem C72_gate_converted (W : ParamWorld T) (cfg : Config) {g : Gate} (hg : Built g) {ν : Option (NoiseHandler Rat)} (hν : NoiseOk ν) :
    (∃ o, convGate W cfg g ν = .ok o) ↔ Offered cfg g := by
  obtain ⟨μ, hμ⟩ := digitalNoise_ok hν
  unfold convGate Offered
  rw [hμ, ok_bind]
  cases hg with
  | fixed g q =>
    cases g with
    | TDagger => simp
    | Zero =>
      cases hz : cfg.hasZero with
      | true => simp [pure_eq_ok]
      | false => simp
    | _ => simp [pure_eq_ok]
  | cnot | cz | mcz | toffoli | cswap | crx | cry | crz | cphase | mcrx | mcry | mcrz | mcphase =>
    simp only [Gate.cnot, Gate.cz, Gate.mcz, Gate.toffoli, Gate.cswap, Gate.crx, Gate.cry, Gate.crz, Gate.cphase, Gate.mcrx, Gate.mcry,
      Gate.mcrz, Gate.mcphase, reduceCtorEq, ne_eq, not_false_eq_true, implies_true, false_implies, and_self, iff_true]
    exact ⟨_, rfl⟩
  | _ => simp [pure_eq_ok]

theorem mapM_exists {α β : Type} {f : α → Except PyErr β} {l : List α} : (∃ r, l.mapM f = .ok r) ↔ ∀ a ∈ l, ∃ b, f a = .ok b := by
  induction l with
  | nil => exact ⟨fun _ a ha => absurd ha (by simp), fun _ => ⟨[], rfl⟩⟩
  | cons a l ih =>
    rw [List.mapM_cons]
    constructor
    · rintro ⟨r, h⟩
      cases hb : f a with
      | error e => rw [hb] at h; cases h
      | ok b =>
        cases hr : l.mapM f with
        | error e => rw [hb, ok_bind, hr] at h; cases h
        | ok r' =>
          intro x hx
          rcases List.mem_cons.1 hx with rfl | hx
          · exact ⟨b, hb⟩
          · exact ih.1 ⟨r', hr⟩ x hx
    · intro h
      obtain ⟨b, hb⟩ := h a (by simp)
      obtain ⟨r, hr⟩ := ih.2 fun x hx => h x (by simp [hx])
      exact ⟨b :: r, by rw [hb, ok_bind, hr]; rfl⟩

theorem convBlock_exists {W : ParamWorld T} {cfg : Config} (hu : cfg.useGateParams = true) (C : LeafConv L) (ord : List ℕ → List ℕ) :
    ∀ b : Block L, (∃ o, convBlock W cfg C ord b = .ok o) ↔ EveryLeaf (fun l => ∃ o, C.conv l = .ok o) b := by
  intro b
  induction b using Block.induction with
  | leaf l t =>
    rw [convBlock]
    exact ⟨fun h => .leaf t h, fun h => by cases h with | leaf _ h => exact h⟩
  | scale b s t ih =>
    rw [convBlock]
    constructor
    · rintro ⟨o, h⟩
      cases hb : convBlock W cfg C ord b with
      | error e => rw [hb] at h; cases h
      | ok o' => exact .scale s t (ih.1 ⟨o', hb⟩)
    · intro h
      cases h with
      | scale _ _ h =>
        obtain ⟨o, ho⟩ := ih.2 h
        refine ⟨.scale (.sequence [o]) (extractParameter W cfg (anyParam (s :: exprsOf C.exprs b)) s), ?_⟩
        rw [ho, ok_bind, scaleParam, if_neg (by simp [hu])]
        rfl
  | comp k bs t ih =>
    rw [convBlock, convBlocks_eq]
    constructor
    · rintro ⟨o, h⟩
      cases hb : bs.mapM (convBlock W cfg C ord) with
      | error e => rw [hb] at h; cases h
      | ok os => exact .comp k t fun b hm => (ih b hm).1 (mapM_exists.1 ⟨os, hb⟩ b hm)
    · intro h
      cases h with
      | comp _ _ h =>
        obtain ⟨os, hos⟩ := mapM_exists.2 fun b hm => (ih b hm).2 (h b hm)
        exact ⟨_, by rw [hos]; rfl⟩

/-- Primitive blocks whose gates PyQTorch has. -/
def _root_.Qadence.Spec.Pyq.OfferedPrim (cfg : Config) : Prim → Prop
  | .gate g _ => Offered cfg g
  | .hamEvo gen _ => EveryLeaf (Offered cfg) gen

/-- Primitive blocks built by their classes, with valid noise. -/
def _root_.Qadence.Spec.Pyq.BuiltPrim : Prim → Prop
  | .gate g ν => Built g ∧ NoiseOk ν
  | .hamEvo gen _ => EveryLeaf Built gen

theorem everyLeaf_iff {P Q R : L → Prop} (h : ∀ l, P l → (Q l ↔ R l)) {b : Block L} (hb : EveryLeaf P b) :
    EveryLeaf Q b ↔ EveryLeaf R b := by
  induction hb with
  | leaf t hp =>
    exact ⟨fun h' => by cases h' with | leaf _ h' => exact .leaf t ((h _ hp).1 h'),
      fun h' => by cases h' with | leaf _ h' => exact .leaf t ((h _ hp).2 h')⟩
  | scale s t _ ih =>
    exact ⟨fun h' => by cases h' with | scale _ _ h' => exact .scale s t (ih.1 h'),
      fun h' => by cases h' with | scale _ _ h' => exact .scale s t (ih.2 h')⟩
  | comp k t _ ih =>
    exact ⟨fun h' => by cases h' with | comp _ _ h' => exact .comp k t fun b hm => (ih b hm).1 (h' b hm),
      fun h' => by cases h' with | comp _ _ h' => exact .comp k t fun b hm => (ih b hm).2 (h' b hm)⟩

/-- **C72** with ids as parameters a block is converted if and only if PyQTorch has all of its gates. -/
theorem C72_converted (W : ParamWorld T) {cfg : Config} (hu : cfg.useGateParams = true) (ord : List ℕ → List ℕ) {b : Block Prim}
    (hb : EveryLeaf BuiltPrim b) :
    (∃ o, convBlock W cfg (primConv W cfg ord) ord b = .ok o) ↔ EveryLeaf (OfferedPrim cfg) b := by
  rw [convBlock_exists hu]
  refine everyLeaf_iff (P := BuiltPrim) ?_ hb
  intro l hl
  cases l with
  | gate g ν => exact C72_gate_converted W cfg hl.1 hl.2
  | hamEvo gen t =>
    have h1 : (∃ o, convPrim W cfg ord (.hamEvo gen t) = .ok o) ↔ ∃ o, convBlock W cfg (gateConv W cfg) ord gen = .ok o := by
      rw [convPrim]
      constructor
      · rintro ⟨o, h⟩
        cases hb : convBlock W cfg (gateConv W cfg) ord gen with
        | error e => rw [hb] at h; cases h
        | ok o' => exact ⟨o', rfl⟩
      · rintro ⟨o, h⟩
        exact ⟨_, by rw [h]; rfl⟩
    change (∃ o, convPrim W cfg ord (.hamEvo gen t) = .ok o) ↔ EveryLeaf (Offered cfg) gen
    rw [h1, convBlock_exists hu]
    exact everyLeaf_iff (P := Built) (fun g hg => C72_gate_converted W cfg hg (ν := none) trivial) hl

/-! ## Defects -/

/-- **C72** The state of `N` is ignored: `N(0, state="0")` is converted to the projection on 1. -/
theorem C72_counterexample_n_state (W : ParamWorld T) (cfg : Config) (V : Values) (ρ : Env) {ord : List ℕ → List ℕ} (ho : SetOrder ord) :
    ∃ o U, convBlock W cfg (primConv W cfg ord) ord (.leaf (.gate (.fixed (.N false) 0) none) none) = .ok o ∧
      runNative (n := 1) V o = .ok U ∧ U ≠ sem (primSem 1 ρ ord ho) ρ (.leaf (.gate (.fixed (.N false) 0) none) none) := by
  refine ⟨.fixed (.N true) 0 none, embed1 0 (mat1 (.N true)), rfl, by rw [runNative], fun h => ?_⟩
  have h1 := congrFun (congrFun h (fun _ => false)) (fun _ => false)
  rw [sem_leaf] at h1
  simp [primSem, primDen, gateDen, embed1, mat1, ind, bit] at h1

/-- **C72** A constant factor with negative hash, such as -1, in front of a block with parameters cannot be evaluated when expressions are
used as parameters: its name `fix_-2` is read as `fix_ - 2`. -/
theorem C72_counterexample_negative_constant (W : ParamWorld T) {cfg : Config} (hu : cfg.useGateParams = false)
    {ord : List ℕ → List ℕ} (hW : (W.numeric (.num (-1) 0)).hash < 0) (V : Values) (hV : V.str "fix_" = none) :
    ∃ o, convBlock W cfg (primConv W cfg ord) ord (.scale (.leaf (.gate (.rot .RX 0 (.var "x")) none) none) (.num (-1) 0) none) = .ok o ∧
      ∀ z, V.str (stringify W (.var "x")) = some z → runNative (n := n) V o = .error .keyError := by
  refine ⟨.scale (.sequence [.rot .RX 0 (.key (stringify W (.var "x"))) none])
    (.callable (.call2 "add" (.tensor (.num (W.numeric (.num (-1) 0)).hash 0)) (.key "fix_"))), ?_, ?_⟩
  · have h1 : scaleParam W cfg true (.num (-1) 0) =
        .ok (.callable (.call2 "add" (.tensor (.num (W.numeric (.num (-1) 0)).hash 0)) (.key "fix_"))) := by
      unfold scaleParam
      rw [if_pos (by simp [hu])]
      unfold parseName
      rw [if_pos (by rfl), if_neg (by omega)]
      simp [sympyToPyq, ok_bind, pure_eq_ok]
    have h2 : convGate W cfg (.rot .RX 0 (.var "x")) none = .ok (.rot .RX 0 (.key (stringify W (.var "x"))) none) := by
      simp [convGate, digitalNoise, extractParameter, paramName, hu, ok_bind, pure_eq_ok, Expr.isNumber]
    rw [convBlock, convBlock]
    simp only [primConv, convPrim, h2, ok_bind]
    rw [show anyParam (.num (-1) 0 :: exprsOf primExprs (.leaf (.gate (.rot .RX 0 (.var "x")) none) none)) = true from rfl, h1]
    rfl
  · intro z hz
    rw [runNative, runNative, runNatives, runNatives, runNative, paramValue, hz, paramValue, callableValue, callableValue, callableValue, hV]
    rfl

/-- **C72** An imaginary factor in front of a parameter cannot be evaluated either: the imaginary unit is taken for a parameter `I`. -/
theorem C72_counterexample_imaginary (W : ParamWorld T) {cfg : Config} (hu : cfg.useGateParams = false) (hx : cfg.isFunction "x" = false)
    {ord : List ℕ → List ℕ} (V : Values) (hV : V.str "I" = none) :
    ∃ o, convBlock W cfg (primConv W cfg ord) ord (.scale (.leaf (.gate (.fixed .Z 0) none) none) (.mul (.num 0 1) (.var "x")) none) = .ok o ∧
      runNative (n := n) V o = .error .keyError := by
  refine ⟨.scale (.sequence [.fixed .Z 0 none]) (.callable (.call2 "mul" (.call2 "add" (.tensor (.num 0 0))
    (.call2 "mul" (.tensor (.num 1 0)) (.key "I"))) (.key "x"))), ?_, ?_⟩
  · have h1 : scaleParam W cfg true (.mul (.num 0 1) (.var "x")) = .ok (.callable (.call2 "mul" (.call2 "add" (.tensor (.num 0 0))
        (.call2 "mul" (.tensor (.num 1 0)) (.key "I"))) (.key "x"))) := by
      unfold scaleParam
      rw [if_pos (by simp [hu])]
      unfold parseName
      rw [if_neg (by simp [Expr.isNumber])]
      simp [reread, hx, sympyToPyq, ok_bind, pure_eq_ok]
    rw [convBlock, convBlock]
    simp only [primConv, convPrim, convGate, digitalNoise, ok_bind, pure_eq_ok]
    rw [show anyParam (.mul (.num 0 1) (.var "x") :: exprsOf primExprs (.leaf (.gate (.fixed .Z 0) none) none)) = true from rfl, h1]
    rfl
  · have h1 : callableValue V (.key "I") = .error .keyError := by rw [callableValue, hV, need]
    have h2 : callableValue V (.call2 "mul" (.tensor (.num 1 0)) (.key "I")) = .error .keyError := by
      rw [callableValue, h1, callableValue]; rfl
    have h3 : callableValue V (.call2 "add" (.tensor (.num 0 0)) (.call2 "mul" (.tensor (.num 1 0)) (.key "I"))) = .error .keyError := by
      rw [callableValue, h2, callableValue]; rfl
    rw [runNative, runNative, runNatives, runNatives, runNative, paramValue, callableValue, h3]
    rfl

/-- **C72** A factor which is a parameter named `pi` is replaced by the number. -/
theorem C72_counterexample_pi (W : ParamWorld T) {cfg : Config} (hu : cfg.useGateParams = false) (hx : cfg.isFunction "pi" = false)
    {ord : List ℕ → List ℕ} (ho : SetOrder ord) (V : Values) (ρ : Env) (hV : V.num .pi = Real.pi) (hρ : ρ.var "pi" = 2) :
    ∃ o U, convBlock W cfg (primConv W cfg ord) ord (.scale (.leaf (.gate (.fixed .I 0) none) none) (.var "pi") none) = .ok o ∧
      runNative (n := 1) V o = .ok U ∧
      U ≠ sem (primSem 1 ρ ord ho) ρ (.scale (.leaf (.gate (.fixed .I 0) none) none) (.var "pi") none) := by
  refine ⟨.scale (.sequence [.fixed .I 0 none]) (.callable (.tensor .pi)), (Real.pi : ℂ) • opProd [embed1 0 (mat1 .I)], ?_, ?_, ?_⟩
  · have h1 : scaleParam W cfg true (.var "pi") = .ok (.callable (.tensor .pi)) := by
      unfold scaleParam
      rw [if_pos (by simp [hu])]
      unfold parseName
      rw [if_neg (by simp [Expr.isNumber])]
      simp [reread, hx, sympyToPyq, ok_bind, pure_eq_ok]
    rw [convBlock, convBlock]
    simp only [primConv, convPrim, convGate, digitalNoise, ok_bind, pure_eq_ok]
    rw [show anyParam (.var "pi" :: exprsOf primExprs (.leaf (.gate (.fixed .I 0) none) none)) = true from rfl, h1]
    rfl
  · rw [runNative, runNative, runNatives, runNatives, runNative, paramValue, callableValue, hV]
    rfl
  · intro h
    have h1 := congrFun (congrFun h (fun _ => false)) (fun _ => false)
    rw [sem_scale, sem_leaf] at h1
    simp [primSem, primDen, gateDen, eval, hρ, embed1, mat1, opProd] at h1
    have : Real.pi = 2 := by exact_mod_cast h1
    linarith [Real.pi_gt_three]

/-- **C72** A factor with a parameter named like a function of sympy, such as `beta`, makes the conversion fail. -/
theorem C72_counterexample_function_name (W : ParamWorld T) {cfg : Config} (hu : cfg.useGateParams = false)
    (hx : cfg.isFunction "beta" = true) (ord : List ℕ → List ℕ) :
    convBlock W cfg (primConv W cfg ord) ord (.scale (.leaf (.gate (.fixed .Z 0) none) none) (.var "beta") none) = .error .typeError := by
  have h1 : scaleParam W cfg true (.var "beta") = .error .typeError := by
    unfold scaleParam
    rw [if_pos (by simp [hu])]
    unfold parseName
    rw [if_neg (by simp [Expr.isNumber]), reread, if_pos hx]
    rfl
  rw [convBlock, convBlock]
  simp only [primConv, convPrim, convGate, digitalNoise, ok_bind, pure_eq_ok]
  rw [show anyParam (.var "beta" :: exprsOf primExprs (.leaf (.gate (.fixed .Z 0) none) none)) = true from rfl, h1]
  rfl

/-! ## A case which meets the hypotheses -/

section
/-- `y * chain(RX(0, x), CNOT(0, 1))`. -/
def exBlock : Block Prim :=
  .scale (.comp .chain [.leaf (.gate (.rot .RX 0 (.var "x")) none) none, .leaf (.gate (.cnot 0 1) none) none] none) (.var "y") none

theorem exGood (W : ParamWorld T) (cfg : Config) : EveryScale (GoodPrim W cfg) (ScaleOk W cfg primExprs) exBlock := by
  refine .scale _ (.comp _ _ ?_) ?_
  · intro b hb
    simp only [List.mem_cons, List.not_mem_nil, or_false] at hb
    rcases hb with rfl | rfl
    · exact .leaf _ ⟨.rot _ _ _, by simp⟩
    · exact .leaf _ ⟨.cnot _ _, by simp [Gate.cnot]⟩
  · intro _ _
    exact ⟨by simp [Expr.isNumber], fun _ => ⟨trivial, by simp [Expr.freeSymbols]⟩⟩

/-- Strings of parameters are their names. -/
def exWorld : ParamWorld ℚ where
  str := fun e => match e with
    | .var x => x
    | _ => ""
  numeric := fun _ => .int 0
  trainable := fun _ => false
  value := fun _ => .int 0
  isTime := fun _ => false
  tensor := fun _ => 0
  one := 1
  apply := fun _ _ => .error .keyError
  uniq := id
  uniqS := id

def exEnv : Env := ⟨fun x => if x = "y" then 3 else 2, fun _ z => z⟩

noncomputable def exValues : Values := ⟨fun e => some (eval exEnv e), fun s => some (exEnv.var s), eval exEnv, fun _ z => z⟩

theorem exDelivers (u : Bool) : Delivers exWorld ⟨u, false, fun _ => false, true⟩ exValues exEnv (exprsOf primExprs exBlock) := by
  refine ⟨fun _ _ => rfl, fun _ _ _ => rfl, fun _ e he => ?_, fun _ _ _ _ _ => rfl, fun _ => rfl⟩
  simp only [exBlock, exprsOf, exprsOfAll, primExprs, gateExprs, Gate.cnot, List.append_nil, List.mem_cons, List.not_mem_nil,
    or_false] at he
  rcases he with rfl | rfl <;> rfl

example {ord : List ℕ → List ℕ} (ho : SetOrder ord) (u : Bool) :
    ∃ o, convBlock exWorld ⟨u, false, fun _ => false, true⟩ (primConv exWorld ⟨u, false, fun _ => false, true⟩ ord) ord exBlock = .ok o ∧
      runNative (n := 2) exValues o = .ok (sem (primSem 2 exEnv ord ho) exEnv exBlock) := by
  have h : ∃ o, convBlock exWorld ⟨u, false, fun _ => false, true⟩ (primConv exWorld ⟨u, false, fun _ => false, true⟩ ord) ord exBlock =
      .ok o := by
    cases u <;>
      simp [exBlock, convBlock, convBlocks, primConv, convPrim, convGate, convCtrl, digitalNoise, scaleParam, anyParam, parseName, reread,
        sympyToPyq, Expr.isNumber, Gate.cnot, ok_bind, pure_eq_ok, exprsOf, exprsOfAll, primExprs, gateExprs]
  obtain ⟨o, h⟩ := h
  exact ⟨o, h, C72_operator_partial ho (exGood _ _) (exDelivers u) h⟩
end

end Pyq

end Qadence
