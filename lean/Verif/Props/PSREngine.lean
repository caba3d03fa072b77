import Mathlib.Analysis.Calculus.Deriv.Prod
import Verif.Model.PSREngine
import Verif.Props.PSRCircuit
import Verif.Props.AnalogRun

/-!
# Gradients of the parameter-shift engine (C80)
-/

namespace Qadence.PSR

open Real Qadence.Spec Matrix

variable {ι : Type} {n : ℕ}

/-! ### Names and their blocks -/

theorem exprUuids_subset {e : Expr} {u : String} (h : u ∈ exprUuids e) : u ∈ e.freeSymbols := by
  cases e <;> simp_all [exprUuids, Expr.freeSymbols]

theorem gateUuids_subset {g : Gate} {u : String} (h : u ∈ gateUuids g) : u ∈ gateVars g := by
  induction g with
  | rot _ _ θ => exact exprUuids_subset h
  | u _ φ θ ω =>
    simp only [gateUuids, gateVars, List.mem_append] at h ⊢
    exact h.imp (Or.imp exprUuids_subset exprUuids_subset) exprUuids_subset
  | control _ _ g ih => exact ih h
  | _ => simp [gateUuids] at h

theorem setAll_other {us : List String} {u : String} (h : u ∉ us) (s : Src) (d : PyDict String Src) :
    PyDict.get? (setAll d us s) u = PyDict.get? d u := by
  induction us generalizing d with
  | nil => rfl
  | cons a us ih =>
    rw [List.mem_cons, not_or] at h
    rw [setAll, List.foldl_cons, ← setAll, ih h.2, PyDict.get?_set, if_neg (Ne.symm h.1)]

theorem setAll_mem {us : List String} {u : String} (h : u ∈ us) (s : Src) (d : PyDict String Src) :
    PyDict.get? (setAll d us s) u = some s := by
  induction us generalizing d with
  | nil => simp at h
  | cons a us ih =>
    rw [setAll, List.foldl_cons, ← setAll]
    by_cases hu : u ∈ us
    · exact ih hu _
    · rcases List.mem_cons.1 h with rfl | h
      · rw [setAll_other hu, PyDict.get?_set, if_pos rfl]
      · exact absurd h hu

section
variable {L : Type} {leaf : L → PyDict String Src → PyDict String Src} {sc : Block L → Src} {f : L → List String}

mutual
theorem collect_other (hl : ∀ l u d, u ∉ f l → PyDict.get? (leaf l d) u = PyDict.get? d u) {u : String} (b : Block L)
    (d : PyDict String Src) (h : u ∉ gather f Expr.freeSymbols b) :
    PyDict.get? (collect leaf sc b d) u = PyDict.get? d u := by
  cases b with
  | leaf l t => exact hl l u d h
  | scale b s t =>
    rw [gather, List.mem_append, not_or] at h
    rw [collect, collect_other hl b _ h.2, setAll_other (fun hu => h.1 (exprUuids_subset hu))]
  | comp k bs t =>
    rw [gather] at h
    rw [collect, collectList_other hl bs d h]
theorem collectList_other (hl : ∀ l u d, u ∉ f l → PyDict.get? (leaf l d) u = PyDict.get? d u) {u : String}
    (bs : List (Block L)) (d : PyDict String Src) (h : u ∉ gatherList f Expr.freeSymbols bs) :
    PyDict.get? (collectList leaf sc bs d) u = PyDict.get? d u := by
  cases bs with
  | nil => rfl
  | cons b bs =>
    rw [gatherList, List.mem_append, not_or] at h
    rw [collectList, collectList_other hl bs _ h.2, collect_other hl b d h.1]
end

end

theorem gateLeaf_other (g : Gate) (u : String) (d : PyDict String Src) (h : u ∉ gateVars g) :
    PyDict.get? (gateLeaf g d) u = PyDict.get? d u := setAll_other (fun hu => h (gateUuids_subset hu)) _ _

theorem primLeaf_other (l : Prim) (u : String) (d : PyDict String Src) (h : u ∉ primVars l) :
    PyDict.get? (primLeaf l d) u = PyDict.get? d u := by
  cases l with
  | gate g _ => exact gateLeaf_other g u d h
  | hamEvo gen t =>
    rw [primVars, List.mem_append, not_or] at h
    rw [primLeaf, setAll_other (fun hu => h.2 (exprUuids_subset hu)), collect_other gateLeaf_other gen d h.1]

theorem collectList_append {L : Type} (leaf : L → PyDict String Src → PyDict String Src) (sc : Block L → Src)
    (l l' : List (Block L)) (d : PyDict String Src) :
    collectList leaf sc (l ++ l') d = collectList leaf sc l' (collectList leaf sc l d) := by
  induction l generalizing d with
  | nil => rfl
  | cons b l ih => rw [List.cons_append, collectList, ih, collectList]

theorem gatherList_not_mem {u : String} {l : List (Block Prim)} (h : ∀ c ∈ l, u ∉ vars c) :
    u ∉ gatherList primVars Expr.freeSymbols l := by
  induction l with
  | nil => simp [gatherList]
  | cons c l ih =>
    rw [gatherList, List.mem_append, not_or]
    exact ⟨h c (by simp), ih fun c hc => h c (by simp [hc])⟩

/-- A parameter which occurs in one primitive block belongs to this block. -/
theorem collect_onlyIn {u : String} {l : Prim} {s : Src} (hl : ∀ d, PyDict.get? (primLeaf l d) u = some s)
    {b : Block Prim} (hb : OnlyIn u l b) : ∀ d, PyDict.get? (collect primLeaf .scale b d) u = some s := by
  induction hb with
  | leaf t => exact hl
  | scale s t _ _ ih => intro d; rw [collect, ih]
  | @comp b k hk pre post t _ _ hpost ih =>
    intro d
    rw [collect, collectList_append, collectList, collectList_other primLeaf_other _ _ (gatherList_not_mem hpost), ih]

theorem GateOf.mem {u : String} {g : Gate} (h : GateOf u g) : u ∈ gateUuids g := by
  cases h <;> simp [gateUuids, exprUuids]

theorem GateOf.eig {u : String} {g : Gate} (h : GateOf u g) (e : Eigs) : gateEig e g = .ok (gateSpectrum g) := by
  cases h <;> try rfl
  rename_i cls cs g q _ _
  cases cls <;> rfl

theorem GateOf.spectrum_ne {u : String} {g : Gate} (h : GateOf u g) : gateSpectrum g ≠ [] := by
  cases h with
  | rot g q => cases g <;> simp [gateSpectrum]
  | control cls cs g q => cases g <;> simp [gateSpectrum]
  | _ => simp [gateSpectrum]

theorem uuidToEigen_get {e : Eigs} {rescale : Bool} {d : PyDict String Src} {r : PyDict String (List ℝ × ℝ)}
    (h : uuidToEigen e rescale d = .ok r) {u : String} {s : Src} (hu : PyDict.get? d u = some s) {v : List ℝ × ℝ}
    (hv : eigenEntry e rescale s = .ok (some v)) : PyDict.get? r u = some v := by
  induction d generalizing r with
  | nil => simp [PyDict.get?] at hu
  | cons x d ih =>
    obtain ⟨a, sa⟩ := x
    rw [uuidToEigen] at h
    cases he : eigenEntry e rescale sa with
    | error err => rw [he] at h; cases h
    | ok o =>
      cases hr : uuidToEigen e rescale d with
      | error err => rw [he, hr] at h; cases h
      | ok rest =>
        rw [he, hr] at h
        cases h
        by_cases hau : a = u
        · subst hau
          have : sa = s := by simpa [PyDict.get?] using hu
          subst this
          rw [hv] at he
          cases he
          simp [PyDict.get?]
        · have hu' : PyDict.get? d u = some s := by simpa [PyDict.get?, hau] using hu
          have := ih hr hu'
          cases o with
          | none => exact this
          | some w => simpa [PyDict.get?, hau] using this

theorem uuidToEigen_keys {e : Eigs} {rescale : Bool} {d : PyDict String Src} {r : PyDict String (List ℝ × ℝ)}
    (h : uuidToEigen e rescale d = .ok r) : ∀ u ∈ PyDict.keys r, u ∈ PyDict.keys d := by
  induction d generalizing r with
  | nil => cases h; simp [PyDict.keys]
  | cons x d ih =>
    obtain ⟨a, sa⟩ := x
    rw [uuidToEigen] at h
    cases he : eigenEntry e rescale sa with
    | error err => rw [he] at h; cases h
    | ok o =>
      cases hr : uuidToEigen e rescale d with
      | error err => rw [he, hr] at h; cases h
      | ok rest =>
        rw [he, hr] at h
        cases h
        intro u hu
        cases o with
        | none => exact List.mem_cons_of_mem _ (ih hr u hu)
        | some w =>
          rcases List.mem_cons.1 hu with rfl | hu
          · exact List.mem_cons_self
          · exact List.mem_cons_of_mem _ (ih hr u hu)

theorem uuidToBlockObs_keys {o : Block Gate} {u : String} (h : u ∉ gather gateVars Expr.freeSymbols o) :
    u ∉ PyDict.keys (uuidToBlockObs o) := by
  have := collect_other (sc := .scaleGen) gateLeaf_other o [] h
  exact PyDict.get?_eq_none_iff.1 this

theorem zeros_get {us : List String} {u : String} (h : u ∉ us) (d : PyDict String RuleFn) :
    PyDict.get? (us.foldl (fun d u => PyDict.set d u .zero) d) u = PyDict.get? d u := by
  induction us generalizing d with
  | nil => rfl
  | cons a us ih =>
    rw [List.mem_cons, not_or] at h
    rw [List.foldl_cons, ih h.2, PyDict.get?_set, if_neg (Ne.symm h.1)]

/-- The rule for a parameter which is not in an observable. -/
theorem constructRules_get {e : Eigs} {a : PsrArgs} {b : Block Prim} {obs : List (Block Gate)}
    {rules : PyDict String RuleFn} (h : constructRules e a b obs = .ok rules) {u : String} {s : Src}
    (hs : PyDict.get? (uuidToBlock b) u = some s) {l : List ℝ} {c : ℝ}
    (hv : eigenEntry e true s = .ok (some (l, c)))
    (ho : ∀ o ∈ obs, u ∉ gather gateVars Expr.freeSymbols o) :
    PyDict.get? rules u = some (.psr l (a.scaled c)) := by
  unfold constructRules at h
  cases hr : uuidToEigen e true (uuidToBlock b) with
  | error err => rw [hr] at h; cases h
  | ok r =>
    cases hos : obs.mapM (fun o => uuidToEigen e false (uuidToBlockObs o)) with
    | error err => rw [hr, hos] at h; cases h
    | ok os =>
      rw [hr, hos] at h
      cases h
      rw [zeros_get]
      · have hg := uuidToEigen_get hr hs hv
        clear hr
        induction r with
        | nil => simp [PyDict.get?] at hg
        | cons x r ih =>
          by_cases hx : x.1 = u
          · have : x.2 = (l, c) := by simpa [PyDict.get?, hx] using hg
            simp [PyDict.get?, hx, this]
          · have : PyDict.get? r u = some (l, c) := by simpa [PyDict.get?, hx] using hg
            simpa [PyDict.get?, hx] using ih this
      · rw [List.mem_flatMap]
        rintro ⟨k, hk, hu⟩
        have : ∀ (obs : List (Block Gate)) (os : List (PyDict String (List ℝ × ℝ))),
            obs.mapM (fun o => uuidToEigen e false (uuidToBlockObs o)) = .ok os → k ∈ os →
            ∃ o ∈ obs, uuidToEigen e false (uuidToBlockObs o) = .ok k := by
          intro obs
          induction obs with
          | nil => intro os h hk; cases h; simp at hk
          | cons o obs ih =>
            intro os h hk
            rw [List.mapM_cons] at h
            cases ho : uuidToEigen e false (uuidToBlockObs o) with
            | error err => rw [ho] at h; cases h
            | ok r =>
              cases hrest : obs.mapM (fun o => uuidToEigen e false (uuidToBlockObs o)) with
              | error err => rw [ho, hrest] at h; cases h
              | ok rest =>
                rw [ho, hrest] at h
                cases h
                rcases List.mem_cons.1 hk with rfl | hk
                · exact ⟨o, by simp, ho⟩
                · obtain ⟨o', h1, h2⟩ := ih rest hrest hk
                  exact ⟨o', by simp [h1], h2⟩
        obtain ⟨o, ho1, ho2⟩ := this obs os hos hk
        exact uuidToBlockObs_keys (ho o ho1) (uuidToEigen_keys ho2 u hu)

/-! ### Keys -/

theorem setAll_wf (us : List String) (s : Src) {d : PyDict String Src} (h : PyDict.WF d) : PyDict.WF (setAll d us s) := by
  induction us generalizing d with
  | nil => exact h
  | cons a us ih =>
    rw [setAll, List.foldl_cons, ← setAll]
    exact ih (PyDict.WF_set _ _ _ h)

mutual
theorem collect_wf {L : Type} {leaf : L → PyDict String Src → PyDict String Src} {sc : Block L → Src}
    (hl : ∀ l d, PyDict.WF d → PyDict.WF (leaf l d)) (b : Block L) (d : PyDict String Src) (h : PyDict.WF d) :
    PyDict.WF (collect leaf sc b d) := by
  cases b with
  | leaf l t => exact hl l d h
  | scale b s t => rw [collect]; exact collect_wf hl b _ (setAll_wf _ _ h)
  | comp k bs t => rw [collect]; exact collectList_wf hl bs d h
theorem collectList_wf {L : Type} {leaf : L → PyDict String Src → PyDict String Src} {sc : Block L → Src}
    (hl : ∀ l d, PyDict.WF d → PyDict.WF (leaf l d)) (bs : List (Block L)) (d : PyDict String Src) (h : PyDict.WF d) :
    PyDict.WF (collectList leaf sc bs d) := by
  cases bs with
  | nil => exact h
  | cons b bs => rw [collectList]; exact collectList_wf hl bs _ (collect_wf hl b d h)
end

theorem primLeaf_wf (l : Prim) (d : PyDict String Src) (h : PyDict.WF d) : PyDict.WF (primLeaf l d) := by
  cases l with
  | gate g _ => exact setAll_wf _ _ h
  | hamEvo gen t => exact setAll_wf _ _ (collect_wf (fun g d h => setAll_wf _ _ h) gen d h)

theorem uuidToEigen_sublist {e : Eigs} {rescale : Bool} {d : PyDict String Src} {r : PyDict String (List ℝ × ℝ)}
    (h : uuidToEigen e rescale d = .ok r) : (r.map Prod.fst).Sublist (d.map Prod.fst) := by
  induction d generalizing r with
  | nil => cases h; simp
  | cons x d ih =>
    obtain ⟨a, sa⟩ := x
    rw [uuidToEigen] at h
    cases he : eigenEntry e rescale sa with
    | error err => rw [he] at h; cases h
    | ok o =>
      cases hr : uuidToEigen e rescale d with
      | error err => rw [he, hr] at h; cases h
      | ok rest =>
        rw [he, hr] at h
        cases h
        cases o with
        | none => exact (ih hr).cons _
        | some w => exact (ih hr).cons_cons _

theorem constructRules_wf {e : Eigs} {a : PsrArgs} {b : Block Prim} {obs : List (Block Gate)}
    {rules : PyDict String RuleFn} (h : constructRules e a b obs = .ok rules) : PyDict.WF rules := by
  unfold constructRules at h
  cases hr : uuidToEigen e true (uuidToBlock b) with
  | error err => rw [hr] at h; cases h
  | ok r =>
    cases hos : obs.mapM (fun o => uuidToEigen e false (uuidToBlockObs o)) with
    | error err => rw [hr, hos] at h; cases h
    | ok os =>
      rw [hr, hos] at h
      cases h
      have hw : PyDict.WF (r.map (fun x => (x.1, RuleFn.psr x.2.1 (a.scaled x.2.2)))) := by
        unfold PyDict.WF
        rw [List.map_map]
        exact (uuidToEigen_sublist hr).nodup (collect_wf primLeaf_wf b [] (by simp [PyDict.WF]))
      generalize os.flatMap PyDict.keys = us
      revert hw
      generalize r.map (fun x => (x.1, RuleFn.psr x.2.1 (a.scaled x.2.2))) = d
      intro hw
      induction us generalizing d with
      | nil => exact hw
      | cons u us ih => exact ih _ (PyDict.WF_set _ _ _ hw)

/-! ### Rules see only the shifted values -/

theorem difference_congr {f g : ExpFn ι} {p : Params} {u : String} (h : ∀ x, f (PyDict.set p u x) = g (PyDict.set p u x))
    (s : ℝ) : difference f p u s = difference g p u s := by
  unfold difference shifted
  cases PyDict.get? p u with
  | none => rfl
  | some v =>
    show (f _ >>= fun a => f _ >>= _) = (g _ >>= fun a => g _ >>= _)
    rw [h, h]

theorem generalPsr_congr {f g : ExpFn ι} {p : Params} {u : String} (h : ∀ x, f (PyDict.set p u x) = g (PyDict.set p u x))
    (optimal : (gaps : List ℝ) → Fin gaps.length → ℝ) (l : List ℝ) (o : Options) :
    generalPsr optimal l o f p u = generalPsr optimal l o g p u := by
  have hd := difference_congr h
  simp only [generalPsr, singleGapPsr, multiGapPsr, hd]

/-! ### Gradients -/

/-- Parameters for which the engine has an exact rule with the default configuration: angles of rotations, controlled
rotations and `U` gates, and durations of evolutions as in C61. -/
inductive Good (n : ℕ) (e : Eigs) (fn : String → ℂ → ℂ) (p : Params) (b : Block Prim) (u : String) : Prop
  | gate (g : Gate) (noise : Option (NoiseHandler ℚ)) : GateOf u g → OnlyIn u (.gate g noise) b → Good n e fn p b u
  | evo (gen : Block Gate) : OnlyIn u (.hamEvo gen (.var u)) b → u ∉ gather gateVars Expr.freeSymbols gen →
      2 ≤ (e.evo gen).length → (sem (gateSem n (envOf fn p)) (envOf fn p) gen).IsHermitian →
      (∀ (a : ℝ) (w : St n → ℂ), w ≠ 0 → sem (gateSem n (envOf fn p)) (envOf fn p) gen *ᵥ w = (a : ℂ) • w →
        a ∈ e.evo gen) →
      (∀ a ∈ e.evo gen, ∀ b ∈ e.evo gen, OnGrid (a * 2 - b * 2)) →
      Solvable (spectralGaps ((e.evo gen).map fun e => e * 2)) (0.5 * 0.5) → Good n e fn p b u

/-- **C80** Every such parameter has a rule, and the rule returns the derivatives of the expectation values. -/
theorem C80_rule (optimal : (gaps : List ℝ) → Fin gaps.length → ℝ) {e : Eigs} {b : Block Prim} {obs : List (Block Gate)}
    {rules : PyDict String RuleFn} (hr : constructRules e .ofConfig b obs = .ok rules) (fn : String → ℂ → ℂ)
    {ord : List ℕ → List ℕ} (ho : Block.SetOrder ord) (O : ι → Oper n) (ψ : St n → ℂ) {p : Params} {u : String}
    (hu : Good n e fn p b u) (hobs : ∀ o ∈ obs, u ∉ gather gateVars Expr.freeSymbols o) {v : ℝ}
    (hv : PyDict.get? p u = some v) {f : ExpFn ι}
    (hf : ∀ x, f (PyDict.set p u x) = .ok (circuitExp fn ho O ψ b (PyDict.set p u x))) :
    ∃ r d, PyDict.get? rules u = some r ∧ callRule optimal r f p u = .ok d ∧
      ∀ i, HasDerivAt (fun x => circuitExp fn ho O ψ b (PyDict.set p u x) i) (d i) v := by
  have h1 : PsrArgs.options .ofConfig = {} := rfl
  cases hu with
  | gate g noise hg hb =>
    have hs : PyDict.get? (uuidToBlock b) u = some (.gate g) :=
      collect_onlyIn (l := .gate g noise) (fun d => setAll_mem hg.mem _ d) hb []
    have he : eigenEntry e true (.gate g) = .ok (some (gateSpectrum g, 1)) := by
      unfold eigenEntry
      rw [srcEig, hg.eig]
      cases hl : gateSpectrum g with
      | nil => exact absurd hl hg.spectrum_ne
      | cons a l => rfl
    have hrule := constructRules_get hr hs he hobs
    obtain ⟨d, h2, h3⟩ := C61_gates optimal e.evo fn ho O ψ hg hb hv
    refine ⟨_, d, hrule, ?_, h3⟩
    rw [callRule, PsrArgs.scaled, if_pos rfl, h1, generalPsr_congr (g := fun p => .ok (circuitExp fn ho O ψ b p)) hf]
    rw [primRule] at h2
    exact (if_pos (show (primSpectrum e.evo (.gate g noise)).2 = 1 from rfl)).symm.trans h2
  | evo gen hb hgen hlen hH hev hgrid hs =>
    have hsrc : PyDict.get? (uuidToBlock b) u = some (.evo gen) :=
      collect_onlyIn (l := .hamEvo gen (.var u)) (fun d => setAll_mem (by simp [exprUuids]) _ _) hb []
    have he : eigenEntry e true (.evo gen) = .ok (some ((e.evo gen).map (fun x => x * 2), 0.5)) := by
      unfold eigenEntry
      rw [srcEig]
      cases hl : e.evo gen with
      | nil => simp [hl] at hlen
      | cons a l =>
        cases l with
        | nil => simp [hl] at hlen
        | cons a' l => rfl
    have hrule := constructRules_get hr hsrc he hobs
    obtain ⟨d, h2, h3⟩ := C61_evolution optimal e.evo fn ho O ψ hb hgen hv hH hev hgrid hs
    refine ⟨_, d, hrule, ?_, h3⟩
    have h5 : ((0.5 : ℝ) = 1) = False := by norm_num
    rw [callRule, generalPsr_congr (g := fun p => .ok (circuitExp fn ho O ψ b p)) hf]
    rw [primRule] at h2
    have h4 : (PsrArgs.scaled .ofConfig 0.5).options = { shiftPrefac := some (0.5 * 0.5) } := by
      rw [PsrArgs.scaled, if_neg (by norm_num)]
      rfl
    rw [h4]
    exact (if_neg (show ¬(primSpectrum e.evo (.hamEvo gen (.var u))).2 = 1 by
      show ¬((0.5 : ℝ) = 1); norm_num)).symm.trans h2

theorem mapM_keyed {α β : Type} {step : String × α → Except PyErr (String × β)} {P : String → α → β → Prop}
    (l : List (String × α)) (h : ∀ x ∈ l, ∃ y, step x = .ok (x.1, y) ∧ P x.1 x.2 y) :
    ∃ gs, l.mapM step = .ok gs ∧ gs.map Prod.fst = l.map Prod.fst ∧
      ∀ u r, PyDict.get? l u = some r → ∃ y, PyDict.get? gs u = some y ∧ P u r y := by
  induction l with
  | nil => exact ⟨[], rfl, rfl, fun u r h => by simp [PyDict.get?] at h⟩
  | cons x l ih =>
    obtain ⟨y, h1, h2⟩ := h x (by simp)
    obtain ⟨gs, h3, h4, h5⟩ := ih fun x hx => h x (by simp [hx])
    refine ⟨(x.1, y) :: gs, ?_, by simp [h4], ?_⟩
    · rw [List.mapM_cons, h1, h3]
      rfl
    · intro u r hu
      by_cases hx : x.1 = u
      · have : x.2 = r := by simpa [PyDict.get?, hx] using hu
        subst this
        subst hx
        exact ⟨y, by simp [PyDict.get?], h2⟩
      · have hu' : PyDict.get? l u = some r := by simpa [PyDict.get?, hx] using hu
        obtain ⟨y', h6, h7⟩ := h5 u r hu'
        exact ⟨y', by simpa [PyDict.get?, hx] using h6, h7⟩

/-- **C80** If the parameters that need gradients are angles and durations as above and not parameters of observables,
the backward pass succeeds. It returns for each of them the derivative of the expectation values contracted with the
incoming gradient (over all batch elements and observables), and nothing for the others. -/
theorem C80_backward [Fintype ι] (optimal : (gaps : List ℝ) → Fin gaps.length → ℝ) {e : Eigs} {b : Block Prim}
    {obs : List (Block Gate)} {rules : PyDict String RuleFn} (hr : constructRules e .ofConfig b obs = .ok rules)
    (fn : String → ℂ → ℂ) {ord : List ℕ → List ℕ} (ho : Block.SetOrder ord) (O : ι → Oper n) (ψ : St n → ℂ) {p : Params}
    (hp : ∀ u ∈ PyDict.keys rules, (PyDict.get? p u).isSome) {f : ExpFn ι}
    (hf : ∀ q, (∀ u ∈ PyDict.keys rules, (PyDict.get? q u).isSome) → f q = .ok (circuitExp fn ho O ψ b q))
    (needs : String → Bool)
    (hn : ∀ u ∈ PyDict.keys rules, needs u = true →
      Good n e fn p b u ∧ ∀ o ∈ obs, u ∉ gather gateVars Expr.freeSymbols o) (w : ι → ℝ) :
    ∃ gs, psrBackward optimal rules f p needs w = .ok gs ∧ PyDict.keys gs = PyDict.keys rules ∧
      (∀ u ∈ PyDict.keys rules, needs u = false → PyDict.get? gs u = some none) ∧
      ∀ u ∈ PyDict.keys rules, needs u = true → ∃ x v, PyDict.get? gs u = some (some x) ∧ PyDict.get? p u = some v ∧
        HasDerivAt (fun y => ∑ i, w i * circuitExp fn ho O ψ b (PyDict.set p u y) i) x v := by
  have hwf := constructRules_wf hr
  obtain ⟨gs, h1, h2, h3⟩ := mapM_keyed (step := fun x : String × RuleFn =>
      if needs x.1 then do
        let d ← callRule optimal x.2 f p x.1
        return (x.1, some (∑ i, w i * d i))
      else return (x.1, none))
    (P := fun u _ y => (needs u = false → y = none) ∧ (needs u = true → ∃ x v, y = some x ∧ PyDict.get? p u = some v ∧
        HasDerivAt (fun y => ∑ i, w i * circuitExp fn ho O ψ b (PyDict.set p u y) i) x v)) rules (by
    rintro ⟨u, r⟩ hx
    have hk : u ∈ PyDict.keys rules := List.mem_map.2 ⟨_, hx, rfl⟩
    by_cases hu : needs u = true
    · obtain ⟨hg, hobs⟩ := hn u hk hu
      obtain ⟨v, hv⟩ := Option.isSome_iff_exists.1 (hp u hk)
      obtain ⟨r', d, h1, h2, h3⟩ := C80_rule optimal hr fn ho O ψ hg hobs hv (f := f) fun x => hf _ fun y hy => by
        rw [PyDict.get?_set]
        split
        · rfl
        · exact hp y hy
      rw [PyDict.get?_eq_some_of_mem hwf hx] at h1
      cases h1
      refine ⟨some (∑ i, w i * d i), ?_, by simp [hu], fun _ => ⟨_, v, rfl, hv, ?_⟩⟩
      · simp only [hu, if_true, h2]
        rfl
      · exact HasDerivAt.fun_sum fun i _ => (h3 i).const_mul (w i)
    · refine ⟨none, ?_, fun _ => rfl, fun h => absurd h hu⟩
      simp only [hu]
      rfl)
  refine ⟨gs, h1, h2, fun u hk hu => ?_, fun u hk hu => ?_⟩
  · obtain ⟨r, hr'⟩ := Option.isSome_iff_exists.1 (PyDict.get?_isSome_iff.2 hk)
    obtain ⟨y, h4, h5, _⟩ := h3 u r hr'
    rw [h4, h5 hu]
  · obtain ⟨r, hr'⟩ := Option.isSome_iff_exists.1 (PyDict.get?_isSome_iff.2 hk)
    obtain ⟨y, h4, _, h5⟩ := h3 u r hr'
    obtain ⟨x, v, rfl, h6, h7⟩ := h5 hu
    exact ⟨x, v, h4, h6, h7⟩

/-- **C80** The forward pass evaluates the expectation values at the given values of the parameters with rules. -/
theorem C80_forward {rules : PyDict String RuleFn} {p : Params} (hp : ∀ u ∈ PyDict.keys rules, (PyDict.get? p u).isSome)
    (f : ExpFn ι) : ∃ q, psrForward rules f p = f q ∧ PyDict.keys q = PyDict.keys rules ∧
      ∀ u ∈ PyDict.keys rules, PyDict.get? q u = PyDict.get? p u := by
  have key : ∀ ks : List String, (∀ u ∈ ks, (PyDict.get? p u).isSome) → ∃ q, restrict p ks = .ok q ∧
      PyDict.keys q = ks ∧ ∀ u ∈ ks, PyDict.get? q u = PyDict.get? p u := by
    intro ks h
    induction ks with
    | nil => exact ⟨[], rfl, rfl, by simp⟩
    | cons k ks ih =>
      obtain ⟨q, h1, h2, h3⟩ := ih fun u hu => h u (by simp [hu])
      obtain ⟨v, hv⟩ := Option.isSome_iff_exists.1 (h k (by simp))
      refine ⟨(k, v) :: q, ?_, by rw [← h2]; rfl, ?_⟩
      · unfold restrict at h1 ⊢
        rw [List.mapM_cons, h1, item, hv]
        rfl
      · intro u hu
        by_cases hk : k = u
        · subst hk
          simp [PyDict.get?, hv]
        · have : u ∈ ks := by
            rcases List.mem_cons.1 hu with rfl | h
            · exact absurd rfl hk
            · exact h
          simpa [PyDict.get?, hk] using h3 u this
  obtain ⟨q, h1, h2, h3⟩ := key _ hp
  exact ⟨q, by rw [psrForward, h1]; rfl, h2, h3⟩

/-- **C80** From gate parameters to the parameters of the user: if the gate parameters are differentiable functions of a
parameter and the numbers `d` are the derivatives with respect to the gate parameters, then the sum which torch computes
is the derivative with respect to the parameter, also if several gates depend on it. -/
theorem C80_chain {m : ℕ} {F : (Fin m → ℝ) → ℝ} {c : ℝ → Fin m → ℝ} {c' d : Fin m → ℝ} {θ : ℝ}
    (hF : DifferentiableAt ℝ F (c θ)) (hc : ∀ j, HasDerivAt (fun x => c x j) (c' j) θ)
    (hd : ∀ j, HasDerivAt (fun y => F (Function.update (c θ) j y)) (d j) (c θ j)) :
    HasDerivAt (fun x => F (c x)) (∑ j, d j * c' j) θ := by
  have h1 : HasDerivAt c c' θ := hasDerivAt_pi.2 hc
  have h2 := hF.hasFDerivAt.comp_hasDerivAt θ h1
  have h3 : ∀ j, fderiv ℝ F (c θ) (Pi.single j 1) = d j := by
    intro j
    have hu : HasDerivAt (fun y => Function.update (c θ) j y) (Pi.single j 1) (c θ j) := by
      rw [hasDerivAt_pi]
      intro i
      by_cases hi : i = j
      · subst hi
        simpa using hasDerivAt_id' (c θ i)
      · simpa [Function.update_of_ne hi, Pi.single_eq_of_ne hi] using hasDerivAt_const (c θ j) (c θ i)
    have hF' : HasFDerivAt F (fderiv ℝ F (c θ)) (Function.update (c θ) j (c θ j)) := by
      rw [Function.update_eq_self]
      exact hF.hasFDerivAt
    exact (hF'.comp_hasDerivAt (c θ j) hu).unique (hd j)
  have h4 : fderiv ℝ F (c θ) c' = ∑ j, d j * c' j := by
    conv_lhs => rw [← Finset.univ_sum_single c', map_sum]
    refine Finset.sum_congr rfl fun j _ => ?_
    rw [show Pi.single j (c' j) = c' j • (Pi.single j 1 : Fin m → ℝ) by
      ext i; by_cases hi : i = j
      · subst hi; simp
      · simp [Pi.single_eq_of_ne hi], map_smul, h3, smul_eq_mul, mul_comm]
  rw [← h4]
  exact h2

/-! ### Where the engine is wrong or fails -/

/-- HamEvo(a Z(0), 1) -/
def genDemo : Block Prim := .leaf (.hamEvo (.scale (.leaf (.fixed .Z 0) none) (.var "a") none) (.num 1 0)) none

/-- ⟨X⟩ after the evolution of |+⟩ under a Z during time 1. -/
theorem genDemo_exp (fn : String → ℂ → ℂ) {ord : List ℕ → List ℕ} (ho : Block.SetOrder ord) (p : Params) (a : ℝ) :
    circuitExp fn ho (fun _ : Unit => (embed1 0 (mat1 .X) : Oper 1)) (fun _ => (1 / √2 : ℝ)) genDemo
      (PyDict.set p "a" a) = fun _ => cos (2 * a) := by
  funext _
  have hz : (embed1 0 (mat1 .Z) : Oper 1) * embed1 0 (mat1 .Z) = 1 := by
    rw [embed1_mul (by decide)]
    have : mat1 .Z * mat1 .Z = 1 := by
      ext a b
      rw [Matrix.mul_apply]
      cases a <;> cases b <;> simp [mat1]
    rw [this, embed1_one]
  have hU : sem (primSem 1 (envOf fn (PyDict.set p "a" a)) ord ho) (envOf fn (PyDict.set p "a" a)) genDemo =
      Complex.cos a • (1 : Oper 1) + (-Complex.I * Complex.sin a) • embed1 0 (mat1 .Z) := by
    have h1 : eval (envOf fn (PyDict.set p "a" a)) (.var "a") = (a : ℂ) := by
      simp [eval, envOf, PyDict.get?_set]
    have h2 : eval (envOf fn (PyDict.set p "a" a)) (.num 1 0) = 1 := by
      simp [eval, Complex.ext_iff]
    show evolution (eval (envOf fn (PyDict.set p "a" a)) (.num 1 0))
      (eval (envOf fn (PyDict.set p "a" a)) (.var "a") • embed1 0 (mat1 .Z)) = _
    rw [h1, h2, evolution, smul_smul, mul_one]
    exact exp_invol_I _ hz a
  rw [circuitExp, hU, expVal]
  have hs : ∀ F : St 1 → ℂ, ∑ x, F x = F (fun _ => false) + F (fun _ => true) := by
    intro F
    rw [Fintype.sum_equiv (Equiv.funUnique (Fin 1) Bool) F (fun b => F (fun _ => b)) (fun x => by
      congr 1; funext i; rw [Subsingleton.elim i default]; rfl), Fintype.sum_bool, add_comm]
  have hsq : ((√2 : ℝ) : ℂ) * ((√2 : ℝ) : ℂ) = 2 := by
    rw [← Complex.ofReal_mul, Real.mul_self_sqrt (by norm_num)]
    norm_num
  have he : ∀ (M : Matrix Bool Bool ℂ) (x y : Bool), (embed1 0 M : Oper 1) (fun _ => x) (fun _ => y) = M x y := by
    intro M x y
    simp [embed1, bit]
  have h1 : ∀ x y : Bool, (1 : Oper 1) (fun _ => x) (fun _ => y) = if x = y then 1 else 0 := by
    intro x y
    rw [Matrix.one_apply]
    congr 1
    simp [funext_iff]
  simp only [dotProduct, mulVec, hs, Matrix.add_apply, Matrix.smul_apply, he, h1, Pi.star_apply, smul_eq_mul,
    ← Complex.ofReal_cos, ← Complex.ofReal_sin, one_div]
  have hinv : (√2)⁻¹ * (√2)⁻¹ = 1 / 2 := by
    rw [← mul_inv, Real.mul_self_sqrt (by norm_num)]
    norm_num
  rw [Real.cos_two_mul']
  generalize cos a = c
  generalize sin a = s
  generalize (√2)⁻¹ = r at hinv
  simp [mat1, ind]
  linear_combination (2 * (c ^ 2 - s ^ 2)) * hinv

theorem genDemo_rules (e : Eigs) : constructRules e .ofConfig genDemo [] = .ok [("a", .psr [-1, 1] .ofConfig)] := by
  have h1 : uuidToBlock genDemo = [("a", .scaleGen (.leaf (.fixed .Z 0) none))] := rfl
  have h2 : (PsrArgs.ofConfig).scaled 1 = .ofConfig := if_pos rfl
  unfold constructRules
  rw [h1]
  show Except.ok [("a", RuleFn.psr [-1, 1] (PsrArgs.ofConfig.scaled 1))] = _
  rw [h2]

/-- A parameter inside of the generator of an evolution is differentiated with the spectrum of the scaled block: for
HamEvo(a Z, 1) the engine returns -√2 sin(2a), the derivative is -2 sin(2a). -/
theorem C80_counterexample_generator (optimal : (gaps : List ℝ) → Fin gaps.length → ℝ) (e : Eigs) (fn : String → ℂ → ℂ)
    {ord : List ℕ → List ℕ} (ho : Block.SetOrder ord) (a : ℝ) :
    let E : Params → Unit → ℝ :=
      circuitExp fn ho (fun _ : Unit => (embed1 0 (mat1 .X) : Oper 1)) (fun _ => (1 / √2 : ℝ)) genDemo
    ∃ rules, constructRules e .ofConfig genDemo [] = .ok rules ∧
      psrBackward optimal rules (fun p => .ok (E p)) [("a", a)] (fun _ => true) (fun _ => 1) =
        .ok [("a", some (-(√2 * sin (2 * a))))] ∧
      HasDerivAt (fun x => E (PyDict.set [("a", a)] "a" x) ()) (-(2 * sin (2 * a))) a := by
  intro E
  refine ⟨_, genDemo_rules e, ?_, ?_⟩
  · have pm : spectralGaps [-1, 1] = [2] := by
      rw [gaps_two (a := -1) (b := 1) (by norm_num) ⟨⟨-1, by simp⟩, ⟨1, by simp⟩⟩ (by simp)]
      norm_num
    have hE : ∀ x, E (PyDict.set [("a", a)] "a" x) = fun _ => cos (2 * x) := fun x => genDemo_exp fn ho _ x
    have hr : callRule optimal (.psr [-1, 1] .ofConfig) (fun p => .ok (E p)) [("a", a)] "a" =
        .ok fun _ => -(√2 * sin (2 * a)) := by
      show generalPsr optimal [-1, 1] {} _ _ _ = _
      unfold generalPsr
      simp only [pm, bind, Except.bind, List.length_singleton, if_true, List.headD_cons]
      show singleGapPsr 2 (0.5 * (π / 2)) _ _ _ = _
      unfold singleGapPsr difference shifted
      show (Except.ok fun i => 2 * (E (PyDict.set [("a", a)] "a" (a + 0.5 * (π / 2))) i -
        E (PyDict.set [("a", a)] "a" (a + -(0.5 * (π / 2)))) i) / (4 * sin (2 * (0.5 * (π / 2)) / 2))) = _
      rw [hE, hE]
      congr 1
      funext _
      have e1 : 2 * (a + 0.5 * (π / 2)) = 2 * a + π / 2 := by ring
      have e2 : 2 * (a + -(0.5 * (π / 2))) = 2 * a - π / 2 := by ring
      have e3 : 2 * (0.5 * (π / 2)) / 2 = π / 4 := by ring
      rw [e1, e2, e3, cos_add_pi_div_two, cos_sub_pi_div_two, sin_pi_div_four]
      have h2 : √2 * √2 = 2 := Real.mul_self_sqrt (by norm_num)
      have h0 : √2 ≠ 0 := by positivity
      field_simp
      linear_combination (4 * sin (2 * a)) * h2
    unfold psrBackward
    rw [List.mapM_cons]
    simp only [if_true, hr]
    simp
  · have : (fun x => E (PyDict.set [("a", a)] "a" x) ()) = fun x => cos (2 * x) := by
      funext x
      exact congrFun (genDemo_exp fn ho _ x) ()
    rw [this]
    have h := ((hasDerivAt_id' a).const_mul 2).cos
    simpa [mul_comm] using h

/-- A parameter of an observable which needs a gradient is refused. -/
theorem C80_counterexample_observable [Fintype ι] (optimal : (gaps : List ℝ) → Fin gaps.length → ℝ) {e : Eigs}
    {a : PsrArgs} {b : Block Prim} {obs : List (Block Gate)} {g : FixedGate} {q : ℕ} {u : String} {t t' : Option String}
    (ho : .scale (.leaf (.fixed g q) t) (.var u) t' ∈ obs) {rules : PyDict String RuleFn}
    (hr : constructRules e a b obs = .ok rules) (f : ExpFn ι) (p : Params) {needs : String → Bool} (hn : needs u = true)
    (w : ι → ℝ) : ∃ err, psrBackward optimal rules f p needs w = .error err := by
  have key : PyDict.get? rules u = some .zero := by
    have hwf := constructRules_wf hr
    unfold constructRules at hr
    cases hr' : uuidToEigen e true (uuidToBlock b) with
    | error err => rw [hr'] at hr; cases hr
    | ok r =>
      cases hos : obs.mapM (fun o => uuidToEigen e false (uuidToBlockObs o)) with
      | error err => rw [hr', hos] at hr; cases hr
      | ok os =>
        rw [hr', hos] at hr
        cases hr
        have hmem : u ∈ os.flatMap PyDict.keys := by
          have hent : ∃ v, uuidToEigen e false (uuidToBlockObs (.scale (.leaf (.fixed g q) t) (.var u) t')) =
              .ok [(u, v)] := by
            have hb : uuidToBlockObs (.scale (.leaf (.fixed g q) t) (.var u) t') =
                [(u, .scaleGen (.leaf (.fixed g q) t))] := rfl
            rw [hb]
            cases g <;> exact ⟨_, rfl⟩
          obtain ⟨v, hent⟩ := hent
          have : ∀ (obs : List (Block Gate)) (os : List (PyDict String (List ℝ × ℝ))),
              obs.mapM (fun o => uuidToEigen e false (uuidToBlockObs o)) = .ok os →
              .scale (.leaf (.fixed g q) t) (.var u) t' ∈ obs → [(u, v)] ∈ os := by
            intro obs
            induction obs with
            | nil => intro os _ h; simp at h
            | cons o obs ih =>
              intro os h hm
              rw [List.mapM_cons] at h
              cases ho : uuidToEigen e false (uuidToBlockObs o) with
              | error err => rw [ho] at h; cases h
              | ok r =>
                cases hrest : obs.mapM (fun o => uuidToEigen e false (uuidToBlockObs o)) with
                | error err => rw [ho, hrest] at h; cases h
                | ok rest =>
                  rw [ho, hrest] at h
                  cases h
                  rcases List.mem_cons.1 hm with rfl | hm
                  · rw [hent] at ho
                    cases ho
                    exact List.mem_cons_self
                  · exact List.mem_cons_of_mem _ (ih rest hrest hm)
          exact List.mem_flatMap.2 ⟨_, this obs os hos ho, by simp [PyDict.keys]⟩
        generalize os.flatMap PyDict.keys = us at hmem
        clear hwf
        generalize r.map (fun x => (x.1, RuleFn.psr x.2.1 (a.scaled x.2.2))) = d
        induction us generalizing d with
        | nil => simp at hmem
        | cons x us ih =>
          by_cases hx : u ∈ us
          · exact ih hx _
          · rcases List.mem_cons.1 hmem with rfl | h
            · rw [List.foldl_cons, zeros_get hx, PyDict.get?_set, if_pos rfl]
            · exact absurd h hx
  refine mapM_error rules (PyDict.mem_of_get? key) (e := .typeError) ?_
  simp only [hn, if_true]
  rfl

theorem uuidToEigen_none {e : Eigs} {rescale : Bool} {d : PyDict String Src} {r : PyDict String (List ℝ × ℝ)}
    (h : uuidToEigen e rescale d = .ok r) (hw : PyDict.WF d) {u : String} {s : Src} (hu : PyDict.get? d u = some s)
    (hv : eigenEntry e rescale s = .ok none) : u ∉ PyDict.keys r := by
  induction d generalizing r with
  | nil => simp [PyDict.get?] at hu
  | cons x d ih =>
    obtain ⟨a, sa⟩ := x
    rw [uuidToEigen] at h
    have hw' : a ∉ d.map Prod.fst ∧ PyDict.WF d := List.nodup_cons.1 hw
    cases he : eigenEntry e rescale sa with
    | error err => rw [he] at h; cases h
    | ok o =>
      cases hr : uuidToEigen e rescale d with
      | error err => rw [he, hr] at h; cases h
      | ok rest =>
        rw [he, hr] at h
        cases h
        by_cases hau : a = u
        · subst hau
          have : sa = s := by simpa [PyDict.get?] using hu
          subst this
          rw [hv] at he
          cases he
          exact fun hm => hw'.1 (uuidToEigen_keys hr _ hm)
        · have hu' : PyDict.get? d u = some s := by simpa [PyDict.get?, hau] using hu
          have := ih hr hw'.2 hu'
          cases o with
          | none => exact this
          | some w => exact fun hm => (List.mem_cons.1 hm).elim (fun h => hau h.symm) this

/-- The rule for the outer of two nested scale factors is the one for the block inside, whatever the inner factor is. -/
theorem C80_counterexample_nested_scale (e : Eigs) (rescale : Bool) (b : Block Gate) (s : Expr) (t : Option String) :
    eigenEntry e rescale (.scaleGen (.scale b s t)) = eigenEntry e rescale (.scaleGen b) := rfl

/-- A parameter which scales a composite observable, e.g. s (Z(0) ⊗ Z(1)), is dropped: the backend is called without a
value for it. -/
theorem C80_counterexample_composite_observable {e : Eigs} {a : PsrArgs} {b : Block Prim} {k : CKind}
    {bs : List (Block Gate)} {u : String} {t t' : Option String} (hb : u ∉ vars b)
    (hbs : u ∉ gatherList gateVars Expr.freeSymbols bs) {rules : PyDict String RuleFn}
    (hr : constructRules e a b [.scale (.comp k bs t) (.var u) t'] = .ok rules) {p q : Params}
    (hq : restrict p (PyDict.keys rules) = .ok q) (f : ExpFn ι) :
    psrForward rules f p = f q ∧ PyDict.get? q u = none := by
  refine ⟨by rw [psrForward, hq]; rfl, ?_⟩
  have hkeys : ∀ (ks : List String) (q : Params), restrict p ks = .ok q → q.map Prod.fst = ks := by
    intro ks
    induction ks with
    | nil => intro q h; cases h; rfl
    | cons x ks ih =>
      intro q h
      unfold restrict at h ih
      rw [List.mapM_cons] at h
      rw [item] at h
      cases hx : PyDict.get? p x with
      | none => rw [hx] at h; cases h
      | some v =>
        cases hrest : ks.mapM (item p) with
        | error err => rw [hx, hrest] at h; cases h
        | ok rest =>
          rw [hx, hrest] at h
          cases h
          rw [List.map_cons, ih rest hrest]
  rw [PyDict.get?_eq_none_iff, hkeys _ _ hq]
  refine PyDict.get?_eq_none_iff (d := rules).1 ?_
  unfold constructRules at hr
  cases hr' : uuidToEigen e true (uuidToBlock b) with
  | error err => rw [hr'] at hr; cases hr
  | ok r =>
    cases hos : uuidToEigen e false (uuidToBlockObs (.scale (.comp k bs t) (.var u) t')) with
    | error err =>
      rw [hr', List.mapM_cons, hos] at hr
      cases hr
    | ok os =>
      rw [hr', List.mapM_cons, hos] at hr
      cases hr
      have h1 : u ∉ PyDict.keys os := by
        refine uuidToEigen_none hos (collect_wf (fun g d h => setAll_wf _ _ h) _ [] (by simp [PyDict.WF]))
          (s := .scaleGen (.comp k bs t)) ?_ rfl
        show PyDict.get? (collectList gateLeaf .scaleGen bs (setAll [] [u] _)) u = _
        rw [collectList_other gateLeaf_other bs _ hbs, setAll_mem (by simp)]
      have h2 : u ∉ PyDict.keys r := by
        intro h
        have := uuidToEigen_keys hr' u h
        exact (PyDict.get?_eq_none_iff.1 (collect_other (sc := .scale) primLeaf_other b [] hb)) this
      rw [zeros_get (by simpa using h1), PyDict.get?_eq_none_iff, List.map_map]
      exact h2

/-- One observable: adjoint differentiation returns the same table as automatic differentiation. -/
theorem C80_adjoint_single (batch : ℕ) (v : ℕ → ℝ) : adjointValues batch [v] = adValues batch [v] := by
  simp [adjointValues, adValues]

/-- Several observables: adjoint differentiation returns one long column instead of one row per batch element. -/
theorem C80_counterexample_adjoint_shape {batch : ℕ} (hb : batch ≠ 0) {vals : List (ℕ → ℝ)} (hv : 2 ≤ vals.length) :
    (adjointValues batch vals).length = vals.length * batch ∧ (adValues batch vals).length = batch ∧
      adjointValues batch vals ≠ adValues batch vals := by
  have h1 : (adjointValues batch vals).length = vals.length * batch := by
    simp [adjointValues, List.length_flatMap]
  have h2 : (adValues batch vals).length = batch := by simp [adValues]
  refine ⟨h1, h2, fun h => ?_⟩
  have := congrArg List.length h
  rw [h1, h2] at this
  nlinarith [Nat.pos_of_ne_zero hb]

/-! ### Instances -/

/-- chain(RX(0, x), CRY(0, 1, y)), both angles need gradients, two observables. -/
example (e : Eigs) (fn : String → ℂ → ℂ) (O : Fin 2 → Oper 2) (ψ : St 2 → ℂ) (w : Fin 2 → ℝ) :
    let b : Block Prim := .comp .chain [.leaf (.gate (.rot .RX 0 (.var "x")) none) none,
      .leaf (.gate (.control .CRY [0] (.rot .RY 1 (.var "y"))) none) none] none
    ∃ rules gs, constructRules e .ofConfig b [.leaf (.fixed .Z 0) none, .leaf (.fixed .Z 1) none] = .ok rules ∧
      PyDict.keys rules = ["x", "y"] ∧
      psrBackward (fun _ _ => 0) rules (fun p => .ok (circuitExp fn demoOrd_setOrder O ψ b p)) [("x", 0.3), ("y", 1)]
        (fun _ => true) w = .ok gs ∧
      ∃ d, PyDict.get? gs "y" = some (some d) ∧
        HasDerivAt (fun y => ∑ i, w i * circuitExp fn demoOrd_setOrder O ψ b
          (PyDict.set [("x", 0.3), ("y", 1)] "y" y) i) d 1 := by
  intro b
  have hk : ∃ r1 r2, constructRules e .ofConfig b [.leaf (.fixed .Z 0) none, .leaf (.fixed .Z 1) none] =
    .ok [("x", r1), ("y", r2)] := ⟨_, _, rfl⟩
  obtain ⟨r1, r2, hk⟩ := hk
  have hx : OnlyIn "x" (.gate (.rot .RX 0 (.var "x")) none) b := .comp (pre := []) _ (by decide) _ _ (.leaf _) (by simp) (by
    intro c hc
    rw [List.mem_singleton.1 hc]
    decide)
  have hy : OnlyIn "y" (.gate (.control .CRY [0] (.rot .RY 1 (.var "y"))) none) b :=
    .comp (pre := [.leaf (.gate (.rot .RX 0 (.var "x")) none) none]) (post := []) _ (by decide) _ (.leaf _) (by
      intro c hc
      rw [List.mem_singleton.1 hc]
      decide) (by simp)
  have hobs : ∀ u, ∀ o ∈ [(.leaf (.fixed .Z 0) none : Block Gate), .leaf (.fixed .Z 1) none],
      u ∉ gather gateVars Expr.freeSymbols o := by
    intro u o ho
    rcases List.mem_cons.1 ho with rfl | ho
    · simp [gather, gateVars]
    · rw [List.mem_singleton.1 ho]
      simp [gather, gateVars]
  obtain ⟨gs, h1, _, _, h4⟩ := C80_backward (fun _ _ => 0) hk fn demoOrd_setOrder O ψ (p := [("x", 0.3), ("y", 1)])
    (by simp [PyDict.keys, PyDict.get?]) (f := fun p => .ok (circuitExp fn demoOrd_setOrder O ψ b p)) (fun _ _ => rfl) (fun _ => true) (by
      intro u hu _
      refine ⟨?_, hobs u⟩
      rcases List.mem_cons.1 hu with rfl | hu
      · exact .gate _ _ (.rot _ _) hx
      · rw [List.mem_singleton.1 hu]
        exact .gate _ _ (.control _ _ _ _ (by decide) (by decide)) hy) w
  obtain ⟨d, v, h5, h6, h7⟩ := h4 "y" (by simp [PyDict.keys]) rfl
  cases h6
  exact ⟨_, gs, hk, rfl, h1, d, h5, h7⟩

/-- A parameter used in two gates: x ↦ F(x, 2x). -/
example : HasDerivAt (fun x : ℝ => (![x, 2 * x] 0) * (![x, 2 * x] 1)) 12 3 := by
  have := C80_chain (m := 2) (F := fun v => v 0 * v 1) (c := fun x => ![x, 2 * x]) (c' := ![1, 2]) (d := ![6, 3]) (θ := 3)
    (by fun_prop) (by
      intro j
      fin_cases j
      · exact hasDerivAt_id' 3
      · simpa using (hasDerivAt_id' (3 : ℝ)).const_mul 2) (by
      intro j
      fin_cases j
      · have := (hasDerivAt_id' (3 : ℝ)).mul_const (2 * 3)
        norm_num at this ⊢
        simpa using this
      · simpa using (hasDerivAt_id' (2 * 3 : ℝ)).const_mul 3)
  convert this using 1
  norm_num [Fin.sum_univ_two]

end Qadence.PSR
