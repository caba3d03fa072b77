import Mathlib.Tactic
import Verif.Props.QModel

/-!
# C79: inputs of a QNN
-/

namespace Qadence.QModel

open PyDict

variable {β O M N G S : Type}

/-- Row `b` of a matrix is found again in column `j`. -/
theorem column_get (rows : List (List β)) (j : ℕ) (h : ∀ r ∈ rows, j < r.length) (b : ℕ) :
    (column rows j)[b]? = (rows[b]?).bind (·[j]?) := by
  induction rows generalizing b with
  | nil => simp [column]
  | cons r rows ih =>
    have hr : j < r.length := h r (by simp)
    have e : column (r :: rows) j = r[j] :: column rows j := by
      rw [column, List.filterMap_cons, List.getElem?_eq_getElem hr]; rfl
    rw [e]
    cases b with
    | zero => simp [hr]
    | succ b => simpa using ih (fun r hr => h r (by simp [hr])) b

/-- **C79** a matrix with as many columns as inputs becomes a dictionary with the inputs as keys, in order, where entry `b` of the `j`-th
input is entry `(b, j)` of the matrix; any other width is refused. -/
theorem C79_columns (inputs : List String) (hi : inputs.Nodup) (rows : List (List β)) (width : ℕ) (hw : ∀ r ∈ rows, r.length = width) :
    (width ≠ inputs.length → formatToDict inputs (.matrix rows width) = .error .valueError) ∧
      (width = inputs.length → ∃ d, formatToDict inputs (.matrix rows width) = .ok d ∧ d.keys = inputs ∧
        ∀ (j : ℕ) (hj : j < inputs.length), ∃ c, d.get? inputs[j] = some c ∧ c.length = rows.length ∧
          ∀ b : ℕ, c[b]? = (rows[b]?).bind (·[j]?)) := by
  constructor
  · intro h
    simp [formatToDict, matrixToDict, h]
  · intro h
    have hk : ((inputs.map fun i => (i, column rows (inputs.idxOf i))).map Prod.fst) = inputs := by simp [Function.comp_def]
    have hof : ofItems (inputs.map fun i => (i, column rows (inputs.idxOf i))) = inputs.map fun i => (i, column rows (inputs.idxOf i)) :=
      ofItems_of_nodup _ (by rw [hk]; exact hi)
    refine ⟨ofItems (inputs.map fun i => (i, column rows (inputs.idxOf i))), by simp only [formatToDict, matrixToDict, if_pos h], by rw [hof]; exact hk, ?_⟩
    intro j hj
    refine ⟨column rows j, ?_, ?_, ?_⟩
    · rw [hof]
      apply get?_eq_some_of_mem (show WF _ by rw [WF, hk]; exact hi)
      refine List.mem_map.2 ⟨inputs[j], List.getElem_mem hj, ?_⟩
      rw [hi.idxOf_getElem]
    · have : ∀ r ∈ rows, (r[j]?).isSome := by
        intro r hr
        rw [List.getElem?_eq_getElem (by rw [hw r hr, h]; exact hj)]; rfl
      clear hw hof hk
      induction rows with
      | nil => rfl
      | cons r rows ih =>
        have h1 := this r (by simp)
        obtain ⟨x, hx⟩ := Option.isSome_iff_exists.1 h1
        have e : column (r :: rows) j = x :: column rows j := by rw [column, List.filterMap_cons, hx]; rfl
        rw [e]
        simp [ih (fun r hr => this r (by simp [hr]))]
    · exact column_get rows j (fun r hr => by rw [hw r hr, h]; exact hj)

/-- **C79** a vector is accepted exactly for one input, of which it is the values; dictionaries are passed on. -/
theorem C79_vector (inputs : List String) (xs : List β) (d : PyDict String (List β)) :
    formatToDict inputs (.dict d) = .ok d ∧
      (∀ i, inputs = [i] → formatToDict inputs (.vector xs) = .ok [(i, xs)]) ∧
      (inputs.length ≠ 1 → formatToDict inputs (.vector xs) = .error .valueError) := by
  refine ⟨rfl, ?_, ?_⟩
  · rintro i rfl
    have : column (xs.map fun x => [x]) 0 = xs := by
      induction xs with
      | nil => rfl
      | cons x xs ih =>
        rw [List.map_cons, column, List.filterMap_cons]
        show x :: column _ 0 = _
        rw [ih]
    simp [formatToDict, matrixToDict, this, ofItems, PyDict.set]
  · intro h
    simp [formatToDict, matrixToDict, Ne.symm h]

/-- **C79** a QNN is made exactly if there is an observable and either as many inputs are named as there are feature parameters, or none is
named and there is at most one. -/
theorem C79_init (m : QM (List β) O M N G) (inputs : Option (List String)) (mode : DiffMode) :
    (∃ q, initQNN m inputs mode = .ok q) ↔ m.observable.isSome ∧
      ((∃ l, inputs = some l ∧ l.length = m.inputs.length) ∨ (inputs = none ∧ m.inputs.length ≤ 1)) := by
  unfold initQNN
  cases m.observable with
  | none => simp
  | some o =>
    cases inputs with
    | none => by_cases h : m.inputs.length ≤ 1 <;> simp [h]
    | some l => by_cases h : m.inputs.length = l.length <;> simp [h, eq_comm]; simpa [eq_comm] using h

/-- **C79** a QNN whose inputs are the feature parameters in any order: a call with a matrix of the right width passes on, for the
`j`-th input, column `j`, and for the variational parameters their values, with the observable of the model. -/
theorem C79_forward_partial (syms : List (Sym (List β))) (consts : List (String × List β)) (o : O) (measurement : Option M)
    (noise : Option N) (mitigation : Option G) (hn : (syms.map (·.name) ++ consts.map Prod.fst).Nodup) (inputs : List String)
    (hp : inputs.Perm ((syms.filter fun s => !s.trainable).map (·.name))) (mode : DiffMode)
    (rows : List (List β)) (hw : ∀ r ∈ rows, r.length = inputs.length) (state : Option S) :
    ∃ q : QNN β O M N G, initQNN (init syms consts (some o) measurement noise mitigation) (some inputs) mode = .ok q ∧
      ∃ p, (qnnExpectation q (.matrix rows inputs.length) none state none none none).2 =
          .ok (some (.expectation o p state measurement noise mitigation)) ∧
        (∀ (j : ℕ) (hj : j < inputs.length), ∃ c, (inputs[j], c) ∈ p ∧ ∀ b : ℕ, c[b]? = (rows[b]?).bind (·[j]?)) ∧
        ∀ s ∈ syms, s.trainable = true → (s.name, s.value) ∈ p := by
  set m : QM (List β) O M N G := init syms consts (some o) measurement noise mitigation with hm
  have hlen : m.inputs.length = inputs.length := by rw [hp.length_eq]; rfl
  have hnames : Names m := hn
  have hshape : Shape m := shape_convert _ _ hn
  have hi : inputs.Nodup := by
    rw [hp.nodup_iff]
    exact ((List.nodup_append.1 hn).1).sublist (List.filter_sublist.map _)
  refine ⟨⟨{ m with inputs := inputs }, mode⟩, by
    rw [initQNN, show m.observable = some o from rfl]
    simp only [if_pos hlen], ?_⟩
  obtain ⟨d, hd, hk, hcol⟩ := (C79_columns inputs hi rows inputs.length hw).2 rfl
  have hok : ∃ r, embed { m with inputs := inputs } d = .ok r := by
    rw [embed_isOk (m := { m with inputs := inputs }) hnames hshape]
    intro s hs ht
    rw [hk, hp.mem_iff]
    exact List.mem_map.2 ⟨s, List.mem_filter.2 ⟨hs, by simp [ht]⟩, rfl⟩
  obtain ⟨p, hpe⟩ := hok
  obtain ⟨a, b, hab, ha1, -, ha2, -⟩ := C78_values _ _ _ hpe
  refine ⟨p, ?_, ?_, ?_⟩
  · simp only [qnnExpectation, hd, step, hpe]
    cases measurement <;> cases noise <;> cases mitigation <;> rfl
  · intro j hj
    obtain ⟨c, hc, -, hcb⟩ := hcol j hj
    refine ⟨c, ?_, hcb⟩
    have hmem : inputs[j] ∈ a.map Prod.fst := by
      rw [ha1]
      have := (hp.mem_iff (a := inputs[j])).1 (List.getElem_mem hj)
      obtain ⟨s, hs, hse⟩ := List.mem_map.1 this
      exact List.mem_map.2 ⟨s, (List.mem_filter.1 hs).1, hse⟩
    obtain ⟨x, hx, hxe⟩ := List.mem_map.1 hmem
    rcases ha2 x hx with h | ⟨h, -⟩
    · rw [hxe, hc] at h
      cases h
      rw [hab, ← hxe]
      exact List.mem_append_left _ hx
    · rw [hxe, hc] at h; cases h
  · intro s hs ht
    have hmem : s.name ∈ a.map Prod.fst := by rw [ha1]; exact List.mem_map_of_mem hs
    obtain ⟨x, hx, hxe⟩ := List.mem_map.1 hmem
    have hpar : m.params.get? s.name = some ⟨s.value, true⟩ := by
      have e : m.params = _ := convert_eq syms consts hn
      apply get?_eq_some_of_mem
      · rw [WF, show m.params.map Prod.fst = _ from shape_keys hshape]
        exact names_trainable hnames
      · rw [e]
        exact List.mem_append_left _ (List.mem_map.2 ⟨s, List.mem_filter.2 ⟨hs, ht⟩, rfl⟩)
    rcases ha2 x hx with h | ⟨-, g, h⟩
    · exfalso
      have : x.1 ∈ inputs := by rw [← hk]; exact get?_isSome_iff.1 (by rw [h]; rfl)
      rw [hxe, hp.mem_iff] at this
      obtain ⟨t, ht', hte⟩ := List.mem_map.1 this
      obtain ⟨ht1, ht2⟩ := List.mem_filter.1 ht'
      have : t = s := List.inj_on_of_nodup_map (List.nodup_append.1 hn).1 ht1 hs hte
      rw [this, ht] at ht2
      cases ht2
    · rw [hxe] at h
      rw [show ({ m with inputs := inputs } : QM (List β) O M N G).params = m.params from rfl, hpar] at h
      have hv : s.value = x.2 := by
        have := Option.some.inj h
        injection this
      rw [hab, ← hxe, hv]
      exact List.mem_append_left _ hx

/-- A QNN with two inputs in the other order than the circuit has them. -/
example : ∃ q : QNN ℕ Unit Unit Unit Unit,
    initQNN (init [⟨"x", false, []⟩, ⟨"w", true, [5]⟩, ⟨"t", false, []⟩] [] (some ()) none none none) (some ["t", "x"]) .ad = .ok q ∧
      (qnnExpectation q (.matrix [[1, 2], [3, 4]] 2) none (none : Option Unit) none none none).2 =
        .ok (some (.expectation () [("x", [2, 4]), ("w", [5]), ("t", [1, 3])] none none none none)) := by
  refine ⟨_, rfl, rfl⟩

/-- Only the number of inputs is checked: with a wrong name, the QNN is made but can never be called with a tensor. -/
theorem C79_counterexample_wrong_name :
    ∃ q : QNN ℕ Unit Unit Unit Unit,
      initQNN (init [⟨"x", false, []⟩] [] (some ()) none none none) (some ["y"]) .ad = .ok q ∧
        ∀ rows, (qnnExpectation q (.matrix rows 1) none (none : Option Unit) none none none).2 = .error .keyError := by
  exact ⟨_, rfl, fun rows => rfl⟩

/-- **C79** what a QNN does with other settings: the observable and the mitigation given in the call have no effect, whatever they are. -/
theorem C79_counterexample_ignored (q : QNN β O M N G) (values : Values β) (obs : Option O) (state : Option S)
    (measurement : Option M) (noise : Option N) (mitigation : Option G) :
    qnnExpectation q values obs state measurement noise mitigation = qnnExpectation q values none state measurement noise none := rfl

/-- The base class does use an observable given in the call. -/
theorem base_uses_observable :
    (step (init [] [] (some 1) none none none : QM ℕ ℕ Unit Unit Unit)
      (.expectation [] (some 2) none none none none : Op ℕ ℕ Unit Unit Unit Unit)).2 =
        .ok (some (.expectation 2 [] none none none none)) := rfl

/-- The noise of one call stays for the next one. -/
theorem C79_counterexample_noise_sticks :
    let q : QNN ℕ Unit Unit String Unit := ⟨init [] [] (some ()) none none none, .ad⟩
    let q' := (qnnExpectation q (.dict []) none (none : Option Unit) none (some "noise") none).1
    (qnnExpectation q' (.dict []) none (none : Option Unit) none none none).2 =
      .ok (some (.expectation () [] none none (some "noise") none)) := rfl

/-- **C79** saving with parameters and loading as torch parameters keeps the order of the inputs and what is passed to the backend. -/
theorem C79_reload_partial (q : QNN β O M N G) (o : O) (ho : q.base.observable = some o)
    (hl : ((q.base.syms.filter fun s => !s.trainable).map (·.name)).length = q.base.inputs.length) :
    ∃ q', qnnReload q true true = .ok q' ∧ q'.base.inputs = q.base.inputs ∧
      (∀ values, embed q'.base values = embed q.base values) ∧ q'.base.observable = q.base.observable ∧
      q'.base.measurement = q.base.measurement ∧ q'.base.noise = q.base.noise := by
  obtain ⟨m', h1, h2, h3, h4, h5, -⟩ := C78_reload_partial q.base o ho
  have hf : (fromDict (toDict q.base true) false : Except PyErr (QM (List β) O M N G)) =
      .ok (init q.base.syms q.base.consts (some o) q.base.measurement q.base.noise none) := by
    simp [fromDict, toDict, ho]
  have hf' : m' = { init q.base.syms q.base.consts (some o) q.base.measurement q.base.noise none with
        params := q.base.params.map fun p => (p.1, ⟨p.2.value, true⟩) } := by
    have : (fromDict (toDict q.base true) true : Except PyErr (QM (List β) O M N G)) =
        .ok { init q.base.syms q.base.consts (some o) q.base.measurement q.base.noise none with
          params := q.base.params.map fun p => (p.1, ⟨p.2.value, true⟩) } := by
      simp [fromDict, toDict, ho]
    rw [this] at h1
    cases h1; rfl
  have hi : initQNN (init q.base.syms q.base.consts (some o) q.base.measurement q.base.noise (none : Option G)) (some q.base.inputs) .ad =
      .ok ⟨{ init q.base.syms q.base.consts (some o) q.base.measurement q.base.noise none with inputs := q.base.inputs }, .ad⟩ := by
    have : (init q.base.syms q.base.consts (some o) q.base.measurement q.base.noise (none : Option G)).inputs.length =
      q.base.inputs.length := hl
    simp only [initQNN, this, if_true]
    rfl
  have hq : qnnReload q true true = .ok ⟨{ init q.base.syms q.base.consts (some o) q.base.measurement q.base.noise none with
      inputs := q.base.inputs, params := q.base.params.map fun p => (p.1, ⟨p.2.value, true⟩) }, .ad⟩ := by
    simp only [qnnReload, hf, hi]
    simp [toDict]
  refine ⟨_, hq, rfl, fun values => ?_, ho.symm, rfl, rfl⟩
  rw [← h2 values, hf']
  rfl

/-- Finite differences as differentiation mode are lost on loading. -/
theorem C79_counterexample_mode_lost (q q' : QNN β O M N G) (s t : Bool) (h : qnnReload q s t = .ok q') : q'.diffMode = .ad := by
  unfold qnnReload at h
  cases hf : (fromDict (toDict q.base s) false : Except PyErr (QM (List β) O M N G)) with
  | error e => rw [hf] at h; cases h
  | ok m =>
    rw [hf] at h
    cases hi : initQNN m (some q.base.inputs) .ad with
    | error e => simp only [hi] at h; cases h
    | ok r =>
      simp only [hi] at h
      have hr : r.diffMode = .ad := by
        unfold initQNN at hi
        cases ho : m.observable with
        | none => rw [ho] at hi; cases hi
        | some o =>
          rw [ho] at hi
          simp only at hi
          split at hi
          · cases hi; rfl
          · cases hi
      cases t <;> cases h <;> exact hr

end Qadence.QModel
