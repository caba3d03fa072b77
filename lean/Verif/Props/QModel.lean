import Mathlib.Tactic
import Verif.Model.QModel
import Verif.Proofs.PyDict

/-!
# C78: models under sequences of calls
-/

namespace Qadence.QModel

open PyDict

variable {α O M N G S : Type}

/-- Symbols and constants have different names. -/
def Names (m : QM α O M N G) : Prop := (m.syms.map (·.name) ++ m.consts.map Prod.fst).Nodup

/-- The parameters are those of the trainable symbols, requiring gradients, and the constants, not requiring them. -/
def Shape (m : QM α O M N G) : Prop :=
  m.params.map (fun p => (p.1, p.2.grad)) =
    ((m.syms.filter (·.trainable)).map fun s => (s.name, true)) ++ m.consts.map fun c => (c.1, false)

theorem names_trainable {m : QM α O M N G} (h : Names m) :
    (((m.syms.filter (·.trainable)).map (·.name)) ++ m.consts.map Prod.fst).Nodup := by
  refine List.Nodup.sublist ?_ h
  exact ((List.filter_sublist).map _).append (List.Sublist.refl _)

theorem convert_eq (syms : List (Sym α)) (consts : List (String × α)) (h : (syms.map (·.name) ++ consts.map Prod.fst).Nodup) :
    convertParams syms consts =
      (syms.filter (·.trainable)).map (fun s => (s.name, (⟨s.value, true⟩ : Param α))) ++ consts.map fun c => (c.1, ⟨c.2, false⟩) := by
  rw [convertParams, ofItems_of_nodup]
  have := List.Nodup.sublist (((List.filter_sublist (p := fun s : Sym α => s.trainable) (l := syms)).map (·.name)).append
    (List.Sublist.refl (consts.map Prod.fst))) h
  simpa [Function.comp_def] using this

theorem shape_convert (syms : List (Sym α)) (consts : List (String × α)) (h : (syms.map (·.name) ++ consts.map Prod.fst).Nodup) :
    (convertParams syms consts).map (fun p => (p.1, p.2.grad)) =
      ((syms.filter (·.trainable)).map fun s => (s.name, true)) ++ consts.map fun c => (c.1, false) := by
  rw [convert_eq _ _ h]
  simp [Function.comp_def]

theorem retag_name (flag : Bool) (names : List String) (s : Sym α) : (retag flag names s).name = s.name := by
  unfold retag; split <;> rfl

theorem retag_names (flag : Bool) (names : List String) (l : List (Sym α)) :
    (l.map (retag flag names)).map (·.name) = l.map (·.name) := by
  simp [Function.comp_def, retag_name]

theorem assign_shape (ps : PyDict String (Param α)) (vs : List α) :
    (assign ps vs).map (fun p => (p.1, p.2.grad)) = ps.map fun p => (p.1, p.2.grad) := by
  induction ps generalizing vs with
  | nil => simp [assign]
  | cons kp ps ih =>
    obtain ⟨k, p⟩ := kp
    by_cases hg : p.grad = true
    · cases vs with
      | nil => simp [assign, hg]
      | cons v vs => simp [assign, ih, hg]
    · cases vs <;> simp [assign, ih, hg]

theorem set_shape (ps : PyDict String (Param α)) (n : String) (v : α) (p : Param α) (h : ps.get? n = some p) :
    (PyDict.set ps n ⟨v, p.grad⟩).map (fun p => (p.1, p.2.grad)) = ps.map fun p => (p.1, p.2.grad) := by
  induction ps with
  | nil => simp [get?] at h
  | cons kp ps ih =>
    obtain ⟨k, q⟩ := kp
    rw [get?] at h
    rw [PyDict.set]
    split at h
    · rename_i hk
      cases h
      simp [hk]
    · rename_i hk
      rw [if_neg hk]
      simp [ih h]

theorem copyInto_shape (ps : PyDict String (Param α)) (n : String) (v : α) :
    (copyInto ps n v).map (fun p => (p.1, p.2.grad)) = ps.map fun p => (p.1, p.2.grad) := by
  unfold copyInto
  split
  · exact set_shape _ _ _ _ ‹_›
  · rfl

theorem load_shape (d : PyDict String α) (ps : PyDict String (Param α)) :
    (d.foldl (fun ps kv => copyInto ps kv.1 kv.2) ps).map (fun p => (p.1, p.2.grad)) = ps.map fun p => (p.1, p.2.grad) := by
  induction d generalizing ps with
  | nil => rfl
  | cons kv d ih => rw [List.foldl_cons, ih, copyInto_shape]

theorem expectation_state (m : QM α O M N G) (v : PyDict String α) (o : Option O) (st : Option S) (me : Option M) (no : Option N)
    (mi : Option G) : (step m (.expectation v o st me no mi)).1 = m ∨
      (step m (.expectation v o st me no mi)).1 = { m with noise := no <|> m.noise } := by
  rw [step]
  split
  · exact Or.inl rfl
  · split
    · exact Or.inl rfl
    · exact Or.inr rfl

theorem step_names (m : QM α O M N G) (op : Op α O M N G S) (h : Names m) : Names (step m op).1 := by
  cases op with
  | run _ _ => exact h
  | sample _ _ _ _ _ => exact h
  | expectation v o st me no mi => rcases expectation_state m v o st me no mi with e | e <;> rw [e] <;> exact h
  | resetVparams vs => rw [step]; split <;> exact h
  | setTrainable flag names =>
    have := retag_names flag names m.syms
    simp only [Names, step] at h ⊢
    rw [this]; exact h
  | loadParams d strict => rw [step]; split <;> exact h

theorem step_shape (m : QM α O M N G) (op : Op α O M N G S) (hn : Names m) (h : Shape m) : Shape (step m op).1 := by
  cases op with
  | run _ _ => exact h
  | sample _ _ _ _ _ => exact h
  | expectation v o st me no mi => rcases expectation_state m v o st me no mi with e | e <;> rw [e] <;> exact h
  | resetVparams vs =>
    rw [step]
    split
    · exact (assign_shape _ _).trans h
    · exact h
  | setTrainable flag names =>
    apply shape_convert
    rw [retag_names]
    exact hn
  | loadParams d strict =>
    rw [step]
    split
    · exact h
    · exact (load_shape _ _).trans h

theorem runAll_inv (m : QM α O M N G) (ops : List (Op α O M N G S)) (hn : Names m) (h : Shape m) :
    Names (runAll m ops) ∧ Shape (runAll m ops) := by
  induction ops generalizing m with
  | nil => exact ⟨hn, h⟩
  | cons op ops ih => exact ih _ (step_names m op hn) (step_shape m op hn h)

/-- **C78** after any sequence of calls, the trainable parameters of the model are exactly those of the trainable symbols and its other
parameters are the constants. -/
theorem C78_shape (syms : List (Sym α)) (consts : List (String × α)) (observable : Option O) (measurement : Option M)
    (noise : Option N) (mitigation : Option G) (ops : List (Op α O M N G S))
    (h : (syms.map (·.name) ++ consts.map Prod.fst).Nodup) :
    let m := runAll (init syms consts observable measurement noise mitigation) ops
    m.params.map (fun p => (p.1, p.2.grad)) =
        ((m.syms.filter (·.trainable)).map fun s => (s.name, true)) ++ m.consts.map (fun c => (c.1, false)) ∧
      (vparams m).keys = (m.syms.filter (·.trainable)).map (·.name) := by
  intro m
  have hs : Shape m := (runAll_inv (init syms consts observable measurement noise mitigation) ops h (shape_convert _ _ h)).2
  refine ⟨hs, ?_⟩
  have h1 : (vparams m).keys = ((m.params.map fun p => (p.1, p.2.grad)).filter (·.2)).map Prod.fst := by
    simp [vparams, keys, List.filter_map, Function.comp_def]
  rw [h1, hs, List.filter_append]
  simp [List.filter_map, Function.comp_def]

/-! ## Values of symbols -/

theorem mapM_isOk {γ δ : Type} (f : γ → Except PyErr δ) (l : List γ) :
    (∃ r, l.mapM f = .ok r) ↔ ∀ x ∈ l, ∃ y, f x = .ok y := by
  induction l with
  | nil => simp [pure, Except.pure]
  | cons x l ih =>
    rw [List.mapM_cons]
    cases hx : f x with
    | error e => simp [bind, Except.bind, hx]
    | ok y =>
      cases hl : l.mapM f with
      | error e =>
        rw [hl] at ih
        simp only [bind, Except.bind, List.mem_cons, forall_eq_or_imp, hx]
        constructor
        · rintro ⟨r, hr⟩; cases hr
        · rintro ⟨-, h⟩; obtain ⟨r, hr⟩ := ih.2 h; cases hr
      | ok ys =>
        rw [hl] at ih
        have := ih.1 ⟨ys, rfl⟩
        simp only [bind, Except.bind, pure, Except.pure, List.mem_cons, forall_eq_or_imp, hx]
        exact ⟨fun _ => ⟨⟨y, rfl⟩, this⟩, fun _ => ⟨_, rfl⟩⟩

theorem lookup_isOk (ps : PyDict String (Param α)) (vs : PyDict String α) (n : String) :
    (∃ y, lookup ps vs n = .ok y) ↔ n ∈ vs.keys ∨ n ∈ ps.keys := by
  unfold lookup
  cases hv : vs.get? n with
  | some v =>
    have : n ∈ vs.keys := get?_isSome_iff.1 (by rw [hv]; rfl)
    simp [this]
  | none =>
    have h1 : n ∉ vs.keys := get?_eq_none_iff.1 hv
    cases hp : ps.get? n with
    | some p =>
      have : n ∈ ps.keys := get?_isSome_iff.1 (by rw [hp]; rfl)
      simp [this]
    | none =>
      have : n ∉ ps.keys := get?_eq_none_iff.1 hp
      simp [this, h1]

theorem lookupConst_isOk (ps : PyDict String (Param α)) (n : String) : (∃ y, lookupConst ps n = .ok y) ↔ n ∈ ps.keys := by
  unfold lookupConst
  cases hp : ps.get? n with
  | some p =>
    have : n ∈ ps.keys := get?_isSome_iff.1 (by rw [hp]; rfl)
    simp [this]
  | none =>
    have : n ∉ ps.keys := get?_eq_none_iff.1 hp
    simp [this]

theorem shape_keys {m : QM α O M N G} (h : Shape m) :
    m.params.keys = (m.syms.filter (·.trainable)).map (·.name) ++ m.consts.map Prod.fst := by
  have := congrArg (List.map Prod.fst) h
  simpa [keys, Function.comp_def] using this

theorem embed_isOk {m : QM α O M N G} (hn : Names m) (h : Shape m) (values : PyDict String α) :
    (∃ r, embed m values = .ok r) ↔ ∀ s ∈ m.syms, s.trainable = false → s.name ∈ values.keys := by
  have hk := shape_keys h
  have h1 := mapM_isOk (fun s : Sym α => lookup m.params values s.name) m.syms
  have h2 : ∃ r, m.consts.mapM (fun c => lookupConst m.params c.1) = .ok r := by
    rw [mapM_isOk]
    intro c hc
    rw [lookupConst_isOk, hk]
    exact List.mem_append_right _ (List.mem_map_of_mem hc)
  obtain ⟨b, hb⟩ := h2
  have h3 : (∃ r, embed m values = .ok r) ↔ ∃ r, m.syms.mapM (fun s : Sym α => lookup m.params values s.name) = .ok r := by
    unfold embed
    cases ha : m.syms.mapM (fun s : Sym α => lookup m.params values s.name) with
    | error e => simp [bind, Except.bind]
    | ok a => simp [bind, Except.bind, hb]
  rw [h3, h1]
  constructor
  · intro hall s hs hf
    rcases (lookup_isOk _ _ _).1 (hall s hs) with hv | hp
    · exact hv
    · exfalso
      rw [hk] at hp
      have hnd : (m.syms.map (·.name)).Nodup := (List.nodup_append.1 hn).1
      rcases List.mem_append.1 hp with hp | hp
      · obtain ⟨t, ht, hte⟩ := List.mem_map.1 hp
        obtain ⟨ht1, ht2⟩ := List.mem_filter.1 ht
        have : t = s := List.inj_on_of_nodup_map hnd ht1 hs hte
        rw [this, hf] at ht2
        cases ht2
      · exact (List.nodup_append.1 hn).2.2 _ (List.mem_map_of_mem hs) _ hp rfl
  · intro hall s hs
    rw [lookup_isOk]
    by_cases ht : s.trainable = true
    · right
      rw [hk]
      exact List.mem_append_left _ (List.mem_map.2 ⟨s, List.mem_filter.2 ⟨hs, ht⟩, rfl⟩)
    · left
      exact hall s hs (by simpa using ht)

/-- **C78** after any sequence of calls, a run is possible exactly if values are given for all symbols which are not trainable. -/
theorem C78_run_possible (syms : List (Sym α)) (consts : List (String × α)) (observable : Option O) (measurement : Option M)
    (noise : Option N) (mitigation : Option G) (ops : List (Op α O M N G S))
    (h : (syms.map (·.name) ++ consts.map Prod.fst).Nodup) (values : PyDict String α) (state : Option S) :
    let m := runAll (init syms consts observable measurement noise mitigation) ops
    (∃ c, (step m (.run values state : Op α O M N G S)).2 = .ok (some c)) ↔
      ∀ s ∈ m.syms, s.trainable = false → s.name ∈ values.keys := by
  intro m
  obtain ⟨hn, hs⟩ := runAll_inv (init syms consts observable measurement noise mitigation) ops h (shape_convert _ _ h)
  rw [← embed_isOk hn hs values]
  show (∃ c, (do let p ← embed m values; .ok (some (.run p state)) : Except PyErr (Option (Call α O M N G S))) = .ok (some c)) ↔ _
  cases he : embed m values with
  | error e => simp [bind, Except.bind, m, he] at *
  | ok p => simp [bind, Except.bind, m] at *

/-- A call other than setting the flags of symbols. -/
def KeepsFlags : Op α O M N G S → Prop
  | .setTrainable _ _ => False
  | _ => True

theorem step_syms (m : QM α O M N G) (op : Op α O M N G S) (h : KeepsFlags op) :
    (step m op).1.syms = m.syms ∧ (step m op).1.inputs = m.inputs := by
  cases op with
  | run _ _ => exact ⟨rfl, rfl⟩
  | sample _ _ _ _ _ => exact ⟨rfl, rfl⟩
  | expectation v o st me no mi => rcases expectation_state m v o st me no mi with e | e <;> rw [e] <;> exact ⟨rfl, rfl⟩
  | resetVparams vs => rw [step]; split <;> exact ⟨rfl, rfl⟩
  | setTrainable flag names => exact absurd h id
  | loadParams d strict => rw [step]; split <;> exact ⟨rfl, rfl⟩

theorem runAll_syms (m : QM α O M N G) (ops : List (Op α O M N G S)) (h : ∀ op ∈ ops, KeepsFlags op) :
    (runAll m ops).syms = m.syms ∧ (runAll m ops).inputs = m.inputs := by
  induction ops generalizing m with
  | nil => exact ⟨rfl, rfl⟩
  | cons op ops ih =>
    have h1 := step_syms m op (h op (by simp))
    have h2 := ih (step m op).1 (fun o ho => h o (by simp [ho]))
    exact ⟨h2.1.trans h1.1, h2.2.trans h1.2⟩

/-- **C78** the advertised inputs are the values needed, as long as no flags are set. -/
theorem C78_inputs_partial (syms : List (Sym α)) (consts : List (String × α)) (observable : Option O) (measurement : Option M)
    (noise : Option N) (mitigation : Option G) (ops : List (Op α O M N G S)) (hops : ∀ op ∈ ops, KeepsFlags op)
    (h : (syms.map (·.name) ++ consts.map Prod.fst).Nodup) (values : PyDict String α) (state : Option S) :
    let m := runAll (init syms consts observable measurement noise mitigation) ops
    (∃ c, (step m (.run values state : Op α O M N G S)).2 = .ok (some c)) ↔ ∀ i ∈ m.inputs, i ∈ values.keys := by
  intro m
  refine (C78_run_possible syms consts observable measurement noise mitigation ops h values state).trans ?_
  obtain ⟨h1, h2⟩ := runAll_syms (init syms consts observable measurement noise mitigation) ops hops
  show (∀ s ∈ m.syms, _) ↔ _
  rw [show m.syms = syms from h1, show m.inputs = _ from h2]
  simp only [init, List.mem_map, List.mem_filter, Bool.not_eq_true']
  constructor
  · rintro hall i ⟨s, ⟨hs, ht⟩, rfl⟩
    exact hall s hs ht
  · exact fun hall s hs ht => hall _ ⟨s, ⟨hs, ht⟩, rfl⟩

/-- After `set_as_fixed` the model lists no inputs, but cannot be run without a value. -/
theorem C78_counterexample_fixed_is_input :
    let m := (step (init [⟨"theta", true, 5⟩] [] (some ()) none none none : QM ℕ Unit Unit Unit Unit)
      (.setTrainable false [] : Op ℕ Unit Unit Unit Unit Unit)).1
    m.inputs = [] ∧ (step m (.run [] none : Op ℕ Unit Unit Unit Unit Unit)).2 = .error .keyError ∧
      (step m (.run [("theta", 1)] none : Op ℕ Unit Unit Unit Unit Unit)).2 = .ok (some (.run [("theta", 1)] none)) := by
  refine ⟨rfl, rfl, rfl⟩

/-- **C78** the values passed to the backend: those given, else those of the parameters; constants always from the parameters. -/
theorem C78_values (m : QM α O M N G) (values : PyDict String α) (r : List (String × α)) (h : embed m values = .ok r) :
    ∃ a b, r = a ++ b ∧ a.map Prod.fst = m.syms.map (·.name) ∧ b.map Prod.fst = m.consts.map Prod.fst ∧
      (∀ x ∈ a, values.get? x.1 = some x.2 ∨ (values.get? x.1 = none ∧ ∃ g, m.params.get? x.1 = some ⟨x.2, g⟩)) ∧
      ∀ x ∈ b, ∃ g, m.params.get? x.1 = some ⟨x.2, g⟩ := by
  have hl : ∀ n y, lookup m.params values n = .ok y → y.1 = n ∧
      (values.get? y.1 = some y.2 ∨ (values.get? y.1 = none ∧ ∃ g, m.params.get? y.1 = some ⟨y.2, g⟩)) := by
    intro n y hy
    unfold lookup at hy
    cases hv : values.get? n with
    | some v => rw [hv] at hy; cases hy; exact ⟨rfl, Or.inl hv⟩
    | none =>
      rw [hv] at hy
      cases hp : m.params.get? n with
      | some p => rw [hp] at hy; cases hy; exact ⟨rfl, Or.inr ⟨hv, p.grad, hp⟩⟩
      | none => rw [hp] at hy; cases hy
  have hc : ∀ n y, lookupConst m.params n = .ok y → y.1 = n ∧ ∃ g, m.params.get? y.1 = some ⟨y.2, g⟩ := by
    intro n y hy
    unfold lookupConst at hy
    cases hp : m.params.get? n with
    | some p => rw [hp] at hy; cases hy; exact ⟨rfl, p.grad, hp⟩
    | none => rw [hp] at hy; cases hy
  have hm : ∀ {γ : Type} (f : γ → Except PyErr (String × α)) (nm : γ → String) (P : String × α → Prop)
      (_ : ∀ x y, f x = .ok y → y.1 = nm x ∧ P y) (l : List γ) (r : List (String × α)), l.mapM f = .ok r →
      r.map Prod.fst = l.map nm ∧ ∀ x ∈ r, P x := by
    intro γ f nm P hf l
    induction l with
    | nil => intro r hr; cases hr; simp
    | cons x l ih =>
      intro r hr
      rw [List.mapM_cons] at hr
      cases hx : f x with
      | error e => rw [hx] at hr; cases hr
      | ok y =>
        cases hls : l.mapM f with
        | error e => rw [hx, hls] at hr; cases hr
        | ok ys =>
          rw [hx, hls] at hr
          cases hr
          obtain ⟨h1, h2⟩ := ih ys hls
          obtain ⟨h3, h4⟩ := hf x y hx
          refine ⟨by simp [h1, h3], ?_⟩
          simp only [List.mem_cons, forall_eq_or_imp]
          exact ⟨h4, h2⟩
  unfold embed at h
  cases ha : m.syms.mapM (fun s => lookup m.params values s.name) with
  | error e => rw [ha] at h; cases h
  | ok a =>
    cases hb : m.consts.mapM (fun c => lookupConst m.params c.1) with
    | error e => rw [ha, hb] at h; cases h
    | ok b =>
      rw [ha, hb] at h
      cases h
      obtain ⟨h1, h2⟩ := hm _ (fun s : Sym α => s.name) _ (fun x y hxy => hl _ _ hxy) _ _ ha
      obtain ⟨h3, h4⟩ := hm _ (fun c : String × α => c.1) _ (fun x y hxy => hc _ _ hxy) _ _ hb
      exact ⟨a, b, rfl, h1, h3, h2, h4⟩

/-! ## Noise -/

/-- The noise given to an expectation which got as far as calling the backend, else `n`. -/
def givenNoise (op : Op α O M N G S) (r : Except PyErr (Option (Call α O M N G S))) (n : Option N) : Option N :=
  match op with
  | .expectation _ _ _ _ (some k) _ =>
    match r with
    | .ok _ => some k
    | .error _ => n
  | _ => n

/-- The noise given to the last expectation which got as far as calling the backend. -/
def lastNoise (m : QM α O M N G) : List (Op α O M N G S) → Option N → Option N
  | [], n => n
  | op :: ops, n => lastNoise (step m op).1 ops (givenNoise op (step m op).2 n)

/-- **C78** noise in a history: the noise of a model is that of the last expectation called with noise, if any, else that of the
constructor. -/
theorem C78_noise_history (m : QM α O M N G) (ops : List (Op α O M N G S)) :
    (runAll m ops).noise = lastNoise m ops m.noise := by
  induction ops generalizing m with
  | nil => rfl
  | cons op ops ih =>
    rw [runAll, ih, lastNoise]
    congr 1
    cases op with
    | run _ _ => rfl
    | sample _ _ _ _ _ => rfl
    | expectation v o st me no mi =>
      cases ho : (o <|> m.observable) with
      | none => cases no <;> simp [step, ho, givenNoise]
      | some o' =>
        cases he : embed m v with
        | error e => cases no <;> simp [step, ho, he, givenNoise]
        | ok p => cases no <;> simp [step, ho, he, givenNoise]
    | resetVparams vs => rw [step]; split <;> rfl
    | setTrainable flag names => rfl
    | loadParams d strict => rw [step]; split <;> rfl

/-- **C78** without noise arguments to expectations, every call is passed its own settings, else those of the constructor. -/
theorem C78_settings_partial (m : QM α O M N G) (ops : List (Op α O M N G S))
    (hops : ∀ op ∈ ops, ∀ v o st me n mi, op ≠ .expectation v o st me (some n) mi) :
    let m' := runAll m ops
    (∀ v k st (no : Option N) (mi : Option G) p, embed m' v = .ok p →
      (step m' (.sample v k st no mi : Op α O M N G S)).2 =
        .ok (some (.sample p k st (no.or m.noise) (mi.or m.mitigation)))) ∧
      ∀ v (o : Option O) st (me : Option M) (no : Option N) (mi : Option G) p ob, embed m' v = .ok p →
        o.or m.observable = some ob → (step m' (.expectation v o st me no mi : Op α O M N G S)).2 =
          .ok (some (.expectation ob p st (me.or m.measurement) (no.or m.noise) (mi.or m.mitigation))) := by
  have key : ∀ (ops : List (Op α O M N G S)) (m : QM α O M N G),
      (∀ op ∈ ops, ∀ v o st me n mi, op ≠ .expectation v o st me (some n) mi) →
      (runAll m ops).noise = m.noise ∧ (runAll m ops).mitigation = m.mitigation ∧ (runAll m ops).measurement = m.measurement ∧
        (runAll m ops).observable = m.observable := by
    intro ops
    induction ops with
    | nil => intro m _; exact ⟨rfl, rfl, rfl, rfl⟩
    | cons op ops ih =>
      intro m hops
      have h1 : (step m op).1.noise = m.noise ∧ (step m op).1.mitigation = m.mitigation ∧
          (step m op).1.measurement = m.measurement ∧ (step m op).1.observable = m.observable := by
        cases op with
        | run _ _ => exact ⟨rfl, rfl, rfl, rfl⟩
        | sample _ _ _ _ _ => exact ⟨rfl, rfl, rfl, rfl⟩
        | expectation v o st me no mi =>
          cases no with
          | some n => exact absurd rfl (hops _ (by simp) v o st me n mi)
          | none =>
            rcases expectation_state m v o st me none mi with e | e <;> rw [e] <;> exact ⟨rfl, rfl, rfl, rfl⟩
        | resetVparams vs => rw [step]; split <;> exact ⟨rfl, rfl, rfl, rfl⟩
        | setTrainable flag names => exact ⟨rfl, rfl, rfl, rfl⟩
        | loadParams d strict => rw [step]; split <;> exact ⟨rfl, rfl, rfl, rfl⟩
      have h2 := ih (step m op).1 (fun o ho => hops o (by simp [ho]))
      exact ⟨h2.1.trans h1.1, h2.2.1.trans h1.2.1, h2.2.2.1.trans h1.2.2.1, h2.2.2.2.trans h1.2.2.2⟩
  intro m'
  obtain ⟨h1, h2, h3, h4⟩ := key ops m hops
  constructor
  · intro v k st no mi p hp
    rw [step, show m'.noise = _ from h1, show m'.mitigation = _ from h2, hp]
    cases no <;> cases mi <;> rfl
  · intro v o st me no mi p ob hp ho
    rw [step, show m'.observable = _ from h4, show m'.noise = _ from h1, show m'.mitigation = _ from h2,
      show m'.measurement = _ from h3, hp]
    have : (o <|> m.observable) = some ob := by rw [← ho]; cases o <;> rfl
    rw [this]
    cases no <;> cases mi <;> cases me <;> rfl

/-- The noise of one expectation is used by all later calls, also by samples. -/
theorem C78_counterexample_noise_sticks :
    let m : QM ℕ Unit Unit String Unit := init [] [] (some ()) none none none
    let m' := (step m (.expectation [] none none none (some "noise") none : Op ℕ Unit Unit String Unit Unit)).1
    (step m (.sample [] 1 none none none : Op ℕ Unit Unit String Unit Unit)).2 = .ok (some (.sample [] 1 none none none)) ∧
      (step m' (.sample [] 1 none none none : Op ℕ Unit Unit String Unit Unit)).2 =
        .ok (some (.sample [] 1 none (some "noise") none)) := ⟨rfl, rfl⟩

/-! ## Setting parameters -/

theorem assign_values (ps : PyDict String (Param α)) (vs : List α) (h : vs.length = (ps.filter (·.2.grad)).length) :
    ((assign ps vs).filter (·.2.grad)).map (fun p => (p.1, p.2.value)) = ((ps.filter (·.2.grad)).map Prod.fst).zip vs ∧
      (assign ps vs).filter (fun p => !p.2.grad) = ps.filter fun p => !p.2.grad := by
  induction ps generalizing vs with
  | nil => simp [assign]
  | cons kp ps ih =>
    obtain ⟨k, p⟩ := kp
    by_cases hg : p.grad = true
    · rw [List.filter_cons_of_pos (by simpa using hg)] at h
      cases vs with
      | nil => simp at h
      | cons v vs =>
        obtain ⟨h1, h2⟩ := ih vs (by simpa using h)
        simp [assign, hg, h1, h2]
    · rw [List.filter_cons_of_neg (by simpa using hg)] at h
      obtain ⟨h1, h2⟩ := ih vs h
      have e : assign ((k, p) :: ps) vs = (k, p) :: assign ps vs := by cases vs <;> simp [assign, hg]
      rw [e]
      simp [hg, h1, h2]

/-- **C78** `reset_vparams` with one value per variational parameter: these get the values in order, nothing else changes; with another
number of values nothing changes and the call is refused. -/
theorem C78_reset (m : QM α O M N G) (values : List α) :
    let r := step m (.resetVparams values : Op α O M N G S)
    (values.length = (vparams m).length → r.2 = .ok none ∧ vparams r.1 = (vparams m).keys.zip values ∧
      r.1.params.keys = m.params.keys ∧ r.1.params.filter (fun p => !p.2.grad) = m.params.filter (fun p => !p.2.grad) ∧
      r.1.noise = m.noise ∧ r.1.syms = m.syms) ∧
    (values.length ≠ (vparams m).length → r = (m, .error .assertionError)) := by
  intro r
  constructor
  · intro h
    have hr : r = ({ m with params := assign m.params values }, .ok none) := by
      show step _ _ = _
      rw [step, if_pos h]
    rw [hr]
    have hl : values.length = (m.params.filter (·.2.grad)).length := by simpa [vparams] using h
    obtain ⟨h1, h2⟩ := assign_values m.params values hl
    refine ⟨rfl, ?_, ?_, h2, rfl, rfl⟩
    · rw [vparams, h1]
      simp [vparams, keys, Function.comp_def]
    · have := congrArg (List.map Prod.fst) (assign_shape m.params values)
      simpa [keys, Function.comp_def] using this
  · intro h
    show step _ _ = _
    rw [step, if_neg h]

/-- **C78** `set_as_variational` and `set_as_fixed`: exactly the named symbols (all, if none are named) get the flag, and all parameters go
back to the values the symbols were created with. -/
theorem C78_set_trainable (m : QM α O M N G) (flag : Bool) (names : List String) (hn : Names m) :
    let m' := (step m (.setTrainable flag names : Op α O M N G S)).1
    m'.syms.map (·.name) = m.syms.map (·.name) ∧
      m'.syms.map (·.trainable) = m.syms.map (fun s => if names = [] ∨ s.name ∈ names then flag else s.trainable) ∧
      vparams m' = (m'.syms.filter (·.trainable)).map (fun s => (s.name, s.value)) := by
  intro m'
  refine ⟨retag_names _ _ _, ?_, ?_⟩
  · show (m.syms.map (retag flag names)).map _ = _
    rw [List.map_map]
    apply List.map_congr_left
    intro s _
    simp only [Function.comp, retag]
    split <;> rfl
  · have hn' : Names m' := step_names m (.setTrainable flag names : Op α O M N G S) hn
    have : m'.params = convertParams m'.syms m'.consts := rfl
    rw [vparams, this, convert_eq _ _ hn', List.filter_append, List.map_append]
    simp [List.filter_map, Function.comp_def]

/-- Trained values are lost: making an already variational parameter variational resets it. -/
theorem C78_counterexample_training_lost :
    let m : QM ℕ Unit Unit Unit Unit := init [⟨"theta", true, 5⟩] [] (some ()) none none none
    let m' := runAll m [(.resetVparams [7] : Op ℕ Unit Unit Unit Unit Unit)]
    let m'' := runAll m [(.resetVparams [7] : Op ℕ Unit Unit Unit Unit Unit), .setTrainable true ["theta"]]
    vparams m' = [("theta", 7)] ∧ vparams m'' = [("theta", 5)] := ⟨rfl, rfl⟩

theorem get?_copyInto (ps : PyDict String (Param α)) (n k : String) (v : α) :
    (copyInto ps n v).get? k = if k = n then (ps.get? k).map (fun p => ⟨v, p.grad⟩) else ps.get? k := by
  unfold copyInto
  cases hp : ps.get? n with
  | none =>
    simp only
    split
    · rename_i hk; rw [hk, hp]; rfl
    · rfl
  | some p =>
    simp only [get?_set]
    by_cases hk : k = n
    · subst hk; simp [hp]
    · simp [hk, Ne.symm hk]

theorem get?_load (d : PyDict String α) (hd : WF d) (ps : PyDict String (Param α)) (k : String) :
    (d.foldl (fun ps kv => copyInto ps kv.1 kv.2) ps).get? k =
      (ps.get? k).map fun p => ⟨(d.get? k).getD p.value, p.grad⟩ := by
  induction d generalizing ps with
  | nil =>
    simp only [List.foldl_nil, get?, Option.getD_none]
    cases ps.get? k <;> rfl
  | cons kv d ih =>
    obtain ⟨n, v⟩ := kv
    have hd' : WF d := (List.nodup_cons.1 hd).2
    rw [List.foldl_cons, ih hd', get?_copyInto]
    by_cases hk : k = n
    · have : PyDict.get? d k = none := get?_eq_none_iff.2 (by rw [hk]; exact (List.nodup_cons.1 hd).1)
      simp only [hk, if_true, get?] at *
      cases ps.get? n <;> simp [this]
    · rw [if_neg hk, get?, if_neg (Ne.symm hk)]

/-- **C78** `load_params_from_dict`: strictly, it is refused without changes exactly if the names differ; otherwise every parameter named
in the dictionary gets its value, the others keep theirs, and no flag changes. -/
theorem C78_load (m : QM α O M N G) (d : PyDict String α) (hd : WF d) (strict : Bool) :
    let r := step m (.loadParams d strict : Op α O M N G S)
    (r.2 = .error .runtimeError ∧ r.1 = m ∧ strict = true ∧ ¬ (∀ k, k ∈ d.keys ↔ k ∈ m.params.keys)) ∨
      (r.2 = .ok none ∧ (strict = true → ∀ k, k ∈ d.keys ↔ k ∈ m.params.keys) ∧ r.1.params.keys = m.params.keys ∧
        ∀ k, r.1.params.get? k = (m.params.get? k).map fun p => ⟨(d.get? k).getD p.value, p.grad⟩) := by
  intro r
  have heq : ((∀ k ∈ d.keys, k ∈ m.params.keys) ∧ ∀ k ∈ m.params.keys, k ∈ d.keys) ↔ ∀ k, k ∈ d.keys ↔ k ∈ m.params.keys :=
    ⟨fun h k => ⟨h.1 k, h.2 k⟩, fun h => ⟨fun k hk => (h k).1 hk, fun k hk => (h k).2 hk⟩⟩
  by_cases hc : strict ∧ ¬ ((∀ k ∈ d.keys, k ∈ m.params.keys) ∧ ∀ k ∈ m.params.keys, k ∈ d.keys)
  · left
    have hr : r = (m, .error .runtimeError) := by show step _ _ = _; rw [step, if_pos hc]
    rw [hr]
    exact ⟨rfl, rfl, hc.1, fun h => hc.2 (heq.2 h)⟩
  · right
    have hr : r = ({ m with params := d.foldl (fun ps kv => copyInto ps kv.1 kv.2) m.params }, .ok none) := by
      show step _ _ = _; rw [step, if_neg hc]
    rw [hr]
    refine ⟨rfl, fun hs => heq.1 (by by_contra h; exact hc ⟨hs, h⟩), ?_, fun k => get?_load d hd _ k⟩
    have := congrArg (List.map Prod.fst) (load_shape d m.params)
    simpa [keys, Function.comp_def] using this

/-- Non-trivial case: a strict load of one of two parameters is refused, a lax one keeps the other. -/
example : (step (init [⟨"a", true, 1⟩, ⟨"b", true, 2⟩] [("3", 3)] (some ()) none none none : QM ℕ Unit Unit Unit Unit)
      (.loadParams [("a", 9)] true : Op ℕ Unit Unit Unit Unit Unit)).2 = .error .runtimeError ∧
    vparams (step (init [⟨"a", true, 1⟩, ⟨"b", true, 2⟩] [("3", 3)] (some ()) none none none : QM ℕ Unit Unit Unit Unit)
      (.loadParams [("a", 9), ("c", 4)] false : Op ℕ Unit Unit Unit Unit Unit)).1 = [("a", 9), ("b", 2)] := ⟨rfl, rfl⟩

/-! ## Saving and loading -/

theorem get?_map_grad (ps : PyDict String (Param α)) (k : String) :
    PyDict.get? (ps.map fun p => (p.1, (⟨p.2.value, true⟩ : Param α))) k = (ps.get? k).map fun p => ⟨p.value, true⟩ := by
  induction ps with
  | nil => rfl
  | cons kp ps ih =>
    obtain ⟨n, p⟩ := kp
    simp only [List.map_cons, get?]
    split
    · rfl
    · exact ih

/-- **C78** a model with an observable, saved with its parameters and loaded as torch parameters, passes the same values to the backend as
before, whatever values it is given, with the same observable, measurement and noise. -/
theorem C78_reload_partial (m : QM α O M N G) (o : O) (ho : m.observable = some o) :
    ∃ m' : QM α O M N G, fromDict (toDict m true) true = .ok m' ∧ (∀ values, embed m' values = embed m values) ∧
      m'.observable = m.observable ∧ m'.measurement = m.measurement ∧ m'.noise = m.noise ∧ m'.params.keys = m.params.keys := by
  have hf : (fromDict (toDict m true) true : Except PyErr (QM α O M N G)) =
      .ok { init m.syms m.consts (some o) m.measurement m.noise none with
        params := m.params.map fun p => (p.1, ⟨p.2.value, true⟩) } := by
    simp [fromDict, toDict, ho]
  refine ⟨_, hf, ?_, ?_, rfl, rfl, ?_⟩
  · intro values
    have h1 : ∀ n, lookup (m.params.map fun p => (p.1, (⟨p.2.value, true⟩ : Param α))) values n = lookup m.params values n := by
      intro n
      unfold lookup
      rw [get?_map_grad]
      cases values.get? n <;> cases m.params.get? n <;> rfl
    have h2 : ∀ n, lookupConst (m.params.map fun p => (p.1, (⟨p.2.value, true⟩ : Param α))) n = lookupConst m.params n := by
      intro n
      unfold lookupConst
      rw [get?_map_grad]
      cases m.params.get? n <;> rfl
    simp only [embed, init, if_true, h1, h2]
  · exact ho.symm
  · simp [keys, Function.comp_def]

/-- After loading as torch parameters, constants are trainable. -/
theorem C78_counterexample_constants_trainable :
    let m : QM ℕ Unit Unit Unit Unit := init [⟨"theta", true, 5⟩] [("3.14", 314)] (some ()) none none none
    ∃ m', fromDict (G := Unit) (toDict m true) true = .ok m' ∧ vparams m = [("theta", 5)] ∧
      vparams m' = [("theta", 5), ("3.14", 314)] := ⟨_, rfl, rfl, rfl⟩

/-- Without torch parameters, the trained values are not restored, although they were saved. -/
theorem C78_counterexample_load_resets :
    let m : QM ℕ Unit Unit Unit Unit := runAll (init [⟨"theta", true, 5⟩] [] (some ()) none none none)
      [(.resetVparams [7] : Op ℕ Unit Unit Unit Unit Unit)]
    ∃ m', fromDict (G := Unit) (toDict m true) false = .ok m' ∧ vparams m = [("theta", 7)] ∧ vparams m' = [("theta", 5)] :=
  ⟨_, rfl, rfl, rfl⟩

/-- A model without observable cannot be loaded, and the mitigation protocol of any model is lost. -/
theorem C78_counterexample_reload (m : QM α O M N G) (save asTorch : Bool) :
    (m.observable = none → (fromDict (toDict m save) asTorch : Except PyErr (QM α O M N G)) = .error .unboundLocalError) ∧
      ∀ m' : QM α O M N G, fromDict (toDict m save) asTorch = .ok m' → m'.mitigation = none := by
  constructor
  · intro h
    simp only [fromDict, toDict, h]
  · intro m' h
    simp only [fromDict, toDict] at h
    cases ho : m.observable with
    | none => rw [ho] at h; cases h
    | some o =>
      rw [ho] at h
      cases asTorch <;> cases h <;> rfl

/-- **C78** calling the backend never changes the parameters, symbols or inputs. -/
theorem C78_calls_keep (m : QM α O M N G) (op : Op α O M N G S)
    (h : (∃ v st, op = .run v st) ∨ (∃ v k st no mi, op = .sample v k st no mi) ∨
      ∃ v o st me no mi, op = .expectation v o st me no mi) :
    (step m op).1.params = m.params ∧ (step m op).1.syms = m.syms ∧ (step m op).1.inputs = m.inputs ∧
      (step m op).1.observable = m.observable := by
  rcases h with ⟨v, st, rfl⟩ | ⟨v, k, st, no, mi, rfl⟩ | ⟨v, o, st, me, no, mi, rfl⟩
  · exact ⟨rfl, rfl, rfl, rfl⟩
  · exact ⟨rfl, rfl, rfl, rfl⟩
  · rcases expectation_state m v o st me no mi with e | e <;> rw [e] <;> exact ⟨rfl, rfl, rfl, rfl⟩

end Qadence.QModel
