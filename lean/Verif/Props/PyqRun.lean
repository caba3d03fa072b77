import Verif.Model.PyqRun
import Verif.Props.Bits
import Verif.Props.Embedding

/-!
# C88: expectation values do not depend on how the batch is run
-/

namespace Qadence.PyqRun

open Qadence Spec

/-! ## What a call should return -/

section Spec

/-- The values of the parameters `keys` for element `i` of the batch. -/
def paramsAt {V : Type} (d : PyDict String (PVal V)) (i : ℕ) (keys : List String) : List V :=
  keys.flatMap fun k => ((d.get? k).map (batchValues i)).getD []

/-- The final state of element `i`. -/
def finalState {V α : Type} (c : Native V α (List α)) (d : PyDict String (PVal V)) (s : List α) (i : ℕ) : List α :=
  c.fn (paramsAt d i c.keys) s

/-- The expectation values of element `i`. -/
def expRow {V α β : Type} (c : Native V α (List α)) (obs : List (Native V α β)) (p : Params V) (s : List α) (i : ℕ) : List β :=
  obs.map fun o => o.fn (paramsAt p.observables i o.keys) (finalState c p.circuit s i)

/-- The vectors of the dictionary have length one or `m`. -/
def Fits {V : Type} (d : PyDict String (PVal V)) (m : ℕ) : Prop :=
  ∀ kv ∈ d, ∃ l, kv.2 = .vec l ∧ (l.length = 1 ∨ l.length = m)

/-- The dictionary has batch size `m`. -/
def HasSize {V : Type} (d : PyDict String (PVal V)) (m : ℕ) : Prop :=
  1 ≤ m ∧ Fits d m ∧ ((d = [] ∧ m = 1) ∨ ∃ kv ∈ d, batchLength kv.2 = m)

/-- All parameters have values. -/
def Known {V α β : Type} (g : Native V α β) (d : PyDict String (PVal V)) : Prop := ∀ k ∈ g.keys, ∃ p, d.get? k = some p

end Spec

/-! ## Broadcasting -/

theorem foldl_max_eq (l : List ℕ) (a m : ℕ) (ha : a ≤ m) (h : ∀ x ∈ l, x ≤ m) (hm : a = m ∨ m ∈ l) : l.foldl max a = m := by
  induction l generalizing a with
  | nil => simpa using hm
  | cons x l ih =>
    rw [List.foldl_cons]
    have hx := h x (by simp)
    refine ih _ (max_le ha hx) (fun y hy => h y (by simp [hy])) ?_
    rcases hm with rfl | hm
    · left; exact max_eq_left hx
    · rcases List.mem_cons.1 hm with rfl | hm
      · left; exact max_eq_right ha
      · exact .inr hm

theorem broadcast_eq (l : List ℕ) (m : ℕ) (hpos : 1 ≤ m) (h : ∀ x ∈ l, x = 1 ∨ x = m) (hm : m ∈ l) : broadcast l = .ok m := by
  have : l.foldl max 1 = m := foldl_max_eq l 1 m hpos (fun x hx => by rcases h x hx with e | e <;> omega) (.inr hm)
  unfold broadcast
  dsimp only
  rw [this, if_pos]
  simpa using h

theorem pick_eq {γ : Type} (i m : ℕ) (l : List γ) (h : l.length = 1 ∨ l.length = m) (hi : i < m) :
    ∃ x, l[if l.length = 1 then 0 else i]? = some x ∧ pick i l = .ok x := by
  have hlt : (if l.length = 1 then 0 else i) < l.length := by split <;> omega
  refine ⟨l[if l.length = 1 then 0 else i], List.getElem?_eq_getElem hlt, ?_⟩
  unfold pick
  rw [List.getElem?_eq_getElem hlt]

theorem pick_params {V : Type} (i m : ℕ) (keys : List String) (f : String → List V)
    (hf : ∀ k ∈ keys, (f k).length = 1 ∨ (f k).length = m) (hi : i < m) :
    (keys.map f).mapM (pick i) = .ok (keys.flatMap fun k => batchValues i (.vec (f k))) := by
  induction keys with
  | nil => rfl
  | cons k ks ih =>
    obtain ⟨x, h1, h2⟩ := pick_eq i m (f k) (hf k (by simp)) hi
    rw [List.map_cons, List.mapM_cons, h2, ok_bind, ih fun j hj => hf j (by simp [hj]), ok_bind, List.flatMap_cons]
    have : batchValues i (.vec (f k)) = [x] := by
      unfold batchValues
      dsimp only
      split at h1 <;> rename_i hl
      · rw [if_pos hl, h1]; rfl
      · rw [if_neg hl, h1]; rfl
    rw [this]
    rfl

theorem apply_gen {V α β : Type} (g : Native V α β) (d : PyDict String (PVal V)) (states : List (List α)) (m : ℕ)
    (f : String → List V) (hf : ∀ k ∈ g.keys, param d k = .ok (f k) ∧ ((f k).length = 1 ∨ (f k).length = m)) (hpos : 1 ≤ m)
    (hs : states.length = 1 ∨ states.length = m) (hm : states.length = m ∨ ∃ k ∈ g.keys, (f k).length = m) :
    g.apply d states = .ok ((List.range m).map fun i =>
      g.fn (g.keys.flatMap fun k => batchValues i (.vec (f k))) (states.getD (if states.length = 1 then 0 else i) [])) := by
  unfold Native.apply
  rw [mapM_ok_map (g := f) fun k hk => (hf k hk).1, ok_bind, broadcast_eq _ m hpos, ok_bind]
  · refine mapM_ok_map ?_
    intro i hi
    have hi := List.mem_range.1 hi
    obtain ⟨x, h1, h2⟩ := pick_eq i m states hs hi
    rw [h2, ok_bind, pick_params i m g.keys f (fun k hk => (hf k hk).2) hi, ok_bind, List.getD_eq_getElem?_getD, h1]
    rfl
  · intro x hx
    rcases List.mem_cons.1 hx with rfl | hx
    · exact hs
    · obtain ⟨l, hl, rfl⟩ := List.mem_map.1 hx
      obtain ⟨k, hk, rfl⟩ := List.mem_map.1 hl
      exact (hf k hk).2
  · rcases hm with h | ⟨k, hk, h⟩
    · simp [h]
    · exact List.mem_cons_of_mem _ (List.mem_map.2 ⟨f k, List.mem_map.2 ⟨k, hk, rfl⟩, h⟩)

theorem get?_mem {V : Type} {d : PyDict String V} {k : String} {p : V} (h : d.get? k = some p) : (k, p) ∈ d := by
  induction d with
  | nil => simp [PyDict.get?] at h
  | cons x d ih =>
    obtain ⟨k', v⟩ := x
    unfold PyDict.get? at h
    split at h <;> rename_i hk
    · cases h; subst hk; simp
    · exact List.mem_cons_of_mem _ (ih h)

/-- The values under a key of a dictionary of vectors. -/
def vecOf {V : Type} (d : PyDict String (PVal V)) (k : String) : List V :=
  match d.get? k with
  | some (.vec l) => l
  | _ => []

theorem vecOf_spec {V : Type} {d : PyDict String (PVal V)} {m : ℕ} (hd : Fits d m) {k : String} {p : PVal V}
    (h : d.get? k = some p) : p = .vec (vecOf d k) ∧ param d k = .ok (vecOf d k) ∧
      ((vecOf d k).length = 1 ∨ (vecOf d k).length = m) := by
  obtain ⟨l, hl, hlen⟩ := hd _ (get?_mem h)
  dsimp only at hl
  subst hl
  have : vecOf d k = l := by unfold vecOf; rw [h]
  rw [this]
  refine ⟨rfl, ?_, hlen⟩
  unfold param
  rw [h]
  rfl

/-- A native circuit or observable acts on every element with its own values. -/
theorem apply_eq {V α β : Type} (g : Native V α β) (d : PyDict String (PVal V)) (states : List (List α)) (m : ℕ)
    (hd : Fits d m) (hk : Known g d) (hpos : 1 ≤ m) (hs : states.length = 1 ∨ states.length = m)
    (hm : states.length = m ∨ ∃ k ∈ g.keys, ∃ p, d.get? k = some p ∧ batchLength p = m) :
    g.apply d states = .ok ((List.range m).map fun i =>
      g.fn (paramsAt d i g.keys) (states.getD (if states.length = 1 then 0 else i) [])) := by
  have hf : ∀ k ∈ g.keys, param d k = .ok (vecOf d k) ∧ ((vecOf d k).length = 1 ∨ (vecOf d k).length = m) := by
    intro k h
    obtain ⟨p, hp⟩ := hk k h
    exact (vecOf_spec hd hp).2
  have hm' : states.length = m ∨ ∃ k ∈ g.keys, (vecOf d k).length = m := by
    refine hm.imp id ?_
    rintro ⟨k, h, p, hp, hl⟩
    refine ⟨k, h, ?_⟩
    rw [(vecOf_spec hd hp).1] at hl
    exact hl
  rw [apply_gen g d states m (vecOf d) hf hpos hs hm']
  congr 1
  refine List.map_congr_left fun i _ => ?_
  congr 1
  unfold paramsAt
  refine List.flatMap_congr fun k h => ?_
  obtain ⟨p, hp⟩ := hk k h
  rw [hp, ← (vecOf_spec hd hp).1]
  rfl

theorem isTensor_of_fits {V : Type} {d : PyDict String (PVal V)} {m : ℕ} (hd : Fits d m) :
    d.filter (fun kv => kv.2.isTensor) = d := by
  rw [List.filter_eq_self]
  intro kv hkv
  obtain ⟨l, hl, _⟩ := hd kv hkv
  rw [hl]; rfl

theorem split_of_size {V : Type} {d : PyDict String (PVal V)} {m : ℕ} (h : HasSize d m) :
    ∃ L, toListOfDicts d = .ok L ∧ L.length = m ∧ inferBatchsize d = m ∧
      ∀ i < m, ∃ D, L[i]? = some D ∧
        List.Forall₂ (fun kv (ke : String × PElem V) => ke.1 = kv.1 ∧ elemValues ke.2 = batchValues i kv.2) d D := by
  obtain ⟨hpos, hd, ⟨rfl, rfl⟩ | ⟨kv, hkv, hl⟩⟩ := h
  · refine ⟨[[]], rfl, rfl, rfl, ?_⟩
    intro i hi
    obtain rfl : i = 0 := by omega
    exact ⟨[], rfl, .nil⟩
  · have := C37_split d m (fun kv hkv _ => ?_) ⟨kv, hkv, ?_, hl⟩ hpos
    · rwa [isTensor_of_fits hd] at this
    · obtain ⟨l, hl, hlen⟩ := hd kv hkv
      rw [hl]
      exact ⟨trivial, hlen⟩
    · obtain ⟨l, hl, _⟩ := hd kv hkv
      rw [hl]; rfl

/-! ## Batched expectation values -/

theorem hstack_eq {β : Type} {γ : Type} (obs : List γ) (h : obs ≠ []) (m : ℕ) (f : γ → ℕ → β) :
    hstack (obs.map fun o => (List.range m).map (f o)) = .ok ((List.range m).map fun i => obs.map fun o => f o i) := by
  cases obs with
  | nil => exact absurd rfl h
  | cons o os =>
    rw [List.map_cons]
    unfold hstack
    dsimp only
    rw [if_pos (by simp)]
    rw [List.length_map, List.length_range]
    refine mapM_ok_map ?_
    intro i hi
    have hi := List.mem_range.1 hi
    rw [← List.map_cons (f := fun o => (List.range m).map (f o))]
    generalize o :: os = l
    induction l with
    | nil => rfl
    | cons a l ih =>
      rw [List.map_cons, List.mapM_cons, ih]
      simp [hi, ok_bind, pure_eq_ok]

/-- The states `run` gives to the observables. -/
theorem run_states {V α : Type} (n : ℕ) (zero : List α) (c : Native V α (List α)) (d : PyDict String (PVal V)) (m : ℕ)
    (hd : HasSize d m) (hk : Known c d) (pyqShape : Bool) :
    run n zero c d none false pyqShape = .ok ((List.range m).map (finalState c d zero)) := by
  obtain ⟨_, _, _, hinf, _⟩ := split_of_size hd
  unfold run initState
  dsimp only
  rw [ok_bind, hinf, apply_eq c d _ m hd.2.1 hk hd.1 (by simp) (by simp), ok_bind]
  rw [if_neg (by simp)]
  congr 1
  refine List.map_congr_left fun i hi => ?_
  have hi := List.mem_range.1 hi
  unfold finalState
  congr 1
  have : (if (List.replicate m zero).length = 1 then 0 else i) < m := by split <;> omega
  simp [List.getD_eq_getElem?_getD, List.getElem?_replicate] at *
  rw [if_pos this]
  rfl

theorem run_states_given {V α : Type} (n : ℕ) (zero s : List α) (c : Native V α (List α)) (d : PyDict String (PVal V)) (m : ℕ)
    (hd : Fits d m) (hpos : 1 ≤ m) (hs : s.length = 2 ^ n) (hk : Known c d)
    (hm : m = 1 ∨ ∃ k ∈ c.keys, ∃ p, d.get? k = some p ∧ batchLength p = m) (pyqShape : Bool) :
    run n zero c d (some [s]) false pyqShape = .ok ((List.range m).map (finalState c d s)) := by
  unfold run initState givenState
  dsimp only
  rw [if_pos (by simpa using hs), ok_bind, apply_eq c d [s] m hd hk hpos (by simp) (hm.imp (fun h => by simp [h]) id), ok_bind,
    if_neg (by simp)]
  rfl

theorem batched_of_states {V α β : Type} (n : ℕ) (zero s : List α) (c : Native V α (List α)) (obs : List (Native V α β))
    (p : Params V) (m : ℕ) (state : Option (List (List α)))
    (hr : run n zero c p.circuit state false true = .ok ((List.range m).map (finalState c p.circuit s))) (hpos : 1 ≤ m)
    (ho : Fits p.observables m) (hne : obs ≠ []) (hko : ∀ o ∈ obs, Known o p.observables) :
    batched n zero c obs p state false = .ok ((List.range m).map (expRow c obs p s)) := by
  unfold batched
  rw [hr, ok_bind]
  rw [mapM_ok_map (g := fun o => (List.range m).map fun i =>
    o.fn (paramsAt p.observables i o.keys) (finalState c p.circuit s i))]
  · rw [ok_bind, hstack_eq obs hne]
    rfl
  · intro o hoo
    rw [apply_eq o _ _ m ho (hko o hoo) hpos (by simp) (by simp)]
    congr 1
    refine List.map_congr_left fun i hi => ?_
    have hi := List.mem_range.1 hi
    congr 1
    have : (if ((List.range m).map (finalState c p.circuit s)).length = 1 then 0 else i) = i := by
      split
      · rename_i h
        rw [List.length_map, List.length_range] at h
        omega
      · rfl
    rw [this, List.getD_eq_getElem?_getD]
    simp [hi]

/-- Without an initial state the batched expectation has one row per element of the batch of the circuit. -/
theorem C88_batched {V α β : Type} (n : ℕ) (zero : List α) (c : Native V α (List α)) (obs : List (Native V α β))
    (p : Params V) (m : ℕ) (hc : HasSize p.circuit m) (ho : Fits p.observables m) (hne : obs ≠ []) (hk : Known c p.circuit)
    (hko : ∀ o ∈ obs, Known o p.observables) :
    batched n zero c obs p none false = .ok ((List.range m).map (expRow c obs p zero)) :=
  batched_of_states n zero zero c obs p m none (run_states n zero c _ m hc hk true) hc.1 ho hne hko

/-- The same for one given initial state, if the circuit uses a parameter with a value for every element. -/
theorem C88_batched_state {V α β : Type} (n : ℕ) (zero s : List α) (c : Native V α (List α)) (obs : List (Native V α β))
    (p : Params V) (m : ℕ) (hpos : 1 ≤ m) (hc : Fits p.circuit m) (ho : Fits p.observables m) (hne : obs ≠ [])
    (hs : s.length = 2 ^ n) (hk : Known c p.circuit) (hko : ∀ o ∈ obs, Known o p.observables)
    (hm : m = 1 ∨ ∃ k ∈ c.keys, ∃ q, p.circuit.get? k = some q ∧ batchLength q = m) :
    batched n zero c obs p (some [s]) false = .ok ((List.range m).map (expRow c obs p s)) :=
  batched_of_states n zero s c obs p m _ (run_states_given n zero s c _ m hc hpos hs hk hm true) hpos ho hne hko

/-- A batch of `m` initial states: element `i` starts from state `i`. -/
theorem C88_run_batch {V α : Type} (n : ℕ) (zero : List α) (c : Native V α (List α)) (d : PyDict String (PVal V)) (m : ℕ)
    (states : List (List α)) (hl : states.length = m) (hpos : 1 ≤ m) (hd : Fits d m) (hs : ∀ s ∈ states, s.length = 2 ^ n)
    (hk : Known c d) (pyqShape : Bool) :
    run n zero c d (some states) false pyqShape =
      .ok ((List.range m).map fun i => finalState c d (states.getD i []) i) := by
  unfold run initState givenState
  dsimp only
  rw [if_pos (by simpa using hs), ok_bind, apply_eq c d states m hd hk hpos (.inr hl) (.inl hl), ok_bind, if_neg (by simp)]
  congr 1
  refine List.map_congr_left fun i hi => ?_
  have hi := List.mem_range.1 hi
  have : (if states.length = 1 then 0 else i) = i := by split <;> omega
  rw [this]
  rfl

/-- … and its expectation values are those of its own final state. -/
theorem C88_batched_batch {V α β : Type} (n : ℕ) (zero : List α) (c : Native V α (List α)) (obs : List (Native V α β))
    (p : Params V) (m : ℕ) (states : List (List α)) (hl : states.length = m) (hpos : 1 ≤ m) (hc : Fits p.circuit m)
    (ho : Fits p.observables m) (hne : obs ≠ []) (hs : ∀ s ∈ states, s.length = 2 ^ n) (hk : Known c p.circuit)
    (hko : ∀ o ∈ obs, Known o p.observables) :
    batched n zero c obs p (some states) false =
      .ok ((List.range m).map fun i => expRow c obs p (states.getD i []) i) := by
  unfold batched
  rw [C88_run_batch n zero c _ m states hl hpos hc hs hk, ok_bind]
  rw [mapM_ok_map (g := fun o => (List.range m).map fun i =>
    o.fn (paramsAt p.observables i o.keys) (finalState c p.circuit (states.getD i []) i))]
  · rw [ok_bind, hstack_eq obs hne]
    rfl
  · intro o hoo
    rw [apply_eq o _ _ m ho (hko o hoo) hpos (by simp) (by simp)]
    congr 1
    refine List.map_congr_left fun i hi => ?_
    have hi := List.mem_range.1 hi
    congr 1
    have : (if ((List.range m).map fun i => finalState c p.circuit (states.getD i []) i).length = 1 then 0 else i) = i := by
      rw [List.length_map, List.length_range]
      split <;> omega
    rw [this, List.getD_eq_getElem?_getD]
    simp [hi]

/-- Nothing is returned without observables … -/
theorem C88_no_observables {V α β : Type} (n : ℕ) (zero : List α) (c : Native V α (List α)) (p : Params V)
    (state : Option (List (List α))) (little : Bool) (r : List (List β)) : batched n zero c [] p state little ≠ .ok r := by
  intro h
  unfold batched at h
  obtain ⟨s, -, h⟩ := bind_ok h
  rw [List.mapM_nil, pure_eq_ok, ok_bind] at h
  cases h

/-- … or if a parameter has no values … -/
theorem C88_missing_parameter {V α β : Type} (g : Native V α β) (d : PyDict String (PVal V)) (states : List (List α))
    (k : String) (hk : k ∈ g.keys) (h : d.get? k = none) (r : List β) : g.apply d states ≠ .ok r := by
  intro e
  unfold Native.apply at e
  obtain ⟨vs, hv, -⟩ := bind_ok e
  obtain ⟨v, -, hp⟩ := (mapM_ok_mem hv).1 k hk
  unfold param at hp
  rw [h] at hp
  cases hp

/-- … or if the batch of states and the values of a parameter have different lengths, none of them one … -/
theorem C88_sizes_refused {V α β : Type} (g : Native V α β) (d : PyDict String (PVal V)) (states : List (List α))
    (k : String) (hk : k ∈ g.keys) (l : List V) (h : d.get? k = some (.vec l)) (h1 : states.length ≠ 1) (h2 : l.length ≠ 1)
    (hne : states.length ≠ l.length) (r : List β) : g.apply d states ≠ .ok r := by
  intro e
  unfold Native.apply at e
  obtain ⟨vs, hv, e⟩ := bind_ok e
  obtain ⟨m, hm, -⟩ := bind_ok e
  obtain ⟨v, hmem, hp⟩ := (mapM_ok_mem hv).1 k hk
  have : v = l := by
    unfold param at hp
    rw [h] at hp
    exact (Except.ok.inj hp).symm
  subst this
  unfold broadcast at hm
  dsimp only at hm
  split at hm
  · rename_i ha
    rw [List.all_eq_true] at ha
    have ha1 := ha states.length (by simp)
    have ha2 := ha v.length (List.mem_cons_of_mem _ (List.mem_map.2 ⟨v, hmem, rfl⟩))
    simp only [Bool.or_eq_true, decide_eq_true_eq] at ha1 ha2
    omega
  · cases hm

/-- … or if two observables give columns of different lengths. -/
theorem C88_columns_refused {β : Type} (c : List β) (cs : List (List β)) (d : List β) (hd : d ∈ cs) (h : d.length ≠ c.length) :
    hstack (c :: cs) = .error .runtimeError := by
  unfold hstack
  dsimp only
  rw [if_neg]
  intro e
  rw [List.all_eq_true] at e
  exact h (by simpa using e d hd)

/-! ## Looped expectation values -/

theorem elem_get? {V : Type} (i : ℕ) {d : PyDict String (PVal V)} {D : PyDict String (PElem V)}
    (h : List.Forall₂ (fun kv (ke : String × PElem V) => ke.1 = kv.1 ∧ elemValues ke.2 = batchValues i kv.2) d D)
    {k : String} {p : PVal V} (hp : d.get? k = some p) :
    param (D.map fun kv => (kv.1, ofElem kv.2)) k = .ok (batchValues i p) := by
  induction h with
  | nil => simp [PyDict.get?] at hp
  | cons hh ht ih =>
    rename_i kv ke d' D'
    obtain ⟨k', v⟩ := kv
    obtain ⟨k'', e⟩ := ke
    obtain ⟨h1, h2⟩ := hh
    dsimp only at h1 h2
    subst h1
    unfold PyDict.get? at hp
    unfold param
    rw [List.map_cons]
    unfold PyDict.get?
    by_cases hkk : k'' = k
    · rw [if_pos hkk] at hp ⊢
      cases hp
      rw [← h2]
      cases e <;> rfl
    · rw [if_neg hkk] at hp ⊢
      exact ih hp

theorem batchValues_length {V : Type} {i m : ℕ} {l : List V} (h : l.length = 1 ∨ l.length = m) (hi : i < m) :
    ∃ v, batchValues i (.vec l) = [v] := by
  unfold batchValues
  dsimp only
  split
  · rename_i h1
    obtain ⟨v, rfl⟩ := List.length_eq_one_iff.1 h1
    exact ⟨v, rfl⟩
  · have : i < l.length := by omega
    exact ⟨l[i], by simp [this]⟩

theorem apply_elem {V α β : Type} (g : Native V α β) (i m : ℕ) {d : PyDict String (PVal V)} {D : PyDict String (PElem V)}
    (hd : Fits d m) (hi : i < m) (hk : Known g d)
    (h : List.Forall₂ (fun kv (ke : String × PElem V) => ke.1 = kv.1 ∧ elemValues ke.2 = batchValues i kv.2) d D)
    (s : List α) :
    g.apply (D.map fun kv => (kv.1, ofElem kv.2)) [s] = .ok [g.fn (paramsAt d i g.keys) s] := by
  have key : ∀ k ∈ g.keys, ∃ p v, d.get? k = some p ∧ batchValues i p = [v] := by
    intro k hkk
    obtain ⟨p, hp⟩ := hk k hkk
    obtain ⟨h1, _, h3⟩ := vecOf_spec hd hp
    obtain ⟨v, hv⟩ := batchValues_length h3 hi
    exact ⟨p, v, hp, by rw [h1, hv]⟩
  rw [apply_gen g _ [s] 1 (fun k => ((d.get? k).map (batchValues i)).getD []) ?_ le_rfl (by simp) (by simp)]
  · simp only [List.range_one, List.map_cons, List.map_nil]
    congr 2
    unfold paramsAt
    have hs : [s].getD (if [s].length = 1 then 0 else 0) [] = s := rfl
    rw [hs]
    congr 1
    refine List.flatMap_congr fun k hkk => ?_
    obtain ⟨p, v, hp, hv⟩ := key k hkk
    rw [hp, Option.map_some, Option.getD_some, hv]
    rfl
  · intro k hkk
    obtain ⟨p, v, hp, hv⟩ := key k hkk
    refine ⟨?_, ?_⟩
    · rw [elem_get? i h hp, hp]; rfl
    · rw [hp]; left; simp [hv]

/-- The looped expectation has one row for each element both dictionaries have. -/
theorem C88_looped {V α β : Type} (n : ℕ) (zero : List α) (state : Option (List α)) (c : Native V α (List α))
    (obs : List (Native V α β)) (p : Params V) (m m' : ℕ) (hc : HasSize p.circuit m) (ho : HasSize p.observables m')
    (hne : obs ≠ []) (hs : (state.getD zero).length = 2 ^ n) (hk : Known c p.circuit)
    (hko : ∀ o ∈ obs, Known o p.observables) :
    looped n zero c obs p (state.map fun s => [s]) false =
      .ok ((List.range (min m m')).map (expRow c obs p (state.getD zero))) := by
  obtain ⟨L, hL, hLm, -, hLi⟩ := split_of_size hc
  obtain ⟨O, hO, hOm, -, hOi⟩ := split_of_size ho
  have hst : (state.map fun s => [s]).getD [zero] = [state.getD zero] := by cases state <;> rfl
  unfold looped
  dsimp only
  rw [hst, if_neg (by simp), hL, ok_bind, hO, ok_bind]
  generalize state.getD zero = s at hs ⊢
  have hrow : ∀ i < min m m', ∃ D, (L.zip O)[i]? = some D ∧ loopRow n zero c obs [s] false D = .ok (expRow c obs p s i) := by
    intro i hi
    obtain ⟨D, hD, hF⟩ := hLi i (by omega)
    obtain ⟨E, hE, hG⟩ := hOi i (by omega)
    refine ⟨(D, E), by rw [List.getElem?_zip_eq_some]; exact ⟨hD, hE⟩, ?_⟩
    unfold loopRow run initState givenState
    dsimp only
    rw [if_pos (by simpa using hs), ok_bind, apply_elem c i m hc.2.1 (by omega) hk hF s, ok_bind, if_neg (by simp), ok_bind]
    rw [mapM_ok_map (g := fun o => [o.fn (paramsAt p.observables i o.keys) (finalState c p.circuit s i)]), ok_bind,
      if_neg hne, pure_eq_ok]
    · congr 1
      unfold expRow
      generalize obs = l
      induction l with
      | nil => rfl
      | cons o l ih => rw [List.map_cons, List.flatten_cons, ih]; rfl
    · intro o hoo
      exact apply_elem o i m' ho.2.1 (by omega) (hko o hoo) hG _
  have hrows : (L.zip O).mapM (loopRow n zero c obs [s] false) = .ok ((List.range (min m m')).map (expRow c obs p s)) := by
    have hlen : (L.zip O).length = min m m' := by rw [List.length_zip, hLm, hOm]
    generalize L.zip O = Z at hrow hlen
    generalize min m m' = r at hrow hlen
    have hZ : Z = (List.range r).map fun i => Z.getD i ([], []) := by
      apply List.ext_getElem
      · simp [hlen]
      · intro i h1 h2
        simp [List.getD_eq_getElem?_getD, h1]
    rw [hZ, List.mapM_map]
    refine mapM_ok_map ?_
    intro i hi
    obtain ⟨D, hD, h⟩ := hrow i (List.mem_range.1 hi)
    rw [Function.comp_apply, List.getD_eq_getElem?_getD, hD]
    exact h
  rw [hrows, ok_bind, if_pos]
  have hpos : 0 < min m m' := by have := hc.1; have := ho.1; omega
  have hl : ∀ i, (expRow c obs p s i).length = obs.length := by intro i; simp [expRow]
  obtain ⟨r, hr⟩ : ∃ r, min m m' = r + 1 := ⟨min m m' - 1, by omega⟩
  rw [hr]
  simp [List.range_succ_eq_map, hl]

/-- If circuit and observables have the same batch size, the looped expectation is the batched one. This covers one dictionary,
and separate ones without gate parameters (`diff_mode="ad"`), where both contain all inputs
(qadence/blocks/embedding.py:156-167). -/
theorem C88_looped_eq_batched {V α β : Type} (n : ℕ) (zero : List α) (c : Native V α (List α)) (obs : List (Native V α β))
    (p : Params V) (m : ℕ) (hc : HasSize p.circuit m) (ho : HasSize p.observables m) (hne : obs ≠ [])
    (hz : zero.length = 2 ^ n) (hk : Known c p.circuit) (hko : ∀ o ∈ obs, Known o p.observables) :
    looped n zero c obs p none false = batched n zero c obs p none false := by
  have h1 := C88_looped n zero none c obs p m m hc ho hne hz hk hko
  rw [min_self] at h1
  exact h1.trans (C88_batched n zero c obs p m hc ho.2.1 hne hk hko).symm

/-- An initial state of another batch size is refused by the loop. -/
theorem C88_looped_batch_refused {V α β : Type} (n : ℕ) (zero : List α) (c : Native V α (List α)) (obs : List (Native V α β))
    (p : Params V) (s : List (List α)) (h : s.length ≠ 1) (little : Bool) :
    looped n zero c obs p (some s) little = .error .valueError := by
  unfold looped
  dsimp only [Option.getD_some]
  rw [if_pos h]

/-- With separate dictionaries of gate parameters (any `diff_mode` but `"ad"`, qadence/extensions.py:133-137), observables without
parameters have an empty one; the loop then returns only the first element of the batch, the batched expectation all of them. -/
theorem C88_counterexample_loop_truncates {V α β : Type} (n : ℕ) (zero : List α) (c : Native V α (List α))
    (obs : List (Native V α β)) (d : PyDict String (PVal V)) (m : ℕ) (hd : HasSize d m) (hm : 2 ≤ m) (hne : obs ≠ [])
    (hz : zero.length = 2 ^ n) (hk : Known c d) (hko : ∀ o ∈ obs, o.keys = []) :
    ∃ row rows, looped n zero c obs (.nested d []) none false = .ok [row] ∧
      batched n zero c obs (.nested d []) none false = .ok (row :: rows) ∧ rows.length = m - 1 ∧ rows ≠ [] := by
  have hko' : ∀ o ∈ obs, Known o (Params.nested d []).observables := fun o ho k hk => by rw [hko o ho] at hk; simp at hk
  have hfe : ∀ j, Fits (Params.nested d []).observables j := fun j kv h => (List.not_mem_nil h).elim
  have h1 := C88_looped n zero none c obs (.nested d []) m 1 hd ⟨le_rfl, hfe _, .inl ⟨rfl, rfl⟩⟩ hne hz hk hko'
  have h2 := C88_batched n zero c obs (.nested d []) m hd (hfe _) hne hk hko'
  obtain ⟨r, rfl⟩ : ∃ r, m = r + 2 := ⟨m - 2, by omega⟩
  rw [Nat.min_eq_right (by omega)] at h1
  rw [List.range_succ_eq_map, List.map_cons] at h2
  refine ⟨_, _, h1, h2, by simp, by simp [List.range_succ_eq_map]⟩

/-! ## Endianness -/

theorem permute_one (b : ℕ) (h : b < 2) : permuteInd 1 b = .ok b := by
  interval_cases b <;> decide +kernel

theorem invertPyq_self {α : Type} (n : ℕ) (hn : 2 ≤ n) (states : List (List α)) (h : ∀ s ∈ states, s.length = 2 ^ n) :
    invertPyq n states = .ok states := by
  obtain ⟨n, rfl⟩ : ∃ k, n = k + 2 := ⟨n - 2, by omega⟩
  unfold invertPyq
  dsimp only
  conv_rhs => rw [← List.map_id states]
  refine mapM_ok_map fun s hs => ?_
  have hl := h s hs
  obtain ⟨a₀, t, rfl⟩ : ∃ a t, s = a :: t := by
    cases s with
    | nil => have := Nat.one_le_two_pow (n := n + 2); rw [List.length_nil] at hl; omega
    | cons a t => exact ⟨a, t, rfl⟩
  generalize a₀ :: t = s at hl
  have : s = (List.range (2 ^ (n + 2))).map fun i => s.getD i a₀ := by
    apply List.ext_getElem
    · simp [hl]
    · intro i h1 h2; simp [List.getD_eq_getElem?_getD, h1]
  rw [id]
  conv_rhs => rw [this]
  refine mapM_ok_map fun i hi => ?_
  have hi : i < s.length := by rw [hl]; exact List.mem_range.1 hi
  rw [permute_one _ (Nat.mod_lt _ (by omega)), ok_bind]
  have hle : i / 2 ^ n % 2 * 2 ^ n ≤ i :=
    le_trans (Nat.mul_le_mul_right _ (Nat.mod_le _ _)) (Nat.div_mul_le_self _ _)
  rw [Nat.sub_add_cancel hle, List.getElem?_eq_getElem hi]
  simp [List.getD_eq_getElem?_getD, hi]

/-- Circuits return states of `n` qubits. -/
def Sized {V α : Type} (n : ℕ) (c : Native V α (List α)) : Prop := ∀ ps s, (c.fn ps s).length = 2 ^ n

theorem apply_sized {V α : Type} {n : ℕ} {c : Native V α (List α)} (hc : Sized n c) {d : PyDict String (PVal V)}
    {s out : List (List α)} (h : c.apply d s = .ok out) : ∀ r ∈ out, r.length = 2 ^ n := by
  unfold Native.apply at h
  obtain ⟨vs, -, h⟩ := bind_ok h
  obtain ⟨m, -, h⟩ := bind_ok h
  intro r hr
  obtain ⟨i, -, h⟩ := (mapM_ok_mem h).2 r hr
  obtain ⟨x, -, h⟩ := bind_ok h
  obtain ⟨ps, -, h⟩ := bind_ok h
  rw [← pure_ok h]
  exact hc _ _

theorem invert_rows {α : Type} (n : ℕ) (w : List (List α)) (hsz : ∀ r ∈ w, r.length = 2 ^ n) :
    ∃ w', w.mapM (invertRow n) = .ok w' ∧
      List.Forall₂ (fun r r' => r'.length = 2 ^ n ∧ ∀ s : Bits, s.length = n →
        r'[bitstringValue .big s.reverse]? = r[bitstringValue .big s]?) w w' := by
  induction w with
  | nil => exact ⟨[], rfl, .nil⟩
  | cons r w ih =>
    obtain ⟨w', h1, h2⟩ := ih fun x hx => hsz x (by simp [hx])
    obtain ⟨r', h3, h4, h5, -⟩ := C04_invert_wavefunction n r (hsz r (by simp))
    refine ⟨r' :: w', ?_, .cons ⟨h4, h5⟩ h2⟩
    rw [List.mapM_cons, h3, ok_bind, h1, ok_bind]
    rfl

/-- On states in qadence shape, little endianness reverses the bitstrings of every state of the batch. -/
theorem C88_run_little {V α : Type} (n : ℕ) (zero : List α) (c : Native V α (List α)) (hc : Sized n c)
    (d : PyDict String (PVal V)) (state : Option (List (List α))) (w : List (List α))
    (h : run n zero c d state false false = .ok w) :
    ∃ w', run n zero c d state true false = .ok w' ∧
      List.Forall₂ (fun r r' => r'.length = 2 ^ n ∧ ∀ s : Bits, s.length = n →
        r'[bitstringValue .big s.reverse]? = r[bitstringValue .big s]?) w w' := by
  unfold run at h ⊢
  obtain ⟨s, hs, h⟩ := bind_ok h
  obtain ⟨out, ho, h'⟩ := bind_ok h
  clear h
  rw [if_neg (by simp)] at h'
  cases h'
  have hsz := apply_sized hc ho
  rw [hs, ok_bind, ho, ok_bind, if_pos rfl, if_neg (by simp)]
  unfold invertWf
  exact invert_rows n w hsz

theorem run_pyq_little {V α : Type} (n : ℕ) (hn : 2 ≤ n) (zero : List α) (c : Native V α (List α)) (hc : Sized n c)
    (d : PyDict String (PVal V)) (state : Option (List (List α))) :
    run n zero c d state true true = run n zero c d state false true := by
  unfold run
  cases hs : initState n zero d state with
  | error e => rfl
  | ok s =>
    rw [ok_bind, ok_bind]
    cases ho : c.apply d s with
    | error e => rfl
    | ok out =>
      rw [ok_bind, ok_bind, if_pos rfl, if_pos rfl, if_neg (by simp), invertPyq_self n hn out (apply_sized hc ho)]

/-- Expectation values of two or more qubits ignore the endianness: the states in PyQTorch shape are indexed along the second
qubit. -/
theorem C88_counterexample_endianness_ignored {V α β : Type} (n : ℕ) (hn : 2 ≤ n) (zero : List α) (c : Native V α (List α))
    (hc : Sized n c) (obs : List (Native V α β)) (p : Params V) (state : Option (List (List α))) :
    batched n zero c obs p state true = batched n zero c obs p state false ∧
      looped n zero c obs p state true = looped n zero c obs p state false := by
  constructor
  · unfold batched
    rw [run_pyq_little n hn zero c hc]
  · have : ∀ s, loopRow n zero c obs s true = loopRow n zero c obs s false := by
      intro s
      funext d
      unfold loopRow
      rw [run_pyq_little n hn zero c hc]
    unfold looped
    dsimp only
    rw [this]

/-- For one qubit little endianness must do nothing, but a batch of `2 ^ k` elements is reordered: the elements trade places as
the bitstrings of their positions are reversed. -/
theorem C88_counterexample_batch_permuted {V α : Type} (zero : List α) (c : Native V α (List α))
    (d : PyDict String (PVal V)) (state : Option (List (List α))) (w : List (List α)) (k : ℕ) (hk : w.length = 2 ^ k)
    (h : run 1 zero c d state false true = .ok w) :
    ∃ w', run 1 zero c d state true true = .ok w' ∧ w'.length = w.length ∧
      ∀ s : Bits, s.length = k → w'[bitstringValue .big s.reverse]? = w[bitstringValue .big s]? := by
  unfold run at h ⊢
  obtain ⟨s, hs, h⟩ := bind_ok h
  obtain ⟨out, ho, h⟩ := bind_ok h
  rw [if_neg (by simp)] at h
  cases h
  rw [hs, ok_bind, ho, ok_bind, if_pos rfl, if_pos rfl]
  unfold invertPyq
  dsimp only
  rw [hk, Nat.log2_two_pow]
  obtain ⟨w', h1, h2, h3, -⟩ := C04_invert_wavefunction k w hk
  exact ⟨w', h1, h2, h3⟩

theorem mapM_length {α β : Type} {f : α → Except PyErr β} {l : List α} {m : List β} (h : l.mapM f = .ok m) :
    m.length = l.length := by
  induction l generalizing m with
  | nil => rw [List.mapM_nil] at h; rw [← pure_ok h]; rfl
  | cons a l ih =>
    rw [List.mapM_cons] at h
    obtain ⟨b, -, h⟩ := bind_ok h
    obtain ⟨bs, hl, h⟩ := bind_ok h
    rw [← pure_ok h, List.length_cons, ih hl, List.length_cons]

/-- A batch of another size loses its last elements. -/
theorem C88_counterexample_batch_truncated {V α : Type} (zero : List α) (c : Native V α (List α))
    (d : PyDict String (PVal V)) (state : Option (List (List α))) (w w' : List (List α)) (hw : w ≠ [])
    (hp : ∀ k, w.length ≠ 2 ^ k) (h : run 1 zero c d state false true = .ok w) (h' : run 1 zero c d state true true = .ok w') :
    w'.length < w.length := by
  unfold run at h h'
  obtain ⟨s, hs, h⟩ := bind_ok h
  obtain ⟨out, ho, h⟩ := bind_ok h
  rw [if_neg (by simp)] at h
  cases h
  rw [hs, ok_bind, ho, ok_bind, if_pos rfl, if_pos rfl] at h'
  unfold invertPyq invertRow at h'
  dsimp only at h'
  obtain ⟨perm, h1, h2⟩ := bind_ok h'
  rw [mapM_length h2, mapM_length h1, List.length_range]
  have h0 : w.length ≠ 0 := fun e => hw (List.length_eq_zero_iff.1 e)
  exact lt_of_le_of_ne (Nat.log2_self_le h0) (Ne.symm (hp _))

/-! ## Shapes of initial states -/

/-- Only the shape of qadence is accepted … -/
theorem C88_validate (n : ℕ) (shape : List ℕ) : validateShape n shape = .ok () ↔ ∃ b rest, shape = b :: 2 ^ n :: rest := by
  unfold validateShape
  split
  · rename_i a s rest
    by_cases h : s = 2 ^ n
    · subst h; simp
    · simp [h]
  · rename_i h
    constructor
    · intro e; cases e
    · rintro ⟨b, rest, rfl⟩; exact absurd rfl (h _ _ _)

/-- … and the documented one of PyQTorch refused. -/
theorem C88_counterexample_pyq_shape (n b : ℕ) (hn : 2 ≤ n) :
    validateShape n (List.replicate n 2 ++ [b]) = .error .valueError := by
  obtain ⟨k, rfl⟩ : ∃ k, n = k + 2 := ⟨n - 2, by omega⟩
  have h : (2 : ℕ) ≠ 2 ^ (k + 2) := by
    have := Nat.one_le_two_pow (n := k)
    rw [pow_succ, pow_succ]
    generalize 2 ^ k = x at *
    omega
  unfold validateShape
  simp only [List.replicate_succ, List.cons_append]
  rw [if_neg h]

/-- For one qubit a batch of two is taken for the shape of qadence. -/
theorem C88_pyq_shape_one (b : ℕ) : validateShape 1 [2, b] = .ok () ↔ b = 2 := by
  rw [C88_validate]
  simp

/-- A given state must have `2 ** n` amplitudes. -/
theorem C88_run_state_refused {V α : Type} (n : ℕ) (zero : List α) (c : Native V α (List α)) (d : PyDict String (PVal V))
    (s : List (List α)) (h : ∃ r ∈ s, r.length ≠ 2 ^ n) (little pyqShape : Bool) :
    run n zero c d (some s) little pyqShape = .error .valueError := by
  unfold run initState givenState
  dsimp only
  rw [if_neg, error_bind]
  simpa using h

/-! ## Examples -/

section Examples

/-- Adds the parameter to every amplitude. -/
def exC : Native ℕ ℕ (List ℕ) := { keys := ["x"], fn := fun ps s => s.map (· + ps.sum) }
def exConst : Native ℕ ℕ (List ℕ) := { keys := [], fn := fun _ s => s }
def exSum : Native ℕ ℕ ℕ := { keys := [], fn := fun _ s => s.sum }
def exScaled : Native ℕ ℕ ℕ := { keys := ["y"], fn := fun ps s => ps.sum * s.sum }
def exFirst : Native ℕ ℕ ℕ := { keys := [], fn := fun _ s => s.headD 0 }
def exD : PyDict String (PVal ℕ) := [("x", .vec [1, 2, 3, 4]), ("y", .vec [10])]

example : batched 1 [1, 0] exC [exSum, exScaled] (.flat exD) none false = .ok [[3, 30], [5, 50], [7, 70], [9, 90]] := by
  decide +kernel
example : looped 1 [1, 0] exC [exSum, exScaled] (.flat exD) none false = .ok [[3, 30], [5, 50], [7, 70], [9, 90]] := by
  decide +kernel
example : looped 1 [1, 0] exC [exSum] (.nested exD []) none false = .ok [[3]] := by decide +kernel
example : batched 1 [1, 0] exC [exSum] (.nested exD []) none false = .ok [[3], [5], [7], [9]] := by decide +kernel
example : batched 1 [1, 0] exC [exSum] (.flat exD) none true = .ok [[3], [7], [5], [9]] := by decide +kernel
example : batched 1 [1, 0] exC [exSum] (.flat [("x", .vec [1, 2, 3])]) none true = .ok [[3], [5]] := by decide +kernel
example : run 2 [1, 2, 3, 4] exConst [] none true false = .ok [[1, 3, 2, 4]] := by decide +kernel
example : run 2 [1, 2, 3, 4] exConst [] none true true = .ok [[1, 2, 3, 4]] := by decide +kernel
example : batched (β := ℕ) 1 [1, 0] exC [] (.flat exD) none false = .error .runtimeError := by decide +kernel
example : batched 1 [1, 0] exC [exSum] (.flat []) none false = .error .keyError := by decide +kernel
example : batched 1 [1, 0] exC [exSum] (.flat exD) (some [[1, 0], [0, 1]]) false = .error .runtimeError := by decide +kernel
example : batched 1 [1, 0] exC [exFirst] (.flat [("x", .vec [5])]) (some [[1, 0], [0, 1]]) false = .ok [[6], [5]] := by
  decide +kernel

/-- The hypothesis of `C88_batched_state` is needed: with a given state and no batched parameter in the circuit, an observable with
a batch and one without give columns of different lengths, and the batched expectation fails where the loop does not. -/
theorem C88_counterexample_columns :
    batched 1 [1, 0] exConst [exScaled, exSum] (.flat [("y", .vec [1, 2, 3])]) (some [[1, 0]]) false = .error .runtimeError ∧
      looped 1 [1, 0] exConst [exScaled, exSum] (.flat [("y", .vec [1, 2, 3])]) (some [[1, 0]]) false =
        .ok [[1, 1], [2, 1], [3, 1]] := by
  decide +kernel

end Examples

end Qadence.PyqRun
