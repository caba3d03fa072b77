import Mathlib.Tactic
import Verif.Model.Cloud

/-!
# C75: workloads on Pasqal Cloud
-/

namespace Qadence.Cloud

namespace Spec

/-- The documentation of the statuses: finished. -/
def Finished (s : String) : Prop := s = "DONE"

/-- Still to be finished. -/
def Open (s : String) : Prop := s ∈ ["PENDING", "RUNNING", "PAUSED"]

/-- Given up by the remote side. -/
def Dead (s : String) : Prop := s ∈ ["CANCELED", "TIMED_OUT", "ERROR"]

/-- What is documented about the sizes of parameter values: dimension 0 or 1, arrays of the same length. -/
def GoodSizes (sizes : List (List ℕ)) : Prop :=
  (∀ s ∈ sizes, s.length ≤ 1) ∧ ∀ s ∈ sizes, ∀ t ∈ sizes, s.length = 1 → t.length = 1 → s = t

end Spec

open Spec

/-- **C75** the outcome of `check_status` for every status. -/
theorem C75_check_status (s : String) :
    (checkStatus s = .ok () ↔ Finished s) ∧ (checkStatus s = .error .notDone ↔ Open s) ∧
      (checkStatus s = .error .stopped ↔ Dead s) ∧
      (checkStatus s = .error .valueError ↔ ¬ Finished s ∧ ¬ Open s ∧ ¬ Dead s) := by
  unfold checkStatus Finished Open Dead
  simp only [List.mem_cons, List.not_mem_nil, or_false]
  split
  · next h => subst h; simp
  · next h =>
    split
    · next h2 => rcases h2 with rfl | rfl | rfl <;> simp
    · next h2 =>
      split
      · next h3 => rcases h3 with rfl | rfl | rfl <;> simp
      · next h3 => simp [h, h2, h3]

theorem pollLoop_open (status : ℕ → String) (n r s : ℕ) (h : ∀ j < n, Open (status (r + j))) :
    pollLoop status n r s = ⟨.error .timeout, r + n, s + n⟩ := by
  induction n generalizing r s with
  | zero => rfl
  | succ n ih =>
    have h0 := ((C75_check_status (status r)).2.1).2 (h 0 (by omega))
    rw [pollLoop, h0]
    simp only
    rw [ih (r + 1) (s + 1) fun j hj => by have := h (j + 1) (by omega); rwa [show r + (j + 1) = r + 1 + j by omega] at this]
    simp only [Poll.mk.injEq, true_and]
    omega

theorem pollLoop_stop (status : ℕ → String) (n k r s : ℕ) (hk : k < n) (h : ∀ j < k, Open (status (r + j)))
    (hs : ¬ Open (status (r + k))) :
    pollLoop status n r s = ⟨(checkStatus (status (r + k))).map fun _ => r + k, r + k + 1, s + k⟩ := by
  induction k generalizing n r s with
  | zero =>
    obtain ⟨n, rfl⟩ : ∃ m, n = m + 1 := ⟨n - 1, by omega⟩
    rw [pollLoop, Nat.add_zero] at *
    have hno : checkStatus (status r) ≠ .error .notDone := fun h' => hs (((C75_check_status _).2.1).1 h')
    cases hc : checkStatus (status r) with
    | ok u => rfl
    | error e =>
      cases e with
      | notDone => exact absurd hc hno
      | _ => rfl
  | succ k ih =>
    obtain ⟨n, rfl⟩ : ∃ m, n = m + 1 := ⟨n - 1, by omega⟩
    have h0 := ((C75_check_status (status r)).2.1).2 (h 0 (by omega))
    rw [pollLoop, h0]
    simp only
    have e : r + (k + 1) = r + 1 + k := by omega
    rw [ih n (r + 1) (s + 1) (by omega)
      (fun j hj => by have := h (j + 1) (by omega); rwa [show r + (j + 1) = r + 1 + j by omega] at this) (by rwa [← e]), e]
    congr 1
    omega

/-- **C75** `get_result` for every behaviour of the remote side and all times: with `n` the whole number of refresh times in
the timeout, it asks until the first answer which is not one of the open statuses, at most `n` times, sleeping after
each open answer. It returns the result iff this answer is DONE, and raises the exception of the answer otherwise; if all
`n` answers are open it raises TimeoutError after sleeping for at most the timeout. -/
theorem C75_get_result (status : ℕ → String) (timeout refresh : ℚ) (ht : 0 ≤ timeout) (hr : 0 < refresh) :
    ∃ n : ℕ, (n : ℚ) * refresh ≤ timeout ∧ timeout < (n + 1) * refresh ∧
      (∀ k < n, (∀ j < k, Open (status j)) → ¬ Open (status k) →
        (getResult status timeout refresh).requests = k + 1 ∧ (getResult status timeout refresh).sleeps = k ∧
          (Finished (status k) → (getResult status timeout refresh).outcome = .ok k) ∧
          (Dead (status k) → (getResult status timeout refresh).outcome = .error .stopped) ∧
          (¬ Finished (status k) → ¬ Dead (status k) → (getResult status timeout refresh).outcome = .error .valueError)) ∧
      ((∀ j < n, Open (status j)) →
        (getResult status timeout refresh).outcome = .error .timeout ∧ (getResult status timeout refresh).requests = n ∧
          (getResult status timeout refresh).sleeps = n) := by
  have hfl : 0 ≤ ⌊timeout / refresh⌋ := Int.floor_nonneg.2 (div_nonneg ht hr.le)
  have hcast : ((⌊timeout / refresh⌋.toNat : ℕ) : ℚ) = (⌊timeout / refresh⌋ : ℚ) := by
    have h := Int.toNat_of_nonneg hfl
    exact_mod_cast congrArg (Int.cast : ℤ → ℚ) h
  refine ⟨⌊timeout / refresh⌋.toNat, ?_, ?_, ?_, ?_⟩
  · rw [hcast, ← le_div_iff₀ hr]
    exact Int.floor_le _
  · rw [hcast, ← div_lt_iff₀ hr]
    exact Int.lt_floor_add_one _
  · intro k hk hopen hstop
    have h := pollLoop_stop status ⌊timeout / refresh⌋.toNat k 0 0 hk (by simpa using hopen) (by simpa using hstop)
    rw [getResult, if_neg hr.ne', h]
    simp only [Nat.zero_add]
    have hc := C75_check_status (status k)
    refine ⟨trivial, trivial, fun hf => ?_, fun hd => ?_, fun hf hd => ?_⟩
    · rw [hc.1.2 hf]; rfl
    · rw [hc.2.2.1.2 hd]; rfl
    · rw [hc.2.2.2.2 ⟨hf, hstop, hd⟩]; rfl
  · intro hopen
    rw [getResult, if_neg hr.ne', pollLoop_open status _ 0 0 (by simpa using hopen)]
    simp

/-- A workload which is done from the third request on. -/
example : (getResult (fun k => if k < 2 then "RUNNING" else "DONE") 60 1).outcome = .ok 2 ∧
    (getResult (fun k => if k < 2 then "RUNNING" else "DONE") 60 1).sleeps = 2 := by
  decide +kernel

/-- A timeout shorter than the refresh time: the remote side is never asked, a finished workload is reported as timed
out. -/
theorem C75_counterexample_short_timeout (status : ℕ → String) (timeout refresh : ℚ) (ht : 0 ≤ timeout) (h : timeout < refresh) :
    (getResult status timeout refresh).outcome = .error .timeout ∧ (getResult status timeout refresh).requests = 0 := by
  have hr : 0 < refresh := lt_of_le_of_lt ht h
  have hfl : ⌊timeout / refresh⌋ = 0 := by
    rw [Int.floor_eq_zero_iff]
    exact ⟨div_nonneg ht hr.le, (div_lt_one hr).2 h⟩
  rw [getResult, if_neg hr.ne', hfl]
  exact ⟨rfl, rfl⟩

/-! ## Checks of a workload -/

/-- **C75** exactly which sizes of parameter values are accepted. -/
theorem C75_sizes_accepted (sizes : List (List ℕ)) :
    validateSizes sizes = .ok () ↔
      (∃ s ∈ sizes, s.length ≤ 1) ∧ ∀ s ∈ sizes, ∀ t ∈ sizes, s.length = 1 → t.length = 1 → s = t := by
  have hlen : ∀ s : List ℕ, s.length = 1 → s = [s.headD 0] := by
    intro s hs
    obtain ⟨a, rfl⟩ := List.length_eq_one_iff.1 hs
    rfl
  have hex : (sizes.all fun size => decide (1 < size.length)) = true ↔ ¬ ∃ s ∈ sizes, s.length ≤ 1 := by
    simp only [List.all_eq_true, decide_eq_true_eq, not_exists, not_and, not_le]
  unfold validateSizes
  split
  · next h => simp [hex.1 h]
  · next h =>
    have hx : ∃ s ∈ sizes, s.length ≤ 1 := by
      by_contra hno
      exact h (hex.2 hno)
    simp only [hx, true_and]
    set L := (sizes.filter fun size => decide (size.length = 1)).map fun size => size.headD 0 with hL
    have hmem : ∀ a, a ∈ L ↔ [a] ∈ sizes := by
      intro a
      rw [hL, List.mem_map]
      constructor
      · rintro ⟨s, hs, rfl⟩
        obtain ⟨h1, h2⟩ := List.mem_filter.1 hs
        rw [← hlen s (by simpa using h2)]
        exact h1
      · intro ha
        exact ⟨[a], List.mem_filter.2 ⟨ha, by simp⟩, rfl⟩
    split
    · next hall =>
      simp only [true_iff]
      intro s hs t ht h1 h2
      rw [hlen s h1, hlen t h2]
      have e1 := List.all_eq_true.1 hall _ ((hmem _).2 (hlen s h1 ▸ hs))
      have e2 := List.all_eq_true.1 hall _ ((hmem _).2 (hlen t h2 ▸ ht))
      rw [of_decide_eq_true e1, of_decide_eq_true e2]
    · next hall =>
      simp only [reduceCtorEq, false_iff]
      intro hs
      refine hall (List.all_eq_true.2 fun a ha => decide_eq_true ?_)
      cases hLc : L with
      | nil => rw [hLc] at ha; cases ha
      | cons b l =>
        have hb := (hmem b).1 (by rw [hLc]; simp)
        have := hs [a] ((hmem a).1 ha) [b] hb rfl rfl
        simpa using this

/-- **C75** for parameter values which are not all arrays of several dimensions, at least one: what is documented is accepted, and
what is accepted is as documented if no value has more than one dimension. -/
theorem C75_validation_partial (sizes : List (List ℕ)) (hne : sizes ≠ []) :
    (GoodSizes sizes → validateSizes sizes = .ok ()) ∧
      ((∀ s ∈ sizes, s.length ≤ 1) → validateSizes sizes = .ok () → GoodSizes sizes) := by
  constructor
  · rintro ⟨h1, h2⟩
    obtain ⟨s, l, rfl⟩ := List.exists_cons_of_ne_nil hne
    exact (C75_sizes_accepted _).2 ⟨⟨s, by simp, h1 s (by simp)⟩, h2⟩
  · intro h1 h
    exact ⟨h1, ((C75_sizes_accepted _).1 h).2⟩

/-- The hypotheses are met by values of different kinds. -/
example : GoodSizes [[], [3], [], [3]] ∧ validateSizes [[], [3], [2]] = .error .valueError := by
  refine ⟨⟨by simp, by simp⟩, by decide⟩

/-- A matrix is accepted as soon as there is another parameter: the test is `all` instead of `any`. -/
theorem C75_counterexample_matrix : validateSizes [[2, 2], []] = .ok () ∧ ¬ GoodSizes [[2, 2], []] := by
  refine ⟨by decide, fun h => ?_⟩
  have := h.1 [2, 2] (by simp)
  simp at this

/-- An empty dictionary is refused (`all` of nothing), although its sizes are as documented. -/
theorem C75_counterexample_empty : validateSizes [] = .error .valueError ∧ GoodSizes [] := by
  refine ⟨by decide, by simp [GoodSizes]⟩

/-- **C75** a workload is accepted iff it has an observable when an expectation is asked for, and its parameter
values pass. -/
theorem C75_accepted {χ ο τ : Type} (w : Workload χ ο τ) :
    w.postInit = .ok () ↔ (ResultType.expectation ∈ w.resultTypes → w.observable ≠ none) ∧
      ∀ d, w.parameterValues = some d → validateSizes (d.map fun kv => kv.2.1) = .ok () := by
  unfold Workload.postInit
  split
  · next h => simp [Option.isNone_iff_eq_none.1 h.2, h.1]
  · next h =>
    have h1 : ResultType.expectation ∈ w.resultTypes → w.observable ≠ none := fun hm hn => h ⟨hm, by simp [hn]⟩
    cases hp : w.parameterValues with
    | none => simpa using h1
    | some d =>
      have : List.map Prod.fst (PyDict.values d) = d.map fun kv => kv.2.1 := by
        simp [PyDict.values]
      simpa [this] using fun _ => h1

/-- **C75** what is uploaded: the circuit, the result types in the order given, the value of every parameter under its name and the
observable if there is one; no two different lists of result types look alike. -/
theorem C75_upload {χ ο τ σ : Type} (sc : χ → σ) (so : ο → σ) (w : Workload χ ο τ) :
    (toJson sc so w).workloadType = "qadence_circuit" ∧ (toJson sc so w).backendType = w.backend ∧
      (toJson sc so w).circuit = sc w.circuit ∧
      (∀ w' : Workload χ ο τ, (toJson sc so w').resultTypes = (toJson sc so w).resultTypes →
        w'.resultTypes = w.resultTypes) ∧
      (∀ name, (toJson sc so w).cValues.get? name = w.parameterValues.bind fun d => (d.get? name).map Prod.snd) ∧
      (toJson sc so w).observable = w.observable.map so := by
  refine ⟨rfl, rfl, rfl, fun w' h => ?_, fun name => ?_, rfl⟩
  · have hinj : Function.Injective ResultType.value := by
      intro a b h
      cases a <;> cases b <;> simp [ResultType.value] at h ⊢
    exact List.map_injective_iff.2 hinj h
  · unfold toJson
    cases hp : w.parameterValues with
    | none => rfl
    | some d =>
      simp only [Option.bind_some]
      clear hp
      induction d with
      | nil => rfl
      | cons kv d ih =>
        simp only [List.map_cons, PyDict.get?]
        split
        · rfl
        · exact ih

end Qadence.Cloud
