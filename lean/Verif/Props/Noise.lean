import Mathlib.Data.List.Nodup
import Mathlib.Data.List.Count
import Mathlib.Tactic.Tauto
import Verif.Model.Noise
import Verif.Proofs.PyDict

/-!
# Properties C23-C25: noise handlers
-/

namespace Qadence

namespace Spec

/-- A valid combination of noise sources, as documented in `NoiseHandler`. -/
structure ValidNoise {V : Type} (ps : List NoiseEnum) (os : List (NoiseOptions V)) : Prop where
  nonempty : ps ≠ []
  /-- one option record per protocol -/
  sameLength : ps.length = os.length
  /-- every analog/digital protocol has its error definition -/
  defined : ∀ (i : ℕ) (p : NoiseEnum) (o : NoiseOptions V), ps[i]? = some p → os[i]? = some o →
    (p.kind = .analog → ∃ v, PyDict.get? o "noise_probs" = some (some v)) ∧
    (p.kind = .digital → ∃ v, PyDict.get? o "error_probability" = some (some v))
  noDigitalAnalogMix : ¬ ((∃ p ∈ ps, p.kind = .digital) ∧ (∃ p ∈ ps, p.kind = .analog))
  noAnalogReadoutMix : ¬ ((∃ p ∈ ps, p.kind = .analog) ∧ (∃ p ∈ ps, p.kind = .readout))
  /-- at most one analog protocol -/
  oneAnalog : ∀ (i j : ℕ) (p q : NoiseEnum), ps[i]? = some p → ps[j]? = some q → p.kind = .analog → q.kind = .analog → i = j
  /-- a readout protocol is the last one (hence there is at most one) -/
  readoutLast : ∀ (i : ℕ) (p : NoiseEnum), ps[i]? = some p → p.kind = .readout → i + 1 = ps.length

end Spec

open Spec

variable {V : Type} [DecidableEq V]

namespace NoiseHandler

theorem verifySingle_ok_iff (p : NoiseEnum) (o : NoiseOptions V) :
    verifySingle p o = .ok () ↔
      (p.kind = .analog → ∃ v, PyDict.get? o "noise_probs" = some (some v)) ∧
      (p.kind = .digital → ∃ v, PyDict.get? o "error_probability" = some (some v)) := by
  have key : ∀ name, (∃ v, PyDict.get? o name = some (some v)) ↔ optGet o name ≠ none := by
    intro name
    unfold optGet
    cases PyDict.get? o name with
    | none => simp
    | some w => cases w <;> simp
  rw [key, key]
  obtain ⟨k, v⟩ := p
  unfold verifySingle mandatoryName
  cases k
  · simp only [if_true, ne_eq, reduceCtorEq, not_false_eq_true, forall_true_left, false_implies, and_true]
    cases optGet o "noise_probs" <;> simp
  · simp
  · simp only [ne_eq, reduceCtorEq, not_false_eq_true, if_true, if_false, false_implies, true_and,
      forall_true_left]
    cases optGet o "error_probability" <;> simp

theorem verifyEach_ok_iff (l : List (NoiseEnum × NoiseOptions V)) :
    verifyEach l = .ok () ↔ ∀ po ∈ l, verifySingle po.1 po.2 = .ok () := by
  induction l with
  | nil => simp [verifyEach]
  | cons a l ih =>
    obtain ⟨p, o⟩ := a
    simp only [verifyEach, List.mem_cons, forall_eq_or_imp]
    cases h : verifySingle p o with
    | error e => simp
    | ok u => simp [ih]

theorem count_le_one_iff {α : Type} [DecidableEq α] (l : List α) (a : α) :
    l.count a ≤ 1 ↔ ∀ i j : ℕ, l[i]? = some a → l[j]? = some a → i = j := by
  induction l with
  | nil => simp
  | cons b l ih =>
    by_cases hb : b = a
    · subst hb
      rw [List.count_cons_self]
      constructor
      · intro h i j hi hj
        have h0 : b ∉ l := by
          intro hm
          have := List.count_pos_iff.2 hm
          omega
        have key : ∀ i, (b :: l)[i]? = some b → i = 0 := by
          intro i hi
          cases i with
          | zero => rfl
          | succ i =>
            simp only [List.getElem?_cons_succ] at hi
            exact absurd (List.mem_of_getElem? hi) h0
        rw [key i hi, key j hj]
      · intro h
        have : b ∉ l := by
          intro hm
          obtain ⟨i, hi⟩ := List.mem_iff_getElem?.1 hm
          have := h 0 (i + 1) (by simp) (by simpa using hi)
          omega
        have := List.count_eq_zero_of_not_mem this
        omega
    · rw [List.count_cons_of_ne hb, ih]
      constructor
      · intro h i j hi hj
        cases i with
        | zero => simp at hi; exact absurd hi hb
        | succ i =>
          cases j with
          | zero => simp at hj; exact absurd hj hb
          | succ j =>
            rw [h i j (by simpa using hi) (by simpa using hj)]
      · intro h i j hi hj
        have := h (i + 1) (j + 1) (by simpa using hi) (by simpa using hj)
        omega

/-- The verification accepts exactly the valid combinations. -/
theorem verifyAll_ok_iff (h : NoiseHandler V) :
    verifyAll h = .ok () ↔ ValidNoise h.protocol h.options := by
  obtain ⟨ps, os⟩ := h
  simp only
  have hmem : ∀ k, k ∈ ps.map NoiseEnum.kind ↔ ∃ p ∈ ps, p.kind = k := by
    intro k; simp [List.mem_map]
  have hidx : ∀ (k : NoiseKind) (i : ℕ), (ps.map NoiseEnum.kind)[i]? = some k ↔
      ∃ p, ps[i]? = some p ∧ p.kind = k := by
    intro k i
    simp [List.getElem?_map, Option.map_eq_some_iff]
  have hdef : verifyEach (ps.zip os) = .ok () ↔
      ∀ (i : ℕ) (p : NoiseEnum) (o : NoiseOptions V), ps[i]? = some p → os[i]? = some o →
        (p.kind = .analog → ∃ v, PyDict.get? o "noise_probs" = some (some v)) ∧
        (p.kind = .digital → ∃ v, PyDict.get? o "error_probability" = some (some v)) := by
    rw [verifyEach_ok_iff]
    constructor
    · intro h i p o hp ho
      rw [← verifySingle_ok_iff]
      apply h (p, o)
      apply List.mem_of_getElem? (i := i)
      simp [List.getElem?_zip_eq_some, hp, ho]
    · intro h po hpo
      obtain ⟨i, hi⟩ := List.mem_iff_getElem?.1 hpo
      rw [List.getElem?_zip_eq_some] at hi
      exact (verifySingle_ok_iff _ _).2 (h i _ _ hi.1 hi.2)
  constructor
  · intro hok
    unfold verifyAll at hok
    simp only at hok
    split at hok
    · simp at hok
    · next h1 =>
      split at hok
      · simp at hok
      · next h2 =>
        split at hok
        · simp at hok
        · next h3 =>
          split at hok
          · simp at hok
          · next h4 =>
            split at hok
            · simp at hok
            · next h5 =>
              split at hok
              · simp at hok
              · next h6 =>
                split at hok
                · simp at hok
                · next h7 =>
                  refine ⟨?_, by omega, hdef.1 h3, ?_, ?_, ?_, ?_⟩
                  · rintro rfl; simp at h1
                  · rw [hmem, hmem] at h4; exact h4
                  · rw [hmem, hmem] at h5; exact h5
                  · intro i j p q hp hq hkp hkq
                    have hm : NoiseKind.analog ∈ ps.map NoiseEnum.kind :=
                      (hmem _).2 ⟨p, List.mem_of_getElem? hp, hkp⟩
                    have hc : (ps.map NoiseEnum.kind).count NoiseKind.analog ≤ 1 := by
                      by_contra hc
                      exact h6 ⟨hm, by omega⟩
                    exact (count_le_one_iff _ _).1 hc i j ((hidx _ _).2 ⟨p, hp, hkp⟩)
                      ((hidx _ _).2 ⟨q, hq, hkq⟩)
                  · intro i p hp hkp
                    have hm : NoiseKind.readout ∈ ps.map NoiseEnum.kind :=
                      (hmem _).2 ⟨p, List.mem_of_getElem? hp, hkp⟩
                    have hc : (ps.map NoiseEnum.kind).count NoiseKind.readout ≤ 1 := by
                      by_contra hc
                      exact h7 ⟨hm, Or.inr (by omega)⟩
                    have hlast : (ps.map NoiseEnum.kind).getLast? = some NoiseKind.readout := by
                      by_contra hc
                      exact h7 ⟨hm, Or.inl hc⟩
                    rw [List.getLast?_eq_getElem?] at hlast
                    have := (count_le_one_iff _ _).1 hc i _ ((hidx _ _).2 ⟨p, hp, hkp⟩) hlast
                    have hlt : i < ps.length := (List.getElem?_eq_some_iff.1 hp).1
                    simp at this
                    omega
  · intro hv
    have h1 : ¬ ps.length = 0 := by
      intro e
      exact hv.nonempty (List.length_eq_zero_iff.1 e)
    have h2 : ¬ ps.length ≠ os.length := fun e => e hv.sameLength
    have h3 := hdef.2 hv.defined
    have h4 : ¬ (NoiseKind.digital ∈ ps.map NoiseEnum.kind ∧
        NoiseKind.analog ∈ ps.map NoiseEnum.kind) := by
      rw [hmem, hmem]; exact hv.noDigitalAnalogMix
    have h5 : ¬ (NoiseKind.analog ∈ ps.map NoiseEnum.kind ∧
        NoiseKind.readout ∈ ps.map NoiseEnum.kind) := by
      rw [hmem, hmem]; exact hv.noAnalogReadoutMix
    have h6 : ¬ (NoiseKind.analog ∈ ps.map NoiseEnum.kind ∧
        1 < (ps.map NoiseEnum.kind).count NoiseKind.analog) := by
      rintro ⟨-, hc⟩
      have : (ps.map NoiseEnum.kind).count NoiseKind.analog ≤ 1 := by
        rw [count_le_one_iff]
        intro i j hi hj
        obtain ⟨p, hp, hkp⟩ := (hidx _ _).1 hi
        obtain ⟨q, hq, hkq⟩ := (hidx _ _).1 hj
        exact hv.oneAnalog i j p q hp hq hkp hkq
      omega
    have h7 : ¬ (NoiseKind.readout ∈ ps.map NoiseEnum.kind ∧
        ((ps.map NoiseEnum.kind).getLast? ≠ some NoiseKind.readout ∨
          1 < (ps.map NoiseEnum.kind).count NoiseKind.readout)) := by
      rintro ⟨hm, hc⟩
      rcases hc with hc | hc
      · obtain ⟨i, hi⟩ := List.mem_iff_getElem?.1 hm
        obtain ⟨p, hp, hkp⟩ := (hidx _ _).1 hi
        have := hv.readoutLast i p hp hkp
        apply hc
        rw [List.getLast?_eq_getElem?, List.length_map]
        have e : ps.length - 1 = i := by omega
        rw [e]; exact hi
      · have : (ps.map NoiseEnum.kind).count NoiseKind.readout ≤ 1 := by
          rw [count_le_one_iff]
          intro i j hi hj
          obtain ⟨p, hp, hkp⟩ := (hidx _ _).1 hi
          obtain ⟨q, hq, hkq⟩ := (hidx _ _).1 hj
          have e1 := hv.readoutLast i p hp hkp
          have e2 := hv.readoutLast j q hq hkq
          omega
        omega
    unfold verifyAll
    simp only [h1, h2, h3, h4, h5, h6, h7, if_false]

theorem init_ok_iff (ps : List NoiseEnum) (os : List (NoiseOptions V)) (h : NoiseHandler V) :
    init ps os = .ok h ↔ ValidNoise ps os ∧ h = ⟨ps, os⟩ := by
  have := verifyAll_ok_iff (⟨ps, os⟩ : NoiseHandler V)
  unfold init
  simp only
  cases hv : verifyAll (⟨ps, os⟩ : NoiseHandler V) with
  | error e =>
    rw [hv] at this
    simp only [reduceCtorEq, false_iff] at this ⊢
    exact fun hh => this hh.1
  | ok u =>
    rw [hv] at this
    simp only [Except.ok.injEq, true_iff] at this ⊢
    exact ⟨fun e => ⟨this, e.symm⟩, fun e => e.2.symm⟩

theorem foldl_append_eq {α β : Type} (f : α → List β) (l : List α) (acc : List β) :
    l.foldl (fun acc n => acc ++ f n) acc = acc ++ l.flatMap f := by
  induction l generalizing acc with
  | nil => simp
  | cons a l ih => simp [ih]

end NoiseHandler

open NoiseHandler

/-! ## C23 -/

/-- C23: a constructor call succeeds exactly for valid combinations and stores them unchanged. -/
theorem C23_construct_iff (ps : List NoiseEnum) (os : List (NoiseOptions V)) (h : NoiseHandler V) :
    NoiseHandler.init ps os = .ok h ↔ ValidNoise ps os ∧ h.protocol = ps ∧ h.options = os := by
  rw [init_ok_iff]
  constructor
  · rintro ⟨hv, rfl⟩; exact ⟨hv, rfl, rfl⟩
  · rintro ⟨hv, h1, h2⟩
    refine ⟨hv, ?_⟩
    cases h; simp_all

/-- C23: after any history of operations (including failing ones) every handler is valid. -/
theorem C23_valid_after_any_history (ops : List (NoiseOp V)) :
    ∀ h ∈ NoiseOp.run ops, ValidNoise h.protocol h.options := by
  unfold NoiseOp.run
  suffices ∀ s : List (NoiseHandler V), (∀ h ∈ s, ValidNoise h.protocol h.options) →
      ∀ h ∈ ops.foldl (fun s op => (NoiseOp.step s op).1) s, ValidNoise h.protocol h.options from
    this [] (by simp)
  induction ops with
  | nil => intro s hs; simpa using hs
  | cons op ops ih =>
    intro s hs
    rw [List.foldl_cons]
    apply ih
    have hinit : ∀ ps os (h : NoiseHandler V), NoiseHandler.init ps os = .ok h →
        ValidNoise h.protocol h.options := by
      intro ps os h e
      obtain ⟨hv, rfl⟩ := (init_ok_iff _ _ _).1 e
      exact hv
    have happ : ∀ h', ValidNoise h'.protocol h'.options →
        ∀ h ∈ s ++ [h'], ValidNoise h.protocol h.options := by
      intro h' hv h hm
      rcases List.mem_append.1 hm with hm | hm
      · exact hs h hm
      · rw [List.mem_singleton.1 hm]; exact hv
    cases op with
    | construct ps os =>
      simp only [NoiseOp.step]
      cases e : NoiseHandler.init ps os with
      | error _ => exact hs
      | ok h' => exact happ h' (hinit _ _ _ e)
    | constructShared ps o =>
      simp only [NoiseOp.step]
      cases e : NoiseHandler.initShared ps o with
      | error _ => exact hs
      | ok h' => exact happ h' (hinit _ _ _ e)
    | append i js =>
      simp only [NoiseOp.step]
      split
      · next self others h1 h2 =>
        cases e : self.append others with
        | error _ => exact hs
        | ok h' =>
          intro h hm
          rcases List.mem_or_eq_of_mem_set hm with hm | rfl
          · exact hs h hm
          · exact hinit _ _ _ e
      · exact hs
    | filter i kind =>
      simp only [NoiseOp.step]
      cases h1 : s[i]? with
      | none => exact hs
      | some self =>
        simp only
        cases e : self.filter kind with
        | error _ => exact hs
        | ok r =>
          cases r with
          | none => exact hs
          | some h' =>
            apply happ
            unfold NoiseHandler.filter at e
            simp only at e
            split at e
            · split at e
              · simp at e
              · next h2 e2 =>
                simp only [Except.ok.injEq, Option.some.injEq] at e
                subst e
                exact hinit _ _ _ e2
            · simp at e

/-- C23: a rejected operation leaves all handlers unchanged. -/
theorem C23_failure_changes_nothing (s : List (NoiseHandler V)) (op : NoiseOp V) (e : PyErr)
    (h : (NoiseOp.step s op).2 = some e) : (NoiseOp.step s op).1 = s := by
  cases op with
  | construct ps os =>
    simp only [NoiseOp.step] at h ⊢
    cases e1 : NoiseHandler.init ps os <;> simp [e1] at h ⊢
  | constructShared ps o =>
    simp only [NoiseOp.step] at h ⊢
    cases e1 : NoiseHandler.initShared ps o <;> simp [e1] at h ⊢
  | append i js =>
    simp only [NoiseOp.step] at h ⊢
    split at h
    · next self others _ _ => cases e1 : self.append others <;> simp [e1] at h ⊢
    · rfl
  | filter i kind =>
    simp only [NoiseOp.step] at h ⊢
    split at h
    · rfl
    · next self _ =>
      cases e1 : self.filter kind with
      | error => rfl
      | ok r => cases r <;> simp [e1] at h

/-- C23: `append` succeeds exactly if the concatenation is valid, and then the handler holds precisely the
concatenation of protocols and options, all other handlers being unchanged. -/
theorem C23_append_is_concatenation (s : List (NoiseHandler V)) (i : ℕ) (js : List ℕ)
    (self : NoiseHandler V) (others : List (NoiseHandler V)) (hi : s[i]? = some self)
    (hjs : js.mapM (fun j => s[j]?) = some others) :
    let ps := self.protocol ++ others.flatMap NoiseHandler.protocol
    let os := self.options ++ others.flatMap NoiseHandler.options
    (ValidNoise ps os → NoiseOp.step s (.append i js) = (s.set i ⟨ps, os⟩, none)) ∧
    (¬ ValidNoise ps os → ∃ e, NoiseOp.step s (.append i js) = (s, some e)) := by
  intro ps os
  have happ : self.append others = NoiseHandler.init ps os := by
    unfold NoiseHandler.append
    rw [foldl_append_eq, foldl_append_eq]
  constructor
  · intro hv
    have : NoiseHandler.init ps os = .ok ⟨ps, os⟩ := (init_ok_iff _ _ _).2 ⟨hv, rfl⟩
    simp only [NoiseOp.step, hi, hjs, happ, this]
  · intro hv
    cases e : NoiseHandler.init ps os with
    | error e' => exact ⟨e', by simp only [NoiseOp.step, hi, hjs, happ, e]⟩
    | ok h' => exact absurd ((init_ok_iff _ _ _).1 e).1 hv

/-- A digital noise source followed by readout noise is valid, so the hypotheses above are reachable. -/
example : NoiseOp.run (V := ℕ) [
    .construct [⟨.digital, "BitFlip"⟩] [[("error_probability", some 1)]],
    .construct [⟨.readout, "Independent Readout"⟩] [[]],
    .append 1 [0],   -- rejected: readout would not be last
    .append 0 [1]] =
    [⟨[⟨.digital, "BitFlip"⟩, ⟨.readout, "Independent Readout"⟩],
        [[("error_probability", some 1)], []]⟩,
      ⟨[⟨.readout, "Independent Readout"⟩], [[]]⟩] := by decide

/-! ## C24 -/

theorem NoiseHandler.compress_map {α : Type} (data : List α) (f : α → Bool) :
    compress data (data.map f) = data.filter f := by
  unfold compress
  induction data with
  | nil => rfl
  | cons a l ih =>
    cases h : f a <;> simp_all

theorem NoiseHandler.compress_zip {α β : Type} (ps : List α) (os : List β) (f : α → Bool)
    (hl : ps.length = os.length) :
    (compress ps (ps.map f)).zip (compress os (ps.map f)) =
      (ps.zip os).filter (fun po => f po.1) := by
  induction ps generalizing os with
  | nil => simp [compress]
  | cons a ps ih =>
    cases os with
    | nil => simp at hl
    | cons o os =>
      have ih := ih os (by simpa using hl)
      unfold compress at *
      cases h : f a <;> simp_all

theorem NoiseHandler.compress_length {α β : Type} (ps : List α) (os : List β) (f : α → Bool)
    (hl : ps.length = os.length) :
    (compress os (ps.map f)).length = (compress ps (ps.map f)).length := by
  induction ps generalizing os with
  | nil => simp [compress]
  | cons a ps ih =>
    cases os with
    | nil => simp at hl
    | cons o os =>
      have ih := ih os (by simpa using hl)
      unfold compress at *
      cases h : f a <;> simp_all

/-- C24: filtering a valid handler never raises; it returns `None` exactly when no source has the kind,
and otherwise a valid handler whose (protocol, options) pairs are exactly those of the kind in order. -/
theorem C24_filter (h : NoiseHandler V) (kind : NoiseKind) (hv : ValidNoise h.protocol h.options) :
    ((∀ p ∈ h.protocol, p.kind ≠ kind) ∧ h.filter kind = .ok none) ∨
    ((∃ p ∈ h.protocol, p.kind = kind) ∧ ∃ g, h.filter kind = .ok (some g) ∧
      ValidNoise g.protocol g.options ∧
      g.protocol = h.protocol.filter (fun p => p.kind = kind) ∧
      g.protocol.zip g.options =
        (h.protocol.zip h.options).filter (fun po => po.1.kind = kind)) := by
  obtain ⟨ps, os⟩ := h
  simp only at hv ⊢
  by_cases hex : ∃ p ∈ ps, p.kind = kind
  · right
    refine ⟨hex, ?_⟩
    have hm : true ∈ ps.map (fun p => decide (p.kind = kind)) := by
      obtain ⟨p, hp, hk⟩ := hex
      exact List.mem_map.2 ⟨p, hp, by simpa using hk⟩
    let f : NoiseEnum → Bool := fun p => decide (p.kind = kind)
    have hps : compress ps (ps.map f) = ps.filter f := compress_map ps f
    have hzip := compress_zip ps os f hv.sameLength
    have hlen := compress_length ps os f hv.sameLength
    rw [hps] at hzip hlen
    set os' := compress os (ps.map f) with hos'
    have hkind : ∀ p ∈ ps.filter f, p ∈ ps ∧ p.kind = kind := by
      intro p hp
      have := List.mem_filter.1 hp
      exact ⟨this.1, by simpa [f] using this.2⟩
    have hcount : kind ≠ .digital → (ps.filter f).length ≤ 1 := by
      intro hkd
      have hc : (ps.map NoiseEnum.kind).count kind ≤ 1 := by
        rw [count_le_one_iff]
        intro i j hi hj
        simp only [List.getElem?_map, Option.map_eq_some_iff] at hi hj
        obtain ⟨p, hp, hkp⟩ := hi
        obtain ⟨q, hq, hkq⟩ := hj
        cases kind with
        | analog => exact hv.oneAnalog i j p q hp hq hkp hkq
        | readout =>
          have e1 := hv.readoutLast i p hp hkp
          have e2 := hv.readoutLast j q hq hkq
          omega
        | digital => exact absurd rfl hkd
      have : (ps.filter f).length = (ps.map NoiseEnum.kind).count kind := by
        rw [List.count, List.countP_map, List.countP_eq_length_filter]
        congr 1
      omega
    have hvalid : ValidNoise (ps.filter f) os' := by
      refine ⟨?_, hlen.symm, ?_, ?_, ?_, ?_, ?_⟩
      · intro e
        obtain ⟨p, hp, hk⟩ := hex
        have : p ∈ ps.filter f := List.mem_filter.2 ⟨hp, by simpa [f] using hk⟩
        rw [e] at this; simp at this
      · intro i p o hp ho
        have hmem : (p, o) ∈ (ps.filter f).zip os' := by
          apply List.mem_of_getElem? (i := i)
          simp [List.getElem?_zip_eq_some, hp, ho]
        rw [hzip] at hmem
        have hmem := (List.mem_filter.1 hmem).1
        obtain ⟨j, hj⟩ := List.mem_iff_getElem?.1 hmem
        rw [List.getElem?_zip_eq_some] at hj
        exact hv.defined j p o hj.1 hj.2
      · rintro ⟨⟨p, hp, hkp⟩, ⟨q, hq, hkq⟩⟩
        exact hv.noDigitalAnalogMix ⟨⟨p, (hkind p hp).1, hkp⟩, ⟨q, (hkind q hq).1, hkq⟩⟩
      · rintro ⟨⟨p, hp, hkp⟩, ⟨q, hq, hkq⟩⟩
        exact hv.noAnalogReadoutMix ⟨⟨p, (hkind p hp).1, hkp⟩, ⟨q, (hkind q hq).1, hkq⟩⟩
      · intro i j p q hp hq hkp hkq
        have hk := (hkind p (List.mem_of_getElem? hp)).2
        have := hcount (by rw [← hk, hkp]; simp)
        have h1 := (List.getElem?_eq_some_iff.1 hp).1
        have h2 := (List.getElem?_eq_some_iff.1 hq).1
        omega
      · intro i p hp hkp
        have hk := (hkind p (List.mem_of_getElem? hp)).2
        have := hcount (by rw [← hk, hkp]; simp)
        have h1 := (List.getElem?_eq_some_iff.1 hp).1
        omega
    refine ⟨⟨ps.filter f, os'⟩, ?_, hvalid, rfl, hzip⟩
    have hi : NoiseHandler.init (ps.filter f) os' = .ok ⟨ps.filter f, os'⟩ :=
      (init_ok_iff _ _ _).2 ⟨hvalid, rfl⟩
    unfold NoiseHandler.filter
    simp only [hm, if_true]
    have hi' : NoiseHandler.init (compress ps (ps.map fun p => decide (p.kind = kind)))
        (compress os (ps.map fun p => decide (p.kind = kind))) = .ok ⟨ps.filter f, os'⟩ := by
      rw [← hi, ← hps]
    rw [hi']
  · left
    have hex' : ∀ p ∈ ps, p.kind ≠ kind := fun p hp hk => hex ⟨p, hp, hk⟩
    refine ⟨hex', ?_⟩
    unfold NoiseHandler.filter
    have : ¬ true ∈ ps.map (fun p => decide (p.kind = kind)) := by
      intro hm
      obtain ⟨p, hp, hk⟩ := List.mem_map.1 hm
      exact hex' p hp (by simpa using hk)
    simp [this]

example : ValidNoise (V := ℕ) [⟨.digital, "BitFlip"⟩, ⟨.readout, "Independent Readout"⟩]
    [[("error_probability", some 1)], []] :=
  (verifyAll_ok_iff ⟨[⟨.digital, "BitFlip"⟩, ⟨.readout, "Independent Readout"⟩],
    [[("error_probability", some 1)], []]⟩).1 (by decide)

/-! ## C25 -/

/-- C25 (part that holds): handlers with the same content compare equal (options compared as mappings). -/
theorem C25_equal_content_compares_equal_partial (h : NoiseHandler V)
    (hwf : ∀ o ∈ h.options, PyDict.WF o) : h.pyEq h = true := by
  unfold NoiseHandler.pyEq
  have h1 : ∀ {α : Type} (l : List α) (f : α × α → Bool), (∀ a ∈ l, f (a, a) = true) →
      (l.zip l).all f = true := by
    intro α l f hf
    induction l with
    | nil => rfl
    | cons a l ih =>
      simp [hf a (by simp), ih (fun b hb => hf b (by simp [hb]))]
  rw [Bool.and_eq_true]
  constructor
  · exact h1 _ _ (by simp [NoiseEnum.pyEq])
  · apply h1
    intro o ho
    simp only [NoiseOptions.pyEq, Bool.and_self, List.all_eq_true, beq_iff_eq]
    intro kv hkv
    exact PyDict.get?_eq_some_of_mem (hwf o ho) hkv

/-- C25 (part that holds): comparison is symmetric, for handlers of equal length XX -/
theorem C25_symmetric_partial (h g : NoiseHandler V) : h.pyEq g = g.pyEq h := by
  have hz : ∀ {α : Type} (f : α → α → Bool) (hf : ∀ a b, f a b = f b a) (l m : List α),
      (l.zip m).all (fun x => f x.1 x.2) = (m.zip l).all (fun x => f x.1 x.2) := by
    intro α f hf l
    induction l with
    | nil => intro m; cases m <;> rfl
    | cons a l ih =>
      intro m
      cases m with
      | nil => rfl
      | cons b m => simp [ih m, hf a b]
  unfold NoiseHandler.pyEq
  rw [hz NoiseEnum.pyEq (by intro a b; simp [NoiseEnum.pyEq, Bool.beq_comm]),
    hz NoiseOptions.pyEq (by intro a b; simp [NoiseOptions.pyEq, Bool.and_comm])]

/-- C25 (part that holds): for handlers of equal length, equality means that corresponding sources have
the same protocol value and the same options mapping. -/
theorem C25_equal_length_partial (h g : NoiseHandler V)
    (hl : h.protocol.length = g.protocol.length) (ho : h.options.length = g.options.length) :
    h.pyEq g = true ↔
      h.protocol.map NoiseEnum.value = g.protocol.map NoiseEnum.value ∧
      (∀ (i : ℕ) o o', h.options[i]? = some o → g.options[i]? = some o' → NoiseOptions.pyEq o o' = true) := by
  unfold NoiseHandler.pyEq
  rw [Bool.and_eq_true]
  have h1 : ∀ (l m : List NoiseEnum), l.length = m.length →
      ((l.zip m).all (fun pq => pq.1.pyEq pq.2) = true ↔ l.map NoiseEnum.value = m.map NoiseEnum.value) := by
    intro l
    induction l with
    | nil => intro m hm; cases m <;> simp_all
    | cons a l ih =>
      intro m hm
      cases m with
      | nil => simp at hm
      | cons b m =>
        rw [List.zip_cons_cons, List.all_cons, Bool.and_eq_true, ih m (by simpa using hm)]
        simp [NoiseEnum.pyEq]
  have h2 : ∀ (l m : List (NoiseOptions V)), l.length = m.length →
      ((l.zip m).all (fun oo => NoiseOptions.pyEq oo.1 oo.2) = true ↔
        ∀ (i : ℕ) o o', l[i]? = some o → m[i]? = some o' → NoiseOptions.pyEq o o' = true) := by
    intro l m hm
    simp only [List.all_eq_true]
    constructor
    · intro h i o o' hi hi'
      apply h (o, o')
      apply List.mem_of_getElem? (i := i)
      simp [List.getElem?_zip_eq_some, hi, hi']
    · intro h x hx
      obtain ⟨i, hi⟩ := List.mem_iff_getElem?.1 hx
      rw [List.getElem?_zip_eq_some] at hi
      exact h i _ _ hi.1 hi.2
  rw [h1 _ _ hl, h2 _ _ ho]

/-- C25 fails in general: a handler compares equal to a proper prefix of itself. -/
theorem C25_counterexample_prefix_compares_equal :
    ∃ h g : NoiseHandler ℕ, ValidNoise h.protocol h.options ∧ ValidNoise g.protocol g.options ∧
      h.pyEq g = true ∧ h.protocol.length ≠ g.protocol.length := by
  refine ⟨⟨[⟨.digital, "BitFlip"⟩], [[("error_probability", some 1)]]⟩,
    ⟨[⟨.digital, "BitFlip"⟩, ⟨.readout, "Independent Readout"⟩],
      [[("error_probability", some 1)], []]⟩,
    (verifyAll_ok_iff _).1 (by decide), (verifyAll_ok_iff _).1 (by decide), by decide, by decide⟩

/-- C25 fails in general: comparison is not transitive. -/
theorem C25_counterexample_not_transitive :
    ∃ a b c : NoiseHandler ℕ, ValidNoise a.protocol a.options ∧ ValidNoise b.protocol b.options ∧
      ValidNoise c.protocol c.options ∧ a.pyEq b = true ∧ b.pyEq c = true ∧ a.pyEq c = false := by
  refine ⟨⟨[⟨.digital, "BitFlip"⟩, ⟨.digital, "PhaseFlip"⟩],
      [[("error_probability", some 1)], [("error_probability", some 1)]]⟩,
    ⟨[⟨.digital, "BitFlip"⟩], [[("error_probability", some 1)]]⟩,
    ⟨[⟨.digital, "BitFlip"⟩, ⟨.readout, "Independent Readout"⟩],
      [[("error_probability", some 1)], []]⟩,
    (verifyAll_ok_iff _).1 (by decide), (verifyAll_ok_iff _).1 (by decide),
    (verifyAll_ok_iff _).1 (by decide), by decide, by decide, by decide⟩

/-- C25: serialising a valid handler and loading it again gives back the same handler. -/
theorem C25_dict_round_trip (h : NoiseHandler V) (hv : ValidNoise h.protocol h.options) :
    NoiseHandler.fromDict (some h.toDict) = .ok (some h) := by
  obtain ⟨ps, os⟩ := h
  simp only [NoiseHandler.toDict, NoiseHandler.fromDict]
  have : ps.isEmpty = false := by
    cases ps with
    | nil => exact absurd rfl hv.nonempty
    | cons => rfl
  have hi : NoiseHandler.init ps os = .ok ⟨ps, os⟩ := (init_ok_iff _ _ _).2 ⟨hv, rfl⟩
  simp [this, hi]

end Qadence
