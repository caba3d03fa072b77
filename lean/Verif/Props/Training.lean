import Mathlib.Data.List.Basic
import Mathlib.Data.Int.ModEq
import Verif.Model.Training

/-!
# C49 and C54: the schedule of callbacks and epochs
-/

namespace Qadence

open TrainM

/-! ## Histories -/

/-- `f` appends events satisfying `P`, keeps the epoch, never clears the stop flag, and reports requests to stop: if an
event of it is answered by anything else than `none` then the flag is set or it is left by an interrupt. -/
structure Step (w : World) (P : Ev → Prop) (st : TState) (r : TState × Bool) : Prop where
  ext : ∃ l, r.1.trace = st.trace ++ l ∧ (∀ ev ∈ l, P ev) ∧
    ((∃ a ev b, l = a ++ ev :: b ∧ w (st.trace ++ a ++ [ev]) ≠ .none) → r.1.stop = true ∨ r.2 = true)
  stop : st.stop = true → r.1.stop = true
  cur : r.1.cur = st.cur

theorem Step.skip (w : World) (P : Ev → Prop) (st : TState) : Step w P st (skip st) where
  ext := ⟨[], by simp [TrainM.skip], by simp, by rintro ⟨a, ev, b, h, _⟩; simp at h⟩
  stop := id
  cur := rfl

theorem Step.buildResult (w : World) (P : Ev → Prop) (st : TState) : Step w P st (buildResult st) where
  ext := ⟨[], by simp [TrainM.buildResult], by simp, by rintro ⟨a, ev, b, h, _⟩; simp at h⟩
  stop := id
  cur := rfl

theorem Step.fire (w : World) (P : Ev → Prop) (s : Stage) (st : TState) (h : P ⟨s, st.cur, st.opt⟩) :
    Step w P st (fire w s st) := by
  have hs : ∀ a ev b, [(⟨s, st.cur, st.opt⟩ : Ev)] = a ++ ev :: b → a = [] ∧ ev = ⟨s, st.cur, st.opt⟩ := by
    intro a ev b h
    cases a with
    | nil => simp at h; exact ⟨rfl, h.1.symm⟩
    | cons x a => simp at h
  have hfire : TrainM.fire w s st = match w (st.trace ++ [⟨s, st.cur, st.opt⟩]) with
      | .none => ({ st with trace := st.trace ++ [⟨s, st.cur, st.opt⟩] }, false)
      | .stop => ({ st with trace := st.trace ++ [⟨s, st.cur, st.opt⟩], stop := true }, false)
      | .interrupt => ({ st with trace := st.trace ++ [⟨s, st.cur, st.opt⟩] }, true) := rfl
  rw [hfire]
  cases hw : w (st.trace ++ [⟨s, st.cur, st.opt⟩])
  · refine ⟨⟨[_], rfl, by simpa using h, ?_⟩, id, rfl⟩
    rintro ⟨a, ev, b, h, hne⟩
    obtain ⟨rfl, rfl⟩ := hs a ev b h
    rw [List.append_nil] at hne
    exact absurd hw hne
  · exact ⟨⟨[_], rfl, by simpa using h, fun _ => Or.inl rfl⟩, fun _ => rfl, rfl⟩
  · exact ⟨⟨[_], rfl, by simpa using h, fun _ => Or.inr rfl⟩, id, rfl⟩

theorem Step.trans {w : World} {P : Ev → Prop} {st : TState} {r r' : TState × Bool} (h1 : Step w P st r)
    (hi : r.2 = false) (h2 : Step w P r.1 r') : Step w P st r' := by
  obtain ⟨l1, e1, p1, q1⟩ := h1.ext
  obtain ⟨l2, e2, p2, q2⟩ := h2.ext
  refine ⟨⟨l1 ++ l2, by rw [e2, e1, List.append_assoc], ?_, ?_⟩, fun h => h2.stop (h1.stop h), h2.cur.trans h1.cur⟩
  · intro ev hev
    exact (List.mem_append.1 hev).elim (p1 ev) (p2 ev)
  · rintro ⟨a, ev, b, hl, hne⟩
    rcases List.append_eq_append_iff.1 hl with ⟨c, hc1, hc2⟩ | ⟨c, hc1, hc2⟩
    · apply q2
      refine ⟨c, ev, b, hc2, ?_⟩
      rw [e1, List.append_assoc st.trace l1 c, ← hc1]
      exact hne
    · cases c with
      | nil =>
        apply q2
        refine ⟨[], ev, b, by simpa using hc2.symm, ?_⟩
        rw [List.append_nil] at hc1 ⊢
        rw [e1, hc1]
        exact hne
      | cons x c =>
        rw [List.cons_append, List.cons.injEq] at hc2
        obtain ⟨rfl, -⟩ := hc2
        rcases q1 ⟨a, ev, c, hc1, hne⟩ with h | h
        · exact Or.inl (h2.stop h)
        · rw [hi] at h; exact absurd h (by simp)

theorem Step.seq {w : World} {P : Ev → Prop} {f g : TrainM} {st : TState} (h1 : Step w P st (f st))
    (h2 : (f st).2 = false → Step w P (f st).1 (g (f st).1)) : Step w P st (seq f g st) := by
  unfold TrainM.seq
  split
  · exact h1
  · next h =>
    have hf : (f st).2 = false := by simpa using h
    exact h1.trans hf (h2 hf)

theorem Step.times {w : World} {P : Ev → Prop} {f : TrainM} (I : TState → Prop)
    (h : ∀ st, I st → Step w P st (f st) ∧ I (f st).1) (k : ℕ) (st : TState) (hI : I st) :
    Step w P st (times f k st) ∧ I (times f k st).1 := by
  induction k generalizing st with
  | zero => exact ⟨Step.skip w P st, hI⟩
  | succ k ih =>
    obtain ⟨h1, h2⟩ := h st hI
    refine ⟨Step.seq h1 fun _ => (ih _ h2).1, ?_⟩
    rw [TrainM.times, TrainM.seq]
    split
    · exact h2
    · exact (ih _ h2).2

theorem fire_cur (w : World) (s : Stage) (st : TState) : (fire w s st).1.cur = st.cur ∧ (fire w s st).1.opt = st.opt := by
  simp only [TrainM.fire]
  split <;> exact ⟨rfl, rfl⟩

/-- Stages at the end of something. -/
def Stage.isEnd : Stage → Bool
  | .trainEnd | .trainEpochEnd | .trainBatchEnd | .valEpochEnd | .valBatchEnd => true
  | _ => false

theorem Step.phase {w : World} {P : Ev → Prop} {a b : Stage} {body : TrainM} {st : TState}
    (ha : P ⟨a, st.cur, st.opt⟩)
    (hbody : ∀ st', st'.cur = st.cur → Step w P st' (body st'))
    (hb : P ⟨b, st.cur, st.cur⟩) : Step w P st (phase w a b body st) := by
  unfold TrainM.phase
  refine Step.seq (Step.fire w P a st ha) fun _ => ?_
  have hc := (fire_cur w a st).1
  have hB := hbody _ hc
  refine Step.seq hB fun _ => ?_
  refine Step.seq (Step.buildResult w P _) fun _ => ?_
  apply Step.fire
  have : (body (TrainM.fire w a st).1).1.cur = st.cur := hB.cur.trans hc
  simpa [TrainM.buildResult, this] using hb

/-- The events of the training of one epoch. -/
theorem Step.runTraining {w : World} {P : Ev → Prop} (c : TrainCfg) (st : TState)
    (h0 : P ⟨.trainEpochStart, st.cur, st.opt⟩) (h1 : P ⟨.trainEpochEnd, st.cur, st.cur⟩)
    (h2 : ∀ o, P ⟨.trainBatchStart, st.cur, o⟩) (h3 : ∀ o, P ⟨.step, st.cur, o⟩) (h4 : P ⟨.trainBatchEnd, st.cur, st.cur⟩) :
    Step w P st (runTraining w c st) := by
  refine Step.phase h0 (fun st' hc => ?_) h1
  refine (Step.times (fun s => s.cur = st.cur) (fun s hs => ?_) _ st' hc).1
  have := Step.phase (w := w) (P := P) (a := .trainBatchStart) (b := .trainBatchEnd) (body := TrainM.fire w .step) (st := s)
    (by rw [hs]; exact h2 _) (fun s' hs' => Step.fire w P _ s' (by rw [hs', hs]; exact h3 _)) (by rw [hs]; exact h4)
  exact ⟨this, this.cur.trans hs⟩

/-- The events of a validation. -/
theorem Step.runValidation {w : World} {P : Ev → Prop} (c : TrainCfg) (st : TState)
    (h0 : ∀ o, P ⟨.valEpochStart, st.cur, o⟩) (h1 : P ⟨.valEpochEnd, st.cur, st.cur⟩)
    (h2 : ∀ o, P ⟨.valBatchStart, st.cur, o⟩) (h3 : ∀ o, P ⟨.evaluate, st.cur, o⟩) (h4 : P ⟨.valBatchEnd, st.cur, st.cur⟩) :
    Step w P st (runValidation w c st) := by
  refine Step.phase (h0 _) (fun st' hc => ?_) h1
  refine (Step.times (fun s => s.cur = st.cur) (fun s hs => ?_) _ st' hc).1
  have := Step.phase (w := w) (P := P) (a := .valBatchStart) (b := .valBatchEnd) (body := TrainM.fire w .evaluate) (st := s)
    (by rw [hs]; exact h2 _) (fun s' hs' => Step.fire w P _ s' (by rw [hs', hs]; exact h3 _)) (by rw [hs]; exact h4)
  exact ⟨this, this.cur.trans hs⟩

/-! ## No epoch after a request to stop -/

/-- In a history, no training epoch starts after an event which was answered by a request to stop or an interrupt. -/
def NoEpochAfterStop (w : World) (tr : List Ev) : Prop :=
  ∀ a ev b, tr = a ++ ev :: b → w (a ++ [ev]) ≠ .none → ∀ e ∈ b, e.stage ≠ .trainEpochStart

/-- Some event was answered by a request to stop or an interrupt. -/
def Requested (w : World) (tr : List Ev) : Prop := ∃ a ev b, tr = a ++ ev :: b ∧ w (a ++ [ev]) ≠ .none

theorem requested_append {w : World} {tr l : List Ev} (h : Requested w (tr ++ l)) :
    Requested w tr ∨ ∃ a ev b, l = a ++ ev :: b ∧ w (tr ++ a ++ [ev]) ≠ .none := by
  obtain ⟨a, ev, b, hl, hne⟩ := h
  rcases List.append_eq_append_iff.1 hl with ⟨c, hc1, hc2⟩ | ⟨c, hc1, hc2⟩
  · right
    exact ⟨c, ev, b, hc2, by rw [← hc1]; exact hne⟩
  · cases c with
    | nil =>
      right
      rw [List.append_nil] at hc1
      exact ⟨[], ev, b, by simpa using hc2.symm, by rw [List.append_nil, hc1]; exact hne⟩
    | cons x c =>
      left
      rw [List.cons_append, List.cons.injEq] at hc2
      obtain ⟨rfl, -⟩ := hc2
      exact ⟨a, ev, c, hc1, hne⟩

theorem noEpoch_append {w : World} {tr l : List Ev} (h : NoEpochAfterStop w tr) (hl : ∀ e ∈ l, e.stage ≠ .trainEpochStart) :
    NoEpochAfterStop w (tr ++ l) := by
  intro a ev b hab hne e he
  rcases List.append_eq_append_iff.1 hab with ⟨c, hc1, hc2⟩ | ⟨c, hc1, hc2⟩
  · apply hl
    rw [hc2]
    simp [he]
  · cases c with
    | nil =>
      apply hl
      have : l = ev :: b := by simpa using hc2.symm
      rw [this]
      simp [he]
    | cons x c =>
      rw [List.cons_append, List.cons.injEq] at hc2
      obtain ⟨rfl, rfl⟩ := hc2
      rcases List.mem_append.1 he with he | he
      · exact h a ev c hc1 hne e he
      · exact hl e he

theorem noEpoch_snoc_of_not_requested {w : World} {tr : List Ev} (h : ¬ Requested w tr) (x : Ev) :
    NoEpochAfterStop w (tr ++ [x]) := by
  intro a ev b hab hne e he
  exfalso
  cases hb : b.reverse with
  | nil =>
    have : b = [] := by simpa using hb
    rw [this] at he
    simp at he
  | cons y t =>
    have hb' : b = t.reverse ++ [y] := by rw [← List.reverse_cons, ← hb, List.reverse_reverse]
    rw [hb', ← List.cons_append, ← List.append_assoc] at hab
    have := List.append_inj_left' hab rfl
    exact h ⟨a, ev, t.reverse, this, hne⟩

/-- The invariant of the training loop. -/
structure LoopInv (w : World) (st : TState) : Prop where
  noEpoch : NoEpochAfterStop w st.trace
  flag : Requested w st.trace → st.stop = true

theorem seq_fst {f g : TrainM} {st : TState} (h : (f st).2 = false) : TrainM.seq f g st = g (f st).1 := by
  unfold TrainM.seq
  rw [h]
  rfl

theorem runEpoch_inv (w : World) (c : TrainCfg) (e : ℕ) (st : TState) (h : LoopInv w st) (hs : st.stop = false) :
    LoopInv w (if (runEpoch w c e st).2 then { (runEpoch w c e st).1 with stop := true } else (runEpoch w c e st).1) := by
  have hnr : ¬ Requested w st.trace := fun hr => by have := h.flag hr; rw [hs] at this; exact absurd this (by simp)
  set st1 : TState := { st with cur := e } with hst1
  have hepoch : runEpoch w c e st = TrainM.seq (runTraining w c)
      (if 0 < c.valEvery ∧ e % c.valEvery = 0 then runValidation w c else TrainM.skip) st1 := by
    rw [runEpoch, seq_fst rfl]
  -- the first event
  set st2 := (TrainM.fire w .trainEpochStart st1) with hst2
  have hf := Step.fire w (fun _ => True) .trainEpochStart st1 trivial
  have htr : st2.1.trace = st.trace ++ [⟨.trainEpochStart, e, st.opt⟩] := by
    rw [hst2]
    simp only [TrainM.fire]
    split <;> rfl
  have hrest : ∀ g : TrainM, (∀ s, Step w (fun ev => ev.stage ≠ .trainEpochStart) s (g s)) →
      ∀ r, r = TrainM.seq (TrainM.fire w .trainEpochStart) g st1 →
      LoopInv w (if r.2 then { r.1 with stop := true } else r.1) := by
    rintro g hg r rfl
    have hn2 : NoEpochAfterStop w st2.1.trace := htr ▸ noEpoch_snoc_of_not_requested hnr _
    have hreq2 : Requested w st2.1.trace → st2.1.stop = true ∨ st2.2 = true := by
      intro hr
      obtain ⟨l, hl, -, hq⟩ := hf.ext
      rw [hst2, hl] at hr
      rcases requested_append hr with hr | hr
      · exact absurd hr hnr
      · exact hq hr
    cases hi : st2.2 with
    | true =>
      have : TrainM.seq (TrainM.fire w .trainEpochStart) g st1 = st2 := by
        unfold TrainM.seq
        rw [if_pos hi]
      rw [this, if_pos hi]
      exact ⟨hn2, fun _ => rfl⟩
    | false =>
      rw [seq_fst hi]
      obtain ⟨l, hl, hp, hq⟩ := (hg st2.1).ext
      have hn : NoEpochAfterStop w (g st2.1).1.trace := hl ▸ noEpoch_append hn2 hp
      have hr : Requested w (g st2.1).1.trace → (g st2.1).1.stop = true ∨ (g st2.1).2 = true := by
        intro hr
        rw [hl] at hr
        rcases requested_append hr with hr | hr
        · rcases hreq2 hr with h' | h'
          · exact Or.inl ((hg st2.1).stop h')
          · rw [hi] at h'; exact absurd h' (by simp)
        · exact hq hr
      split
      · exact ⟨hn, fun _ => rfl⟩
      · next hne =>
        refine ⟨hn, fun h' => ?_⟩
        rcases hr h' with h'' | h''
        · exact h''
        · exact absurd h'' hne
  have hassoc : ∀ (f g k : TrainM) s, TrainM.seq (TrainM.seq f g) k s = TrainM.seq f (TrainM.seq g k) s := by
    intro f g k s
    unfold TrainM.seq
    by_cases h1 : (f s).2 = true
    · simp [h1]
    · simp only [h1, Bool.false_eq_true, if_false]
  rw [hepoch]
  refine hrest _ ?_ _ (hassoc _ _ _ _)
  intro s
  have hval : ∀ s, Step w (fun ev => ev.stage ≠ .trainEpochStart) s
      ((if 0 < c.valEvery ∧ e % c.valEvery = 0 then runValidation w c else TrainM.skip) s) := by
    intro s
    split
    · apply Step.runValidation <;> simp
    · exact Step.skip _ _ _
  refine Step.seq ?_ fun _ => hval _
  refine Step.seq ?_ fun _ => Step.seq (Step.buildResult _ _ _) fun _ => Step.fire _ _ _ _ (by simp)
  exact (Step.times (fun _ => True) (fun s _ => ⟨Step.phase (by simp) (fun s' _ => Step.fire _ _ _ _ (by simp)) (by simp),
    trivial⟩) _ _ trivial).1

theorem trainEpochs_inv (w : World) (c : TrainCfg) (es : List ℕ) (st : TState) (h : LoopInv w st) :
    LoopInv w (trainEpochs w c es st) := by
  induction es generalizing st with
  | nil => exact h
  | cons e es ih =>
    rw [trainEpochs]
    split
    · exact h
    · next hs => exact ih _ (runEpoch_inv w c e st h (by simpa using hs))

/-- **C54** whatever callbacks and the user do: no training epoch starts after an event during which a stop was requested
or the training was interrupted. -/
theorem C54_no_epoch_after_stop (w : World) (c : TrainCfg) (start : ℕ) :
    NoEpochAfterStop w (fit w c start (fitInit start)).1.trace := by
  have hnotrain : ∀ (f : TrainM) (st : TState), LoopInv w st →
      Step w (fun ev => ev.stage ≠ .trainEpochStart) st (f st) → (f st).2 = false → LoopInv w (f st).1 := by
    intro f st hinv hstep hi
    obtain ⟨l, hl, hp, hq⟩ := hstep.ext
    refine ⟨hl ▸ noEpoch_append hinv.noEpoch hp, fun hr => ?_⟩
    rw [hl] at hr
    rcases requested_append hr with hr | hr
    · exact hstep.stop (hinv.flag hr)
    · rcases hq hr with h | h
      · exact h
      · rw [hi] at h; exact absurd h (by simp)
  have hno : ∀ (f : TrainM) (st : TState), LoopInv w st →
      Step w (fun ev => ev.stage ≠ .trainEpochStart) st (f st) → NoEpochAfterStop w (f st).1.trace := by
    intro f st hinv hstep
    obtain ⟨l, hl, hp, -⟩ := hstep.ext
    exact hl ▸ noEpoch_append hinv.noEpoch hp
  have h0 : LoopInv w (fitInit start) := by
    refine ⟨?_, ?_⟩
    · intro a ev b h
      simp [fitInit] at h
    · rintro ⟨a, ev, b, h, _⟩
      simp [fitInit] at h
  have hval : ∀ s, Step w (fun ev => ev.stage ≠ .trainEpochStart) s
      ((if 0 < c.valEvery then runValidation w c else TrainM.skip) s) := by
    intro s
    split
    · apply Step.runValidation <;> simp
    · exact Step.skip _ _ _
  unfold fit
  cases h1 : ((if 0 < c.valEvery then runValidation w c else TrainM.skip) (fitInit start)).2 with
  | true =>
    unfold TrainM.seq
    rw [if_pos h1]
    exact hno _ _ h0 (hval _)
  | false =>
    rw [seq_fst h1]
    have hi1 := hnotrain _ _ h0 (hval _) h1
    unfold train TrainM.phase
    have hs := Step.fire w (fun ev => ev.stage ≠ .trainEpochStart) .trainStart
      ((if 0 < c.valEvery then runValidation w c else TrainM.skip) (fitInit start)).1 (by simp)
    generalize ((if 0 < c.valEvery then runValidation w c else TrainM.skip) (fitInit start)).1 = s1 at hi1 hs ⊢
    cases h2 : (TrainM.fire w .trainStart s1).2 with
    | true =>
      unfold TrainM.seq
      rw [if_pos h2]
      exact hno _ _ hi1 hs
    | false =>
      rw [seq_fst h2, seq_fst rfl, seq_fst rfl]
      have hi2 := trainEpochs_inv w c (List.range' start (c.maxIter + 1)) _ (hnotrain _ _ hi1 hs h2)
      apply hno
      · exact ⟨hi2.noEpoch, hi2.flag⟩
      · exact Step.fire _ _ _ _ (by simp)

/-! ## Undisturbed training -/

/-- Nobody interferes. -/
def quiet : World := fun _ => .none

theorem fire_quiet (s : Stage) (st : TState) :
    fire quiet s st = ({ st with trace := st.trace ++ [⟨s, st.cur, st.opt⟩] }, false) := rfl

/-- The events of `k` batches of epoch `e`, where `o` is the iteration seen by the first one. -/
def batchEvents (a m b : Stage) (e : ℕ) : ℕ → ℕ → List Ev
  | _, 0 => []
  | o, k + 1 => ⟨a, e, o⟩ :: ⟨m, e, o⟩ :: ⟨b, e, e⟩ :: batchEvents a m b e e k

theorem times_quiet (a m b : Stage) (k : ℕ) (st : TState) :
    times (phase quiet a b (fire quiet m)) k st =
      ({ st with opt := if k = 0 then st.opt else st.cur,
                 trace := st.trace ++ batchEvents a m b st.cur st.opt k }, false) := by
  induction k generalizing st with
  | zero => simp [times, skip, batchEvents]
  | succ k ih =>
    rw [times, seq_fst rfl, ih]
    simp only [phase, seq, fire_quiet, buildResult, batchEvents, Bool.false_eq_true, if_false, List.append_assoc,
      List.cons_append, List.nil_append, Nat.add_one_ne_zero]
    split <;> rfl

/-- The events of one phase with batches. -/
def phaseEvents (a b a' m b' : Stage) (e o k : ℕ) : List Ev :=
  ⟨a, e, o⟩ :: (batchEvents a' m b' e o k ++ [⟨b, e, e⟩])

theorem phase_quiet (a b a' m b' : Stage) (k : ℕ) (st : TState) :
    phase quiet a b (times (phase quiet a' b' (fire quiet m)) k) st =
      ({ st with opt := st.cur, trace := st.trace ++ phaseEvents a b a' m b' st.cur st.opt k }, false) := by
  rw [phase, seq_fst rfl, seq_fst (by rw [times_quiet]), times_quiet, seq_fst rfl]
  simp [buildResult, fire_quiet, phaseEvents]

/-- The events of one epoch. -/
def epochEvents (c : TrainCfg) (o e : ℕ) : List Ev :=
  phaseEvents .trainEpochStart .trainEpochEnd .trainBatchStart .step .trainBatchEnd e o c.trainBatches ++
    if 0 < c.valEvery ∧ e % c.valEvery = 0 then
      phaseEvents .valEpochStart .valEpochEnd .valBatchStart .evaluate .valBatchEnd e e c.valBatches else []

theorem runEpoch_quiet (c : TrainCfg) (e : ℕ) (st : TState) :
    runEpoch quiet c e st = ({ st with cur := e, opt := e, trace := st.trace ++ epochEvents c st.opt e }, false) := by
  rw [runEpoch, seq_fst rfl, runTraining, seq_fst (by rw [phase_quiet]), phase_quiet, runValidation, epochEvents]
  split
  · rw [phase_quiet]
    simp
  · simp [skip]

/-- The events of a list of epochs. -/
def epochsEvents (c : TrainCfg) : ℕ → List ℕ → List Ev
  | _, [] => []
  | o, e :: es => epochEvents c o e ++ epochsEvents c e es

theorem trainEpochs_quiet (c : TrainCfg) (es : List ℕ) (st : TState) (hs : st.stop = false) :
    (trainEpochs quiet c es st).trace = st.trace ++ epochsEvents c st.opt es := by
  induction es generalizing st with
  | nil => simp [trainEpochs, epochsEvents]
  | cons e es ih =>
    rw [trainEpochs, if_neg (by simp [hs]), runEpoch_quiet]
    simp only [Bool.false_eq_true, if_false]
    rw [ih { st with cur := e, opt := e, trace := st.trace ++ epochEvents c st.opt e } hs]
    simp [epochsEvents]

theorem trainEpochs_quiet_state (c : TrainCfg) (es : List ℕ) (st : TState) (hs : st.stop = false) :
    (trainEpochs quiet c es st).cur = es.getLastD st.cur ∧ (trainEpochs quiet c es st).stop = false := by
  induction es generalizing st with
  | nil => exact ⟨rfl, hs⟩
  | cons e es ih =>
    rw [trainEpochs, if_neg (by simp [hs]), runEpoch_quiet]
    simp only [Bool.false_eq_true, if_false]
    have := ih { st with cur := e, opt := e, trace := st.trace ++ epochEvents c st.opt e } hs
    rw [List.getLastD_cons]
    exact this

/-- All events of a training run which is not disturbed. -/
theorem fit_quiet (c : TrainCfg) (start : ℕ) : (fit quiet c start (fitInit start)).1.trace =
    (if 0 < c.valEvery then
      phaseEvents .valEpochStart .valEpochEnd .valBatchStart .evaluate .valBatchEnd start start c.valBatches else []) ++
    [⟨.trainStart, start, start⟩] ++ epochsEvents c start (List.range' start (c.maxIter + 1)) ++
    [⟨.trainEnd, start + c.maxIter, start + c.maxIter⟩] := by
  have hlast : (List.range' start (c.maxIter + 1)).getLastD start = start + c.maxIter := by
    rw [List.range'_concat, List.getLastD_concat, one_mul]
  have key : ∀ st : TState, st.cur = start → st.opt = start → st.stop = false →
      (train quiet c start st).1.trace = st.trace ++ [⟨.trainStart, start, start⟩] ++
        epochsEvents c start (List.range' start (c.maxIter + 1)) ++
        [⟨.trainEnd, start + c.maxIter, start + c.maxIter⟩] := by
    intro st h1 h2 h3
    rw [train, phase, seq_fst rfl, seq_fst rfl, seq_fst rfl, fire_quiet, fire_quiet]
    have ht := trainEpochs_quiet c (List.range' start (c.maxIter + 1))
      { st with trace := st.trace ++ [⟨.trainStart, st.cur, st.opt⟩] } h3
    have hc := (trainEpochs_quiet_state c (List.range' start (c.maxIter + 1))
      { st with trace := st.trace ++ [⟨.trainStart, st.cur, st.opt⟩] } h3).1
    subst h1
    rw [h2] at ht hc
    simp only [buildResult, h2] at ht hc ⊢
    rw [ht, hc, hlast]
  unfold fit
  split
  · have hv : runValidation quiet c (fitInit start) = ({ fitInit start with
        trace := phaseEvents .valEpochStart .valEpochEnd .valBatchStart .evaluate .valBatchEnd start start
          c.valBatches }, false) := by
      rw [runValidation, phase_quiet]
      simp [fitInit]
    rw [seq_fst (by rw [hv]), hv, key _ rfl rfl rfl]
  · rw [seq_fst rfl, key _ rfl rfl rfl]
    simp [skip, fitInit]

/-- Epochs at which an event of a given stage takes place. -/
def epochsAt (s : Stage) (tr : List Ev) : List ℕ := (tr.filter fun ev => ev.stage = s).map Ev.epoch

theorem filter_batchEvents (p : Ev → Bool) (a m b : Stage) (e o k : ℕ)
    (h : ∀ o s, (s = a ∨ s = m ∨ s = b) → p ⟨s, e, o⟩ = false) : (batchEvents a m b e o k).filter p = [] := by
  induction k generalizing o with
  | zero => rfl
  | succ k ih =>
    rw [batchEvents, List.filter_cons_of_neg (by simp [h]), List.filter_cons_of_neg (by simp [h]),
      List.filter_cons_of_neg (by simp [h]), ih]

theorem filter_phaseEvents (p : Ev → Bool) (a b a' m b' : Stage) (e o k : ℕ)
    (h : ∀ o s, (s = a' ∨ s = m ∨ s = b') → p ⟨s, e, o⟩ = false) :
    (phaseEvents a b a' m b' e o k).filter p = [⟨a, e, o⟩, ⟨b, e, e⟩].filter p := by
  rw [phaseEvents, List.filter_cons, List.filter_append, filter_batchEvents p _ _ _ _ _ _ h, List.nil_append]
  conv_rhs => rw [List.filter_cons]

/-- **C54** with `max_iter = N`, undisturbed training runs through the epochs start, ..., start + N. -/
theorem C54_epochs (c : TrainCfg) (start : ℕ) :
    epochsAt .trainEpochStart (fit quiet c start (fitInit start)).1.trace = List.range' start (c.maxIter + 1) ∧
    epochsAt .trainEpochEnd (fit quiet c start (fitInit start)).1.trace = List.range' start (c.maxIter + 1) := by
  have key : ∀ s : Stage, s = .trainEpochStart ∨ s = .trainEpochEnd → ∀ es o,
      epochsAt s (epochsEvents c o es) = es := by
    intro s hs es
    induction es with
    | nil => intro o; rfl
    | cons e es ih =>
      intro o
      have ih' := ih e
      unfold epochsAt at ih' ⊢
      rw [epochsEvents, epochEvents, List.filter_append, List.filter_append, List.map_append, List.map_append, ih',
        filter_phaseEvents]
      · have hv : List.filter (fun ev => decide (ev.stage = s)) (if 0 < c.valEvery ∧ e % c.valEvery = 0 then
            phaseEvents .valEpochStart .valEpochEnd .valBatchStart .evaluate .valBatchEnd e e c.valBatches else []) = [] := by
          split
          · rw [filter_phaseEvents]
            · rcases hs with rfl | rfl <;> rfl
            · rintro o t (rfl | rfl | rfl) <;> rcases hs with rfl | rfl <;> rfl
          · rfl
        rw [hv]
        rcases hs with rfl | rfl <;> rfl
      · rintro o t (rfl | rfl | rfl) <;> rcases hs with rfl | rfl <;> rfl
  have all : ∀ s : Stage, s = .trainEpochStart ∨ s = .trainEpochEnd →
      epochsAt s (fit quiet c start (fitInit start)).1.trace = List.range' start (c.maxIter + 1) := by
    intro s hs
    rw [fit_quiet]
    have hv : List.filter (fun ev => decide (ev.stage = s)) (if 0 < c.valEvery then
        phaseEvents .valEpochStart .valEpochEnd .valBatchStart .evaluate .valBatchEnd start start c.valBatches else []) = [] := by
      split
      · rw [filter_phaseEvents]
        · rcases hs with rfl | rfl <;> rfl
        · rintro o t (rfl | rfl | rfl) <;> rcases hs with rfl | rfl <;> rfl
      · rfl
    have hk := key s hs (List.range' start (c.maxIter + 1)) start
    unfold epochsAt at hk ⊢
    rw [List.filter_append, List.filter_append, List.filter_append, hv, List.map_append, List.map_append, List.map_append, hk]
    rcases hs with rfl | rfl <;> simp
  exact ⟨all _ (Or.inl rfl), all _ (Or.inr rfl)⟩

/-- Training with `max_iter = N` runs N + 1 epochs, one more than configured. -/
theorem C54_counterexample_extra_epoch (c : TrainCfg) (start : ℕ) :
    (epochsAt .trainEpochStart (fit quiet c start (fitInit start)).1.trace).length = c.maxIter + 1 := by
  rw [(C54_epochs c start).1, List.length_range']

/-- **C54** validation takes place once before the training and after exactly the epochs divisible by `val_every`; never if
it is 0. -/
theorem C54_validation_schedule (c : TrainCfg) (start : ℕ) :
    epochsAt .valEpochEnd (fit quiet c start (fitInit start)).1.trace =
      if c.valEvery = 0 then [] else
        start :: (List.range' start (c.maxIter + 1)).filter fun e => c.valEvery ∣ e := by
  have hbatch : ∀ (e o : ℕ) (t : Stage), (t = .trainBatchStart ∨ t = .step ∨ t = .trainBatchEnd) →
      decide ((⟨t, e, o⟩ : Ev).stage = .valEpochEnd) = false := by
    rintro e o t (rfl | rfl | rfl) <;> rfl
  have hbatch' : ∀ (e o : ℕ) (t : Stage), (t = .valBatchStart ∨ t = .evaluate ∨ t = .valBatchEnd) →
      decide ((⟨t, e, o⟩ : Ev).stage = .valEpochEnd) = false := by
    rintro e o t (rfl | rfl | rfl) <;> rfl
  have key : ∀ es o, epochsAt .valEpochEnd (epochsEvents c o es) =
      es.filter fun e => 0 < c.valEvery ∧ e % c.valEvery = 0 := by
    intro es
    induction es with
    | nil => intro o; rfl
    | cons e es ih =>
      intro o
      have ih' := ih e
      unfold epochsAt at ih' ⊢
      rw [epochsEvents, epochEvents, List.filter_append, List.filter_append, List.map_append, List.map_append, ih',
        filter_phaseEvents _ _ _ _ _ _ _ _ _ (hbatch e)]
      by_cases h : 0 < c.valEvery ∧ e % c.valEvery = 0
      · rw [if_pos h, filter_phaseEvents _ _ _ _ _ _ _ _ _ (hbatch' e)]
        simp [h.1, h.2]
      · rw [if_neg h, List.filter_cons_of_neg (l := es) (by simpa using h)]
        simp
  have hk := key (List.range' start (c.maxIter + 1)) start
  rw [fit_quiet]
  unfold epochsAt at hk ⊢
  rw [List.filter_append, List.filter_append, List.filter_append, List.map_append, List.map_append, List.map_append, hk]
  by_cases h0 : c.valEvery = 0
  · simp [h0]
  · rw [if_pos (Nat.pos_of_ne_zero h0), if_neg h0, filter_phaseEvents _ _ _ _ _ _ _ _ _ (hbatch' start)]
    simp [Nat.pos_of_ne_zero h0, Nat.dvd_iff_mod_eq_zero]

/-! ## Callbacks -/

/-- **C49** at the end of a phase, callbacks see the number of the current epoch: whatever happens during training. -/
theorem C49_end_events_current (w : World) (c : TrainCfg) (start : ℕ) :
    ∀ ev ∈ (fit w c start (fitInit start)).1.trace, ev.stage.isEnd = true → ev.iteration = ev.epoch := by
  set P : Ev → Prop := fun ev => ev.stage.isEnd = true → ev.iteration = ev.epoch with hP
  have hval : ∀ s, Step w P s (runValidation w c s) := by
    intro s
    apply Step.runValidation <;> simp [hP, Stage.isEnd]
  have htr : ∀ s, Step w P s (runTraining w c s) := by
    intro s
    apply Step.runTraining <;> simp [hP, Stage.isEnd]
  have ext : ∀ {s r}, Step w P s r → (∀ ev ∈ s.trace, P ev) → ∀ ev ∈ r.1.trace, P ev := by
    intro s r h h0 ev hev
    obtain ⟨l, hl, hp, -⟩ := h.ext
    rw [hl] at hev
    exact (List.mem_append.1 hev).elim (h0 ev) (hp ev)
  have hepoch : ∀ e s, (∀ ev ∈ s.trace, P ev) → ∀ ev ∈ (runEpoch w c e s).1.trace, P ev := by
    intro e s h0
    rw [runEpoch, seq_fst rfl]
    refine ext (s := { s with cur := e }) ?_ h0
    refine Step.seq (htr _) fun _ => ?_
    split
    · exact hval _
    · exact Step.skip _ _ _
  have hloop : ∀ es s, (∀ ev ∈ s.trace, P ev) → ∀ ev ∈ (trainEpochs w c es s).trace, P ev := by
    intro es
    induction es with
    | nil => intro s h; exact h
    | cons e es ih =>
      intro s h
      rw [trainEpochs]
      split
      · exact h
      · apply ih
        split
        · exact hepoch e s h
        · exact hepoch e s h
  have htrain : ∀ s, (∀ ev ∈ s.trace, P ev) → ∀ ev ∈ (train w c start s).1.trace, P ev := by
    intro s h
    unfold train phase
    have hf := ext (Step.fire w P .trainStart s (by simp [hP, Stage.isEnd])) h
    cases h2 : (fire w .trainStart s).2 with
    | true => unfold seq; rw [if_pos h2]; exact hf
    | false =>
      rw [seq_fst h2, seq_fst rfl, seq_fst rfl]
      exact ext (Step.fire w P .trainEnd _ (by simp [hP, buildResult])) (hloop _ _ hf)
  have h0 : ∀ ev ∈ (fitInit start).trace, P ev := by simp [fitInit]
  have h1 : ∀ ev ∈ ((if 0 < c.valEvery then runValidation w c else skip) (fitInit start)).1.trace, P ev := by
    split
    · exact ext (hval _) h0
    · exact h0
  unfold fit
  cases h2 : ((if 0 < c.valEvery then runValidation w c else skip) (fitInit start)).2 with
  | true => unfold seq; rw [if_pos h2]; exact h1
  | false => rw [seq_fst h2]; exact htrain _ h1

/-- **C49** when a callback runs at events other than the start and end of training: exactly at positive iterations
divisible by `called_every` at which the condition holds; never if `called_every` is 0. -/
theorem C49_runs_iff (cb : Callback) (ev : Ev) (h1 : cb.on ≠ .trainStart) (h2 : cb.on ≠ .trainEnd) :
    cb.runs ev = true ↔ ev.stage = cb.on ∧ cb.calledEvery ≠ 0 ∧ 0 < ev.iteration ∧
      cb.calledEvery ∣ (ev.iteration : ℤ) ∧ cb.condition ev = true := by
  unfold Callback.runs Callback.shouldCall
  rw [decide_eq_true_iff, Int.dvd_iff_emod_eq_zero]
  constructor
  · rintro ⟨h, hs⟩
    rw [if_neg (by rw [← h]; exact fun h' => h'.elim h1 h2)] at hs
    split at hs
    · exact absurd hs (by simp)
    · next hz =>
      split at hs
      · next hm => exact ⟨h.symm, fun h => hz (Or.inl h), Nat.pos_of_ne_zero fun h => hz (Or.inr h), hm.1, hm.2⟩
      · exact absurd hs (by simp)
  · rintro ⟨h, hz, hp, hm, hc⟩
    refine ⟨h.symm, ?_⟩
    rw [if_neg (by rw [h]; exact fun h' => h'.elim h1 h2), if_neg (by omega), if_pos ⟨hm, hc⟩]

/-- **C49** the manager runs each registered callback whose schedule matches, once and in order. -/
theorem C49_manager (cs : List Callback) (ev : Ev) : runCallbacks cs ev = cs.filter fun c => c.runs ev := by
  unfold runCallbacks
  rw [List.filter_filter]
  congr 1
  funext c
  unfold Callback.runs
  by_cases h : c.on = ev.stage <;> simp [h]

/-- **C49** a callback registered on the end of training epochs runs at exactly the epochs among start, ..., start + N which
are positive, divisible by `called_every` and meet the condition. -/
theorem C49_epoch_end_schedule (cb : Callback) (hon : cb.on = .trainEpochEnd) (c : TrainCfg) (start : ℕ) :
    ((fit quiet c start (fitInit start)).1.trace.filter fun ev => cb.runs ev).map Ev.epoch =
      (List.range' start (c.maxIter + 1)).filter fun e : ℕ => cb.calledEvery ≠ 0 ∧ 0 < e ∧ cb.calledEvery ∣ (e : ℤ) ∧
        cb.condition ⟨.trainEpochEnd, e, e⟩ = true := by
  have hruns : ∀ ev, cb.runs ev = true ↔ _ := fun ev => C49_runs_iff cb ev (by rw [hon]; simp) (by rw [hon]; simp)
  have hne : ∀ s e o, s ≠ Stage.trainEpochEnd → cb.runs ⟨s, e, o⟩ = false := by
    intro s e o hs
    rw [Bool.eq_false_iff]
    intro h
    exact hs (((hruns _).1 h).1.trans hon)
  have key : ∀ es o, ((epochsEvents c o es).filter fun ev => cb.runs ev).map Ev.epoch =
      es.filter fun e : ℕ => cb.calledEvery ≠ 0 ∧ 0 < e ∧ cb.calledEvery ∣ (e : ℤ) ∧
        cb.condition ⟨.trainEpochEnd, e, e⟩ = true := by
    intro es
    induction es with
    | nil => intro o; rfl
    | cons e es ih =>
      intro o
      rw [epochsEvents, epochEvents, List.filter_append, List.filter_append, List.map_append, List.map_append, ih,
        filter_phaseEvents]
      · have hv : List.filter (fun ev => cb.runs ev) (if 0 < c.valEvery ∧ e % c.valEvery = 0 then
            phaseEvents .valEpochStart .valEpochEnd .valBatchStart .evaluate .valBatchEnd e e c.valBatches else []) = [] := by
          split
          · rw [filter_phaseEvents]
            · simp [hne]
            · rintro o t (rfl | rfl | rfl) <;> simp [hne]
          · rfl
        rw [hv, List.filter_cons (xs := es), List.filter_cons_of_neg (by simp [hne]), List.filter_cons]
        have hb : cb.runs ⟨.trainEpochEnd, e, e⟩ = true ↔ cb.calledEvery ≠ 0 ∧ 0 < e ∧ cb.calledEvery ∣ (e : ℤ) ∧
            cb.condition ⟨.trainEpochEnd, e, e⟩ = true := by
          rw [hruns]
          simp [hon]
        by_cases h : cb.runs ⟨.trainEpochEnd, e, e⟩ = true
        · rw [if_pos h, if_pos (by simpa using hb.1 h)]
          simp
        · rw [if_neg h, if_neg (by simpa using fun h' => h (hb.2 h'))]
          simp
      · rintro o t (rfl | rfl | rfl) <;> simp [hne]
  rw [fit_quiet, List.filter_append, List.filter_append, List.filter_append, List.map_append, List.map_append,
    List.map_append, key]
  have hv : List.filter (fun ev => cb.runs ev) (if 0 < c.valEvery then
      phaseEvents .valEpochStart .valEpochEnd .valBatchStart .evaluate .valBatchEnd start start c.valBatches else []) = [] := by
    split
    · rw [filter_phaseEvents]
      · simp [hne]
      · rintro o t (rfl | rfl | rfl) <;> simp [hne]
    · rfl
  rw [hv]
  simp [hne]

/-- `called_every = 0` does not disable callbacks at the start and end of training, and their condition is ignored. -/
theorem C49_counterexample_zero :
    ({ on := .trainEnd, calledEvery := 0, condition := fun _ => false } : Callback).runs ⟨.trainEnd, 5, 5⟩ = true := by
  decide

/-- Callbacks at the start of an epoch see the number of the previous epoch: with `called_every = 2` and four epochs the
callback runs at the start of epoch 3, not of epoch 2. -/
theorem C49_counterexample_epoch_start :
    ((fit quiet ⟨3, 0, 1, 1⟩ 0 (fitInit 0)).1.trace.filter fun ev =>
      ({ on := .trainEpochStart, calledEvery := 2, condition := fun _ => true } : Callback).runs ev).map Ev.epoch = [3] := by
  decide

/-! ## Examples -/

/-- A callback requests a stop in epoch 1: epochs 0 and 1 are run. -/
example : epochsAt .trainEpochStart (fit (fun tr => if tr.length = 9 then .stop else .none) ⟨5, 0, 1, 1⟩ 0
    (fitInit 0)).1.trace = [0, 1] := by decide

/-- An interrupt in a training step. -/
example : epochsAt .trainEpochEnd (fit (fun tr => if tr.length = 9 then .interrupt else .none) ⟨5, 0, 1, 1⟩ 0
    (fitInit 0)).1.trace = [0] := by decide

example : epochsAt .valEpochEnd (fit quiet ⟨6, 3, 2, 1⟩ 0 (fitInit 0)).1.trace = [0, 0, 3, 6] := by decide

end Qadence
