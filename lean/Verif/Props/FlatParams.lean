import Mathlib.Tactic
import Verif.Model.FlatParams
import Verif.Proofs.Except

/-!
# C53: flat parameter vectors
-/

namespace Qadence

variable {α : Type}

namespace Spec

/-- The number of trainable values. -/
def trainableSize (model : List (TParam α)) : ℕ := ((model.filter TParam.requiresGrad).map TParam.numel).sum

/-- The two models have the same shapes and flags, and the same values of parameters which are not trained. -/
def SameFrozen (a b : List (TParam α)) : Prop :=
  List.Forall₂ (fun p q => p.shape = q.shape ∧ p.requiresGrad = q.requiresGrad ∧ (p.requiresGrad = false → p = q)) a b

end Spec

open Spec

/-- All values of trainable parameters, one after the other. -/
theorem getParameters_eq (model : List (TParam α)) (h : ∃ p ∈ model, p.requiresGrad = true) :
    getParameters model = .ok ((model.filter TParam.requiresGrad).flatMap TParam.values) := by
  unfold getParameters
  split
  · next hf =>
    obtain ⟨p, hp, hg⟩ := h
    have : p ∈ model.filter TParam.requiresGrad := List.mem_filter.2 ⟨hp, hg⟩
    rw [hf] at this
    cases this
  · rfl

theorem trainableSize_cons (p : TParam α) (ps : List (TParam α)) :
    trainableSize (p :: ps) = (if p.requiresGrad then p.numel else 0) + trainableSize ps := by
  unfold trainableSize
  by_cases h : p.requiresGrad = true <;> simp [h]

/-- The loop, when the vector is long enough. -/
theorem setLoop_ok (theta : List α) (idx : ℕ) (model : List (TParam α))
    (h : idx + trainableSize model ≤ theta.length) :
    (setLoop theta idx model).2 = none ∧ SameFrozen model (setLoop theta idx model).1 ∧
      (∀ p ∈ (setLoop theta idx model).1, p.requiresGrad = true → p.WF) ∧
      ((setLoop theta idx model).1.filter TParam.requiresGrad).flatMap TParam.values =
        (theta.drop idx).take (trainableSize model) := by
  induction model generalizing idx with
  | nil => exact ⟨rfl, List.Forall₂.nil, by simp [setLoop], by simp [setLoop, trainableSize]⟩
  | cons p ps ih =>
    rw [trainableSize_cons] at h ⊢
    by_cases hp : p.requiresGrad = true
    · rw [if_pos hp] at h ⊢
      have hlen : ((theta.drop idx).take p.numel).length = p.numel := by
        rw [List.length_take, List.length_drop]
        omega
      obtain ⟨h1, h2, h3, h4⟩ := ih (idx + p.numel) (by omega)
      have hs : setLoop theta idx (p :: ps) =
          ({ p with values := (theta.drop idx).take p.numel } :: (setLoop theta (idx + p.numel) ps).1,
            (setLoop theta (idx + p.numel) ps).2) := by
        rw [setLoop, if_pos hp, assignSlice, if_pos hlen]
      rw [hs]
      refine ⟨h1, List.Forall₂.cons ⟨rfl, rfl, fun hf => by rw [hp] at hf; cases hf⟩ h2, ?_, ?_⟩
      · intro q hq hg
        rcases List.mem_cons.1 hq with rfl | hq
        · exact hlen
        · exact h3 q hq hg
      · rw [List.filter_cons_of_pos (by simpa using hp), List.flatMap_cons, h4]
        simp only
        rw [List.take_add, List.drop_drop]
    · rw [if_neg hp, zero_add] at h ⊢
      obtain ⟨h1, h2, h3, h4⟩ := ih idx h
      have hs : setLoop theta idx (p :: ps) = (p :: (setLoop theta idx ps).1, (setLoop theta idx ps).2) := by
        rw [setLoop, if_neg hp]
      rw [hs]
      refine ⟨h1, List.Forall₂.cons ⟨rfl, rfl, fun _ => rfl⟩ h2, ?_, ?_⟩
      · intro q hq hg
        rcases List.mem_cons.1 hq with rfl | hq
        · exact absurd hg hp
        · exact h3 q hq hg
      · rw [List.filter_cons_of_neg (by simpa using hp), h4]

theorem exists_trainable_of_same {a b : List (TParam α)} (h : SameFrozen a b) (ha : ∃ p ∈ a, p.requiresGrad = true) :
    ∃ p ∈ b, p.requiresGrad = true := by
  unfold SameFrozen at h
  induction h with
  | nil => simpa using ha
  | cons hpq _ ih =>
    obtain ⟨r, hr, hg⟩ := ha
    rcases List.mem_cons.1 hr with rfl | hr
    · exact ⟨_, List.mem_cons_self .., by rw [← hpq.2.1]; exact hg⟩
    · obtain ⟨q, hq, hg'⟩ := ih ⟨r, hr, hg⟩
      exact ⟨q, List.mem_cons_of_mem _ hq, hg'⟩

/-- **C53** setting a vector of the right size and reading it back gives the vector; shapes and frozen parameters are not
touched. -/
theorem C53_set_get (model : List (TParam α)) (theta : List α) (htr : ∃ p ∈ model, p.requiresGrad = true)
    (h : theta.length = trainableSize model) :
    (setParameters model theta).2 = none ∧ getParameters (setParameters model theta).1 = .ok theta ∧
      SameFrozen model (setParameters model theta).1 := by
  obtain ⟨h1, h2, -, h4⟩ := setLoop_ok theta 0 model (by omega)
  refine ⟨h1, ?_, h2⟩
  rw [setParameters, getParameters_eq _ (exists_trainable_of_same h2 htr), h4, List.drop_zero, ← h, List.take_length]

/-- **C53** reading and setting leaves a model unchanged. -/
theorem C53_get_set (model : List (TParam α)) (hwf : ∀ p ∈ model, p.WF) (theta : List α)
    (h : getParameters model = .ok theta) : setParameters model theta = (model, none) := by
  have htr : ∃ p ∈ model, p.requiresGrad = true := by
    by_contra hno
    push Not at hno
    have : model.filter TParam.requiresGrad = [] := by
      rw [List.filter_eq_nil_iff]
      exact fun p hp => hno p hp
    rw [getParameters, this] at h
    cases h
  rw [getParameters_eq model htr] at h
  cases h
  -- generalise over what precedes the vector
  have key : ∀ (ps : List (TParam α)) (pre : List α), (∀ p ∈ ps, p.WF) →
      setLoop (pre ++ (ps.filter TParam.requiresGrad).flatMap TParam.values) pre.length ps = (ps, none) := by
    intro ps
    induction ps with
    | nil => intro pre _; rfl
    | cons p ps ih =>
      intro pre hps
      have hp : p.values.length = p.numel := hps p (by simp)
      by_cases hg : p.requiresGrad = true
      · rw [List.filter_cons_of_pos (by simpa using hg), List.flatMap_cons, setLoop, if_pos hg,
          List.drop_left, ← hp, List.take_left, assignSlice, if_pos hp]
        have := ih (pre ++ p.values) fun q hq => hps q (by simp [hq])
        rw [List.length_append, List.append_assoc] at this
        simp only [this]
      · rw [List.filter_cons_of_neg (by simpa using hg), setLoop, if_neg hg]
        have := ih pre fun q hq => hps q (by simp [hq])
        simp only [this]
  exact key model [] hwf

/-- **C53** the number of parameters is the size of the vectors which can be set. -/
theorem C53_num (model : List (TParam α)) (hwf : ∀ p ∈ model, p.WF) (htr : ∃ p ∈ model, p.requiresGrad = true) :
    numParameters model = .ok (trainableSize model) := by
  rw [numParameters, getParameters_eq model htr, ok_bind]
  have : ((model.filter TParam.requiresGrad).flatMap TParam.values).length = trainableSize model := by
    rw [List.length_flatMap, trainableSize]
    congr 1
    apply List.map_congr_left
    intro p hp
    exact hwf p (List.mem_filter.1 hp).1
  rw [this]
  rfl

/-- **C53** a vector which is too short is rejected. -/
theorem C53_too_short (model : List (TParam α)) (theta : List α) (h : theta.length < trainableSize model) :
    (setParameters model theta).2 = some .runtimeError := by
  have key : ∀ (ps : List (TParam α)) (idx : ℕ), idx ≤ theta.length → theta.length < idx + trainableSize ps →
      (setLoop theta idx ps).2 = some .runtimeError := by
    intro ps
    induction ps with
    | nil => intro idx h1 h2; simp [trainableSize] at h2; omega
    | cons p ps ih =>
      intro idx h1 h2
      rw [trainableSize_cons] at h2
      by_cases hp : p.requiresGrad = true
      · rw [if_pos hp] at h2
        rw [setLoop, if_pos hp, assignSlice]
        by_cases hlen : ((theta.drop idx).take p.numel).length = p.numel
        · rw [if_pos hlen]
          rw [List.length_take, List.length_drop] at hlen
          exact ih (idx + p.numel) (by omega) (by omega)
        · rw [if_neg hlen]
      · rw [if_neg hp] at h2
        rw [setLoop, if_neg hp]
        exact ih idx h1 (by omega)
  exact key model 0 (Nat.zero_le _) (by omega)

/-- **C53** (partial: which vectors are rejected) setting fails exactly for vectors which are too short. What is missing:
vectors which are too long. -/
theorem C53_rejects_partial (model : List (TParam α)) (theta : List α) :
    (setParameters model theta).2 = none ↔ trainableSize model ≤ theta.length := by
  constructor
  · intro h
    by_contra hlt
    rw [C53_too_short model theta (by omega)] at h
    cases h
  · intro h
    exact (setLoop_ok theta 0 model (by omega)).1

/-- A vector which is too long is accepted silently, its end is ignored. -/
theorem C53_counterexample_too_long :
    setParameters [⟨[2], [0, 0], true⟩] [1, 2, 3] = ([(⟨[2], [1, 2], true⟩ : TParam ℕ)], none) := by decide

/-- After a failure the model is partially changed. -/
theorem C53_counterexample_partial_update :
    setParameters [⟨[2], [0, 0], true⟩, ⟨[1], [0], true⟩] [1, 2] =
      ([(⟨[2], [1, 2], true⟩ : TParam ℕ), ⟨[1], [0], true⟩], some .runtimeError) := by decide

/-- A model with a frozen parameter, a matrix and a scalar. -/
example : getParameters (setParameters [⟨[3], [7, 8, 9], false⟩, ⟨[2, 2], [0, 0, 0, 0], true⟩, (⟨[], [5], true⟩ : TParam ℕ)]
    [1, 2, 3, 4, 6]).1 = .ok [1, 2, 3, 4, 6] :=
  (C53_set_get _ [1, 2, 3, 4, 6] ⟨⟨[], [5], true⟩, by simp, rfl⟩ (by decide)).2.1

end Qadence
