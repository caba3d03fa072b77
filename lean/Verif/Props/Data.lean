import Mathlib.Tactic
import Verif.Model.Data
import Verif.Proofs.Except
import Verif.Proofs.PyDict

/-!
# C76: data loaders and batches
-/

namespace Qadence.Data

namespace Spec

/-- The samples of tensors with first dimension `n`, each exactly once. -/
def samples {ρ : Type} (tensors : List (List ρ)) (n : ℕ) : List (List (Option ρ)) :=
  (List.range n).map fun i => tensors.map fun t => t[i]?

/-- Batch number `i` of a list of samples. -/
def batch {α : Type} (b i : ℕ) (xs : List α) : List α := (xs.drop (i * b)).take b

end Spec

open Spec

/-! ## Infinite datasets -/

theorem cycle_drop {α : Type} (all : List α) (hne : all ≠ []) (m p k : ℕ) (hp : p ≤ all.length) (hk : k < m) :
    (cycle all m (all.drop p))[k]? = all[(p + k) % all.length]? := by
  have hpos : 0 < all.length := List.length_pos_of_ne_nil hne
  induction m generalizing p k with
  | zero => omega
  | succ m ih =>
    by_cases hlt : p < all.length
    · rw [List.drop_eq_getElem_cons hlt, cycle]
      cases k with
      | zero => simp [Nat.mod_eq_of_lt hlt, hlt]
      | succ k =>
        rw [List.getElem?_cons_succ, ih (p + 1) k (by omega) (by omega), show p + 1 + k = p + (k + 1) by omega]
    · obtain rfl : p = all.length := by omega
      rw [List.drop_length]
      obtain ⟨a, l, rfl⟩ := List.exists_cons_of_ne_nil hne
      rw [cycle]
      cases k with
      | zero => simp
      | succ k =>
        have h1 := ih 1 k (by simp) (by omega)
        rw [List.getElem?_cons_succ]
        rw [List.drop_one, List.tail_cons] at h1
        rw [h1, show (a :: l).length + (k + 1) = 1 + k + (a :: l).length by omega, Nat.add_mod_right]

theorem cycle_length {α : Type} (all : List α) (hne : all ≠ []) (m : ℕ) (rest : List α) :
    (cycle all m rest).length = m := by
  induction m generalizing rest with
  | zero => cases rest <;> rfl
  | succ m ih =>
    cases rest with
    | cons i rest => simp [cycle, ih]
    | nil =>
      obtain ⟨a, l, rfl⟩ := List.exists_cons_of_ne_nil hne
      simp [cycle, ih]

theorem cycle_window {α : Type} (all : List α) (hne : all ≠ []) (m s : ℕ) (h : s + all.length ≤ m) :
    ((cycle all m all).drop s).take all.length = all.rotate s := by
  apply List.ext_getElem?
  intro k
  by_cases hk : k < all.length
  · rw [List.getElem?_take_of_lt hk, List.getElem?_drop]
    have h1 := cycle_drop all hne m 0 (s + k) (by omega) (by omega)
    rw [List.drop_zero, Nat.zero_add] at h1
    rw [h1, List.getElem?_rotate hk, Nat.add_comm]
  · rw [List.getElem?_eq_none (by simp; omega), List.getElem?_eq_none (by simp; omega)]

theorem lengths_dedup (ls : List ℕ) : ls.dedup.length = 1 ↔ ∃ n, ls ≠ [] ∧ ∀ x ∈ ls, x = n := by
  rw [List.length_eq_one_iff]
  constructor
  · rintro ⟨n, h⟩
    refine ⟨n, ?_, fun x hx => ?_⟩
    · rintro rfl; simp at h
    · have := List.mem_dedup.2 hx
      rw [h] at this
      simpa using this
  · rintro ⟨n, hne, h⟩
    refine ⟨n, ?_⟩
    have hr : ls = List.replicate ls.length n := List.eq_replicate_iff.2 ⟨rfl, h⟩
    rw [hr]
    exact List.replicate_dedup (by simpa using hne)

/-- **C76** an infinite dataset: whatever `random.shuffle` does as long as it only reorders, and whatever the order left by earlier
iterations, the first `m` samples repeat one order of all samples for ever, samples at the same place of all
tensors stay together, and the dataset stays usable in the same way. -/
theorem C76_infinite_samples {ρ : Type} (shuffle : List ℕ → List ℕ) (hs : ∀ l, (shuffle l).Perm l) (tensors : List (List ρ))
    (n : ℕ) (hn : 0 < n) (hne : tensors ≠ []) (ht : ∀ t ∈ tensors, t.length = n) (indices : List ℕ)
    (hi : indices.Perm (List.range n)) (m : ℕ) :
    ∃ (indices' : List ℕ) (order out : List (List (Option ρ))), iterInfinite shuffle tensors indices m = .ok (.infinite tensors indices', out) ∧
      indices'.Perm (List.range n) ∧ order.Perm (samples tensors n) ∧ out.length = m ∧
      (∀ k < m, out[k]? = order[k % n]?) ∧
      ∀ s, s + n ≤ m → ((out.drop s).take n).Perm (samples tensors n) := by
  have hp : (shuffle indices).Perm (List.range n) := (hs _).trans hi
  have hlen : (shuffle indices).length = n := by rw [hp.length_eq, List.length_range]
  have hne' : shuffle indices ≠ [] := by rw [← List.length_pos_iff, hlen]; exact hn
  have hd : ¬ (tensors.map List.length).dedup.length ≠ 1 := by
    rw [not_not, lengths_dedup]
    exact ⟨n, by simpa using hne, by simpa using ht⟩
  refine ⟨shuffle indices, (shuffle indices).map (sample tensors), _, by rw [iterInfinite, if_neg hd], hp, hp.map _, ?_, ?_, ?_⟩
  · rw [List.length_map, cycle_length _ hne']
  · intro k hk
    have h1 := cycle_drop (shuffle indices) hne' m 0 k (by omega) hk
    rw [List.drop_zero, Nat.zero_add, hlen] at h1
    rw [List.getElem?_map, List.getElem?_map, h1]
  · intro s hsm
    have h1 := cycle_window (shuffle indices) hne' m s (by omega)
    rw [hlen] at h1
    rw [← List.map_drop, ← List.map_take, h1]
    exact ((List.rotate_perm _ _).trans hp).map _

/-- **C76** an infinite dataset of tensors with different first dimensions is refused when it is iterated, one without tensors when
it is built. -/
theorem C76_infinite_refused {ρ : Type} (shuffle : List ℕ → List ℕ) (tensors : List (List ρ)) (indices : List ℕ) (m : ℕ)
    (t u : List ρ) (ht : t ∈ tensors) (hu : u ∈ tensors) (h : t.length ≠ u.length) :
    iterInfinite shuffle tensors indices m = .error .valueError ∧
      infiniteDataset ([] : List (List ρ)) = .error .indexError := by
  refine ⟨?_, rfl⟩
  rw [iterInfinite, if_pos]
  rw [Ne, lengths_dedup]
  rintro ⟨n, -, hx⟩
  exact h ((hx _ (List.mem_map_of_mem ht)).trans (hx _ (List.mem_map_of_mem hu)).symm)

/-- The hypotheses are met by two tensors and a shuffle which reverses. -/
example : ((iterInfinite List.reverse [[1, 2, 3], [10, 20, 30]] [0, 1, 2] 4).map Prod.snd) =
    .ok [[some 3, some 30], [some 2, some 20], [some 1, some 10], [some 3, some 30]] := by
  decide

/-- Contrary to the comment in the code the samples are not shuffled for every pass: the second pass has the order of
the first, for every `random.shuffle`. -/
theorem C76_counterexample_same_order {ρ : Type} (shuffle : List ℕ → List ℕ) (hs : ∀ l, (shuffle l).Perm l)
    (tensors : List (List ρ)) (n : ℕ) (hn : 0 < n) (hne : tensors ≠ []) (ht : ∀ t ∈ tensors, t.length = n) (m : ℕ)
    (ds : Dataset ρ) (out : List (List (Option ρ)))
    (h : iterInfinite shuffle tensors (List.range n) m = .ok (ds, out)) (k : ℕ) (hk : k + n < m) :
    out[k + n]? = out[k]? := by
  obtain ⟨i', order, out', h', -, -, -, hout, -⟩ :=
    C76_infinite_samples shuffle hs tensors n hn hne ht (List.range n) (List.Perm.refl _) m
  rw [h] at h'
  simp only [Except.ok.injEq, Prod.mk.injEq] at h'
  rw [h'.2, hout _ hk, hout k (by omega), Nat.add_mod_right]

/-! ## Finite datasets: every sample exactly once in an epoch -/

theorem chunks_getElem? {α : Type} (b m : ℕ) (xs : List α) (i : ℕ) :
    (chunks b m xs)[i]? = if i < m ∧ i * b < xs.length then some (batch b i xs) else none := by
  induction m generalizing xs i with
  | zero => simp [chunks]
  | succ m ih =>
    cases xs with
    | nil => simp [chunks]
    | cons x xs =>
      rw [chunks]
      cases i with
      | zero => simp [batch]
      | succ i =>
        rw [List.getElem?_cons_succ, ih]
        have h1 : i * b < ((x :: xs).drop b).length ↔ (i + 1) * b < (x :: xs).length := by
          rw [List.length_drop, Nat.add_mul, Nat.one_mul]
          omega
        have h2 : batch b i ((x :: xs).drop b) = batch b (i + 1) (x :: xs) := by
          rw [batch, batch, List.drop_drop, Nat.add_mul, Nat.one_mul, Nat.add_comm b]
        simp only [h1, h2, Nat.add_lt_add_iff_right]

theorem chunks_flatten {α : Type} (b m : ℕ) (xs : List α) :
    (chunks b m xs).flatten = xs.take (m * b) := by
  induction m generalizing xs with
  | zero => simp [chunks]
  | succ m ih =>
    cases xs with
    | nil => simp [chunks]
    | cons x xs =>
      rw [chunks, List.flatten_cons, ih, Nat.add_mul, Nat.one_mul, Nat.add_comm (m * b), List.take_add]

/-- **C76** an epoch over a finite dataset with a positive batch size: batch `i` consists of the `b` samples from number `i b` on, no
batch is empty, all but the last are full; without a limit every sample is in exactly one batch, with a limit of `M`
batches the first `M b` samples are seen. -/
theorem C76_epoch {ρ : Type} (shuffle : List ℕ → List ℕ) (t : List ρ) (ts : List (List ρ)) (b : ℕ) (hb : 0 < b)
    (maxBatches : Option ℕ) :
    ∃ out, (⟨.finite (t :: ts), b⟩ : Loader ρ).take shuffle (loaderBatches maxBatches ⟨.finite (t :: ts), b⟩) =
        .ok (⟨.finite (t :: ts), b⟩, out) ∧
      (∀ i, out[i]? = if i < loaderBatches maxBatches ⟨.finite (t :: ts), b⟩ ∧ i * b < t.length then
        some (batch b i (samples (t :: ts) t.length)) else none) ∧
      out.length = loaderBatches maxBatches ⟨.finite (t :: ts), b⟩ ∧
      (∀ c ∈ out, c ≠ [] ∧ c.length ≤ b) ∧ (∀ c ∈ out.dropLast, c.length = b) ∧
      (maxBatches = none → out.flatten = samples (t :: ts) t.length) ∧
      ∀ M, maxBatches = some M → out.flatten = (samples (t :: ts) t.length).take (M * b) := by
  set S := samples (t :: ts) t.length with hS
  have hSl : S.length = t.length := by simp [hS, samples]
  set N := loaderBatches maxBatches (⟨.finite (t :: ts), b⟩ : Loader ρ) with hN
  have hceil : ∀ i, i < (t.length + b - 1) / b ↔ i * b < t.length := by
    intro i
    rw [Nat.lt_iff_add_one_le, Nat.le_div_iff_mul_le hb, Nat.add_mul, Nat.one_mul]
    omega
  have hNle : N ≤ (t.length + b - 1) / b := by
    rw [hN]
    cases maxBatches with
    | none => exact le_rfl
    | some M => exact min_le_right _ _
  have hget : ∀ i, (chunks b N S)[i]? = if i < N ∧ i * b < t.length then some (batch b i S) else none := by
    intro i; rw [chunks_getElem? b, hSl]
  have hlen : (chunks b N S).length = N := by
    apply le_antisymm
    · rw [← List.getElem?_eq_none_iff, hget, if_neg (by omega)]
    · by_contra hlt
      have h1 : (chunks b N S)[(chunks b N S).length]? = none := List.getElem?_eq_none le_rfl
      rw [hget, if_pos ⟨by omega, (hceil _).1 (by omega)⟩] at h1
      cases h1
  have hmem : ∀ i (h : i < (chunks b N S).length), (chunks b N S)[i] = batch b i S ∧ i * b < t.length := by
    intro i h
    have h1 := hget i
    rw [List.getElem?_eq_getElem h] at h1
    split at h1
    · next h2 => exact ⟨Option.some.inj h1, h2.2⟩
    · cases h1
  refine ⟨chunks b N S, rfl, hget, hlen, fun c hc => ?_, fun c hc => ?_, ?_, ?_⟩
  · obtain ⟨i, h, rfl⟩ := List.getElem_of_mem hc
    obtain ⟨h1, h2⟩ := hmem i h
    rw [h1]
    have hl : (batch b i S).length = min b (t.length - i * b) := by simp [batch, hSl]
    refine ⟨fun h0 => ?_, by omega⟩
    rw [h0, List.length_nil] at hl
    omega
  · obtain ⟨i, h, rfl⟩ := List.getElem_of_mem hc
    rw [List.length_dropLast] at h
    rw [List.getElem_dropLast]
    obtain ⟨h1, -⟩ := hmem i (by omega)
    obtain ⟨-, h2⟩ := hmem (i + 1) (by omega)
    rw [h1]
    have hl : (batch b i S).length = min b (t.length - i * b) := by simp [batch, hSl]
    rw [Nat.add_mul, Nat.one_mul] at h2
    omega
  · rintro rfl
    rw [chunks_flatten b, List.take_of_length_le]
    rw [hSl]
    have : ¬ (t.length + b - 1) / b < (t.length + b - 1) / b := lt_irrefl _
    rw [hceil] at this
    exact not_lt.1 this
  · rintro M rfl
    rw [chunks_flatten b]
    by_cases hM : M ≤ (t.length + b - 1) / b
    · rw [hN, loaderBatches]
      simp only [List.headD_cons]
      rw [min_eq_left hM]
    · have h1 : ¬ (t.length + b - 1) / b < (t.length + b - 1) / b := lt_irrefl _
      rw [hceil] at h1
      have h2 : N = (t.length + b - 1) / b := by
        rw [hN, loaderBatches]
        simp only [List.headD_cons]
        exact min_eq_right (by omega)
      rw [List.take_of_length_le, List.take_of_length_le]
      · rw [hSl]
        exact (not_lt.1 h1).trans (Nat.mul_le_mul_right _ (by omega))
      · rw [hSl, h2]; exact not_lt.1 h1

/-- Five samples in batches of two. -/
example : ((⟨.finite [[1, 2, 3, 4, 5]], 2⟩ : Loader ℕ).take id (loaderBatches none ⟨.finite [[1, 2, 3, 4, 5]], 2⟩)).map Prod.snd =
    .ok [[[some 1], [some 2]], [[some 3], [some 4]], [[some 5]]] := by
  decide

/-- **C76** an epoch over an infinite dataset is a single batch, the first `b` samples of a freshly shuffled order. -/
theorem C76_epoch_infinite {ρ : Type} (shuffle : List ℕ → List ℕ) (hs : ∀ l, (shuffle l).Perm l) (tensors : List (List ρ))
    (n : ℕ) (hn : 0 < n) (hne : tensors ≠ []) (ht : ∀ t ∈ tensors, t.length = n) (indices : List ℕ)
    (hi : indices.Perm (List.range n)) (b : ℕ) (hb : 0 < b) (maxBatches : Option ℕ) :
    ∃ (l : Loader ρ) (order out : List (List (Option ρ))), (⟨.infinite tensors indices, b⟩ : Loader ρ).take shuffle
        (loaderBatches maxBatches ⟨.infinite tensors indices, b⟩) = .ok (l, [out]) ∧
      order.Perm (samples tensors n) ∧ out.length = b ∧ ∀ k < b, out[k]? = order[k % n]? := by
  obtain ⟨i', order, out, h, -, ho, hl, hk, -⟩ := C76_infinite_samples shuffle hs tensors n hn hne ht indices hi b
  refine ⟨⟨.infinite tensors i', b⟩, order, out, ?_, ho, hl, hk⟩
  simp only [Loader.take, loaderBatches, one_ne_zero, if_false, one_mul, h, Except.map]
  cases out with
  | nil => simp at hl; omega
  | cons x xs => simp [chunks, List.take_of_length_le hl.le]

/-! ## Dictionaries of loaders -/

theorem dictNext_fst {β : Type} (its : List (String × List β)) :
    (dictNext its).1 = its.mapM fun p => p.2.head?.map fun b => (p.1, b) := by
  induction its with
  | nil => rfl
  | cons p its ih =>
    obtain ⟨key, bs⟩ := p
    cases bs with
    | nil => rfl
    | cons b bs =>
      rw [dictNext, List.mapM_cons]
      simp only [ih]
      simp [Option.map_eq_bind]

theorem dictNext_snd {β : Type} (its : List (String × List β)) (d : List (String × β)) (h : (dictNext its).1 = some d) :
    (dictNext its).2 = its.map fun p => (p.1, p.2.tail) := by
  induction its generalizing d with
  | nil => rfl
  | cons p its ih =>
    obtain ⟨key, bs⟩ := p
    cases bs with
    | nil => simp [dictNext] at h
    | cons b bs =>
      rw [dictNext] at h ⊢
      obtain ⟨d', h', -⟩ := Option.map_eq_some_iff.1 h
      simp [ih d' h']

theorem mapM_none {α β : Type} (f : α → Option β) (l : List α) : l.mapM f = none ↔ ∃ a ∈ l, f a = none := by
  induction l with
  | nil => simp
  | cons a l ih =>
    rw [List.mapM_cons]
    cases hf : f a with
    | none => simp [hf]
    | some b =>
      cases hm : l.mapM f with
      | none => simpa [hf] using ih.1 hm
      | some bs =>
        have : ¬ ∃ a ∈ l, f a = none := fun h => by rw [ih.2 h] at hm; cases hm
        simpa [hf] using this

/-- **C76** a dictionary of loaders: item number `k` is the dictionary of the batches number `k` of all loaders, and there is no
item number `k` as soon as one of the loaders has no such batch. -/
theorem C76_dict_loader {β : Type} (m : ℕ) (its : List (String × List β)) (k : ℕ) :
    (dictTake m its)[k]? = if k < m then its.mapM fun p => p.2[k]?.map fun b => (p.1, b) else none := by
  induction m generalizing its k with
  | zero => simp [dictTake]
  | succ m ih =>
    rw [dictTake]
    cases hd : (dictNext its).1 with
    | none =>
      simp only
      rw [List.getElem?_nil, eq_comm]
      split
      · rw [dictNext_fst, mapM_none] at hd
        obtain ⟨p, hp, h0⟩ := hd
        refine (mapM_none _ _).2 ⟨p, hp, ?_⟩
        have : p.2 = [] := by simpa using h0
        simp [this]
      · rfl
    | some d =>
      simp only
      cases k with
      | zero =>
        rw [dictNext_fst] at hd
        simp only [Nat.zero_lt_succ, if_true, ← List.head?_eq_getElem?]
        exact hd.symm
      | succ k =>
        rw [List.getElem?_cons_succ, ih, dictNext_snd its d hd, List.mapM_map]
        simp only [Nat.add_lt_add_iff_right]
        congr 2
        funext p
        simp [List.getElem?_tail]

/-- Two loaders with two and three batches: the third batch of the second is never seen. -/
example : dictTake 3 [("a", [1, 2]), ("b", [10, 20, 30])] = [[("a", 1), ("b", 10)], [("a", 2), ("b", 20)]] := by
  decide

/-- The number of batches of an epoch is that of the first loader: with an infinite dataset in the first place, only the first
batch of every other loader is ever used, whatever its size. -/
theorem C76_counterexample_dict {ρ : Type} (maxBatches : Option ℕ) (ts : List (List ρ)) (i : List ℕ) (b : ℕ) (key : String)
    (ls : List (String × Loader ρ)) :
    computeNumBatches maxBatches (some (.dict ((key, ⟨.infinite ts i, b⟩) :: ls))) = .ok 1 := rfl

/-! ## The loaders of a trainer -/

/-- What is done with a trainer. -/
inductive Op (ρ : Type)
  | setTrain (l : Option (AnyLoader ρ))
  | test (l : Option (AnyLoader ρ))

/-- One operation. -/
def Op.run {ρ : Type} (t : Trainer ρ) : Op ρ → Except PyErr (Trainer ρ)
  | .setTrain l => t.setTrain l
  | .test l => (t.runTest l).map Prod.fst

/-- **C76** after every history of new loaders and tests (failed ones included) an epoch of training uses the current training loader with
its own number of batches, and the limit stays that of the trainer. -/
theorem C76_trainer_history {ρ : Type} (t : Trainer ρ) (h : computeNumBatches t.maxBatches t.train = .ok t.numTrain)
    (ops : List (Op ρ)) :
    let t' := ops.foldl (fun t op => match op.run t with | .ok t' => t' | .error _ => t) t
    computeNumBatches t.maxBatches t'.train = .ok t'.runEpoch.2 ∧ t'.runEpoch.1 = t'.train ∧
      t'.maxBatches = t.maxBatches := by
  intro t'
  suffices computeNumBatches t'.maxBatches t'.train = .ok t'.numTrain ∧ t'.maxBatches = t.maxBatches by
    exact ⟨by rw [← this.2]; exact this.1, rfl, this.2⟩
  have : ∀ (ops : List (Op ρ)) (u : Trainer ρ), computeNumBatches u.maxBatches u.train = .ok u.numTrain →
      u.maxBatches = t.maxBatches →
      let u' := ops.foldl (fun t op => match op.run t with | .ok t' => t' | .error _ => t) u
      computeNumBatches u'.maxBatches u'.train = .ok u'.numTrain ∧ u'.maxBatches = t.maxBatches := by
    intro ops
    induction ops with
    | nil => intro u h1 h2; exact ⟨h1, h2⟩
    | cons op ops ih =>
      intro u h1 h2
      rw [List.foldl_cons]
      apply ih
      · cases op with
        | setTrain l =>
          simp only [Op.run, Trainer.setTrain]
          cases hc : computeNumBatches u.maxBatches l with
          | ok n => exact hc
          | error e => exact h1
        | test l =>
          cases l with
          | none => exact h1
          | some l =>
            simp only [Op.run, Trainer.runTest, Trainer.setTest]
            cases hc : computeNumBatches u.maxBatches (some l) with
            | ok n => exact h1
            | error e => exact h1
      · cases op with
        | setTrain l =>
          simp only [Op.run, Trainer.setTrain]
          cases hc : computeNumBatches u.maxBatches l with
          | ok n => exact h2
          | error e => exact h2
        | test l =>
          cases l with
          | none => exact h2
          | some l =>
            simp only [Op.run, Trainer.runTest, Trainer.setTest]
            cases hc : computeNumBatches u.maxBatches (some l) with
            | ok n => exact h2
            | error e => exact h2
  exact this ops t h rfl

/-- `test()` without an argument does not use the test loader of the trainer (as documented) but no loader at all, whatever the trainer
has. -/
theorem C76_counterexample_test_default {ρ : Type} (t : Trainer ρ) : t.runTest none = .ok (t, none, t.numTrain) := rfl

/-- `test(loader)` stops after as many batches as the *training* loader has, whatever the number of batches of the test
loader. -/
theorem C76_counterexample_test_batches {ρ : Type} (t : Trainer ρ) (l : AnyLoader ρ) (n : ℕ)
    (h : computeNumBatches t.maxBatches (some l) = .ok n) :
    t.runTest (some l) = .ok ({ t with test := some l, numTest := n }, some l, t.numTrain) := by
  simp only [Trainer.runTest, Trainer.setTest, h]
  rfl

/-! ## Results -/

/-- **C76** the result of an epoch: the mean of the losses of its batches, and for every metric of the first batch the mean of its values
if all batches have it; the result of a training is that of its last epoch, that of a batch is unchanged. -/
theorem C76_average (r : LossMetrics) (rs : List LossMetrics)
    (hkeys : ∀ b ∈ r :: rs, ∀ key ∈ r.2.keys, key ∈ b.2.keys) (epochs : List (List LossMetrics)) :
    ∃ metrics, buildResult (.batches (r :: rs)) = .ok (some (((r :: rs).map Prod.fst).sum / (rs.length + 1)), metrics) ∧
      metrics.keys = r.2.keys ∧
      (∀ key v, metrics.get? key = some v → ∃ values : List ℚ, v = values.sum / (rs.length + 1) ∧
        List.Forall₂ (fun (b : LossMetrics) x => b.2.get? key = some x) (r :: rs) values) ∧
      buildResult (.epochs (epochs ++ [r :: rs])) = buildResult (.batches (r :: rs)) ∧
      buildResult (.single r) = .ok (some r.1, r.2) := by
  have hval : ∀ key ∈ r.2.keys, ∃ values : List ℚ,
      ((r :: rs).mapM fun (b : LossMetrics) => fetch b.2 key) = .ok values ∧
      List.Forall₂ (fun (b : LossMetrics) x => b.2.get? key = some x) (r :: rs) values := by
    intro key hkey
    have : ∀ l : List LossMetrics, (∀ b ∈ l, key ∈ b.2.keys) → ∃ values : List ℚ,
        (l.mapM fun (b : LossMetrics) => fetch b.2 key) = .ok values ∧ List.Forall₂ (fun (b : LossMetrics) x => b.2.get? key = some x) l values := by
      intro l
      induction l with
      | nil => intro _; exact ⟨[], rfl, .nil⟩
      | cons b l ih =>
        intro hl
        obtain ⟨values, h1, h2⟩ := ih fun b hb => hl b (by simp [hb])
        obtain ⟨x, hx⟩ := Option.isSome_iff_exists.1 (PyDict.get?_isSome_iff.2 (hl b (by simp)))
        refine ⟨x :: values, ?_, .cons hx h2⟩
        rw [List.mapM_cons, h1, fetch, hx]
        rfl
    exact this _ fun b hb => hkeys b hb key hkey
  have hmet : ∀ ks : List String, (∀ key ∈ ks, key ∈ r.2.keys) → ∃ metrics : PyDict String ℚ,
      (ks.mapM fun key => do
        let values ← (r :: rs).mapM fun (b : LossMetrics) => fetch b.2 key
        Except.ok (key, mean values)) = .ok metrics ∧ metrics.keys = ks ∧
      ∀ key v, metrics.get? key = some v → ∃ values : List ℚ, v = values.sum / (rs.length + 1) ∧
        List.Forall₂ (fun (b : LossMetrics) x => b.2.get? key = some x) (r :: rs) values := by
    intro ks
    induction ks with
    | nil => intro _; exact ⟨[], rfl, rfl, by simp [PyDict.get?]⟩
    | cons key ks ih =>
      intro hks
      obtain ⟨metrics, h1, h2, h3⟩ := ih fun k hk => hks k (by simp [hk])
      obtain ⟨values, hv1, hv2⟩ := hval key (hks key (by simp))
      refine ⟨(key, mean values) :: metrics, ?_, by simpa [PyDict.keys] using h2, ?_⟩
      · rw [List.mapM_cons, h1, hv1]
        rfl
      · intro k v hk
        rw [PyDict.get?] at hk
        split at hk
        · next e =>
          subst e
          refine ⟨values, ?_, hv2⟩
          rw [← Option.some.inj hk, mean, ← hv2.length_eq]
          simp
        · exact h3 k v hk
  obtain ⟨metrics, h1, h2, h3⟩ := hmet r.2.keys fun _ h => h
  refine ⟨metrics, ?_, h2, h3, ?_, rfl⟩
  · rw [buildResult, averageBatches, h1]
    simp [mean]
    rfl
  · simp only [buildResult, List.getLastD_eq_getLast?, List.getLast?_append, List.getLast?_singleton]
    rfl

/-- **C76** if the loss of every batch is the mean over its samples and all batches have the same size, the result of the epoch is the
mean over all samples. -/
theorem C76_average_samples_partial (bs : List (List ℚ)) (b : ℕ) (hb : 0 < b) (hbs : ∀ c ∈ bs, c.length = b)
    (hne : bs ≠ []) :
    (buildResult (.batches (bs.map fun c => (mean c, [])))).map Prod.fst = .ok (some (bs.flatten.sum / bs.flatten.length)) := by
  obtain ⟨c, cs, rfl⟩ := List.exists_cons_of_ne_nil hne
  have hsum : ∀ l : List (List ℚ), (∀ c ∈ l, c.length = b) → (l.map mean).sum = l.flatten.sum / b := by
    intro l
    induction l with
    | nil => simp
    | cons c l ih =>
      intro h
      rw [List.map_cons, List.sum_cons, ih fun c hc => h c (by simp [hc]), List.flatten_cons, List.sum_append, mean,
        h c (by simp)]
      ring
  have hl : ((c :: cs).flatten.length : ℚ) = (cs.length + 1) * b := by
    have : (c :: cs).flatten.length = (c :: cs).length * b := by
      rw [List.length_flatten, List.map_congr_left (g := fun _ => b) (fun c hc => hbs c hc)]
      simp
      ring
    rw [this]
    push_cast [List.length_cons]
    ring
  have hbq : (b : ℚ) ≠ 0 := by exact_mod_cast hb.ne'
  have hn : ((cs.length : ℚ) + 1) ≠ 0 := by positivity
  simp only [List.map_cons, buildResult, averageBatches, PyDict.keys, List.map_nil, List.mapM_nil]
  simp only [bind, Except.bind, pure, Except.pure, Except.map, Except.ok.injEq, Option.some.injEq]
  have h1 := hsum (c :: cs) hbs
  rw [hl, mean]
  simp only [List.map_cons, List.map_map, List.length_cons, List.length_map, Nat.cast_add, Nat.cast_one] at h1 ⊢
  rw [show (fun c => (mean c, ([] : PyDict String ℚ))) = fun c => (mean c, []) from rfl]
  have h2 : List.map (Prod.fst ∘ fun c => (mean c, ([] : PyDict String ℚ))) cs = List.map mean cs := by
    apply List.map_congr_left; intros; rfl
  rw [h2, h1]
  field_simp

/-- Batches of different sizes (a smaller last batch) are weighted equally: the mean over three samples `0, 0, 3` in batches of two is `3/2`
instead of `1`. -/
theorem C76_counterexample_last_batch :
    (buildResult (.batches ([[0, 0], [3]].map fun c => (mean c, [])))).map Prod.fst = .ok (some (3 / 2)) ∧
      ([0, 0, 3] : List ℚ).sum / 3 = 1 := by
  refine ⟨?_, by norm_num⟩
  simp only [List.map_cons, List.map_nil, buildResult, averageBatches, PyDict.keys, List.mapM_nil]
  simp only [bind, Except.bind, pure, Except.pure, Except.map, Except.ok.injEq, Option.some.injEq]
  norm_num [mean]

/-- **C76** metrics are renamed with the phase, the loss is added under the name `<phase>_loss`, nothing else is there; a metric called
`loss` gives way to the loss. -/
theorem C76_metrics (phase : String) (loss : ℚ) (metrics : PyDict String ℚ) (h : metrics.WF) :
    (modifyMetrics phase (loss, metrics)).1 = loss ∧
      (modifyMetrics phase (loss, metrics)).2.get? (phase ++ "_loss") = some loss ∧
      (∀ key, key ≠ "loss" → (modifyMetrics phase (loss, metrics)).2.get? (phase ++ "_" ++ key) = metrics.get? key) ∧
      ∀ name v, (modifyMetrics phase (loss, metrics)).2.get? name = some v →
        ∃ key, name = phase ++ "_" ++ key := by
  have hinj : ∀ a b : String, phase ++ "_" ++ a = phase ++ "_" ++ b ↔ a = b := by
    intro a b
    simp [String.append_assoc, String.ext_iff]
  have hloss : phase ++ "_loss" = phase ++ "_" ++ "loss" := by
    rw [String.append_assoc]; rfl
  have hnd : ((metrics.map fun kv => (phase ++ "_" ++ kv.1, kv.2)).map Prod.fst).Nodup := by
    rw [List.map_map]
    have : (Prod.fst ∘ fun kv : String × ℚ => (phase ++ "_" ++ kv.1, kv.2)) = (fun s => phase ++ "_" ++ s) ∘ Prod.fst := rfl
    rw [this, ← List.map_map]
    exact List.Nodup.map (fun a b hab => (hinj a b).1 hab) h
  have hget : ∀ (d : PyDict String ℚ) key,
      PyDict.get? (d.map fun kv => (phase ++ "_" ++ kv.1, kv.2)) (phase ++ "_" ++ key) = d.get? key := by
    intro d key
    induction d with
    | nil => rfl
    | cons kv d ih =>
      simp only [List.map_cons, PyDict.get?, hinj, ih]
  simp only [modifyMetrics, PyDict.ofItems_of_nodup _ hnd]
  refine ⟨trivial, ?_, fun key hk => ?_, fun name v hv => ?_⟩
  · rw [PyDict.get?_set, if_pos rfl]
  · rw [PyDict.get?_set, if_neg, hget]
    rw [hloss, hinj]
    exact fun h => hk h.symm
  · rw [PyDict.get?_set] at hv
    split at hv
    · next e => exact ⟨"loss", by rw [← hloss]; exact e.symm⟩
    · have := PyDict.mem_of_get? hv
      obtain ⟨kv, -, e⟩ := List.mem_map.1 this
      exact ⟨kv.1, (congrArg Prod.fst e).symm⟩

/-! ## Moving data -/

mutual

/-- The tensors in a value. -/
def Value.tensors {τ : Type} : Value τ → List τ
  | .tensor t => [t]
  | .list l => tensorsList l
  | .dict l => tensorsDict l
  | .loader ds _ => ds.tensors
  | .dictLoader l => tensorsDict l
  | .infiniteDS ts => ts
  | .tensorDS ts => ts
  | .none => []
  | .other => []

def tensorsList {τ : Type} : List (Value τ) → List τ
  | [] => []
  | v :: vs => v.tensors ++ tensorsList vs

def tensorsDict {τ : Type} : List (String × Value τ) → List τ
  | [] => []
  | (_, v) :: vs => v.tensors ++ tensorsDict vs

end

mutual

/-- A value is built from what can be moved. -/
def Value.Movable {τ : Type} : Value τ → Prop
  | .list l => movableList l
  | .dict l => movableDict l
  | .loader ds _ => ds.Movable
  | .dictLoader l => movableDict l
  | .other => False
  | .tensor _ => True
  | .infiniteDS _ => True
  | .tensorDS _ => True
  | .none => True

def movableList {τ : Type} : List (Value τ) → Prop
  | [] => True
  | v :: vs => v.Movable ∧ movableList vs

def movableDict {τ : Type} : List (String × Value τ) → Prop
  | [] => True
  | (_, v) :: vs => v.Movable ∧ movableDict vs

end

mutual

/-- **C76** `data_to_device` accepts exactly the values built from tensors, lists, dictionaries, datasets and loaders, and moves every
tensor in them, keeping their order. -/
theorem C76_to_device {τ : Type} (move : τ → τ) (v : Value τ) :
    (v.Movable → ∃ w, toDevice move v = .ok w ∧ w.tensors = v.tensors.map move ∧ w.Movable) ∧
      (¬ v.Movable → toDevice move v = .error .valueError) := by
  cases v with
  | none => exact ⟨fun _ => ⟨_, rfl, rfl, trivial⟩, fun h => absurd trivial h⟩
  | tensor t => exact ⟨fun _ => ⟨_, rfl, rfl, trivial⟩, fun h => absurd trivial h⟩
  | infiniteDS ts => exact ⟨fun _ => ⟨_, rfl, rfl, trivial⟩, fun h => absurd trivial h⟩
  | tensorDS ts => exact ⟨fun _ => ⟨_, rfl, rfl, trivial⟩, fun h => absurd trivial h⟩
  | other => exact ⟨fun h => absurd h id, fun _ => rfl⟩
  | list l =>
    have ih := toDeviceList_spec move l
    refine ⟨fun h => ?_, fun h => ?_⟩
    · obtain ⟨w, h1, h2, h3⟩ := ih.1 h
      exact ⟨.list w, by rw [toDevice, h1]; rfl, h2, h3⟩
    · rw [toDevice, ih.2 h]; rfl
  | dict l =>
    have ih := toDeviceDict_spec move l
    refine ⟨fun h => ?_, fun h => ?_⟩
    · obtain ⟨w, h1, h2, h3, -⟩ := ih.1 h
      exact ⟨.dict w, by rw [toDevice, h1]; rfl, h2, h3⟩
    · rw [toDevice, ih.2 h]; rfl
  | dictLoader l =>
    have ih := toDeviceDict_spec move l
    refine ⟨fun h => ?_, fun h => ?_⟩
    · obtain ⟨w, h1, h2, h3, -⟩ := ih.1 h
      exact ⟨.dictLoader w, by rw [toDevice, h1]; rfl, h2, h3⟩
    · rw [toDevice, ih.2 h]; rfl
  | loader ds b =>
    have ih := C76_to_device move ds
    refine ⟨fun h => ?_, fun h => ?_⟩
    · obtain ⟨w, h1, h2, h3⟩ := ih.1 h
      exact ⟨.loader w 1, by rw [toDevice, h1]; rfl, h2, h3⟩
    · rw [toDevice, ih.2 h]; rfl

theorem toDeviceList_spec {τ : Type} (move : τ → τ) (l : List (Value τ)) :
    (movableList l → ∃ w, toDeviceList move l = .ok w ∧ tensorsList w = (tensorsList l).map move ∧ movableList w) ∧
      (¬ movableList l → toDeviceList move l = .error .valueError) := by
  cases l with
  | nil => exact ⟨fun _ => ⟨[], rfl, rfl, trivial⟩, fun h => absurd trivial h⟩
  | cons v l =>
    have h1 := C76_to_device move v
    have h2 := toDeviceList_spec move l
    by_cases hv : v.Movable
    · obtain ⟨w, e1, e2, e3⟩ := h1.1 hv
      by_cases hl : movableList l
      · obtain ⟨ws, f1, f2, f3⟩ := h2.1 hl
        exact ⟨fun _ => ⟨w :: ws, by rw [toDeviceList, e1, f1]; rfl, by simp [tensorsList, e2, f2], e3, f3⟩,
          fun h => absurd ⟨hv, hl⟩ h⟩
      · exact ⟨fun h => absurd h.2 hl, fun _ => by rw [toDeviceList, e1, h2.2 hl]; rfl⟩
    · exact ⟨fun h => absurd h.1 hv, fun _ => by rw [toDeviceList, h1.2 hv]; rfl⟩

theorem toDeviceDict_spec {τ : Type} (move : τ → τ) (l : List (String × Value τ)) :
    (movableDict l → ∃ w, toDeviceDict move l = .ok w ∧ tensorsDict w = (tensorsDict l).map move ∧ movableDict w ∧
        w.map Prod.fst = l.map Prod.fst) ∧
      (¬ movableDict l → toDeviceDict move l = .error .valueError) := by
  cases l with
  | nil => exact ⟨fun _ => ⟨[], rfl, rfl, trivial, rfl⟩, fun h => absurd trivial h⟩
  | cons p l =>
    obtain ⟨k, v⟩ := p
    have h1 := C76_to_device move v
    have h2 := toDeviceDict_spec move l
    by_cases hv : v.Movable
    · obtain ⟨w, e1, e2, e3⟩ := h1.1 hv
      by_cases hl : movableDict l
      · obtain ⟨ws, f1, f2, f3, f4⟩ := h2.1 hl
        exact ⟨fun _ => ⟨(k, w) :: ws, by rw [toDeviceDict, e1, f1]; rfl, by simp [tensorsDict, e2, f2], ⟨e3, f3⟩, by simp [f4]⟩,
          fun h => absurd ⟨hv, hl⟩ h⟩
      · exact ⟨fun h => absurd h.2 hl, fun _ => by rw [toDeviceDict, e1, h2.2 hl]; rfl⟩
    · exact ⟨fun h => absurd h.1 hv, fun _ => by rw [toDeviceDict, h1.2 hv]; rfl⟩

end

/-- **C76** dictionaries keep their keys. -/
theorem C76_to_device_keys {τ : Type} (move : τ → τ) (l : List (String × Value τ)) (w : Value τ)
    (h : toDevice move (.dict l) = .ok w) : ∃ l', w = .dict l' ∧ l'.map Prod.fst = l.map Prod.fst := by
  by_cases hm : movableDict l
  · obtain ⟨w', h1, -, -, h4⟩ := (toDeviceDict_spec move l).1 hm
    rw [toDevice, h1] at h
    exact ⟨w', (Except.ok.inj h).symm, h4⟩
  · rw [toDevice, (toDeviceDict_spec move l).2 hm] at h
    cases h

/-- Moving a loader loses its batch size: the new loader yields single samples. -/
theorem C76_counterexample_batch_size {τ : Type} (move : τ → τ) (ts : List τ) (b : ℕ) :
    toDevice move (.loader (.tensorDS ts) b) = .ok (.loader (.tensorDS (ts.map move)) 1) := by
  simp [toDevice, Except.map]

/-! ## Training without gradients -/

/-- **C76** for every optimizer and every sequence of losses (one per batch): if the model starts with the parameters of the first
candidate, every loss told to the optimizer is the loss of the candidate it is told with, and the model has the parameters of the
last candidate. -/
theorem C76_nevergrad {π : Type} (ask : List (π × ℚ) → π) (losses : List (π → ℚ)) (p : π) :
    let s := losses.foldl (fun s loss => ngStep ask loss s) ⟨p, p, []⟩
    List.Forall₂ (fun (t : π × ℚ) loss => t.2 = loss t.1) s.told losses ∧ s.params = s.candidate := by
  have : ∀ (losses done : List (π → ℚ)) (s : NGState π), List.Forall₂ (fun (t : π × ℚ) loss => t.2 = loss t.1) s.told done →
      s.params = s.candidate →
      let s' := losses.foldl (fun s loss => ngStep ask loss s) s
      List.Forall₂ (fun (t : π × ℚ) loss => t.2 = loss t.1) s'.told (done ++ losses) ∧ s'.params = s'.candidate := by
    intro losses
    induction losses with
    | nil => intro done s h1 h2; exact ⟨by simpa using h1, h2⟩
    | cons loss losses ih =>
      intro done s h1 h2
      rw [List.foldl_cons]
      have := ih (done ++ [loss]) (ngStep ask loss s) (List.rel_append h1 (.cons (by rw [h2]) .nil)) rfl
      simpa using this
  simpa using this losses [] ⟨p, p, []⟩ .nil rfl

/-- The parameters of the model after training are a new candidate, in general worse than those before: here an optimizer which
tries 1 after 0, with the loss `x`. -/
theorem C76_counterexample_nevergrad :
    let s := ngStep (fun told => (told.length : ℚ)) (fun x : ℚ => x) ⟨0, 0, []⟩
    s.params = 1 ∧ s.told = [(0, 0)] := by
  refine ⟨by norm_num [ngStep], by norm_num [ngStep]⟩

end Qadence.Data
