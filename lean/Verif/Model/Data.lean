import Mathlib.Data.List.Dedup
import Mathlib.Data.Rat.Defs
import Verif.Model.Py

/-!
# Data loaders and batches (`qadence/ml_tools/data.py`, `trainer.py`, `train_utils/base_trainer.py`)

A tensor is the list of its entries along the first dimension (of any type `ρ`). `torch.utils.data.DataLoader` without workers and
without sampler is modelled as documented by torch: consecutive samples of the dataset are collected in batches of
`batch_size`, the last batch of a finite dataset may be smaller. A batch is kept as the list of its samples (torch
transposes it into a list of tensors). `random.shuffle` is an arbitrary function on lists.
-/

namespace Qadence.Data

/-! ## Datasets -/

/-- `TensorDataset` (torch) and `InfiniteTensorDataset` (qadence/ml_tools/data.py:57-79); the latter remembers the indices as
they were shuffled last. -/
inductive Dataset (ρ : Type)
  | finite (tensors : List (List ρ))
  | infinite (tensors : List (List ρ)) (indices : List Nat)

/-- `InfiniteTensorDataset.__init__` (qadence/ml_tools/data.py:78-79). -/
def infiniteDataset {ρ : Type} (tensors : List (List ρ)) : Except PyErr (Dataset ρ) :=
  match tensors with
  | [] => .error .indexError
  | t :: _ => .ok (.infinite tensors (List.range t.length))

/-- `TensorDataset.__init__` of torch: all tensors have the same first dimension (an assertion); without tensors `tensors[0]`
is not evaluated in the assertion, but `len` fails. -/
def tensorDataset {ρ : Type} (tensors : List (List ρ)) : Except PyErr (Dataset ρ) :=
  if tensors.all fun t => t.length = (tensors.headD []).length then .ok (.finite tensors) else .error .assertionError

/-- `tuple(t[idx] for t in tensors)`. -/
def sample {ρ : Type} (tensors : List (List ρ)) (i : Nat) : List (Option ρ) := tensors.map fun t => t[i]?

/-- The first `m` samples of the `while True` loop of `InfiniteTensorDataset.__iter__` (qadence/ml_tools/data.py:87-89), `rest` being
what is left of the current pass; without indices the loop yields nothing for ever, here the empty list. -/
def cycle {α : Type} (all : List α) : Nat → List α → List α
  | 0, _ => []
  | m + 1, i :: rest => i :: cycle all m rest
  | m + 1, [] =>
    match all with
    | [] => []
    | i :: rest => i :: cycle all m rest

/-- `InfiniteTensorDataset.__iter__` (qadence/ml_tools/data.py:81-89): the dataset afterwards and the first `m` samples. -/
def iterInfinite {ρ : Type} (shuffle : List Nat → List Nat) (tensors : List (List ρ)) (indices : List Nat) (m : Nat) :
    Except PyErr (Dataset ρ × List (List (Option ρ))) :=
  if (tensors.map List.length).dedup.length ≠ 1 then .error .valueError
  else
    let indices' := shuffle indices
    .ok (.infinite tensors indices', (cycle indices' m indices').map (sample tensors))

/-! ## Loaders -/

/-- `torch.utils.data.DataLoader`. -/
structure Loader (ρ : Type) where
  dataset : Dataset ρ
  batchSize : Nat

/-- `to_dataloader` (qadence/ml_tools/data.py:92-115); torch refuses batches of size 0. -/
def toDataloader {ρ : Type} (tensors : List (List ρ)) (batchSize : Nat) (infinite : Bool) : Except PyErr (Loader ρ) := do
  let ds ← if infinite then infiniteDataset tensors else tensorDataset tensors
  if batchSize = 0 then .error .valueError else .ok ⟨ds, batchSize⟩

/-- Consecutive batches of at most `b` samples (torch), at most `fuel` of them. -/
def chunks {α : Type} (b : Nat) : Nat → List α → List (List α)
  | 0, _ => []
  | _ + 1, [] => []
  | fuel + 1, x :: xs => (x :: xs).take b :: chunks b fuel ((x :: xs).drop b)

/-- A new iterator over a loader, of which `m` batches are taken: `islice(loader, m)`; the loader afterwards and
the batches. -/
def Loader.take {ρ : Type} (shuffle : List Nat → List Nat) (l : Loader ρ) (m : Nat) :
    Except PyErr (Loader ρ × List (List (List (Option ρ)))) :=
  match l.dataset with
  | .finite tensors =>
    .ok (l, chunks l.batchSize m ((List.range (tensors.headD []).length).map (sample tensors)))
  | .infinite tensors indices =>
    if m = 0 then .ok (l, [])
    else (iterInfinite shuffle tensors indices (m * l.batchSize)).map fun r =>
      ({ l with dataset := r.1 }, chunks l.batchSize m r.2)

/-! ## `DictDataLoader` -/

/-- `DictDataLoader.__next__` (qadence/ml_tools/data.py:53-54) on what is left of the batches of each iterator: the dictionary, or `none` for
`StopIteration`, and what is left afterwards. -/
def dictNext {β : Type} : List (String × List β) → Option (List (String × β)) × List (String × List β)
  | [] => (some [], [])
  | (key, []) :: its => (none, (key, []) :: its)
  | (key, b :: bs) :: its => ((dictNext its).1.map ((key, b) :: ·), (key, bs) :: (dictNext its).2)

/-- `islice(dict_loader, m)` (qadence/ml_tools/data.py:49-54) given the batches of the iterators. -/
def dictTake {β : Type} : Nat → List (String × List β) → List (List (String × β))
  | 0, _ => []
  | m + 1, its =>
    match (dictNext its).1 with
    | none => []
    | some d => d :: dictTake m (dictNext its).2

/-! ## Numbers of batches -/

/-- What a trainer accepts as a loader. -/
inductive AnyLoader (ρ : Type)
  | single (l : Loader ρ)
  | dict (loaders : List (String × Loader ρ))

/-- The part of `_compute_num_batches` after the choice of a loader
(qadence/ml_tools/train_utils/base_trainer.py:332-336). -/
def loaderBatches {ρ : Type} (maxBatches : Option Nat) (l : Loader ρ) : Nat :=
  match l.dataset with
  | .finite tensors =>
    let n := ((tensors.headD []).length + l.batchSize - 1) / l.batchSize
    match maxBatches with
    | none => n
    | some m => min m n
  | .infinite _ _ => 1

/-- `_compute_num_batches` (qadence/ml_tools/train_utils/base_trainer.py:314-336). -/
def computeNumBatches {ρ : Type} (maxBatches : Option Nat) : Option (AnyLoader ρ) → Except PyErr Nat
  | none => .ok 1
  | some (.single l) => .ok (loaderBatches maxBatches l)
  | some (.dict []) => .error .indexError
  | some (.dict ((_, l) :: _)) => .ok (loaderBatches maxBatches l)

/-! ## The loaders of a trainer -/

/-- The loaders of a trainer with the numbers of batches computed by their setters
(qadence/ml_tools/train_utils/base_trainer.py:225-288). -/
structure Trainer (ρ : Type) where
  maxBatches : Option Nat
  train : Option (AnyLoader ρ)
  test : Option (AnyLoader ρ)
  numTrain : Nat
  numTest : Nat

/-- Setter of `train_dataloader` (qadence/ml_tools/train_utils/base_trainer.py:234-244). -/
def Trainer.setTrain {ρ : Type} (t : Trainer ρ) (l : Option (AnyLoader ρ)) : Except PyErr (Trainer ρ) := do
  let n ← computeNumBatches t.maxBatches l
  .ok { t with train := l, numTrain := n }

/-- Setter of `test_dataloader` (qadence/ml_tools/train_utils/base_trainer.py:278-288). -/
def Trainer.setTest {ρ : Type} (t : Trainer ρ) (l : Option (AnyLoader ρ)) : Except PyErr (Trainer ρ) := do
  let n ← computeNumBatches t.maxBatches l
  .ok { t with test := l, numTest := n }

/-- `_batch_iter` (qadence/ml_tools/trainer.py:623-647): the loader asked for batches (none: `None` is yielded) and how
many at most. -/
def batchIter {ρ : Type} (l : Option (AnyLoader ρ)) (num : Nat) : Option (AnyLoader ρ) × Nat := (l, num)

/-- `test` (qadence/ml_tools/trainer.py:577-604): the loader used and the limit, and the trainer afterwards. -/
def Trainer.runTest {ρ : Type} (t : Trainer ρ) (l : Option (AnyLoader ρ)) :
    Except PyErr (Trainer ρ × Option (AnyLoader ρ) × Nat) := do
  let t ← match l with
    | none => .ok t
    | some _ => t.setTest l
  .ok (t, batchIter l t.numTrain)

/-- The loader used by an epoch of training (qadence/ml_tools/trainer.py:441, 481). -/
def Trainer.runEpoch {ρ : Type} (t : Trainer ρ) : Option (AnyLoader ρ) × Nat := batchIter t.train t.numTrain

/-! ## Results of batches -/

/-- Loss and metrics of a batch. -/
abbrev LossMetrics := ℚ × PyDict String ℚ

/-- The argument of `build_optimize_result` (qadence/ml_tools/trainer.py:713-744). -/
inductive RawResult
  | none
  | single (r : LossMetrics)
  | batches (rs : List LossMetrics)
  | epochs (rs : List (List LossMetrics))

/-- `torch.stack(..).mean()`. -/
def mean (l : List ℚ) : ℚ := l.sum / l.length

/-- `metrics_batch[key]`. -/
def fetch (d : PyDict String ℚ) (key : String) : Except PyErr ℚ :=
  match d.get? key with
  | some v => .ok v
  | none => .error .keyError

/-- Average over the batches of an epoch (qadence/ml_tools/trainer.py:770-788). -/
def averageBatches (rs : List LossMetrics) : Except PyErr (Option ℚ × PyDict String ℚ) :=
  match rs with
  | [] => .ok (none, [])
  | r :: _ => do
    let metrics ← r.2.keys.mapM fun key => do
      let values ← rs.mapM fun b => fetch b.2 key
      Except.ok (key, mean values)
    .ok (some (mean (rs.map Prod.fst)), metrics)

/-- `build_optimize_result` (qadence/ml_tools/trainer.py:745-788): loss and metrics of `opt_result`. A list without items is a list of
tuples. -/
def buildResult : RawResult → Except PyErr (Option ℚ × PyDict String ℚ)
  | .none => .ok (none, [])
  | .single r => .ok (some r.1, r.2)
  | .batches rs => averageBatches rs
  | .epochs rs => averageBatches (rs.getLastD [])

/-- `_modify_batch_end_loss_metrics` (qadence/ml_tools/trainer.py:649-673) for a stage which belongs to one phase. -/
def modifyMetrics (phase : String) (r : LossMetrics) : LossMetrics :=
  (r.1, (PyDict.ofItems (r.2.map fun kv => (phase ++ "_" ++ kv.1, kv.2))).set (phase ++ "_loss") r.1)

/-! ## Moving data -/

/-- What `data_to_device` is called with; `τ` are the tensors, `other` is everything without an implementation (tuples for
instance). -/
inductive Value (τ : Type)
  | none
  | tensor (t : τ)
  | list (l : List (Value τ))
  | dict (l : List (String × Value τ))
  | loader (dataset : Value τ) (batchSize : Nat)
  | dictLoader (l : List (String × Value τ))
  | infiniteDS (tensors : List τ)
  | tensorDS (tensors : List τ)
  | other

mutual

/-- `data_to_device` (qadence/ml_tools/data.py:118-161); `move` is `Tensor.to`. -/
def toDevice {τ : Type} (move : τ → τ) : Value τ → Except PyErr (Value τ)
  | .none => .ok .none
  | .tensor t => .ok (.tensor (move t))
  | .list l => (toDeviceList move l).map .list
  | .dict l => (toDeviceDict move l).map .dict
  | .loader ds _ => (toDevice move ds).map fun ds => .loader ds 1
  | .dictLoader l => (toDeviceDict move l).map .dictLoader
  | .infiniteDS ts => .ok (.infiniteDS (ts.map move))
  | .tensorDS ts => .ok (.tensorDS (ts.map move))
  | .other => .error .valueError

/-- The comprehension over a list (qadence/ml_tools/data.py:134-136). -/
def toDeviceList {τ : Type} (move : τ → τ) : List (Value τ) → Except PyErr (List (Value τ))
  | [] => .ok []
  | v :: vs => do
    let v ← toDevice move v
    let vs ← toDeviceList move vs
    .ok (v :: vs)

/-- The comprehension over a dictionary (qadence/ml_tools/data.py:139-141). -/
def toDeviceDict {τ : Type} (move : τ → τ) : List (String × Value τ) → Except PyErr (List (String × Value τ))
  | [] => .ok []
  | (k, v) :: vs => do
    let v ← toDevice move v
    let vs ← toDeviceDict move vs
    .ok ((k, v) :: vs)

end

/-! ## Nevergrad -/

/-- State of a run without gradients: parameters of the model, the candidate `ng_params`, and what the optimizer was told. -/
structure NGState (π : Type) where
  params : π
  candidate : π
  told : List (π × ℚ)

/-- `update_ng_parameters` (qadence/ml_tools/optimize_step.py:59-88); `ask` is the optimizer, an arbitrary function of what it was
told, `loss` the loss of a model with given parameters on the batch. Setting and reading parameters are inverse (C53). -/
def ngStep {π : Type} (ask : List (π × ℚ) → π) (loss : π → ℚ) (s : NGState π) : NGState π :=
  let told := s.told ++ [(s.candidate, loss s.params)]
  { params := ask told, candidate := ask told, told := told }

end Qadence.Data
