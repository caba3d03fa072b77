import Verif.Model.Py

/-!
# The training loop and its callbacks (`qadence/ml_tools/trainer.py`, `qadence/ml_tools/callbacks`)

The training loop is a state machine which emits events; an event is a point where callbacks are called, or a step of
work on a batch. Everything else (models, optimizers, losses) is not part of the state: the reaction of the outside world
(user callbacks, early stopping, the user pressing Ctrl-C) to an event is an arbitrary function of the events so far. One
process (`world_size == 1`); checkpoints are loaded before the initial state.
-/

namespace Qadence

/-- `TrainingStage` (qadence/ml_tools/stages.py:6-46) and two pseudo stages for the work on a batch. -/
inductive Stage
  | trainStart | trainEnd | trainEpochStart | trainEpochEnd | trainBatchStart | trainBatchEnd
  | valEpochStart | valEpochEnd | valBatchStart | valBatchEnd
  /-- the optimization step on a training batch -/
  | step
  /-- evaluation of the loss on a validation batch -/
  | evaluate
  deriving DecidableEq, Repr

/-- An event: `trainer.training_stage`, `trainer.current_epoch` and `trainer.opt_result.iteration` at that moment. -/
structure Ev where
  stage : Stage
  epoch : Nat
  iteration : Nat
  deriving DecidableEq, Repr

/-- What happens during an event: nothing special, `trainer._stop_training.fill_(1)`, or a `KeyboardInterrupt`. -/
inductive Reaction
  | none | stop | interrupt
  deriving DecidableEq, Repr

/-- The reaction to the last event of a history. -/
abbrev World := List Ev → Reaction

/-- State of the trainer: `current_epoch`, `opt_result.iteration`, `_stop_training`, and the events so far. -/
structure TState where
  cur : Nat
  opt : Nat
  stop : Bool
  trace : List Ev
  deriving DecidableEq, Repr

/-- Code which may be left by a `KeyboardInterrupt` (second component). -/
abbrev TrainM := TState → TState × Bool

namespace TrainM

def skip : TrainM := fun st => (st, false)

/-- One statement after the other. -/
def seq (f g : TrainM) : TrainM := fun st =>
  if (f st).2 then f st else g (f st).1

/-- `for _ in range(n): f()` -/
def times (f : TrainM) : Nat → TrainM
  | 0 => skip
  | n + 1 => seq f (times f n)

/-- An event takes place. -/
def fire (w : World) (s : Stage) : TrainM := fun st =>
  let tr := st.trace ++ [⟨s, st.cur, st.opt⟩]
  match w tr with
  | .none => ({ st with trace := tr }, false)
  | .stop => ({ st with trace := tr, stop := true }, false)
  | .interrupt => ({ st with trace := tr }, true)

/-- `build_optimize_result`: the result carries the current epoch (qadence/ml_tools/trainer.py:785-794). -/
def buildResult : TrainM := fun st => ({ st with opt := st.cur }, false)

/-- The decorator `BaseTrainer.callback` (qadence/ml_tools/train_utils/base_trainer.py:379-395). -/
def phase (w : World) (a b : Stage) (body : TrainM) : TrainM :=
  seq (fire w a) (seq body (seq buildResult (fire w b)))

end TrainM

open TrainM

/-- Settings of a training run: `max_iter`, `val_every` and the numbers of batches per epoch. -/
structure TrainCfg where
  maxIter : Nat
  valEvery : Nat
  trainBatches : Nat
  valBatches : Nat
  deriving DecidableEq, Repr

/-- `run_training` (qadence/ml_tools/trainer.py:464-490, 492-530). -/
def runTraining (w : World) (c : TrainCfg) : TrainM :=
  phase w .trainEpochStart .trainEpochEnd
    (times (phase w .trainBatchStart .trainBatchEnd (fire w .step)) c.trainBatches)

/-- `run_validation` (qadence/ml_tools/trainer.py:535-577). -/
def runValidation (w : World) (c : TrainCfg) : TrainM :=
  phase w .valEpochStart .valEpochEnd
    (times (phase w .valBatchStart .valBatchEnd (fire w .evaluate)) c.valBatches)

/-- The body of the `try` in the loop over the epochs (qadence/ml_tools/trainer.py:438-455). -/
def runEpoch (w : World) (c : TrainCfg) (e : Nat) : TrainM :=
  seq (fun st => ({ st with cur := e }, false))
    (seq (runTraining w c) (if 0 < c.valEvery ∧ e % c.valEvery = 0 then runValidation w c else skip))

/-- `_train_epochs` (qadence/ml_tools/trainer.py:401-462) over a list of epochs. -/
def trainEpochs (w : World) (c : TrainCfg) : List Nat → TState → TState
  | [], st => st
  | e :: es, st =>
    if st.stop then st
    else
      let r := runEpoch w c e st
      trainEpochs w c es (if r.2 then { r.1 with stop := true } else r.1)

/-- `_train` with its decorator (qadence/ml_tools/trainer.py:359-399): the epochs are
`range(global_step, global_step + max_iter + 1)`. -/
def train (w : World) (c : TrainCfg) (globalStep : Nat) : TrainM :=
  phase w .trainStart .trainEnd
    (fun st => (trainEpochs w c (List.range' globalStep (c.maxIter + 1)) st, false))

/-- `fit` (qadence/ml_tools/trainer.py:286-358): `_fit_setup` clears the stop flag and validates once if validation is
configured. `start` is 0, or the iteration of the loaded checkpoint
(qadence/ml_tools/callbacks/callbackmanager.py:175-200). -/
def fit (w : World) (c : TrainCfg) (start : Nat) : TrainM :=
  seq (if 0 < c.valEvery then runValidation w c else skip) (train w c start)

/-- The state at the beginning of `fit` after loading a checkpoint. -/
def fitInit (start : Nat) : TState := { cur := start, opt := start, stop := false, trace := [] }

/-! ## Callbacks -/

/-- A callback (qadence/ml_tools/callbacks/callback.py:84-112): its stage, frequency and condition; the condition may
depend on everything in the optimization result. -/
structure Callback where
  on : Stage
  calledEvery : Int
  condition : Ev → Bool

/-- `_should_call` (qadence/ml_tools/callbacks/callback.py:156-172). -/
def Callback.shouldCall (c : Callback) (ev : Ev) : Bool :=
  if ev.stage = .trainStart ∨ ev.stage = .trainEnd then true
  else if c.calledEvery = 0 ∨ ev.iteration = 0 then false
  else if (ev.iteration : Int) % c.calledEvery = 0 ∧ c.condition ev = true then true
  else false

/-- `__call__` (qadence/ml_tools/callbacks/callback.py:174-193): does the event run the callback? -/
def Callback.runs (c : Callback) (ev : Ev) : Bool := c.on = ev.stage ∧ c.shouldCall ev = true

/-- `run_callbacks` (qadence/ml_tools/callbacks/callbackmanager.py:146-163): the callbacks which are run by an event, in
order. -/
def runCallbacks (cs : List Callback) (ev : Ev) : List Callback :=
  (cs.filter fun c => c.on = ev.stage).filter fun c => c.runs ev

end Qadence
