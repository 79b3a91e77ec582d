import Verif.Training.Checkpoint
import Mathlib.Data.Rat.Defs
import Mathlib.Algebra.Order.Ring.Rat

/-!
# The training loop

Models `lambeq/training/trainer.py`: `__init__` (132-168, the histories), `load_training_checkpoint` (243-285),
`save_checkpoint` (287-306), `_get_weighted_mean` (371-378), `_step_and_eval` (380-401), `_summarize_metric`
(403-414), `_check_early_stopping` (429-471), `fit` (473-819); with `training_step` of
quantum_trainer.py:146-168 and pytorch_trainer.py:179-203 (both append the loss to `train_costs`).

Simplifications.
* Losses and metrics are rational numbers (no rounding, no NaN).
* Everything the steps read and change (weights, optimiser, random generators) is one value `W`; a training or
  validation step and the iteration over a dataset are arbitrary functions on it that do not raise.
* The dicts keyed by metric name are lists parallel to `evaluate_functions`; the early stopping criterion is an
  index.
* Times are not modelled: the lists of durations are represented by their lengths.
* Progress bars, printing and tensorboard are left out. `eval_interval` and `early_stopping_interval` are natural numbers.
* A checkpoint file is the record of what `save_checkpoint` stores; writing it is atomic here (see C41 for crashes
  while writing).
-/

namespace Lambeq
namespace Train

/-- trainer.py:371-378 -/
def weightedMean (xs : List (Nat × ℚ)) : Except PyErr ℚ :=
  let total := (xs.map (fun p => (p.1 : ℚ) * p.2)).sum
  let batches : Nat := (xs.map (·.1)).sum
  if batches = 0 then .error .zeroDivisionError else .ok (total / (batches : ℚ))

/-- trainer.py:454, 546 -/
def factor (minimize : Bool) : ℚ := if minimize then 1 else -1

/-- `min(...)` of a Python list. -/
def pyMin : List ℚ → Except PyErr ℚ
  | [] => .error .valueError
  | x :: xs => .ok (xs.foldl min x)

/-- trainer.py:461-471; `vals` are the criterion values. -/
def earlyStop (vals : List ℚ) (interval : Option Nat) (minimize : Bool) : Except PyErr Bool :=
  match interval with
  | none => .ok false
  | some k =>
    if vals.length > k then do
      let ref ← pyGet vals (-(k : Int) - 1)
      let m ← pyMin ((pySlice vals (some (-(k : Int))) none).map (fun v => factor minimize * v))
      .ok (decide (factor minimize * ref < m))
    else .ok false

/-- trainer.py:132-142: the training history. -/
structure Hist where
  trainCosts : List ℚ
  trainEpochCosts : List ℚ
  trainEval : List (List ℚ)
  valCosts : List ℚ
  valEval : List (List ℚ)
  /-- `len(self.train_durations)` -/
  nTrain : Nat
  /-- `len(self.val_durations)` -/
  nVal : Nat
  /-- `len(self.train_epoch_durations)` -/
  nEpoch : Nat
  deriving DecidableEq

/-- What a trainer and a call of `fit` are given. -/
structure Env (W B P : Type) where
  /-- `for batch in train_dataset` -/
  trainData : W → List B × W
  /-- `for batch in val_dataset` -/
  valData : Option (W → List B × W)
  /-- `len(batch[0])` -/
  size : B → Nat
  /-- `self.training_step(batch)`: the new world, the predictions and the loss -/
  train : W → B → W × P × ℚ
  /-- `self.validation_step(batch)` -/
  valid : W → B → W × P × ℚ
  /-- `self.evaluate_functions` -/
  metrics : List (P → B → ℚ)
  evalOnTrain : Bool
  /-- trainer.py:529-532: `evaluation_step` -/
  evalStep : Nat
  /-- `early_stopping_criterion`: `none` for the validation loss -/
  criterion : Option Nat
  esInterval : Option Nat
  minimize : Bool

/-- What `save_checkpoint` writes (trainer.py:693-707, 779-791, 303-306); `S` is the saved part of the world. -/
structure Ckpt (S : Type) where
  epoch : Nat
  step : Nat
  hist : Hist
  world : S
  deriving DecidableEq

/-- The trainer and the files `model.lt` and `best_model.lt` during `fit`. -/
structure St (W S : Type) where
  world : W
  hist : Hist
  step : Nat
  trainRun : List (List (Nat × ℚ))
  valRun : List (List (Nat × ℚ))
  /-- `train_losses` of the current epoch -/
  losses : List (Nat × ℚ)
  /-- `best_val_criterion`; `none` is infinity -/
  best : Option ℚ
  modelLt : Option (Ckpt S)
  bestLt : Option (Ckpt S)

variable {W B P S : Type}

/-- trainer.py:393-396: append the metrics of one batch to the running results. -/
def pushMetrics (E : Env W B P) (run : List (List (Nat × ℚ))) (y : P) (b : B) : List (List (Nat × ℚ)) :=
  List.zipWith (fun f r => r ++ [(E.size b, f y b)]) E.metrics run

/-- trainer.py:412-414: append the weighted means to the results; the running results are then reset. -/
def summarize (run : List (List (Nat × ℚ))) (res : List (List ℚ)) : Except PyErr (List (List ℚ)) := do
  let ms ← run.mapM weightedMean
  .ok (List.zipWith (fun r m => r ++ [m]) res ms)

/-- trainer.py:682-686, 456-460: the list of criterion values. -/
def critVals (E : Env W B P) (h : Hist) : Except PyErr (List ℚ) :=
  match E.criterion with
  | none => .ok h.valCosts
  | some i => match h.valEval[i]? with
    | some l => .ok l
    | none => .error .keyError

/-- trainer.py:627-640: the loop over the validation batches; collects `val_loss`. -/
def valLoop (E : Env W B P) : List B → St W S → List (Nat × ℚ) → St W S × List (Nat × ℚ)
  | [], st, ls => (st, ls)
  | b :: bs, st, ls =>
    let r := E.valid st.world b
    valLoop E bs { st with world := r.1, valRun := pushMetrics E st.valRun r.2.1 b,
                           hist := { st.hist with nVal := st.hist.nVal + 1 } } (ls ++ [(E.size b, r.2.2)])

/-- trainer.py:303-306 with the dictionaries of 693-707 and 779-791 -/
def mkCkpt (save : W → S) (epoch : Nat) (st : St W S) : Ckpt S := ⟨epoch, st.step, st.hist, save st.world⟩

/-- trainer.py:626-707 -/
def validate (E : Env W B P) (save : W → S) (epoch : Nat) (data : W → List B × W) (st : St W S) : Except PyErr (St W S) := do
  let d := data st.world
  let r := valLoop E d.1 { st with world := d.2 } []
  let cost ← weightedMean r.2
  let ve ← summarize r.1.valRun r.1.hist.valEval
  let st := { r.1 with hist := { r.1.hist with valCosts := r.1.hist.valCosts ++ [cost], valEval := ve },
                       valRun := r.1.valRun.map (fun _ => []) }
  let cv ← critVals E st.hist
  match cv.getLast? with
  | none => .error .indexError
  | some v =>
    let c := factor E.minimize * v
    if (match st.best with | none => true | some b => decide (c < b)) then
      .ok { st with best := some c, bestLt := some (mkCkpt save epoch st) }
    else .ok st

/-- trainer.py:587-595 with `training_step`: one training step. -/
def trainOne (E : Env W B P) (st : St W S) (b : B) : St W S :=
  let r := E.train st.world b
  { st with world := r.1, step := st.step + 1, losses := st.losses ++ [(E.size b, r.2.2)],
            trainRun := if E.evalOnTrain then pushMetrics E st.trainRun r.2.1 b else st.trainRun,
            hist := { st.hist with trainCosts := st.hist.trainCosts ++ [r.2.2], nTrain := st.hist.nTrain + 1 } }

/-- trainer.py:613-622 -/
def evalTrain (E : Env W B P) (st : St W S) : Except PyErr (St W S) :=
  if E.evalOnTrain then
    if E.evalStep = 0 then .error .zeroDivisionError
    else if st.step % E.evalStep = 0 then do
      let te ← summarize st.trainRun st.hist.trainEval
      .ok { st with hist := { st.hist with trainEval := te }, trainRun := st.trainRun.map (fun _ => []) }
    else .ok st
  else .ok st

/-- trainer.py:624-625 -/
def evalVal (E : Env W B P) (save : W → S) (epoch : Nat) (st : St W S) : Except PyErr (St W S) :=
  match E.valData with
  | none => .ok st
  | some data =>
    if E.evalStep = 0 then .error .zeroDivisionError
    else if st.step % E.evalStep = 0 then validate E save epoch data st
    else .ok st

/-- trainer.py:587-762: the body of the loop over batches; the flag is `early_stopping`. -/
def batchStep (E : Env W B P) (save : W → S) (epoch : Nat) (st : St W S) (b : B) : Except PyErr (St W S × Bool) := do
  let st ← evalTrain E (trainOne E st b)
  let st ← evalVal E save epoch st
  let cv ← critVals E st.hist
  let stop ← earlyStop cv E.esInterval E.minimize
  .ok (st, stop)

/-- trainer.py:580-762: the loop over batches, with its `break`. -/
def runBatches (E : Env W B P) (save : W → S) (epoch : Nat) : St W S → List B → Except PyErr (St W S × Bool)
  | st, [] => .ok (st, false)
  | st, b :: bs => do
    let r ← batchStep E save epoch st b
    if r.2 then .ok (r.1, true) else runBatches E save epoch r.1 bs

/-- trainer.py:578-791: one epoch. -/
def epochStep (E : Env W B P) (save : W → S) (epoch : Nat) (st : St W S) : Except PyErr (St W S × Bool) := do
  let d := E.trainData st.world
  let r ← runBatches E save epoch { st with world := d.2, losses := [] } d.1
  let cost ← weightedMean r.1.losses
  let st := { r.1 with hist := { r.1.hist with trainEpochCosts := r.1.hist.trainEpochCosts ++ [cost], nEpoch := r.1.hist.nEpoch + 1 } }
  .ok ({ st with modelLt := some (mkCkpt save epoch st) }, r.2)

/-- trainer.py:571-800: the loop over epochs `start, start + 1, ...`, `n` of them. -/
def runEpochs (E : Env W B P) (save : W → S) : Nat → Nat → St W S → Except PyErr (St W S)
  | 0, _, st => .ok st
  | n + 1, epoch, st => do
    let r ← epochStep E save epoch st
    if r.2 then .ok r.1 else runEpochs E save n (epoch + 1) r.1

/-- trainer.py:528-819: `fit`, for a trainer with attributes `start_epoch`, `epochs` and, in the state, `start_step` and the
histories. The divisions of 804-809 fail when nothing was recorded. -/
def fit (E : Env W B P) (save : W → S) (startEpoch epochs : Nat) (st : St W S) : Except PyErr (St W S) := do
  let r ← runEpochs E save (epochs + 1 - startEpoch) startEpoch { st with best := none }
  if r.hist.nEpoch = 0 ∨ r.hist.nTrain = 0 then .error .zeroDivisionError else .ok r

/-- trainer.py:132-164: a new trainer; `mlt` and `blt` are the files already in the log directory. -/
def freshSt (E : Env W B P) (w : W) (mlt blt : Option (Ckpt S)) : St W S :=
  ⟨w, ⟨[], [], E.metrics.map (fun _ => []), [], E.metrics.map (fun _ => []), 0, 0, 0⟩, 0,
   E.metrics.map (fun _ => []), E.metrics.map (fun _ => []), [], none, mlt, blt⟩

/-- trainer.py:262-285, 525-526: a trainer created with `from_checkpoint=True` from `model.lt`; `w0` is the world of the new
process and `load` restores the saved part. The result has the value of `start_epoch`. -/
def resumeSt (E : Env W B P) (load : W → S → W) (w0 : W) (c : Ckpt S) (blt : Option (Ckpt S)) : Nat × St W S :=
  (c.epoch + 1, ⟨load w0 c.world, c.hist, c.step, E.metrics.map (fun _ => []), E.metrics.map (fun _ => []), [], none, some c, blt⟩)

end Train
end Lambeq
