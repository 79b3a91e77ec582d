import Verif.Py
import Mathlib.Data.List.Perm.Basic

/-!
# Datasets

Models `lambeq/training/dataset.py`: `Dataset.__init__` (71-81), `__getitem__` (83-87), `__iter__`
(92-112), `shuffle_data` (114-135).

Simplifications. `backend.array` leaves the targets as they are. `random.shuffle` is a parameter of the model, a
function on lists that returns a rearrangement. `ceil(a / b)` is taken over exact rationals (Python divides
floats, which is the same below 2^53).
-/

namespace Lambeq
namespace Train

variable {α β : Type}

/-- dataset.py:73-81: the attributes of a dataset. -/
structure Dataset (α β : Type) where
  data : List α
  targets : List β
  batchSize : Int
  shuffle : Bool
  batchesPerEpoch : Int

/-- dataset.py:71-81. `-((-a) / b)` with floored division is `ceil(a / b)`; Python's `ZeroDivisionError` for `b = 0`. -/
def mkDataset (data : List α) (targets : List β) (batchSize : Int) (shuffle : Bool) : Except PyErr (Dataset α β) :=
  if data.length ≠ targets.length then .error .valueError
  else
    let b := if batchSize = 0 then (data.length : Int) else batchSize
    if b = 0 then .error .zeroDivisionError
    else .ok ⟨data, targets, b, shuffle, -(Int.fdiv (-(data.length : Int)) b)⟩

/-- `range(start, stop, step)` for a positive step. -/
def rangeFrom (stop step : Nat) (h : 0 < step) (start : Nat) : List Nat :=
  if start < stop then start :: rangeFrom stop step h (start + step) else []
  termination_by stop - start

/-- `range(0, stop, step)`: empty for negative steps, `ValueError` for step 0. -/
def rangeStep (stop : Nat) (step : Int) : Except PyErr (List Nat) :=
  if h : 0 < step.toNat then .ok (rangeFrom stop step.toNat h 0)
  else if step = 0 then .error .valueError
  else .ok []

/-- dataset.py:132-135; `zip(*[])` cannot be unpacked into two values. -/
def shuffleData (perm : List (α × β) → List (α × β)) (data : List α) (targets : List β) :
    Except PyErr (List α × List β) :=
  let joint := perm (data.zip targets)
  if joint.isEmpty then .error .valueError else .ok (joint.unzip)

/-- dataset.py:102-105 -/
def Dataset.source (perm : List (α × β) → List (α × β)) (d : Dataset α β) : Except PyErr (List α × List β) :=
  if d.shuffle then shuffleData perm d.data d.targets else .ok (d.data, d.targets)

/-- dataset.py:102-112: the list of all batches of one pass. -/
def Dataset.iter (perm : List (α × β) → List (α × β)) (d : Dataset α β) : Except PyErr (List (List α × List β)) := do
  let new ← d.source perm
  let starts ← rangeStep d.data.length d.batchSize
  .ok (starts.map (fun (s : Nat) =>
    (pySlice new.1 (some (s : Int)) (some ((s : Int) + d.batchSize)), pySlice new.2 (some (s : Int)) (some ((s : Int) + d.batchSize)))))

end Train
end Lambeq
