import Verif.Py
import Mathlib.Algebra.Order.Field.Basic
import Mathlib.Tactic.Linarith

/-!
# The SPSA optimiser

Models `lambeq/training/spsa_optimizer.py` (whole file) and `lambeq/training/optimizer.py` (`__init__` 37-61, `zero_grad` 94-96).

Simplifications. Floating point numbers are exact elements of an ordered field `K`, with the two infinities and not-a-number and
their arithmetic (`Fl`); zero has no sign. The power `x ** y` is a parameter. The random choice of the perturbation is an argument
(`true` is +1). Calling the model and the loss function on the batch is one function of the weights. A batch is given by the free
symbols of the diagrams in it. Warnings are left out.
-/

namespace Lambeq
namespace Train

variable {K : Type} [Field K] [LinearOrder K]

/-- A floating point value, without rounding. -/
inductive Fl (K : Type)
  | num (x : K)
  | pinf
  | ninf
  | nan
  deriving DecidableEq, Repr

/-- IEEE addition. -/
def Fl.add : Fl K → Fl K → Fl K
  | .num a, .num b => .num (a + b)
  | .nan, _ => .nan
  | _, .nan => .nan
  | .pinf, .ninf => .nan
  | .ninf, .pinf => .nan
  | .pinf, _ => .pinf
  | _, .pinf => .pinf
  | .ninf, _ => .ninf
  | _, .ninf => .ninf

/-- IEEE negation. -/
def Fl.neg : Fl K → Fl K
  | .num a => .num (-a)
  | .pinf => .ninf
  | .ninf => .pinf
  | .nan => .nan

/-- IEEE subtraction. -/
def Fl.sub (a b : Fl K) : Fl K := a.add b.neg

/-- The infinity with the sign of `x`, for `x ≠ 0`. -/
def Fl.infSign (x : K) : Fl K := if 0 < x then .pinf else .ninf

/-- Multiplication by a finite number. -/
def Fl.scale (a : Fl K) (k : K) : Fl K :=
  match a with
  | .num x => .num (x * k)
  | .nan => .nan
  | .pinf => if k = 0 then .nan else Fl.infSign k
  | .ninf => if k = 0 then .nan else Fl.infSign (-k)

/-- IEEE division; the zeros are positive. -/
def Fl.div : Fl K → Fl K → Fl K
  | .num a, .num b => if b = 0 then (if a = 0 then .nan else Fl.infSign a) else .num (a / b)
  | .nan, _ => .nan
  | _, .nan => .nan
  | .num _, _ => .num 0
  | .pinf, .num b => if b < 0 then .ninf else .pinf
  | .ninf, .num b => if b < 0 then .pinf else .ninf
  | _, _ => .nan

/-- `numpy.clip` on one value: `minimum(maximum(x, lo), hi)`. -/
def Fl.clip (b : K × K) : Fl K → Fl K
  | .num x => .num (min (max x b.1) b.2)
  | .pinf => .num b.2
  | .ninf => .num (min b.1 b.2)
  | .nan => .nan

/-- The attributes of an `SPSAOptimizer` and the weights of its model. `hA`, `ha`, `hc` are the entries of `self.hyperparams`. -/
structure Spsa (K : Type) where
  weights : List (Fl K)
  gradient : List (Fl K)
  bounds : Option (List (K × K))
  hA : K
  ha : K
  hc : K
  A : K
  a : K
  c : K
  ak : K
  ck : K
  sweep : Nat
  deriving DecidableEq

/-- spsa_optimizer.py:99-100 -/
def alpha : K := 602 / 1000
/-- spsa_optimizer.py:99-100 -/
def gamma : K := 101 / 1000

/-- spsa_optimizer.py:84-116 with optimizer.py:57-61; `hyper` gives the values of `a`, `c` and `A` in the dictionary, if present. -/
def Spsa.init (pow : K → K → K) (weights : List (Fl K)) (hyper : Option (Option K × Option K × Option K)) (bounds : Option (List (K × K))) :
    Except PyErr (Spsa K) :=
  match hyper with
  | some (some a, some c, some A) =>
    let s : Spsa K := ⟨weights, weights.map (fun _ => .num 0), bounds, A, a, c, A, a, c, a / pow (1 + A) alpha, c / pow 1 gamma, 1⟩
    match bounds with
    | none => .ok s
    | some bds => if bds.length ≠ weights.length then .error .valueError else .ok s
  | _ => .error .valueError

/-- spsa_optimizer.py:109-116 -/
def Spsa.project (s : Spsa K) (x : List (Fl K)) : List (Fl K) :=
  match s.bounds with
  | none => x
  | some bds => List.zipWith Fl.clip bds x

/-- spsa_optimizer.py:146-152: `free` are the sets of free symbols of the diagrams of the batch. -/
def symbolMask (symbols : List String) (free : List (List String)) : Except PyErr (List K) :=
  match free with
  | [] => .error .typeError
  | _ =>
    let relevant := free.flatten
    let relevant := if relevant.isEmpty then symbols else relevant
    .ok (symbols.map (fun s => if relevant.contains s then 1 else 0))

/-- `+1` or `-1` -/
def sgn (b : Bool) : K := if b then 1 else -1

/-- spsa_optimizer.py:170-173; `dl` is `loss0 - loss1`. -/
def Spsa.grad (s : Spsa K) (dl : Fl K) (delta : List Bool) (xplus xminus : List (Fl K)) : List (Fl K) :=
  match s.bounds with
  | none => delta.map (fun d => dl.div (.num (2 * s.ck * sgn d)))
  | some _ => List.zipWith (fun (p m : Fl K) => dl.div (p.sub m)) xplus xminus

/-- spsa_optimizer.py:118-181: the optimiser afterwards, the loss returned and the two points evaluated. -/
def Spsa.backward (s : Spsa K) (symbols : List String) (free : List (List String)) (delta : List Bool) (loss : List (Fl K) → Fl K) :
    Except PyErr (Spsa K × Fl K × List (List (Fl K))) := do
  let mask : List K ← symbolMask symbols free
  let x := s.weights
  let xplus := s.project (List.zipWith (fun xi d => xi.add (.num (s.ck * sgn d))) x delta)
  let s1 := { s with weights := xplus }
  let loss0 := loss s1.weights
  let xminus := s.project (List.zipWith (fun xi d => xi.sub (.num (s.ck * sgn d))) x delta)
  let s2 := { s1 with weights := xminus }
  let loss1 := loss s2.weights
  let grad := s.grad (loss0.sub loss1) delta xplus xminus
  let s3 := { s2 with gradient := List.zipWith Fl.add s.gradient (List.zipWith Fl.scale grad mask) }
  .ok ({ s3 with weights := x }, (loss0.add loss1).scale (1 / 2), [xplus, xminus])

/-- spsa_optimizer.py:190-196 -/
def Spsa.updateHyper (pow : K → K → K) (s : Spsa K) : Spsa K :=
  { s with sweep := s.sweep + 1, ak := s.ha / pow (((s.sweep + 1 : Nat) : K) + s.A) alpha, ck := s.hc / pow ((s.sweep + 1 : Nat) : K) gamma }

/-- optimizer.py:94-96 -/
def Spsa.zeroGrad (s : Spsa K) : Spsa K := { s with gradient := s.gradient.map (fun g => g.scale 0) }

/-- spsa_optimizer.py:183-188 -/
def Spsa.step (pow : K → K → K) (s : Spsa K) : Spsa K :=
  let s := { s with weights := List.zipWith (fun (w g : Fl K) => w.sub (g.scale s.ak)) s.weights s.gradient }
  let s := { s with weights := s.project s.weights }
  (s.updateHyper pow).zeroGrad

/-- spsa_optimizer.py:198-212: `A`, `a`, `c`, `ak`, `ck`, `current_sweep`. -/
def Spsa.stateDict (s : Spsa K) : K × K × K × K × K × Nat := (s.A, s.a, s.c, s.ak, s.ck, s.sweep)

/-- spsa_optimizer.py:214-228 -/
def Spsa.loadStateDict (s : Spsa K) (d : K × K × K × K × K × Nat) : Spsa K :=
  { s with A := d.1, a := d.2.1, c := d.2.2.1, ak := d.2.2.2.1, ck := d.2.2.2.2.1, sweep := d.2.2.2.2.2 }

end Train
end Lambeq
