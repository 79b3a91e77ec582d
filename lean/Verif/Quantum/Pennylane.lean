import Verif.Quantum.CircuitalTheorems

/-!
# PennyLane circuits (C95)

Models backend/pennylane.py: `OP_MAP` (61-84), `extract_ops_from_circuital` (87-142), `to_pennylane` (145-222), and of `PennyLaneCircuit` `get_valid_states` (342-364), `make_circuit` (366-389),
`post_selected_circuit` (391-420) and `eval` (449-470), for circuits without symbols on the default device.

Simplifications: `open_wires` (356) is a copy of `set(range(n))` from which the keys are removed; CPython goes through it in ascending order. Operations of OP_MAP are called when the circuit is
evaluated: with too few or too many parameters this is a `TypeError`, with a wrong number of wires a `ValueError`. In 204, `list.remove` may remove an equal scalar that was passed over before; the
model removes the current one, which leaves the same gates up to the place of a scalar, and with a scalar left line 118 raises. With `probabilities`, a scalar of complex type cannot multiply the
tensor of probabilities in place (torch raises `RuntimeError`): the model raises if the imaginary part is not 0. A density matrix of no wires is not modelled: the value is then the trace.
-/

namespace Lambeq
open Diagram
set_option linter.unusedSectionVars false
set_option linter.unusedSimpArgs false

namespace QBox
noncomputable section

/-- pennylane.py:61-84: the numbers of parameters and of wires of the operation. -/
def plSig (t : String) : Option (Nat × Nat) :=
  if t ∈ ["H", "X", "Y", "Z", "S", "Sdg", "T", "Tdg", "noop"] then some (0, 1)
  else if t ∈ ["Rx", "Ry", "Rz"] then some (1, 1)
  else if t ∈ ["CX", "CY", "CZ", "SWAP"] then some (0, 2)
  else if t ∈ ["CRx", "CRy", "CRz", "CU1"] then some (1, 2)
  else none

/-- An entry of `_ops`, `_params` (in full turns) and `_wires`. -/
structure PlOp where
  name : String
  params : List ℝ
  wires : List Nat

/-- The attributes of `PennyLaneCircuit` that evaluation reads. -/
structure PlCircuit where
  nQubits : Nat
  ops : List PlOp
  post : List (Nat × Nat)
  mixed : Bool
  probs : Bool
  scale : ℂ

/-- pennylane.py:202: `gate.gtype == 'Scalar' and gate.phase is not None`, and the phase. -/
def Gate.number (g : Gate) : Option ℂ :=
  if g.gtype = "Scalar" then
    match g.phase with
    | .none => none
    | .array c => some c
    | .angle θ => some (θ : ℂ)
  else none

/-- pennylane.py:200-204: a loop over the list from which it removes: after a scalar is removed, the loop does not look at the gate that follows it. -/
def takeScalars : List Gate → ℂ × List Gate
  | [] => (1, [])
  | [g] => match g.number with
    | some c => (c, [])
    | none => (1, [g])
  | g :: h :: gs => match g.number with
    | some c => (c * (takeScalars gs).1, h :: (takeScalars gs).2)
    | none => ((takeScalars (h :: gs)).1, g :: (takeScalars (h :: gs)).2)

/-- pennylane.py:120-124: a phase 0 gives no parameter. -/
def plParams : Phase → List ℝ
  | .angle θ => if θ = 0 then [] else [θ]
  | _ => []

/-- pennylane.py:118-142 -/
def plOps : List Gate → Except PyErr (List PlOp)
  | [] => .ok []
  | g :: gs =>
    if plSig g.gtype = none then .error .keyError
    else match plOps gs with
      | .error e => .error e
      | .ok ops => .ok (⟨g.gtype, plParams g.phase, g.qubits⟩ :: ops)

/-- pennylane.py:198-222 -/
def plFrom (mixed probs : Bool) (d : Diagram QOb QBox) : Except PyErr PlCircuit :=
  match readoff d with
  | .error e => .error e
  | .ok (n, i) => match plOps (takeScalars i.gates).2 with
    | .error e => .error e
    | .ok ops => .ok ⟨n, ops, i.postmap, mixed, probs, (takeScalars i.gates).1⟩

/-- pennylane.py:183-222 -/
def toPennylane (d : Diagram QOb QBox) (probs : Bool) : Except PyErr PlCircuit :=
  if d.boxes.any isMeasure then .error .valueError
  else if isCircuital d then plFrom (mixedDiagram d) probs d
  else match toCircuital d with
    | .error e => .error e
    | .ok c => plFrom (mixedDiagram d) probs c

/-! ## Operations of PennyLane -/

/-- Rotations by an angle. -/
def plRx (φ : ℝ) : Matrix (Fin 2) (Fin 2) ℂ := !![Real.cos (φ / 2), -Complex.I * Real.sin (φ / 2); -Complex.I * Real.sin (φ / 2), Real.cos (φ / 2)]
def plRy (φ : ℝ) : Matrix (Fin 2) (Fin 2) ℂ := !![Real.cos (φ / 2), -(Real.sin (φ / 2) : ℝ); Real.sin (φ / 2), Real.cos (φ / 2)]
def plRz (φ : ℝ) : Matrix (Fin 2) (Fin 2) ℂ := !![Complex.exp (-Complex.I * φ / 2), 0; 0, Complex.exp (Complex.I * φ / 2)]
def plU1 (φ : ℝ) : Matrix (Fin 2) (Fin 2) ℂ := !![1, 0; 0, Complex.exp (Complex.I * φ)]

/-- pennylane.py:61-84: the operator that an operation applies to its last wire when all its other wires are 1. -/
def plBase (t : String) (φs : List ℝ) : Matrix (Fin 2) (Fin 2) ℂ :=
  match t with
  | "H" => tkH
  | "X" | "CX" => tkX
  | "Y" | "CY" => tkY
  | "Z" | "CZ" => tkZ
  | "S" => tkS
  | "Sdg" => tkS.conjTranspose
  | "T" => tkT
  | "Tdg" => tkT.conjTranspose
  | "Rx" | "CRx" => plRx (φs.headD 0)
  | "Ry" | "CRy" => plRy (φs.headD 0)
  | "Rz" | "CRz" => plRz (φs.headD 0)
  | "CU1" => plU1 (φs.headD 0)
  | _ => 1

/-- The state after an operation; pennylane.py:380 gives the angles in radians. -/
def PlOp.apply (c : PlOp) (v : List Nat → ℂ) (y : List Nat) : ℂ :=
  if c.name = "SWAP" then
    match c.wires with
    | [p, q] => v ((y.set p (y.getD q 0)).set q (y.getD p 0))
    | _ => v y
  else applied c.wires.dropLast (c.wires.getLastD 0) (ofMatrix (plBase c.name (c.params.map (fun p => 2 * Real.pi * p)))) v y

/-- pennylane.py:379-380: the state of the qubits, from the state 0. -/
def plRun : List PlOp → (List Nat → ℂ) → Except PyErr (List Nat → ℂ)
  | [], v => .ok v
  | c :: cs, v => match plSig c.name with
    | none => .error .keyError
    | some (np, nw) =>
      if c.params.length ≠ np then .error .typeError
      else if c.wires.length ≠ nw then .error .valueError
      else plRun cs (c.apply v)

/-! ## Post-selection -/

/-- pennylane.py:356 -/
def plOpen (n : Nat) (post : List (Nat × Nat)) : List Nat := (List.range n).filter (fun q => decide (q ∉ post.map Prod.fst))

/-- pennylane.py:354-355: `self._post_selection.get(i, 0)`, as a digit. -/
def plFixed (n : Nat) (post : List (Nat × Nat)) : List Nat :=
  (List.range n).map (fun i => if ((post.find? (fun p => p.1 = i)).map Prod.snd).getD 0 = 0 then 0 else 1)

/-- pennylane.py:361-362 -/
def plPlace : List Nat → List Nat → List Nat → List Nat
  | s, q :: qs, b :: bs => plPlace (s.set q b) qs bs
  | s, _, _ => s

/-- pennylane.py:363: `int(s, 2)` -/
def binary (s : List Nat) : Nat := s.foldl (fun a b => 2 * a + b) 0

/-- pennylane.py:353-364 -/
def validStates (n : Nat) (post : List (Nat × Nat)) : List Nat :=
  (allIdx (List.replicate (plOpen n post).length 2)).map (fun perm => binary (plPlace (plFixed n post) (plOpen n post) perm))

/-- `qml.state()` as a list: wire 0 is the most significant. -/
def stateList (n : Nat) (v : List Nat → ℂ) : List ℂ := (allIdx (List.replicate n 2)).map v

/-- `qml.density_matrix(wires)[0][0]`: the probability that these wires are 0. -/
def plZeros (n : Nat) (wires : List Nat) (v : List Nat → ℂ) : ℝ :=
  ∑ y ∈ allBits n, if ∀ q ∈ wires, y.getD q 0 = 0 then Complex.normSq (v y) else 0

/-- `states[self._valid_states]` -/
def plTake (n : Nat) (v : List Nat → ℂ) (is : List Nat) : List ℂ := is.map (fun i => (stateList n v).getD i 0)

/-- pennylane.py:417-420 -/
def plShape (k : Nat) (l : List ℂ) : NdArray ℂ := if l.length = 1 then ⟨[1], l⟩ else ⟨List.replicate k 2, l⟩

/-- pennylane.py:382-387, 406-420 -/
def plSelect (c : PlCircuit) (v : List Nat → ℂ) : Except PyErr (NdArray ℂ) :=
  if c.mixed then .ok ⟨[], [(plZeros c.nQubits (c.post.map Prod.fst) v : ℂ)]⟩
  else if c.probs then
    if c.scale.im ≠ 0 then .error .runtimeError
    else .ok (plShape (c.nQubits - c.post.length)
      ((plTake c.nQubits (fun y => (Complex.normSq (v y) : ℂ)) (validStates c.nQubits c.post)).map (fun x => x * c.scale ^ 2)))
  else .ok (plShape (c.nQubits - c.post.length) ((plTake c.nQubits v (validStates c.nQubits c.post)).map (fun x => x * c.scale)))

/-- pennylane.py:449-470 -/
def plEval (c : PlCircuit) : Except PyErr (NdArray ℂ) :=
  match plRun c.ops (fun y => if y = List.replicate c.nQubits 0 then 1 else 0) with
  | .error e => .error e
  | .ok v => plSelect c v

/-- `to_pennylane(d, probabilities).eval()` -/
def pennylane (d : Diagram QOb QBox) (probs : Bool) : Except PyErr (NdArray ℂ) :=
  match toPennylane d probs with
  | .error e => .error e
  | .ok c => plEval c

end
end QBox
end Lambeq
