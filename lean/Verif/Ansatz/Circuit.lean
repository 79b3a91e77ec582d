import Verif.Quantum.Apply
import Verif.Quantum.Functorial

/-!
# Circuit ansätze

Models `lambeq/ansatz/circuit.py`: `CircuitAnsatz._ar` (160-194), `ob_size` (122-124), the methods `params_shape` and `circuit` of `IQPAnsatz`
(207-224), `Sim14Ansatz` (238-264), `Sim15Ansatz` (278-304), `Sim4Ansatz` (316-336), `StronglyEntanglingAnsatz` (387-417), `Sim9CxAnsatz`
(429-446), `Sim9Ansatz` (458-475).

Simplifications. A symbol is replaced by its value: `val name` is the value of the symbol `name`, and every statement is for all `val`. The arrays of
parameters are lists of rows. Numbers of layers and of single-qubit parameters are natural numbers. The branch `n_qubits == 1` of the methods
`circuit` is left out: `_ar` calls them with at least two qubits.
-/

namespace Lambeq
open Diagram
set_option linter.unusedSectionVars false
set_option linter.unusedSimpArgs false

namespace QBox
noncomputable section

abbrev Circ := Diagram QOb QBox

/-- `Id().tensor(*gates)` -/
def tensorRow (gs : List QBox) : Circ := tensorN (Diagram.id [] :: gs.map ofBox)

/-- The subclasses of `CircuitAnsatz`. -/
inductive AnsatzKind
  | iqp | sim14 | sim15 | sim4 | sim9 | sim9cx
  /-- with the argument `ranges` -/
  | strong (ranges : Option (List Int))

/-- `params_shape(n_qubits)[1]`: circuit.py:207-208, 238-239, 278-279, 316-317, 399-400, 429-430, 458-459. The first entry is always `n_layers`. -/
def AnsatzKind.rowLen (n : Nat) : AnsatzKind → Nat
  | iqp => n - 1
  | sim14 => 4 * n
  | sim15 => 2 * n
  | sim4 => 3 * n - 1
  | sim9 | sim9cx => n
  | strong _ => 3 * n

/-- circuit.py:215-220: one pass of the loop. -/
def iqpLayer (n : Nat) (circuit : Circ) (thetas : List ℝ) : Except PyErr Circ := do
  let gates ← (List.range (n - 1)).mapM fun (i : Nat) => do
    let θ ← pyGet thetas i
    .ok (tensor (tensor (Diagram.id (qubits i)) (ofBox (controlled (rot .z θ) 1))) (Diagram.id (qubits (n - 2 - i))))
  let rotations ← thenN (Diagram.id (qubits n)) gates
  let layer ← andThen (tensorRow (List.replicate n H)) rotations
  andThen circuit layer

/-- circuit.py:214-222 -/
def iqpCircuit (nLayers n : Nat) (params : List (List ℝ)) : Except PyErr Circ := do
  let circuit ← params.foldlM (iqpLayer n) (Diagram.id (qubits n))
  if nLayers > 0 then andThen circuit (tensorRow (List.replicate n H)) else .ok circuit

/-- circuit.py:247-262: one pass of the loop. -/
def sim14Layer (n : Nat) (circuit : Circ) (thetas : List ℝ) : Except PyErr Circ := do
  let sublayer1 ← (List.range n).foldlM (init := tensorRow ((pySlice thetas none (some n)).map (rot .y))) fun s (i : Nat) => do
    let tgt : Int := ((i : Int) - 1) % n
    let θ ← pyGet thetas (n + i : Nat)
    applyGate s (controlled (rot .x θ) 1) [(i : Int), tgt]
  let sublayer2 ← ((List.range n).map (n - ·)).foldlM
      (init := tensorRow ((pySlice thetas (some (2 * n : Nat)) (some (3 * n : Nat))).map (rot .y))) fun s (i : Nat) => do
    let src : Int := (i : Int) % n
    let tgt : Int := ((i : Int) + 1) % n
    let θ ← pyGet thetas (-(i : Int))
    applyGate s (controlled (rot .x θ) 1) [src, tgt]
  let layer ← andThen sublayer1 sublayer2
  andThen circuit layer

/-- circuit.py:245-262 -/
def sim14Circuit (n : Nat) (params : List (List ℝ)) : Except PyErr Circ := params.foldlM (sim14Layer n) (Diagram.id (qubits n))

/-- circuit.py:288-302: one pass of the loop. -/
def sim15Layer (n : Nat) (circuit : Circ) (thetas : List ℝ) : Except PyErr Circ := do
  let sublayer1 ← (List.range n).foldlM (init := tensorRow ((pySlice thetas none (some n)).map (rot .y))) fun s (i : Nat) =>
    let tgt : Int := ((i : Int) - 1) % n
    applyGate s CX [(i : Int), tgt]
  let sublayer2 ← ((List.range n).map (n - ·)).foldlM (init := tensorRow ((pySlice thetas (some (n : Nat)) none).map (rot .y))) fun s (i : Nat) =>
    let src : Int := (i : Int) % n
    let tgt : Int := ((i : Int) + 1) % n
    applyGate s CX [src, tgt]
  let layer ← andThen sublayer1 sublayer2
  andThen circuit layer

/-- circuit.py:286-302 -/
def sim15Circuit (n : Nat) (params : List (List ℝ)) : Except PyErr Circ := params.foldlM (sim15Layer n) (Diagram.id (qubits n))

/-- circuit.py:325-334: one pass of the loop. -/
def sim4Layer (n : Nat) (circuit : Circ) (thetas : List ℝ) : Except PyErr Circ := do
  let c1 ← andThen circuit (tensorRow ((pySlice thetas none (some n)).map (rot .x)))
  let c2 ← andThen c1 (tensorRow ((pySlice thetas (some n) (some (2 * n : Nat))).map (rot .z)))
  let crxs ← (List.range (n - 1)).foldlM (init := Diagram.id (qubits n)) fun s (i : Nat) => do
    let θ ← pyGet thetas (2 * n + i : Nat)
    applyGate s (controlled (rot .x θ) 1) [(i : Int), (i : Int) + 1]
  andThen c2 crxs

/-- circuit.py:323-334 -/
def sim4Circuit (n : Nat) (params : List (List ℝ)) : Except PyErr Circ := params.foldlM (sim4Layer n) (Diagram.id (qubits n))

/-- circuit.py:438-445 with `gate = CX`, 467-474 with `gate = CZ`: one pass of the loop. -/
def sim9Layer (gate : QBox) (n : Nat) (circuit : Circ) (thetas : List ℝ) : Except PyErr Circ := do
  let c1 ← andThen circuit (tensorRow (List.replicate n H))
  let ladder ← (List.range (n - 1)).foldlM (init := Diagram.id (qubits n)) fun s (q : Nat) =>
    applyGate s gate [(q : Int), (q : Int) + 1]
  let c2 ← andThen c1 ladder
  andThen c2 (tensorRow (thetas.map (rot .x)))

/-- circuit.py:436-446 with `gate = CX`, 465-475 with `gate = CZ`. -/
def sim9Circuit (gate : QBox) (n : Nat) (params : List (List ℝ)) : Except PyErr Circ := params.foldlM (sim9Layer gate n) (Diagram.id (qubits n))

/-- circuit.py:408-414: the range of the CNOTs of a layer. -/
def strongStep (ranges : Option (List Int)) (n layer : Nat) : Except PyErr Int :=
  match ranges with
  | none => if n - 1 = 0 then .error .zeroDivisionError else .ok ((layer : Int) % ((n : Int) - 1) + 1)
  | some rs => do
    let r ← pyGet rs layer
    if r ≥ n then .error .valueError else .ok r

/-- circuit.py:406-407: the three rotations of qubit `j`. -/
def strongRots (params : List (List ℝ)) (layer : Nat) (c : Circ) (j : Nat) : Except PyErr Circ := do
  let row ← pyGet params layer
  let syms := pySlice row (some (j * 3 : Nat)) (some (j * 3 + 3 : Nat))
  let s0 ← pyGet syms 0
  let s1 ← pyGet syms 1
  let s2 ← pyGet syms 2
  let a ← applyGate c (rot .z s0) [(j : Int)]
  let b ← applyGate a (rot .y s1) [(j : Int)]
  applyGate b (rot .z s2) [(j : Int)]

/-- circuit.py:405-416: one pass of the loop. -/
def strongLayer (ranges : Option (List Int)) (n : Nat) (params : List (List ℝ)) (circuit : Circ) (layer : Nat) : Except PyErr Circ := do
  let c1 ← (List.range n).foldlM (strongRots params layer) circuit
  let step ← strongStep ranges n layer
  (List.range n).foldlM (fun c (j : Nat) => applyGate c CX [(j : Int), ((j : Int) + step) % n]) c1

/-- circuit.py:402-417 -/
def strongCircuit (ranges : Option (List Int)) (nLayers n : Nat) (params : List (List ℝ)) : Except PyErr Circ :=
  (List.range nLayers).foldlM (strongLayer ranges n params) (Diagram.id (qubits n))

/-- The method `circuit(n_qubits, params)`. -/
def AnsatzKind.circuit (nLayers n : Nat) (params : List (List ℝ)) : AnsatzKind → Except PyErr Circ
  | iqp => iqpCircuit nLayers n params
  | sim14 => sim14Circuit n params
  | sim15 => sim15Circuit n params
  | sim4 => sim4Circuit n params
  | sim9 => sim9Circuit CZ n params
  | sim9cx => sim9Circuit CX n params
  | strong ranges => strongCircuit ranges nLayers n params

/-- A configured ansatz: circuit.py:101-108. -/
structure Ansatz where
  kind : AnsatzKind
  /-- `ob_map`, with `none` for a missing key -/
  obMap : String → Option Nat
  nLayers : Nat
  nSingle : Nat
  discard : Bool
  /-- `single_qubit_rotations or [Rx, Rz]` -/
  rots : List Axis
  basis : Circ

/-- The constructor, circuit.py:101-108 and 387-397: `StronglyEntanglingAnsatz` fixes the rotations and the basis, and checks the number of ranges. -/
def Ansatz.mk' (kind : AnsatzKind) (obMap : String → Option Nat) (nLayers nSingle : Nat) (discard : Bool) (rots : List Axis) (basis : Circ) :
    Except PyErr Ansatz :=
  match kind with
  | .strong ranges =>
    if ranges.any (fun rs => rs.length != nLayers) then .error .valueError
    else .ok ⟨kind, obMap, nLayers, nSingle, discard, [.z, .y], Diagram.id [.qubit]⟩
  | _ => .ok ⟨kind, obMap, nLayers, nSingle, discard, if rots = [] then [.x, .z] else rots, basis⟩

/-- `np.array(syms).reshape((rows, k))` -/
def reshapeRows (rows k : Nat) (flat : List ℝ) : List (List ℝ) := (List.range rows).map (fun r => (flat.drop (r * k)).take k)

/-- `Ket(*[0] * k)`, quantum.py:754-773: without arguments the constructor raises. -/
def ket0s (k : Int) : Except PyErr Circ :=
  if k ≤ 0 then .error .typeError else if k = 1 then .ok (ofBox (ket false)) else .ok (tensorRow (List.replicate k.toNat (ket false)))

/-- `Bra(*[0] * k)`, quantum.py:787-806 -/
def bra0s (k : Int) : Except PyErr Circ :=
  if k ≤ 0 then .error .typeError else if k = 1 then .ok (ofBox (bra false)) else .ok (tensorRow (List.replicate k.toNat (bra false)))

/-- circuit.py:165-179: the circuit on `n_qubits` wires. `sym i` is the value of the symbol `f'{label}_{i}'`. (With a negative number of qubits the
outcome depends on numpy; the model raises.) -/
def Ansatz.core (A : Ansatz) (sym : Nat → ℝ) (n : Int) : Except PyErr Circ :=
  if n = 0 then .ok (Diagram.id [])
  else if n = 1 then
    (List.range A.nSingle).foldlM (init := Diagram.id (qubits 1)) fun circuit (i : Nat) =>
      match A.rots[i % A.rots.length]? with
      | some ax => andThen circuit (ofBox (rot ax (sym i)))
      | none => .ok circuit
  else if n < 0 then .error .valueError
  else
    let k := A.kind.rowLen n.toNat
    A.kind.circuit A.nLayers n.toNat (reshapeRows A.nLayers k ((List.range (A.nLayers * k)).map sym))

/-- circuit.py:181-183: fresh qubits before the circuit. -/
def addKets (dom cod : Nat) (anc : Int) (circuit : Circ) : Except PyErr Circ :=
  if cod > dom ∨ anc > 0 then do
    let kets ← ket0s (max 0 ((cod : Int) - dom) + anc)
    andThen (tensor (Diagram.id (qubits dom)) kets) circuit
  else .ok circuit

/-- circuit.py:184-193: removal of the extra qubits after the circuit. -/
def Ansatz.dropExtras (A : Ansatz) (dom cod : Nat) (anc : Int) (circuit : Circ) : Except PyErr Circ :=
  if cod < dom ∨ anc > 0 then
    let extras : Int := max 0 ((dom : Int) - cod) + anc
    if A.discard then andThen circuit (tensor (Diagram.id (qubits cod)) (tensorRow (List.replicate extras.toNat QBox.discard)))
    else do
      let c ← andThen circuit (tensorN (Diagram.id (qubits cod) :: List.replicate extras.toNat A.basis))
      let bras ← bra0s extras
      andThen c (tensor (Diagram.id (qubits cod)) bras)
  else .ok circuit

/-- circuit.py:163-194, given the sizes of domain and codomain. -/
def Ansatz.arSized (A : Ansatz) (sym : Nat → ℝ) (dom cod : Nat) (anc : Int) : Except PyErr Circ := do
  let c ← A.core sym (max dom cod + anc)
  let c ← addKets dom cod anc c
  A.dropExtras dom cod anc c

/-- `ob_size`, circuit.py:122-124: the functor on an atomic type looks up the type of winding number 0 and rotates the result, which does not change
its length. -/
def Ansatz.obSize (A : Ansatz) : Ty → Except PyErr Nat
  | [] => .ok 0
  | o :: t => match A.obMap o.name with
    | none => .error .keyError
    | some k => match A.obSize t with
      | .error e => .error e
      | .ok m => .ok (k + m)

/-- circuit.py:160-194. `label` is `_summarise_box(box)`, `anc` is `_get_n_ancillas(box)`. -/
def Ansatz.ar (A : Ansatz) (val : String → ℝ) (label : String) (dom cod : Ty) (anc : Int) : Except PyErr Circ := do
  let d ← A.obSize dom
  let c ← A.obSize cod
  A.arSized (fun i => val (label ++ "_" ++ toString i)) d c anc

end
end QBox
end Lambeq
