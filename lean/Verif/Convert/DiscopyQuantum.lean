import Verif.Convert.DiscopyProps
import Verif.Quantum.Box

/-!
# Conversion of circuits to and from DisCoPy (C107)

Models `lambeq/backend/converters/discopy.py`: the tables (60-80), `ty_l2d` and `ty_d2l` on qubits and bits (117-123, 149-155), `convert_quantum_l2d` (167-204), `convert_quantum_d2l` (207-256),
`to_discopy` (450-497) and `from_discopy` (500-556) for circuits.

DisCoPy is modelled with these assumptions: the gates H, X, Z are equal to their `rotate`, the gates S, T, Y have a winding number, which `rotate` changes between 0 and 1; H, X, Y, Z are equal to
their `dagger()`, that of S and T flips `is_dagger`; `Bra` and `Ket` are daggers of each other, as are `Measure` and `Encode`; `dagger()` of a controlled gate is the controlled dagger.
`other` stands for all boxes that are not in the tables. Types of other names are left out (123, 155).
-/

namespace Lambeq
namespace Discopy
open Diagram
set_option linter.unusedSimpArgs false
set_option linter.unusedSectionVars false
noncomputable section

/-- Atomic types of `discopy.quantum` (assumption). -/
inductive DQOb
  | qubit | bit
  deriving DecidableEq

/-- The gates of the tables, discopy.py:67-73. -/
inductive Gate
  | H | S | T | X | Y | Z
  deriving DecidableEq

/-- Boxes of `discopy.quantum` (assumption). -/
inductive DQBox
  | gate (g : Gate) (z : Int) (dag : Bool)
  | swap
  | rot (ax : Axis) (phase : ℝ)
  | scalar (c : ℂ)
  | sqrt (c : ℂ)
  | ket (bits : List Bool)
  | bra (bits : List Bool)
  | discard | mixedState
  | encode
  | measure (destructive : Bool)
  | controlled (u : DQBox) (distance : Int)
  | other (dom cod : List DQOb)

namespace DQBox
/-- Domain and codomain (assumption). -/
def sig : DQBox → List DQOb × List DQOb
  | gate _ _ _ => ([.qubit], [.qubit])
  | swap => ([.qubit, .qubit], [.qubit, .qubit])
  | rot _ _ => ([.qubit], [.qubit])
  | scalar _ => ([], [])
  | sqrt _ => ([], [])
  | ket bs => ([], List.replicate bs.length .qubit)
  | bra bs => (List.replicate bs.length .qubit, [])
  | discard => ([.qubit], [])
  | mixedState => ([], [.qubit])
  | encode => ([.bit], [.qubit])
  | measure d => ([.qubit], if d then [.bit] else [.bit, .qubit])
  | controlled u d => (List.replicate (u.sig.1.length + d.natAbs) .qubit, List.replicate (u.sig.1.length + d.natAbs) .qubit)
  | other d c => (d, c)
instance : BoxSig DQBox DQOb := ⟨fun b => b.sig.1, fun b => b.sig.2⟩
/-- `box.is_dagger` (assumption). -/
def isDagger : DQBox → Bool
  | gate _ _ g => g
  | _ => false
/-- `box.dagger()` (assumption). -/
def dagger : DQBox → DQBox
  | gate g z b => gate g z (if g = .S ∨ g = .T then !b else b)
  | swap => swap
  | rot ax θ => rot ax (-θ)
  | scalar c => scalar (star c)
  | sqrt c => sqrt (star c)
  | ket bs => bra bs
  | bra bs => ket bs
  | discard => mixedState
  | mixedState => discard
  | encode => measure true
  | measure _ => encode
  | controlled u d => controlled u.dagger d
  | other d c => other c d
/-- `box.rotate(z)` for a gate of the tables (assumption). -/
def turn : DQBox → DQBox
  | gate g z b => gate g (if g = .S ∨ g = .T ∨ g = .Y then 1 - z else z) b
  | b => b
end DQBox

/-- The lambeq gates, discopy.py:67-73. -/
def gateBox : Gate → QBox
  | .H => .H
  | .S => .S
  | .T => .T
  | .X => .X
  | .Y => .Y
  | .Z => .Z

/-- What `Box.__eq__` (tensor.py:169-173) compares: name, domain, codomain and data. -/
def key : QBox → Option (String × List QOb × List QOb × Option (NdArray ℂ))
  | .gen n d c a _ _ _ => some (n, d, c, a)
  | .selfConj n d c a _ => some (n, d, c, a)
  | _ => none

open Classical in
/-- discopy.py:195: `QUANTUM_MAPPINGS_L2D[box]` for a box that is no class of the table; `none` for a `KeyError`. -/
def lookupL2D (b : QBox) : Option DQBox :=
  if b = .swap .qubit .qubit then some .swap
  else ([Gate.H, .S, .T, .X, .Y, .Z].find? (fun g => @decide (key (gateBox g) = key b) (Classical.propDecidable _))).map (fun g => .gate g 0 false)

/-- `box.z`: quantum.py:148, 1075, 1148; the classes without winding number have 0. -/
def qz : QBox → Int
  | .gen _ _ _ _ z _ _ => z
  | _ => 0

/-- discopy.py:117-121 -/
def qtyL2D (t : List QOb) : List DQOb := t.map (fun o => match o with | .bit => .bit | .qubit => .qubit)
/-- discopy.py:149-153 -/
def qtyD2L (t : List DQOb) : List QOb := t.map (fun o => match o with | .bit => .bit | .qubit => .qubit)

/-- discopy.py:167-204. The table is read with `box.unwind()`, which is `box.rotate(-box.z)`. -/
def qboxL2D : QBox → Except PyErr DQBox
  | .daggered b => match qboxL2D b with
    | .error e => .error e
    | .ok b => .ok b.dagger
  | .controlled u d => match qboxL2D u with
    | .error e => .error e
    | .ok u => .ok (.controlled u d)
  | .rot ax θ => .ok (.rot ax θ)
  | .scalar c => .ok (.scalar c)
  | .sqrt c => .ok (.sqrt c)
  | .bra b => .ok (.bra [b])
  | .ket b => .ok (.ket [b])
  | .discard => .ok .discard
  | .encode => .ok .encode
  | .measure => .ok (.measure true)
  | b => match b.rotate (-qz b) with
    | .error e => .error e
    | .ok b' => match lookupL2D b' with
      | none => .error .notImplementedError
      | some op => .ok (if qz b = 0 then op else op.turn)

/-- discopy.py:207-256; `inl` is a box, `inr` a diagram. Only gates of the tables can be daggered (210-211): the gate is converted without its dagger, then daggered. -/
def qboxD2L : DQBox → Except PyErr (QBox ⊕ Diagram QOb QBox)
  | .controlled u d => match qboxD2L u with
    | .error e => .error e
    | .ok (.inr D) => .ok (.inr D)
    | .ok (.inl b) => match QBox.mkControlled b d with
      | .error e => .error e
      | .ok b => .ok (.inl b)
  | .rot ax θ => .ok (.inl (.rot ax θ))
  | .scalar c => .ok (.inl (.scalar c))
  | .sqrt c => .ok (.inl (.sqrt c))
  | .ket bs => match bs with
    | [b] => .ok (.inl (.ket b))
    | _ => .ok (.inr (tensorN (id [] :: bs.map (fun b => ofBox (.ket b)))))
  | .bra bs => match bs with
    | [b] => .ok (.inl (.bra b))
    | _ => .ok (.inr (tensorN (id [] :: bs.map (fun b => ofBox (.bra b)))))
  | .discard => .ok (.inl .discard)
  | .encode => .ok (.inl .encode)
  | .measure d => if d = true then .ok (.inl .measure) else .error .notImplementedError
  | .gate g z dag => match (gateBox g).rotate z with
    | .error e => .error e
    | .ok b => .ok (.inl (if dag = true then b.dagger else b))
  | .swap => match (QBox.swap .qubit .qubit).rotate 0 with
    | .error e => .error e
    | .ok b => .ok (.inl b)
  | .mixedState => .error .notImplementedError
  | .other _ _ => .error .notImplementedError

/-- `to_diagram()` of a converted box, or the diagram it became. -/
def qAsDiagram : Except PyErr (QBox ⊕ Diagram QOb QBox) → Except PyErr (Diagram QOb QBox)
  | .error e => .error e
  | .ok (.inl b) => .ok (ofBox b)
  | .ok (.inr D) => .ok D

/-- discopy.py:450-497 -/
def circuitToDiscopy (d : Diagram QOb QBox) : Except PyErr (Diagram DQOb DQBox) := convLayers qtyL2D (fun b => asDiagram (qboxL2D b)) (id (qtyL2D d.dom)) d.layers
/-- discopy.py:500-556 -/
def circuitFromDiscopy (d : Diagram DQOb DQBox) : Except PyErr (Diagram QOb QBox) := convLayers qtyD2L (fun b => qAsDiagram (qboxD2L b)) (id (qtyD2L d.dom)) d.layers

end
end Discopy
end Lambeq
