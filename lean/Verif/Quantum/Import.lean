import Verif.Quantum.ExportTheorems
import Verif.Grammar.PermSemantics

/-!
# Import of `t|ket⟩` circuits (C99)

Models `from_tk`, backend/converters/tk.py:271-363, and `Circuit.upgrade` (64-77).

Simplifications: parameters are numbers; `post_processing` is the default one (the identity of the bits that are not post-selected, tk.py:85-86); only the names of
operations that `from_tk` tests are told apart; an operation of `t|ket⟩` has the parameters that it needs.
-/

namespace Lambeq
open Diagram
set_option linter.unusedSectionVars false
set_option linter.unusedSimpArgs false

namespace QBox
noncomputable section

/-- A command of a `t|ket⟩` circuit: an operation on qubits, or a measurement of a qubit into a bit. -/
inductive TkItem
  | gate (name : String) (params : List ℝ) (args : List Nat)
  | measure (qubit bit : Nat)

/-- A `tk.Circuit`: its commands in the order of `get_commands()`, the dictionary `post_selection` and `scalar`. -/
structure TkIn where
  nQubits : Nat
  nBits : Nat
  items : List TkItem
  post : List (Nat × Nat)
  scalar : ℝ

/-- tk.py:288-295; the names of `GATES` (quantum.py:1202-1221) with one qubit. -/
def oneBox (name : String) (params : List ℝ) : Option QBox :=
  if name = "Rx" then some (rot .x (params.headD 0 * 0.5))
  else if name = "Ry" then some (rot .y (params.headD 0 * 0.5))
  else if name = "Rz" then some (rot .z (params.headD 0 * 0.5))
  else if name = "H" then some H
  else if name = "S" then some S
  else if name = "T" then some T
  else if name = "X" then some X
  else if name = "Y" then some Y
  else if name = "Z" then some Z
  else none

/-- tk.py:304-312, 318-323: the box that is controlled. -/
def twoBox (name : String) (params : List ℝ) : Option QBox :=
  if name = "CRx" then some (rot .x (params.headD 0 * 0.5))
  else if name = "CRy" then some (rot .y (params.headD 0 * 0.5))
  else if name = "CRz" then some (rot .z (params.headD 0 * 0.5))
  else if name = "CX" then some X
  else if name = "CY" then some Y
  else if name = "CZ" then some Z
  else none

/-- tk.py:329-332; the distances of `CCX` and `CCZ` are not used by `apply_gate`. -/
def threeBox (name : String) : Option QBox :=
  if name = "CCX" then some (controlled (controlled X 1) 1)
  else if name = "CCZ" then some (controlled (controlled Z 1) 1)
  else none

/-- tk.py:315-316: `idx = list(range(distance + 1)); idx[0], idx[-1] = idx[-1], idx[0]`. -/
def swapIdx (distance : Nat) : List Int :=
  (((List.range (distance + 1)).map Int.ofNat).set 0 distance).set distance 0

/-- tk.py:287-338: `box_and_offset_from_tk` for a name that does not end with `dg`. -/
def plainBox (name : String) (params : List ℝ) (args : List Nat) : Except PyErr (Diagram QOb QBox × Nat) :=
  match args with
  | [] => .error .indexError
  | [q] => match oneBox name params with
    | none => .error .notImplementedError
    | some b => .ok (ofBox b, q)
  | [p, q] =>
    let distance : Int := (q : Int) - p
    let offset : Int := if distance < 0 then p + distance else p
    if name = "SWAP" then
      match permutation (qubits (distance.natAbs + 1)) (swapIdx distance.natAbs) with
      | .error e => .error e
      | .ok d => .ok (d, offset.toNat)
    else match twoBox name params with
      | none => .error .notImplementedError
      | some b => match mkControlled b distance with
        | .error e => .error e
        | .ok b => .ok (ofBox b, offset.toNat)
  | [p, q, t] =>
    let least := min (min p q) t
    let span := max (max p q) t - least + 1
    match threeBox name with
    | none => .error .notImplementedError
    | some b => match applyGate (Diagram.id (qubits span)) b [(p : Int), (q : Int), (t : Int)] with
      | .error e => .error e
      | .ok d => .ok (d, least)
  | _ => .error .notImplementedError

/-- tk.py:276-285: the adjoint of `Sdg` is `S`, of `Tdg` is `T`; of the other names that end with `dg` it is an operation that raises `NotImplementedError`. -/
def boxAndOffset (name : String) (params : List ℝ) (args : List Nat) : Except PyErr (Diagram QOb QBox × Nat) :=
  if name = "Sdg" ∨ name = "Tdg" then
    match plainBox (if name = "Sdg" then "S" else "T") params args with
    | .error e => .error e
    | .ok (d, offset) => .ok (daggerWith QBox.dagger d, offset)
  else plainBox name params args

/-- tk.py:349-351, 354-356: `circuit >> circuit.cod[:offset] @ box @ circuit.cod[offset + len(box.dom):]`. -/
def putAt (d box : Diagram QOb QBox) (offset : Nat) : Except PyErr (Diagram QOb QBox) :=
  andThen d (tensor (tensor (Diagram.id (d.cod.take offset)) box) (Diagram.id (d.cod.drop (offset + box.dom.length))))

/-- tk.py:341-356: the loop over the commands. -/
def importLoop (post : List (Nat × Nat)) : List TkItem → Diagram QOb QBox → List (Nat × Nat) → Except PyErr (Diagram QOb QBox × List (Nat × Nat))
  | [], d, bras => .ok (d, bras)
  | .measure q b :: is, d, bras => match post.lookup b with
    | some v => importLoop post is d (dictSet bras q v)
    | none => match putAt d (ofBox measure) q with
      | .error e => .error e
      | .ok d => importLoop post is d bras
  | .gate name params args :: is, d, bras => match boxAndOffset name params args with
    | .error e => .error e
    | .ok (box, offset) => match putAt d box offset with
      | .error e => .error e
      | .ok d => importLoop post is d bras

/-- tk.py:358-360: what is done with the wire `i` of type `o`; `Bra` asserts that its argument is 0 or 1. -/
def endBox (bras : List (Nat × Nat)) (i : Nat) (o : QOb) : Except PyErr (Diagram QOb QBox) :=
  match bras.lookup i with
  | some 0 => .ok (ofBox (bra false))
  | some 1 => .ok (ofBox (bra true))
  | some _ => .error .assertionError
  | none => .ok (if o = .qubit then ofBox discard else Diagram.id [.bit])

/-- tk.py:358-360 -/
def endBoxes (bras : List (Nat × Nat)) : Nat → List QOb → Except PyErr (List (Diagram QOb QBox))
  | _, [] => .ok []
  | i, o :: os => match endBox bras i o with
    | .error e => .error e
    | .ok d => match endBoxes bras (i + 1) os with
      | .error e => .error e
      | .ok ds => .ok (d :: ds)

/-- quantum.py:754-758: `Ket(*(0,) * n)`. -/
def kets (n : Nat) : Except PyErr (Diagram QOb QBox) :=
  match n with
  | 0 => .error .typeError
  | 1 => .ok (ofBox (ket false))
  | n + 2 => .ok (tensorN (Diagram.id [] :: List.replicate (n + 2) (ofBox (ket false))))

/-- tk.py:271-363; tk.py:84: `scalar or 1`. -/
def fromTk (c : TkIn) : Except PyErr (Diagram QOb QBox) :=
  let scale : ℝ := if c.scalar = 0 then 1 else c.scalar
  match kets c.nQubits with
  | .error e => .error e
  | .ok d => match importLoop c.post c.items d [] with
    | .error e => .error e
    | .ok (d, bras) => match endBoxes bras 0 d.cod with
      | .error e => .error e
      | .ok ds => match andThen d (tensorN (Diagram.id [] :: ds)) with
        | .error e => .error e
        | .ok d => andThen (if scale ≠ 1 then tensor d (ofBox (scalar ((Real.sqrt |scale| : ℝ) : ℂ))) else d)
            (Diagram.id (List.replicate (c.nBits - c.post.length) QOb.bit))

/-! ## Specification of `t|ket⟩` circuits -/

/-- The operations of `t|ket⟩` that can be imported, with their numbers of parameters and qubits. -/
def tkSig (name : String) : Option (Nat × Nat) :=
  if name ∈ ["H", "X", "Y", "Z", "S", "T", "Sdg", "Tdg"] then some (0, 1)
  else if name ∈ ["Rx", "Ry", "Rz"] then some (1, 1)
  else if name ∈ ["CX", "CY", "CZ", "SWAP"] then some (0, 2)
  else if name ∈ ["CRx", "CRy", "CRz"] then some (1, 2)
  else if name ∈ ["CCX", "CCZ"] then some (0, 3)
  else none

/-- The operator on the last qubit, when all other qubits are 1. -/
def tkOperator (name : String) (ps : List ℝ) : Matrix (Fin 2) (Fin 2) ℂ :=
  match name with
  | "H" => tkH
  | "X" | "CX" | "CCX" => tkX
  | "Y" | "CY" => tkY
  | "Z" | "CZ" | "CCZ" => tkZ
  | "S" => tkS
  | "T" => tkT
  | "Sdg" => tkS.conjTranspose
  | "Tdg" => tkT.conjTranspose
  | "Rx" | "CRx" => tkRx (ps.headD 0)
  | "Ry" | "CRy" => tkRy (ps.headD 0)
  | "Rz" | "CRz" => tkRz (ps.headD 0)
  | _ => 1

/-- The state after an operation. -/
def tkApply (name : String) (ps : List ℝ) (args : List Nat) (v : List Nat → ℂ) (y : List Nat) : ℂ :=
  if name = "SWAP" then
    match args with
    | [p, q] => v ((y.set p (y.getD q 0)).set q (y.getD p 0))
    | _ => v y
  else applied args.dropLast (args.getLastD 0) (ofMatrix (tkOperator name ps)) v y

/-- An operation with its parameters and qubits. -/
structure TkGateItem where
  name : String
  params : List ℝ
  args : List Nat

def TkGateItem.item (g : TkGateItem) : TkItem := .gate g.name g.params g.args
def TkGateItem.apply (g : TkGateItem) : (List Nat → ℂ) → List Nat → ℂ := tkApply g.name g.params g.args

/-- The state of `n` qubits after operations, from the state in which all are 0. -/
def tkState (n : Nat) (gs : List TkGateItem) : List Nat → ℂ := gs.foldl (fun v g => g.apply v) (fun y => if y = List.replicate n 0 then 1 else 0)

/-- The probability that measurements `ms` (pairs of qubit and bit) after the operations give the bits `β`. -/
def tkProb (n : Nat) (gs : List TkGateItem) (ms : List (Nat × Nat)) (β : List Nat) : ℝ :=
  ∑ y ∈ allBits n, if ∀ m ∈ ms, y.getD m.1 0 = β.getD m.2 0 then Complex.normSq (tkState n gs y) else 0

/-- The operation is one that `from_tk` knows, on different qubits of the circuit; of three qubits, one is the first qubit of the circuit. -/
structure TkGateItem.OK (n : Nat) (g : TkGateItem) : Prop where
  sig : tkSig g.name = some (g.params.length, g.args.length)
  nodup : g.args.Nodup
  lt : ∀ q ∈ g.args, q < n
  first : g.args.length = 3 → 0 ∈ g.args

/-- A circuit that can be imported: operations, and then measurements of different qubits into all bits; post-selected bits are bits. -/
structure Importable (c : TkIn) (gs : List TkGateItem) (ms : List (Nat × Nat)) : Prop where
  items : c.items = gs.map TkGateItem.item ++ ms.map (fun m => TkItem.measure m.1 m.2)
  qubits : 0 < c.nQubits
  gates : ∀ g ∈ gs, g.OK c.nQubits
  nodup : (ms.map Prod.fst).Nodup
  lt : ∀ q ∈ ms.map Prod.fst, q < c.nQubits
  bits : (ms.map Prod.snd).Perm (List.range c.nBits)
  postNodup : (c.post.map Prod.fst).Nodup
  postLt : ∀ p ∈ c.post, p.1 < c.nBits ∧ p.2 < 2
  scalar : c.scalar ≠ 0

end
end QBox
end Lambeq
