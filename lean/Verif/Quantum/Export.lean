import Verif.Quantum.MixedTheorems
import Verif.Quantum.Apply
import Mathlib.LinearAlgebra.Matrix.ConjTranspose
import Mathlib.LinearAlgebra.Matrix.Notation

/-!
# Export of circuits to `t|ket⟩` and evaluation on a backend: the model (C51, C56)

Models `Diagram.is_circuital` (quantum.py:270-316), `Gate.from_box` (quantum.py:1543-1621), `readoff_circuital` (quantum.py:1650-1708), `to_tk` for
circuital diagrams (converters/tk.py:213-268), `Circuit.get_counts` (converters/tk.py:157-195) and `Diagram.eval` with a backend (quantum.py:350-367).

`pytket` is not modelled: what is assumed about it is the specification of its operations (`baseOp`, `TkCmd.apply`), that creating an operation with a
wrong number of parameters or adding it on a wrong number of qubits raises, and that `Op.dagger` is the adjoint. Phases are numbers (circuits are
evaluated after substitution, see C69).
-/

namespace Lambeq
open Diagram
set_option linter.unusedSectionVars false
set_option linter.unusedSimpArgs false

namespace QBox
noncomputable section

/-! ## Circuital diagrams -/

/-- `isinstance(box, Ket)` -/
def isKet : QBox → Bool
  | ket _ => true
  | _ => false

/-- `isinstance(box, (Discard, Bra))` -/
def isEnd : QBox → Bool
  | bra _ => true
  | discard => true
  | _ => false

/-- `isinstance(box, Measure)` -/
def isMeasure : QBox → Bool
  | measure => true
  | _ => false

/-- quantum.py:292-293 and 1675: the number of `Ket` layers. -/
def numKets (ls : List (Layer QOb QBox)) : Nat := ls.countP (fun l => l.box.isKet)

/-- quantum.py:305-306: the positions of the `Discard` and `Bra` layers. -/
def endIdx (ls : List (Layer QOb QBox)) : List Nat :=
  (List.range ls.length).filter (fun (i : Nat) => ((ls[i]?).map (fun l => l.box.isEnd)).getD false)

/-- quantum.py:270-316 -/
def isCircuital (d : Diagram QOb QBox) : Bool :=
  if d.dom ≠ [] then false
  else
    let n := numKets d.layers
    let qubitLayers := d.layers.take n
    let rest := d.layers.drop n
    if !qubitLayers.all (fun l => l.box.isKet) then false
    else if qubitLayers.any (fun l => l.right ≠ []) then false
    else match endIdx rest with
      | [] => true
      | i :: is =>
        let mmax := is.foldl max i
        let mmin := is.foldl min i
        (List.range rest.length).all (fun (k : Nat) =>
          match rest[k]? with
          | none => true
          | some l => if !(l.box.isEnd || l.box.isMeasure) then !(decide (k > mmin) && decide (k < mmax)) else true)

/-! ## Gates -/

/-- `name.split('(')[0]` -/
def head (s : String) : String := String.ofList (s.toList.takeWhile (· ≠ '('))

/-- `'.l' * (-z) + '.r' * z`, grammar.py:482. -/
def winding (z : Int) : String := String.join (List.replicate (-z).toNat ".l" ++ List.replicate z.toNat ".r")

/-- The part of `box.name` before the first parenthesis, and whether the name has a parenthesis: quantum.py:145, 726, 773, 806, 864, 944, 1079, 1105,
1138, 1179, and the names of the mixed boxes (1029-1061). The digits of the name of a `Scalar` are not modelled (they are never looked at). -/
def nameHead : QBox → String × Bool
  | gen n _ _ _ _ _ _ => (head n, n.toList.contains '(')
  | selfConj n _ _ _ _ => (head n, n.toList.contains '(')
  | swap _ _ => ("SWAP", false)
  | ket b => (if b then "1" else "0", false)
  | bra b => (if b then "1" else "0", false)
  | bit b => (if b then "1" else "0", false)
  | rot .x _ => ("Rx", true)
  | rot .y _ => ("Ry", true)
  | rot .z _ => ("Rz", true)
  | controlled u _ =>
    let h := u.nameHead
    let z : Int := match u with
      | gen _ _ _ _ z _ _ => z
      | _ => 0
    ("C" ++ (if h.2 then h.1 else h.1 ++ winding z), h.2)
  | scalar _ => ("", false)
  | sqrt _ => ("√", true)
  | daggered b => let h := b.nameHead; (if h.2 then h.1 else h.1 ++ "†", h.2)
  | measure => ("Measure", false)
  | encode => ("Encode", false)
  | discard => ("Discard", false)
  | mixedState => ("MixedState", false)

/-- The field `phase` of a gate: `None`, the phase of a rotation, or the array of a scalar. -/
inductive Phase
  | none
  | angle (θ : ℝ)
  | array (c : ℂ)

/-- The fields of `Gate` (quantum.py:1514-1541) that `to_tk` reads, and `control` and `gate_q`. -/
structure Gate where
  gtype : String
  qubits : List Nat
  phase : Phase
  dagger : Bool
  control : Option (List Nat)
  gateQ : Option Nat

/-- quantum.py:1578-1584: the distances of nested controls, innermost first. -/
def distances : QBox → List Int
  | controlled u d => u.distances ++ [d]
  | _ => []

/-- quantum.py:1587-1595: one round of the loop over the distances; the target is the last entry. -/
def relStep (rel : List Nat) (d : Int) : List Nat :=
  if d > 0 then 0 :: rel.map (· + d.toNat) else rel.dropLast ++ [rel.foldl max 0 + d.natAbs] ++ rel.getLast?.toList

/-- quantum.py:1587-1595 -/
def relIdx (ds : List Int) : List Nat := ds.foldl relStep [0]

/-- `[qubits[i] for i in rel_idx]`, quantum.py:1597. -/
def pick (qs : List Nat) : List Nat → Except PyErr (List Nat)
  | [] => .ok []
  | i :: is => match qs[i]? with
    | none => .error .indexError
    | some q => match pick qs is with
      | .error e => .error e
      | .ok r => .ok (q :: r)

/-- `Controlled.phase`, quantum.py:958-963. -/
def controlledPhase : QBox → Except PyErr Phase
  | rot _ θ => .ok (.angle θ)
  | _ => .error .attributeError

/-- `Gate.from_box(box, offset)`, quantum.py:1543-1621; a gate that is not controlled has `control = gate_q = None`. -/
def fromBox (b0 : QBox) (offset : Nat) : Except PyErr Gate :=
  let qubits := (List.range b0.dom.length).map (offset + ·)
  let b := match b0 with
    | daggered b => b
    | b => b
  let dagger := match b0 with
    | daggered _ => true
    | _ => false
  let gtype := b.nameHead.1
  match b with
  | rot _ θ => .ok ⟨gtype, qubits, .angle θ, dagger, none, none⟩
  | controlled u d =>
    match pick qubits (relIdx (distances (controlled u d))) with
    | .error e => .error e
    | .ok qs =>
      match (if gtype = "CRx" ∨ gtype = "CRz" then controlledPhase u else .ok .none) with
      | .error e => .error e
      | .ok ph => .ok ⟨gtype, qs, ph, dagger, some (qs.dropLast.mergeSort (· ≤ ·)), qs.getLast?⟩
  | scalar c => .ok ⟨"Scalar", qubits, .array c, dagger, none, none⟩
  | sqrt c => .ok ⟨"Scalar", qubits, .array (c ^ (1 / 2 : ℂ)), dagger, none, none⟩
  | _ => .ok ⟨gtype, qubits, .none, dagger, none, none⟩

/-! ## Reading off a circuital diagram -/

/-- `d[k] = v` for a dictionary that keeps the order of insertion. -/
def dictSet {V : Type} : List (Nat × V) → Nat → V → List (Nat × V)
  | [], k, v => [(k, v)]
  | (k', v') :: d, k, v => if k' = k then (k, v) :: d else (k', v') :: dictSet d k v

/-- The variables of the loop of `readoff_circuital`, quantum.py:1676-1681. -/
structure Info where
  avail : List Nat
  gates : List Gate
  bitmap : List (Nat × Nat)
  postmap : List (Nat × Nat)
  discards : List Nat

/-- quantum.py:1683-1702: one round of the loop. `list.remove` removes the first occurrence. -/
def readStep (st : Info) (l : Layer QOb QBox) : Except PyErr Info :=
  match l.box with
  | ket _ => .ok st
  | measure => match st.avail[l.left.count .qubit]? with
    | none => .error .indexError
    | some q => .ok { st with avail := st.avail.erase q, bitmap := dictSet st.bitmap q st.bitmap.length }
  | bra b => match st.avail[l.left.count .qubit]? with
    | none => .error .indexError
    | some q => .ok { st with avail := st.avail.erase q, bitmap := dictSet st.bitmap q st.bitmap.length, postmap := dictSet st.postmap q (if b then 1 else 0) }
  | discard => match st.avail[l.left.count .qubit]? with
    | none => .error .indexError
    | some q => .ok { st with avail := st.avail.erase q, discards := st.discards ++ [q] }
  | b => match fromBox b l.left.length with
    | .error e => .error e
    | .ok g => .ok { st with gates := st.gates ++ [g] }

def readLoop : Info → List (Layer QOb QBox) → Except PyErr Info
  | st, [] => .ok st
  | st, l :: ls => match readStep st l with
    | .error e => .error e
    | .ok st => readLoop st ls

/-- `readoff_circuital`, quantum.py:1650-1708; the result is `(total_qubits, info)`. -/
def readoff (d : Diagram QOb QBox) : Except PyErr (Nat × Info) :=
  if !isCircuital d then .error .assertionError
  else match readLoop ⟨List.range (numKets d.layers), [], [], [], []⟩ d.layers with
    | .error e => .error e
    | .ok i => .ok (numKets d.layers, i)

/-! ## `t|ket⟩` circuits -/

/-- A command: operation type (a key of `OPTYPE_MAP`, tk.py:43-58), parameters (in half turns), whether it is the adjoint, qubits. -/
structure TkCmd where
  type : String
  params : List ℝ
  dagger : Bool
  qubits : List Nat

/-- The attributes of `tk.Circuit` that evaluation reads (tk.py:79-88): `measures` are the pairs (qubit, bit) in the order of the commands. -/
structure TkCircuit where
  nQubits : Nat
  nBits : Nat
  cmds : List TkCmd
  measures : List (Nat × Nat)
  postSelection : List (Nat × Nat)
  scalar : ℝ

/-- The parameters and the qubits that an operation of the given type needs, for the keys of `OPTYPE_MAP`, tk.py:43-58. -/
def opSig (t : String) : Option (Nat × Nat) :=
  if t ∈ ["H", "X", "Y", "Z", "S", "T"] then some (0, 1)
  else if t ∈ ["Rx", "Ry", "Rz"] then some (1, 1)
  else if t ∈ ["CX", "CZ", "SWAP"] then some (0, 2)
  else if t ∈ ["CRx", "CRy", "CRz"] then some (1, 2)
  else if t = "CCX" then some (0, 3)
  else none

/-- The parameters that a phase gives, tk.py:254-257. `if gate.phase:` is false for the phase 0. -/
def phaseParams : Phase → List ℝ
  | .angle θ => if θ = 0 then [] else [2 * θ]
  | _ => []

/-- tk.py:244-263: one round of the loop. -/
def addGate (c : TkCircuit) (g : Gate) : Except PyErr TkCircuit :=
  if g.gtype = "Scalar" then
    match g.phase with
    | .none => .error .valueError
    | .array z => .ok { c with scalar := c.scalar * ‖z‖ ^ 2 }
    | .angle θ => .ok { c with scalar := c.scalar * |θ| ^ 2 }
  else match opSig g.gtype with
    | none => .error .notImplementedError
    | some (np, nq) =>
      let params := phaseParams g.phase
      if params.length ≠ np then .error .runtimeError
      else if g.qubits.length ≠ nq ∨ ¬ g.qubits.Nodup ∨ ¬ (∀ q ∈ g.qubits, q < c.nQubits) then .error .runtimeError
      else .ok { c with cmds := c.cmds ++ [⟨g.gtype, params, g.dagger, g.qubits⟩] }

def addGates : TkCircuit → List Gate → Except PyErr TkCircuit
  | c, [] => .ok c
  | c, g :: gs => match addGate c g with
    | .error e => .error e
    | .ok c => addGates c gs

/-- `to_tk` of a circuital diagram, tk.py:238-268. -/
def toTkCircuital (d : Diagram QOb QBox) : Except PyErr TkCircuit :=
  match readoff d with
  | .error e => .error e
  | .ok (n, i) => match addGates ⟨n, i.bitmap.length, [], [], i.postmap, 1⟩ i.gates with
    | .error e => .error e
    | .ok c => .ok { c with measures := c.measures ++ i.bitmap }

/-! ## Specification of `t|ket⟩` circuits -/

/-- The amplitude from `i` to `o` of a one-qubit operator given by its matrix (columns are inputs). -/
def ofMatrix (U : Matrix (Fin 2) (Fin 2) ℂ) (i o : Nat) : ℂ := if h : i < 2 ∧ o < 2 then U ⟨o, h.2⟩ ⟨i, h.1⟩ else 0

/-- Rotations by `α` half turns. -/
def tkRx (α : ℝ) : Matrix (Fin 2) (Fin 2) ℂ :=
  !![Real.cos (Real.pi * α / 2), -Complex.I * Real.sin (Real.pi * α / 2); -Complex.I * Real.sin (Real.pi * α / 2), Real.cos (Real.pi * α / 2)]
def tkRy (α : ℝ) : Matrix (Fin 2) (Fin 2) ℂ :=
  !![Real.cos (Real.pi * α / 2), -(Real.sin (Real.pi * α / 2) : ℝ); Real.sin (Real.pi * α / 2), Real.cos (Real.pi * α / 2)]
def tkRz (α : ℝ) : Matrix (Fin 2) (Fin 2) ℂ :=
  !![Complex.exp (-Complex.I * Real.pi * α / 2), 0; 0, Complex.exp (Complex.I * Real.pi * α / 2)]
def tkX : Matrix (Fin 2) (Fin 2) ℂ := !![0, 1; 1, 0]
def tkY : Matrix (Fin 2) (Fin 2) ℂ := !![0, -Complex.I; Complex.I, 0]
def tkZ : Matrix (Fin 2) (Fin 2) ℂ := !![1, 0; 0, -1]
def tkH : Matrix (Fin 2) (Fin 2) ℂ := ((Real.sqrt 2 : ℝ) : ℂ)⁻¹ • !![1, 1; 1, -1]
def tkS : Matrix (Fin 2) (Fin 2) ℂ := !![1, 0; 0, Complex.I]
def tkT : Matrix (Fin 2) (Fin 2) ℂ := !![1, 0; 0, Complex.exp (Complex.I * Real.pi / 4)]

/-- The one-qubit operator that an operation applies to its last qubit when all its other qubits are 1. -/
def baseOp (t : String) (ps : List ℝ) : Matrix (Fin 2) (Fin 2) ℂ :=
  match t with
  | "H" => tkH
  | "X" | "CX" | "CCX" => tkX
  | "Y" => tkY
  | "Z" | "CZ" => tkZ
  | "S" => tkS
  | "T" => tkT
  | "Rx" | "CRx" => tkRx (ps.headD 0)
  | "Ry" | "CRy" => tkRy (ps.headD 0)
  | "Rz" | "CRz" => tkRz (ps.headD 0)
  | _ => 1

/-- The state after a command. -/
def TkCmd.apply (c : TkCmd) (v : List Nat → ℂ) (y : List Nat) : ℂ :=
  if c.type = "SWAP" then
    match c.qubits with
    | [p, q] => v ((y.set p (y.getD q 0)).set q (y.getD p 0))
    | _ => v y
  else
    applied c.qubits.dropLast (c.qubits.getLastD 0) (ofMatrix (if c.dagger then (baseOp c.type c.params).conjTranspose else baseOp c.type c.params)) v y

/-- The state of the qubits after the commands, from the state in which all qubits are 0. -/
def TkCircuit.state (c : TkCircuit) : List Nat → ℂ :=
  c.cmds.foldl (fun v cmd => cmd.apply v) (fun y => if y = List.replicate c.nQubits 0 then 1 else 0)

/-- The probability that the measurements at the end give the bits `β`. -/
def TkCircuit.prob (c : TkCircuit) (β : List Nat) : ℝ :=
  ∑ y ∈ allBits c.nQubits, if ∀ m ∈ c.measures, y.getD m.1 0 = β.getD m.2 0 then Complex.normSq (c.state y) else 0

/-! ## Counts -/

/-- tk.py:184-185: `all(bitstring[index] == value for index, value in post_selection.items())`, which stops at the first failure. -/
def agrees (s : List Nat) : List (Nat × Nat) → Except PyErr Bool
  | [] => .ok true
  | (i, v) :: ps => match s[i]? with
    | none => .error .indexError
    | some b => if b = v then agrees s ps else .ok false

/-- tk.py:186-188: the bits that are not post-selected. -/
def project (s : List Nat) (post : List (Nat × Nat)) : List Nat :=
  ((List.range s.length).filter (fun (i : Nat) => !(post.map Prod.fst).contains i)).map (fun (i : Nat) => s.getD i 0)

/-- A dictionary from bitstrings to numbers. -/
abbrev Counts := List (List Nat × ℝ)

/-- `counts.get(s, 0)` -/
def Counts.get (c : Counts) (s : List Nat) : ℝ := ((c.find? (fun e => e.1 = s)).map Prod.snd).getD 0

/-- `counts[s] = x` -/
def Counts.set : Counts → List Nat → ℝ → Counts
  | [], s, x => [(s, x)]
  | (s', x') :: c, s, x => if s' = s then (s, x) :: c else (s', x') :: Counts.set c s x

/-- tk.py:182-190 -/
def postSelect (post : List (Nat × Nat)) : Counts → Counts → Except PyErr Counts
  | acc, [] => .ok acc
  | acc, (s, x) :: c => match agrees s post with
    | .error e => .error e
    | .ok true => postSelect post (acc.set (project s post) x) c
    | .ok false => postSelect post acc c

/-- `get_counts` with the default parameters (tk.py:157-195), from the normalised counts that the backend returned. -/
def getCounts (c : TkCircuit) (counts : Counts) : Except PyErr Counts :=
  match postSelect c.postSelection [] counts with
  | .error e => .error e
  | .ok r => .ok (r.map (fun e => (e.1, e.2 * c.scalar)))

/-- quantum.py:355-366: the array of the counts, as a function of its indices. The post-processing of an exported circuit is the identity, which has no
layers and is skipped (line 359). A key with a wrong number of bits does not occur (`C56_counts`); it is modelled as an `IndexError`. -/
def resultOf (c : TkCircuit) (counts : Counts) : Except PyErr (Nat × (List Nat → ℝ)) :=
  let n := c.nBits - c.postSelection.length
  if counts.all (fun e => e.1.length = n) then .ok (n, fun β => counts.get β) else .error .indexError

/-- `d.eval(backend=...)` for a circuital diagram when the backend returns the given (normalised) counts: the number of axes and the entries. -/
def backendEval (d : Diagram QOb QBox) (counts : Counts) : Except PyErr (Nat × (List Nat → ℝ)) :=
  match toTkCircuital d with
  | .error e => .error e
  | .ok c => match getCounts c counts with
    | .error e => .error e
    | .ok r => resultOf c r

end
end QBox
end Lambeq
