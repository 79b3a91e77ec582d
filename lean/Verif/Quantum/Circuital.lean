import Verif.Quantum.ExportTheorems

/-!
# Conversion to circuital form: the model (C84)

Models `Diagram.init_and_discard` (quantum.py:369-381), `to_circuital` (quantum.py:1224-1511) and `to_tk` (converters/tk.py:213-268) for all diagrams.

The code mutates copies of the layers; here every step returns new layers. (`fast_deepcopy` and the deep copies made by the cache of the functor make sure
that no two layers share a box, grammar.py:2049-2090.) `Ty.insert` raises for an index behind the end; in well-typed diagrams the index is never behind the
end, and the model inserts at the end.
-/

namespace Lambeq
open Diagram
set_option linter.unusedSectionVars false
set_option linter.unusedSimpArgs false

/-- `Ty.insert` of an atom, grammar.py:239-262. -/
def ins {α : Type} (p : Nat) (a : α) (l : List α) : List α := l.take p ++ a :: l.drop p

namespace QBox
noncomputable section

/-- quantum.py:370-374: the kets in front of the diagram. -/
def initPart (t : List QOb) : Diagram QOb QBox := tensorN (Diagram.id [] :: t.map (fun o => match o with
        | .qubit => ofBox (ket false)
        | .bit => ofBox (bit false)))

/-- quantum.py:375-380: the discards behind the diagram. -/
def discardPart (t : List QOb) : Diagram QOb QBox := tensorN (Diagram.id [] :: t.map (fun o => match o with
      | .qubit => ofBox discard
      | .bit => Diagram.id [.bit]))

/-- quantum.py:369-381 `init_and_discard` -/
def initAndDiscard (d : Diagram QOb QBox) : Except PyErr (Diagram QOb QBox) :=
  match (if d.dom ≠ [] then
      andThen (initPart d.dom) d
    else .ok d) with
  | .error e => .error e
  | .ok c => if c.cod ≠ List.replicate c.cod.length QOb.bit then
    andThen c (discardPart c.cod)
  else .ok c

/-- quantum.py:1258-1262, applied to one layer by the functor (1475-1477): boxes other than `Ket(1)` and `Bra(1)` are unchanged. (The functor applies a
function to boxes without winding number only; rotated boxes are not modelled.) -/
def ketbraLayer (l : Layer QOb QBox) : List (Layer QOb QBox) :=
  match l.box with
  | ket true => [⟨l.left, ket false, l.right⟩, ⟨l.left, X, l.right⟩]
  | bra true => [⟨l.left, X, l.right⟩, ⟨l.left, bra false, l.right⟩]
  | _ => [l]

/-! ## Idle wires -/

/-- quantum.py:1415-1416: what is under all controls. -/
def baseGate : QBox → QBox
  | controlled u _ => u.baseGate
  | b => b

/-- quantum.py:1406-1415: the distances, outermost first. -/
def ctrlDists : QBox → List Int
  | controlled u d => d :: u.ctrlDists
  | _ => []

/-- quantum.py:1396-1401: the loop that computes `dists`. -/
def distsLoop (acc : List Int) : List Int → List Int
  | [] => acc
  | d :: ds => distsLoop (acc ++ [d + acc.sum]) ds

/-- quantum.py:1403: `prev_pos` before the loop; `off` is `gate_qubits[0]`. -/
def firstPos (off : Int) (ds : List Int) : Int := -(distsLoop [0] ds).foldl min 0 + off

/-- quantum.py:1406-1415: the new distances. -/
def stretchLoop (q prev : Int) : List Int → List Int
  | [] => []
  | d :: ds =>
    let cur := prev + d
    (if prev < q ∧ q ≤ cur then d + 1 else if q ≤ prev ∧ q > cur then d - 1 else d) :: stretchLoop q cur ds

/-- quantum.py:1391-1420: a controlled gate at `off` with an idle wire at `q`. The code stores the old domain and codomain with one more qubit; in the model
they are those of the gate with the new distances (for the gates of the theorems these are the same, see `stretch_spec`). -/
def stretch (q off : Nat) (b : QBox) : QBox := nest b.baseGate (stretchLoop q (firstPos off b.ctrlDists) b.ctrlDists)

/-- quantum.py:1370-1438: one round of `pull_qubit_through`: a qubit wire at `q` is added to a layer. Gates in the middle of which the wire runs and that are
neither controlled gates nor swaps are dropped. -/
def pullStep (q : Nat) (l : Layer QOb QBox) : List (Layer QOb QBox) × Nat :=
  let n := l.left.length
  if q ≤ n then ([⟨ins q .qubit l.left, l.box, l.right⟩], q)
  else if q + 1 > n + l.box.dom.length then
    let r := q - (n + l.box.dom.length)
    ([⟨l.left, l.box, ins r .qubit l.right⟩], r + n + l.box.cod.length)
  else match l.box with
    | controlled u d => ([⟨l.left, stretch q n (controlled u d), l.right⟩], q)
    | swap _ _ =>
      ([⟨l.left, swap .qubit .qubit, .qubit :: l.right⟩, ⟨.qubit :: l.left, swap .qubit .qubit, l.right⟩, ⟨l.left, swap .qubit .qubit, .qubit :: l.right⟩], q)
    | _ => ([], q)

/-- quantum.py:1362-1440 `pull_qubit_through` with `dom = qubit` -/
def pull (q : Nat) : List (Layer QOb QBox) → List (Layer QOb QBox) × Nat
  | [] => ([], q)
  | l :: ls =>
    let r := pullStep q l
    let s := pull r.2 ls
    (r.1 ++ s.1, s.2)

/-- quantum.py:1274-1285: the list `qubits` of `add_qubit`. -/
def addKet (kets : List (Layer QOb QBox)) (l : Layer QOb QBox) (off : Nat) : List (Layer QOb QBox) :=
  ins off ⟨qubits off, l.box, []⟩ (kets.map (fun k => if k.left.length ≥ off then ⟨ins off .qubit k.left, k.box, k.right⟩ else k))

/-- quantum.py:1442-1473 `build_left_right` -/
def buildLeftRight (q : Nat) (l : Layer QOb QBox) (layers : List (Layer QOb QBox)) : Layer QOb QBox :=
  match layers.getLast? with
  | none => l
  | some g => ⟨g.cod.take q, l.box, g.cod.drop (q + 1)⟩

theorem countP_pullStep (q : Nat) (l : Layer QOb QBox) : (pullStep q l).1.countP (fun l => l.box.isEnd) ≤ [l].countP (fun l => l.box.isEnd) := by
  unfold pullStep
  simp only
  split
  · simp
  · split
    · simp
    · obtain ⟨L, b, R⟩ := l
      cases b <;> simp [isEnd, stretch, ctrlDists, stretchLoop, nest]

theorem countP_pull (q : Nat) (ls : List (Layer QOb QBox)) : (pull q ls).1.countP (fun l => l.box.isEnd) ≤ ls.countP (fun l => l.box.isEnd) := by
  induction ls generalizing q with
  | nil => simp [pull]
  | cons l ls ih =>
    have h1 := countP_pullStep q l
    have h2 := ih (pullStep q l).2
    rw [List.countP_cons]
    simp only [pull, List.countP_append]
    simp only [List.countP_cons, List.countP_nil] at h1
    omega

/-- quantum.py:1481-1498: the loop; the lists are `qubits`, `gates`, `postselect` and the layers that are not yet visited. -/
def circLoop (kets gates post : List (Layer QOb QBox)) : List (Layer QOb QBox) → List (Layer QOb QBox) × List (Layer QOb QBox) × List (Layer QOb QBox)
  | [] => (kets, gates, post)
  | l :: rest =>
    if l.box.isKet then circLoop (addKet kets l l.left.length) (pull l.left.length gates).1 post rest
    else if l.box.isEnd then
      circLoop kets gates (buildLeftRight (pull l.left.length rest).2 l (pull l.left.length rest).1 :: post) (pull l.left.length rest).1
    else circLoop kets (gates ++ [l]) post rest
termination_by rest => (rest.countP (fun l => l.box.isEnd), rest.length)
decreasing_by
  · simp_all [List.countP_cons, Prod.lex_def, isEnd, isKet]
    cases hb : l.box <;> simp_all [isEnd, isKet]
  · have := countP_pull l.left.length rest
    simp_all [List.countP_cons, Prod.lex_def]
  · simp_all [List.countP_cons, Prod.lex_def]

/-! ## Post-selections -/

/-- quantum.py:1296-1301: the qubits that are left and the qubit of each post-selection. -/
def assign : List Nat → List (Layer QOb QBox) → Except PyErr (List Nat × List (Nat × Layer QOb QBox))
  | b, [] => .ok (b, [])
  | b, l :: ls => match b[l.left.length]? with
    | none => .error .indexError
    | some key => match assign (b.erase key) ls with
      | .error e => .error e
      | .ok (b', m) => .ok (b', (key, l) :: m)

/-- quantum.py:1289-1314 `construct_measurements` -/
def constructMeasurements (last : Layer QOb QBox) (post : List (Layer QOb QBox)) : Except PyErr (List (Layer QOb QBox)) :=
  match assign (List.range last.cod.length) post with
  | .error e => .error e
  | .ok (bitIdx, m) => .ok ((m.insertionSort (fun a b => a.1 ≤ b.1)).map (fun e =>
      ⟨List.replicate (bitIdx.countP (fun i => decide (i < e.1))) .bit, e.2.box, last.cod.drop (e.1 + 1)⟩))

/-- quantum.py:1500-1502 -/
def sortPost (gates post : List (Layer QOb QBox)) : Except PyErr (List (Layer QOb QBox)) :=
  match gates.getLast? with
  | none => .ok post
  | some last => constructMeasurements last post

/-- quantum.py:1504-1511: one diagram for each layer, composed with `>>`. -/
def assemble : List (Layer QOb QBox) → Except PyErr (Diagram QOb QBox)
  | [] => .error .indexError
  | l :: ls => ls.foldlM (fun d l => andThen d ⟨l.dom, l.cod, [l]⟩) ⟨l.dom, l.cod, [l]⟩

/-- quantum.py:1224-1511 `to_circuital` -/
def toCircuital (d : Diagram QOb QBox) : Except PyErr (Diagram QOb QBox) :=
  match initAndDiscard d with
  | .error e => .error e
  | .ok c =>
    let r := circLoop [] [] [] (c.layers.flatMap ketbraLayer)
    match sortPost r.2.1 r.2.2 with
    | .error e => .error e
    | .ok post => assemble (r.1 ++ (r.2.1 ++ post))

/-- converters/tk.py:213-268 `to_tk` -/
def toTk (d : Diagram QOb QBox) : Except PyErr TkCircuit :=
  if isCircuital d then toTkCircuital d
  else match toCircuital d with
    | .error e => .error e
    | .ok c => toTkCircuital c

end
end QBox
end Lambeq
