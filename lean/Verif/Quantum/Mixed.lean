import Verif.Quantum.Adjoint

/-!
# Mixed evaluation of circuits: the model (C74)

Models `Diagram.is_mixed` (quantum.py:256-268), `Diagram.to_tn` for mixed circuits (quantum.py:466-586) and `Diagram.eval` with `backend=None`
(quantum.py:347-348). The network and its contraction are those of `Tensor/Network.lean`.
-/

namespace Lambeq
open Diagram
set_option linter.unusedSectionVars false
set_option linter.unusedSimpArgs false

namespace QBox
noncomputable section

/-- `set(box.dom @ box.cod) == {bit}` for a swap: quantum.py:154-155. -/
def classicalSwap : QBox → Bool
  | swap .bit .bit => true
  | _ => false

/-- `isinstance(box, Discard)` -/
def isDiscard : QBox → Bool
  | discard => true
  | _ => false

/-- `Diagram.is_mixed`, quantum.py:256-268. -/
def mixedDiagram (d : Diagram QOb QBox) : Bool :=
  (decide (QOb.bit ∈ d.dom ++ d.cod) && decide (QOb.qubit ∈ d.dom ++ d.cod)) || d.boxes.any isMixed

/-- `box.data` of a mixed box that is none of the four special boxes: plain boxes keep their data, `Daggered` has the data of its box
(quantum.py:1141), without any transposition. Mixed `Controlled` boxes are not claimed to be modelled. -/
def mixedData : QBox → Option (NdArray ℂ)
  | gen _ _ _ a _ _ _ => a
  | daggered b => b.mixedData
  | _ => none

/-- quantum.py:527-533: the node of a mixed box. `None + 0j` raises `TypeError`. -/
def mixedNode : QBox → Except PyErr (NdArray ℂ)
  | measure => .ok (copyArray ℂ 3 2)
  | encode => .ok (copyArray ℂ 3 2)
  | mixedState => .ok (copyArray ℂ 2 2)
  | b => match b.mixedData with
    | some a => .ok a
    | none => .error .typeError

/-- The network under construction and the open legs of the classical wires and of the two copies of the quantum wires. -/
structure CQState where
  net : Net ℂ
  c : List Leg
  q1 : List Leg
  q2 : List Leg

/-- `scan[off], ..., scan[off + n - 1]`: raises `IndexError` if there are not enough. -/
def getLegs (scan : List Leg) (off n : Nat) : Except PyErr (List Leg) :=
  if off + n ≤ scan.length then .ok ((scan.drop off).take n) else .error .indexError

/-- `scan[off], scan[off + 1] = scan[off + 1], scan[off]` -/
def swapLegs (scan : List Leg) (off : Nat) : Except PyErr (List Leg) :=
  match scan[off]?, scan[off + 1]? with
  | some a, some b => .ok ((scan.set off b).set (off + 1) a)
  | _, _ => .error .indexError

/-- The pairs that are connected by two alternating `tn.connect` calls in a loop. -/
def alternate (xs ys : List (Leg × Leg)) : List (Leg × Leg) := (xs.zip ys).flatMap (fun p => [p.1, p.2])

/-- quantum.py:513-582: one round of the loop. -/
def cqStep (st : CQState) (l : Layer QOb QBox) : Except PyErr CQState :=
  let cOff := l.left.count .bit
  let qOff := l.left.count .qubit
  let m := st.net.nodes.length
  if l.box.classicalSwap then
    match swapLegs st.c qOff with
    | .error e => .error e
    | .ok c => .ok { st with c := c }
  else if l.box.isDiscard then
    match st.q1[qOff]?, st.q2[qOff]? with
    | some a, some b => match st.net.connect a b with
      | .error e => .error e
      | .ok n => .ok { st with net := n, q1 := st.q1.eraseIdx qOff, q2 := st.q2.eraseIdx qOff }
    | _, _ => .error .indexError
  else if l.box.isMixed then
    match l.box.mixedNode with
    | .error e => .error e
    | .ok a =>
      let cDom := l.box.dom.count .bit
      let qDom := l.box.dom.count .qubit
      let cCod := l.box.cod.count .bit
      let qCod := l.box.cod.count .qubit
      let cqDom := cDom + 2 * qDom
      if a.shape.length < cqDom then .error .indexError
      else match getLegs st.c cOff cDom, getLegs st.q1 qOff qDom, getLegs st.q2 qOff qDom with
        | .ok cl, .ok l1, .ok l2 =>
          match TnCat.connectAll ⟨st.net.nodes ++ [a], st.net.conns⟩ (cl.zip (TnCat.legsOf m 0 cDom) ++
              alternate (l1.zip (TnCat.legsOf m cDom (cDom + qDom))) (l2.zip (TnCat.legsOf m (cDom + qDom) cqDom))) with
          | .error e => .error e
          | .ok n => .ok ⟨n, st.c.take cOff ++ TnCat.legsOf m (min cqDom a.shape.length) (min (cqDom + cCod) a.shape.length) ++ st.c.drop (cOff + cDom),
              st.q1.take qOff ++ TnCat.legsOf m (min (cqDom + cCod) a.shape.length) (min (cqDom + cCod + qCod) a.shape.length) ++ st.q1.drop (qOff + qDom),
              st.q2.take qOff ++ TnCat.legsOf m (min (cqDom + cCod + qCod) a.shape.length) a.shape.length ++ st.q2.drop (qOff + qDom)⟩
        | .error e, _, _ => .error e
        | _, .error e, _ => .error e
        | _, _, .error e => .error e
  else
    match l.box with
    | swap _ _ => match swapLegs st.q1 qOff, swapLegs st.q2 qOff with
      | .ok q1, .ok q2 => .ok { st with q1 := q1, q2 := q2 }
      | .error e, _ => .error e
      | _, .error e => .error e
    | b => match b.array with
      | .error e => .error e
      | .ok a =>
        let d := b.dom.length
        match getLegs st.q1 qOff d, getLegs st.q2 qOff d with
        | .ok l1, .ok l2 =>
          match TnCat.connectAll ⟨st.net.nodes ++ [a, a.conj], st.net.conns⟩ (alternate (l1.zip (TnCat.legsOf m 0 d)) (l2.zip (TnCat.legsOf (m + 1) 0 d))) with
          | .error e => .error e
          | .ok n => .ok ⟨n, st.c, st.q1.take qOff ++ TnCat.legsOf m d a.shape.length ++ st.q1.drop (qOff + d),
              st.q2.take qOff ++ TnCat.legsOf (m + 1) d a.shape.length ++ st.q2.drop (qOff + d)⟩
        | .error e, _ => .error e
        | _, .error e => .error e

/-- quantum.py:513: the loop. -/
def cqLoop : CQState → List (Layer QOb QBox) → Except PyErr CQState
  | st, [] => .ok st
  | st, l :: ls => match cqStep st l with
    | .error e => .error e
    | .ok st => cqLoop st ls

/-- quantum.py:498-511: a copy node for each classical wire and two for each quantum wire of the domain. -/
def cqInit (dom : List QOb) : CQState :=
  let nb := dom.count .bit
  let nq := dom.count .qubit
  ⟨TnCat.initial (List.replicate (nb + (nq + nq)) 2), (List.range nb).map (fun k => ⟨k, 1⟩), (List.range nq).map (fun k => ⟨nb + k, 1⟩),
    (List.range nq).map (fun k => ⟨nb + (nq + k), 1⟩)⟩

/-- quantum.py:488-586 -/
def cqTn (d : Diagram QOb QBox) : Except PyErr (Net ℂ × List Leg) :=
  match tnCat.expandLoop (Diagram.id d.dom) d.layers with
  | .error e => .error e
  | .ok diag => match cqLoop (cqInit diag.dom) diag.layers with
    | .error e => .error e
    | .ok st => .ok (st.net, (List.range (diag.dom.count .bit + (diag.dom.count .qubit + diag.dom.count .qubit))).map (fun k => ⟨k, 0⟩) ++ (st.c ++ (st.q1 ++ st.q2)))

/-- The value of a mixed circuit: the entries as a function of the indices of the axes, in the order of `to_tn`. -/
def cqEval (d : Diagram QOb QBox) : Except PyErr (List Nat → ℂ) :=
  match cqTn d with
  | .error e => .error e
  | .ok (net, legs) => .ok (net.contract legs)

/-- `d.eval(mixed=mixed)`, quantum.py:347-348 and 485-586. -/
def eval (d : Diagram QOb QBox) (mixed : Bool) : Except PyErr (List Nat → ℂ) :=
  if !mixed && !mixedDiagram d then pureEval d else cqEval d

end
end QBox
end Lambeq
