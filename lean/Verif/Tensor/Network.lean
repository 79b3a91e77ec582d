import Verif.Grammar.Semantics
import Verif.Tensor.NdArray

/-!
# From diagrams to tensor networks

Models `lambeq/backend/tensor.py`, `Diagram.to_tn` (353-420) and `Diagram.eval` (334-351), generically in the objects and boxes (the quantum
category calls the same method). The `tensornetwork` library is modelled by what it documents: a network is a list of nodes, every node has
one leg for each axis of its array, `connect` joins two legs (of the same dimension), and contracting a network sums the product of the node
arrays over all ways to give an index to every leg such that connected legs have the same index.
-/

namespace Lambeq
open Diagram
set_option linter.unusedSectionVars false

/-- Axis `axis` of node number `node`. -/
structure Leg where
  node : Nat
  axis : Nat
  deriving DecidableEq

/-- A network under construction. -/
structure Net (R : Type) where
  nodes : List (NdArray R)
  conns : List (Leg × Leg)
  deriving DecidableEq

/-- The dimension of a leg. -/
def Net.legDim {R : Type} (n : Net R) (l : Leg) : Nat := ((n.nodes[l.node]?).map (fun a => a.shape.getD l.axis 0)).getD 0

/-- `tn.connect(a, b)`: raises `ValueError` if the dimensions differ. -/
def Net.connect {R : Type} (n : Net R) (a b : Leg) : Except PyErr (Net R) :=
  if n.legDim a = n.legDim b then .ok ⟨n.nodes, n.conns ++ [(a, b)]⟩ else .error .valueError

/-- The tensor of `tn.CopyNode(rank, dim)`: one where all indices are equal. -/
def copyArray (R : Type) [Zero R] [One R] (rank dim : Nat) : NdArray R :=
  NdArray.ofFn (List.replicate rank dim) (fun i => if ∀ a ∈ i, ∀ b ∈ i, a = b then 1 else 0)

/-! ## Contraction (specification of `tensornetwork`) -/

/-- The multi-indices of a shape. -/
def shapeIdx : List Nat → Finset (List Nat)
  | [] => {[]}
  | n :: s => (Finset.range n ×ˢ shapeIdx s).image (fun p => p.1 :: p.2)

/-- One multi-index for each node. -/
def assignments {R : Type} : List (NdArray R) → Finset (List (List Nat))
  | [] => {[]}
  | a :: as => (shapeIdx a.shape ×ˢ assignments as).image (fun p => p.1 :: p.2)

/-- The index that an assignment gives to a leg. -/
def legVal (σ : List (List Nat)) (l : Leg) : Nat := (σ.getD l.node []).getD l.axis 0

/-- The product of the entries of all nodes. -/
def nodeProd {R : Type} [CommSemiring R] [Inhabited R] (ns : List (NdArray R)) (σ : List (List Nat)) : R :=
  ((ns.zip σ).map (fun p => p.1.get p.2)).prod

/-- The entry at `idx` of the tensor that remains after contraction, with its axes in the order of the open legs `open`. -/
def Net.contract {R : Type} [CommSemiring R] [Inhabited R] (n : Net R) (openLegs : List Leg) (idx : List Nat) : R :=
  ∑ σ ∈ assignments n.nodes,
    if (∀ c ∈ n.conns, legVal σ c.1 = legVal σ c.2) ∧ openLegs.map (legVal σ) = idx then nodeProd n.nodes σ else 0

/-! ## `to_tn` -/

/-- What `to_tn` asks about a box: `isinstance(box, Swap)`, `isinstance(box, Cup)` or neither. -/
inductive BoxKind
  | swap | cup | other
  deriving DecidableEq

/-- A category with tensors, as far as `to_tn` is concerned. -/
structure TnCat (O B R : Type) where
  /-- dimension of an atomic type -/
  dim : O → Nat
  kind : B → BoxKind
  /-- `box.array`; for a spider the tensor of its `CopyNode` -/
  array : B → Except PyErr (NdArray R)
  /-- `box.decompose()` if the box has this method -/
  decompose : B → Option (Diagram O B)

namespace TnCat
variable {O B R : Type} [BoxSig B O] [DecidableEq O] (C : TnCat O B R)

/-- tensor.py:381-390: the loop that replaces the boxes by their decompositions. -/
def expandLoop : Diagram O B → List (Layer O B) → Except PyErr (Diagram O B)
  | diag, [] => .ok diag
  | diag, l :: ls =>
    match andThen diag (tensor (tensor (Diagram.id l.left) ((C.decompose l.box).getD (ofBox l.box))) (Diagram.id l.right)) with
    | .error e => .error e
    | .ok diag => expandLoop diag ls

/-- tensor.py:412-413: connect the input axes of the new node. -/
def connectAll (n : Net R) : List (Leg × Leg) → Except PyErr (Net R)
  | [] => .ok n
  | (a, b) :: ls => match n.connect a b with
    | .error e => .error e
    | .ok n => connectAll n ls

/-- The legs `node[i:j]`. -/
def legsOf (node i j : Nat) : List Leg := (List.range (j - i)).map (fun k => ⟨node, i + k⟩)

/-- One round of the loop, tensor.py:392-417, on the network and `scan`. -/
def step (st : Net R × List Leg) (l : Layer O B) : Except PyErr (Net R × List Leg) :=
  let scan := st.2
  let k := l.left.length
  match C.kind l.box with
  | .swap =>
    match scan[k]?, scan[k + 1]? with
    | some a, some b => .ok (st.1, (scan.set k b).set (k + 1) a)
    | _, _ => .error .indexError
  | .cup =>
    match scan[k]?, scan[k + 1]? with
    | some a, some b =>
      match st.1.connect a b with
      | .error e => .error e
      | .ok n => .ok (n, scan.take k ++ scan.drop (k + 2))
    | _, _ => .error .indexError
  | .other =>
    match C.array l.box with
    | .error e => .error e
    | .ok a =>
      let m := st.1.nodes.length
      let d := (BoxSig.dom l.box).length
      match connectAll ⟨st.1.nodes ++ [a], st.1.conns⟩ (((scan.drop k).take d).zip (legsOf m 0 d)) with
      | .error e => .error e
      | .ok n => .ok (n, scan.take k ++ legsOf m d a.shape.length ++ scan.drop (k + d))

def stepLoop : Net R × List Leg → List (Layer O B) → Except PyErr (Net R × List Leg)
  | st, [] => .ok st
  | st, l :: ls => match C.step st l with
    | .error e => .error e
    | .ok st => stepLoop st ls

/-- tensor.py:374-377: a copy node for each input wire. -/
def initial [Zero R] [One R] (dims : List Nat) : Net R := ⟨dims.map (copyArray R 2), []⟩

/-- tensor.py:353-420 -/
def toTn [Zero R] [One R] (d : Diagram O B) : Except PyErr (Net R × List Leg) :=
  match C.expandLoop (Diagram.id d.dom) d.layers with
  | .error e => .error e
  | .ok diag =>
    let n := d.dom.length
    match C.stepLoop (initial (d.dom.map C.dim), (List.range n).map (fun k => ⟨k, 1⟩)) diag.layers with
    | .error e => .error e
    | .ok (net, scan) => .ok (net, (List.range n).map (fun k => ⟨k, 0⟩) ++ scan)

/-- tensor.py:334-351: the entries of the result; its axes are the inputs followed by the outputs. -/
def eval [CommSemiring R] [Inhabited R] (d : Diagram O B) : Except PyErr (List Nat → R) :=
  match C.toTn d with
  | .error e => .error e
  | .ok (net, legs) => .ok (net.contract legs)

/-- The boxes that `to_tn` can handle: swaps and cups are atomic and join wires of the same dimension, and every other box has an array with
the shape given by its types. -/
def Ready (b : B) : Prop :=
  match C.kind b with
  | .swap => ∃ x y, BoxSig.dom b = [x, y] ∧ BoxSig.cod b = [y, x]
  | .cup => ∃ x y, BoxSig.dom b = [x, y] ∧ BoxSig.cod b = [] ∧ C.dim x = C.dim y
  | .other => ∃ a : NdArray R, C.array b = .ok a ∧ a.OK ∧ a.shape = (BoxSig.dom b ++ BoxSig.cod b).map C.dim

/-- The tensor of a box: a permutation for swaps, the identity pairing for cups, the array otherwise. -/
def interp [CommSemiring R] [Inhabited R] : Interp O B R where
  dim := C.dim
  ten b i o := match C.kind b with
    | .swap => if o = i.reverse then 1 else 0
    | .cup => if i.head? = i.getLast? then 1 else 0
    | .other => match C.array b with
      | .ok a => a.get (i ++ o)
      | .error _ => 0

end TnCat
end Lambeq
