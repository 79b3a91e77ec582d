import Verif.Grammar.Diagram
import Mathlib.Tactic.Linarith
import Mathlib.Tactic.Ring
import Mathlib.Algebra.Order.Field.Rat

/-!
# Layout of drawings (C96)

Models backend/drawing/drawable.py: `DrawableDiagram` with `_add_wire`, `_add_wire_end`, `_add_boxnode`, `_add_box`, `_find_box_edges`, `_make_space`, `_move_to_origin` and `from_diagram`
(303-562), and `BoxNode.get_x_lims` (233-258). This is what `draw` uses for diagrams without frames (drawing.py).

Simplifications: coordinates are rational numbers instead of floats (they are multiples of powers of 1/2). Diagrams are well typed, so indices of the scan are in range; `getD` stands for indexing.
Attributes for frames (`h`, `w`, children) are left out: they are `None` for these diagrams.
-/

namespace Lambeq
namespace Draw
variable {O B : Type} [BoxSig B O]

/-- drawable.py:43-67 -/
inductive EndKind
  | dom | cod | input | output
  deriving DecidableEq

/-- drawable.py:74-99 -/
structure WireEnd (O : Type) where
  kind : EndKind
  obj : O
  x : ℚ
  y : ℚ

/-- drawable.py:134-166 -/
structure BoxNode (B : Type) where
  obj : B
  x : ℚ
  y : ℚ
  dom : List Nat
  cod : List Nat

/-- drawable.py:303-322 -/
structure Drawable (O B : Type) where
  boxes : List (BoxNode B)
  ends : List (WireEnd O)
  wires : List (Nat × Nat)

/-- drawable.py:34, 36, 39 -/
def spacing : ℚ := 5 / 2
def ledge : ℚ := 1 / 2
def halfHeight : ℚ := 1 / 4

/-- `self.wire_endpoints[i].x` -/
def Drawable.xAt (D : Drawable O B) (i : Nat) : ℚ := match D.ends[i]? with
  | some e => e.x
  | none => 0

/-- `self.wire_endpoints[i].y` -/
def Drawable.yAt (D : Drawable O B) (i : Nat) : ℚ := match D.ends[i]? with
  | some e => e.y
  | none => 0

/-- `min` and `max` of a list that is not empty. -/
def minOf : List ℚ → ℚ
  | [] => 0
  | [a] => a
  | a :: b :: l => min a (minOf (b :: l))
def maxOf : List ℚ → ℚ
  | [] => 0
  | [a] => a
  | a :: b :: l => max a (maxOf (b :: l))

/-- drawable.py:246-250 -/
def Drawable.points (D : Drawable O B) (b : BoxNode B) : List ℚ :=
  if b.cod ++ b.dom = [] then [b.x] else (b.cod ++ b.dom).map D.xAt

/-- drawable.py:233-258 -/
def Drawable.xLims (D : Drawable O B) (b : BoxNode B) : ℚ × ℚ := (minOf (D.points b) - ledge, maxOf (D.points b) + ledge)

/-- Apply a function to all horizontal coordinates. -/
def Drawable.mapX (φ : ℚ → ℚ) (D : Drawable O B) : Drawable O B :=
  { D with boxes := D.boxes.map (fun b => { b with x := φ b.x }), ends := D.ends.map (fun e => { e with x := φ e.x }) }

/-- drawable.py:459-461 -/
def pushLeft (limit pad v : ℚ) : ℚ := if v ≤ limit then v - pad else v

/-- drawable.py:469-471 -/
def pushRight (limit pad v : ℚ) : ℚ := if limit ≤ v then v + pad else v

/-- drawable.py:441; `n` is the number of output wires. -/
def halfWidth (n : Nat) : ℚ := spacing * (((n - 1 : Nat) : ℚ) / 2 + 1)

/-- drawable.py:443-453; `m` is the number of input wires. -/
def boxX (D : Drawable O B) (scan : List Nat) (m n off : Nat) : ℚ :=
  if m = 0 then
    if off = 0 then D.xAt (scan.getD 0 0) - halfWidth n
    else if off = scan.length then D.xAt (scan.getD (scan.length - 1) 0) + halfWidth n
    else (D.xAt (scan.getD (off - 1) 0) + D.xAt (scan.getD (off + m) 0)) / 2
  else (D.xAt (scan.getD off 0) + D.xAt (scan.getD (off + m - 1) 0)) / 2

/-- drawable.py:455-461 -/
def roomLeft (D : Drawable O B) (scan : List Nat) (n off : Nat) (x : ℚ) : Drawable O B :=
  if off ≠ 0 ∧ x - halfWidth n < D.xAt (scan.getD (off - 1) 0) then
    D.mapX (pushLeft (D.xAt (scan.getD (off - 1) 0)) (D.xAt (scan.getD (off - 1) 0) - x + halfWidth n))
  else D

/-- drawable.py:463-471 -/
def roomRight (D : Drawable O B) (scan : List Nat) (m n off : Nat) (x : ℚ) : Drawable O B :=
  if off + m < scan.length ∧ D.xAt (scan.getD (off + m) 0) < x + halfWidth n then
    D.mapX (pushRight (D.xAt (scan.getD (off + m) 0)) (x + halfWidth n - D.xAt (scan.getD (off + m) 0)))
  else D

/-- drawable.py:399-422: the left edge. -/
def leftEdge (D : Drawable O B) (scan : List Nat) (m n off : Nat) (x : ℚ) : ℚ :=
  let a := if m = 0 then x else min (D.xAt (scan.getD off 0)) x
  (if n = 0 then a else min (x - spacing * ((n - 1 : Nat) : ℚ) / 2) a) - ledge

/-- drawable.py:399-422: the right edge. -/
def rightEdge (D : Drawable O B) (scan : List Nat) (m n off : Nat) (x : ℚ) : ℚ :=
  let a := if m = 0 then x else max (D.xAt (scan.getD (off + m - 1) 0)) x
  (if n = 0 then a else max (x + spacing * (((n - 1 : Nat) : ℚ) - ((n - 1 : Nat) : ℚ) / 2)) a) + ledge

/-- drawable.py:474-481 -/
def fallY (D : Drawable O B) (l r : ℚ) (bs : List (BoxNode B)) : ℚ :=
  bs.foldl (fun y b => if (D.xLims b).1 > r ∨ (D.xLims b).2 < l then y else min y (b.y - 1)) 0

/-- drawable.py:424-483: the drawing after making space, and the coordinates of the box. -/
def makeSpace (D : Drawable O B) (scan : List Nat) (m n off : Nat) : Drawable O B × ℚ × ℚ :=
  if scan = [] then (D, 0, 0)
  else
    let x := boxX D scan m n off
    let D' := roomRight (roomLeft D scan n off x) scan m n off x
    (D', x, fallY D' (leftEdge D' scan m n off x) (rightEdge D' scan m n off x) D'.boxes)

/-- drawable.py:363-368 -/
def domEnds (D : Drawable O B) (scan : List Nat) (ty : List O) (off : Nat) (y : ℚ) : List (WireEnd O) :=
  (ty.zip (scan.drop off)).map (fun p => ⟨.dom, p.1, D.xAt p.2, y + halfHeight⟩)

/-- drawable.py:380-384: the place of the `i`th output wire; `keep` is `box.category == quantum`. -/
def codX (D : Drawable O B) (scan : List Nat) (keep : Bool) (m n off : Nat) (x : ℚ) (i : Nat) : ℚ :=
  if keep = true ∧ m = n then D.xAt (scan.getD (off + i) 0) else x + spacing * ((i : ℚ) - ((n - 1 : Nat) : ℚ) / 2)

/-- drawable.py:377-390 -/
def codEnds (D : Drawable O B) (scan : List Nat) (keep : Bool) (m : Nat) (ty : List O) (off : Nat) (x y : ℚ) : List (WireEnd O) :=
  ty.zipIdx.map (fun p => ⟨.cod, p.1, codX D scan keep m ty.length off x p.2, y - halfHeight⟩)

/-- drawable.py:343-397 -/
def addBox (D : Drawable O B) (scan : List Nat) (keep : B → Bool) (box : B) (off : Nat) (x y : ℚ) : Drawable O B × List Nat :=
  let m := (BoxSig.dom box).length
  let n := (BoxSig.cod box).length
  let base := D.ends.length
  (⟨D.boxes ++ [⟨box, x, y, List.range' base m, List.range' (base + m) n⟩],
    D.ends ++ domEnds D scan (BoxSig.dom box) off y ++ codEnds D scan (keep box) m (BoxSig.cod box) off x y,
    D.wires ++ ((scan.drop off).take m).zip (List.range' base m)⟩,
   scan.take off ++ List.range' (base + m) n ++ scan.drop (off + m))

/-- drawable.py:546-549: one box. -/
def drawBox (keep : B → Bool) (foliated : Bool) (depth : Nat) (D : Drawable O B) (scan : List Nat) (l : Layer O B) : Drawable O B × List Nat × ℚ :=
  let s := makeSpace D scan (BoxSig.dom l.box).length (BoxSig.cod l.box).length l.left.length
  let y := if foliated then -(depth : ℚ) else s.2.2
  let r := addBox s.1 scan keep l.box l.left.length s.2.1 y
  (r.1, r.2, y)

/-- drawable.py:543-550 -/
def drawBoxes (keep : B → Bool) (foliated : Bool) : Nat → Drawable O B → List Nat → ℚ → List (Layer O B) → Drawable O B × List Nat × ℚ
  | _, D, scan, minY, [] => (D, scan, minY)
  | depth, D, scan, minY, l :: ls =>
    let r := drawBox keep foliated depth D scan l
    drawBoxes keep foliated (depth + 1) r.1 r.2.1 (min minY r.2.2) ls

/-- drawable.py:533-539 -/
def inputs (ty : List O) : List (WireEnd O) := ty.zipIdx.map (fun p => ⟨.input, p.1, spacing * (p.2 : ℚ), 1⟩)

/-- drawable.py:552-558 -/
def addOutputs (D : Drawable O B) (scan : List Nat) (minY : ℚ) (ty : List O) : Drawable O B :=
  { D with
    ends := D.ends ++ (ty.zip scan).map (fun p => ⟨.output, p.1, D.xAt p.2, minY - 1⟩)
    wires := D.wires ++ scan.zip (List.range' D.ends.length ty.length) }

/-- All nodes: `self.boxes + self.wire_endpoints`. -/
def Drawable.xs (D : Drawable O B) : List ℚ := D.boxes.map BoxNode.x ++ D.ends.map WireEnd.x
def Drawable.ys (D : Drawable O B) : List ℚ := D.boxes.map BoxNode.y ++ D.ends.map WireEnd.y

/-- drawable.py:501-503 -/
def Drawable.translate (D : Drawable O B) (a b : ℚ) : Drawable O B :=
  { D with boxes := D.boxes.map (fun n => { n with x := n.x - a, y := n.y - b }), ends := D.ends.map (fun e => { e with x := e.x - a, y := e.y - b }) }

/-- drawable.py:485-503; `min` of no nodes raises `ValueError`. -/
def moveToOrigin (D : Drawable O B) : Except PyErr (Drawable O B) :=
  if D.xs = [] then .error .valueError
  else .ok (D.translate (minOf D.xs) ((minOf D.ys + maxOf D.ys) / 2))

/-- drawable.py:529-562 -/
def fromDiagram (keep : B → Bool) (foliated : Bool) (d : Diagram O B) : Except PyErr (Drawable O B) :=
  let r := drawBoxes keep foliated 0 ⟨[], inputs d.dom, []⟩ (List.range d.dom.length) 1 d.layers
  moveToOrigin (addOutputs r.1 r.2.1 r.2.2 d.cod)

end Draw
end Lambeq
