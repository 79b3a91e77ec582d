import Verif.Drawing.LayoutProps
import Verif.Drawing.TikzTheorems

/-!
# From a diagram to a picture: the model (C117)

Models `draw`, `_draw_box` and `_draw_wires` (`lambeq/backend/drawing/drawing.py` 61-178, 397-446, 532-577) with the TikZ backend, and
`DrawableDiagram.scale_and_pad` (`lambeq/backend/drawing/drawable.py` 564-595).

Simplifications. Diagrams without frames and without the quantum boxes that have pictures of their own (156-163). The defaults for colors. What the
code finds out about a box (its name, whether it is conjugated, daggered, a spider, or a cup, cap or swap) is given by a function. The size of nodes
(149-154) is a parameter, as text. Output is that of `Tikz.output`.
-/

namespace Lambeq
namespace Draw
set_option linter.unusedSectionVars false
set_option linter.unusedSimpArgs false
set_option linter.unusedVariables false
variable {O B : Type} [BoxSig B O]

/-- drawable.py:589-595: new heights for the ends with these indices. -/
def setHeights (es : List (WireEnd O)) (is : List Nat) (y : ℚ) : List (WireEnd O) :=
  is.foldl (fun es i => es.modify i (fun e => { e with y := y })) es

/-- drawable.py:589-595, for a box at its new place. -/
def snapEnds (sy : ℚ) (es : List (WireEnd O)) (b : BoxNode B) : List (WireEnd O) :=
  setHeights (setHeights es b.dom (b.y + halfHeight * sy)) b.cod (b.y - halfHeight * sy)

/-- drawable.py:582-583, 586-587 -/
def stretch (m s p v : ℚ) : ℚ := m + (v - m) * s + p

/-- drawable.py:564-595 -/
def scaled (scale pad : ℚ × ℚ) (D : Drawable O B) : Except PyErr (Drawable O B) :=
  if D.xs = [] then .error .valueError
  else
    let bs := D.boxes.map (fun b => { b with x := stretch (minOf D.xs) scale.1 pad.1 b.x, y := stretch (minOf D.ys) scale.2 pad.2 b.y })
    let es := D.ends.map (fun e => { e with x := stretch (minOf D.xs) scale.1 pad.1 e.x, y := stretch (minOf D.ys) scale.2 pad.2 e.y })
    .ok ⟨bs, bs.foldl (snapEnds scale.2) es, D.wires⟩

/-- What `draw` asks about a box. -/
inductive Look
  | plain (name : String) (conj dagg : Bool)
  | spider
  | connector

/-- The arguments of `draw`. -/
structure Options where
  scale : ℚ × ℚ := (1, 1)
  pad : ℚ × ℚ := (0, 0)
  asymmetry : ℚ := 0
  boxLabels : Bool := true
  typeLabels : Bool := true
  textpad : ℚ × ℚ := (1 / 10, 1 / 10)
  fontsize : Option String := none
  typeFontsize : Option String := none
  nodesize : String := ""

/-- drawing.py:430-449: the corners of a box, from the lower left one on. -/
def corners (a : ℚ) (conj dagg : Bool) (D : Drawable O B) (b : BoxNode B) : List (ℚ × ℚ) :=
  let left := (D.xLims b).1
  let right := (D.xLims b).2
  let height := b.y - 1 / 2 / 2
  if conj = true ∧ dagg = true then [(left - a, height), (right, height), (right, height + 1 / 2), (left, height + 1 / 2)]
  else if conj then [(left, height), (right, height), (right, height + 1 / 2), (left - a, height + 1 / 2)]
  else if dagg then [(left, height), (right + a, height), (right, height + 1 / 2), (left, height + 1 / 2)]
  else [(left, height), (right, height), (right + a, height + 1 / 2), (left, height + 1 / 2)]

/-- drawing.py:397-463 -/
def boxCmds (o : Options) (look : B → Look) (D : Drawable O B) (b : BoxNode B) : List (Tikz.Cmd ℚ) :=
  match look b.obj with
  | .plain name conj dagg => .polygon (corners o.asymmetry conj dagg D b) "white" ::
      (if o.boxLabels then [.text name (b.x, b.y) false false o.fontsize] else [])
  | _ => []

/-- The place of an end. -/
def Drawable.place (D : Drawable O B) (i : Nat) : ℚ × ℚ := (D.xAt i, D.yAt i)

/-- drawing.py:552-576 -/
def wireCmds (o : Options) (showTy : O → String) (D : Drawable O B) (w : Nat × Nat) : List (Tikz.Cmd ℚ) :=
  .wire (D.place w.1) (D.place w.2) false false "" "#000000" ::
    (match D.ends[w.1]? with
    | some e =>
      if o.typeLabels = true ∧ (e.kind = .input ∨ e.kind = .cod) then
        [.text (showTy e.obj) (e.x + o.textpad.1, e.y - (if e.kind = .input then 0 else o.textpad.2)) false true o.typeFontsize]
      else []
    | none => [])

/-- tikz_backend.py:211-212: what is drawn as a spider. -/
def spiderOf (o : Options) (look : B → Look) (D : Drawable O B) (b : BoxNode B) : Option (Tikz.Spider ℚ) :=
  match look b.obj with
  | .plain _ _ _ => none
  | .spider => some ⟨(b.x, b.y), some ("circle, fill=black" ++ o.nodesize), b.cod.map (fun i => (D.place i, "#000000")),
      b.dom.map (fun i => (D.place i, "#000000"))⟩
  | .connector => some ⟨(b.x, b.y), none, b.cod.map (fun i => (D.place i, "#000000")), b.dom.map (fun i => (D.place i, "#000000"))⟩

/-- drawing.py:156-171 -/
def commands (o : Options) (look : B → Look) (showTy : O → String) (D : Drawable O B) : List (Tikz.Cmd ℚ) :=
  D.boxes.flatMap (boxCmds o look D) ++ D.wires.flatMap (wireCmds o showTy D) ++ [.spiders (D.boxes.filterMap (spiderOf o look D))]

/-- drawing.py:61-178 -/
def drawTikz (st : Tikz.Style ℚ) (o : Options) (look : B → Look) (showTy : O → String) (keep : B → Bool) (foliated : Bool)
    (d : Diagram O B) : Except PyErr (Tikz.Pic ℚ) :=
  match fromDiagram keep foliated d with
  | .error e => .error e
  | .ok D => match scaled o.scale o.pad D with
    | .error e => .error e
    | .ok D => Tikz.run st (commands o look showTy D) {}

end Draw
end Lambeq
