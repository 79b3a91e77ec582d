import Verif.Drawing.LayoutProps
import Verif.Grammar.Structural

/-!
# Layout of pregroup drawings (C106)

Models backend/drawing/drawable.py: `DrawablePregroup.from_diagram` (605-771), `DrawableDiagram.scale_and_pad` (564-595), and the part of backend/drawing/drawing.py that puts them together,
`draw_pregroup` (213-218).

Simplifications: coordinates are rational numbers instead of floats. `track_ctr` is the number of ends added so far (drawable.py:678-696: it is incremented with every end of a word). The track `-1` of
the ends of the outputs is left out: no track is read after the outputs were added. `getD` stands for the indexing of `x_tracks`, which is as long as `wire_endpoints`.
-/

namespace Lambeq
namespace Draw

/-- What `from_diagram` raises: `PregroupError` (drawable.py:598-602), or an exception of Python. -/
inductive PErr
  | notPregroup
  | py (e : PyErr)
  deriving DecidableEq

def isCapBox : Box → Bool
  | .cap _ _ _ => true
  | _ => false
/-- drawable.py:662-663 -/
def isGrammar : Box → Bool
  | .cup _ _ _ => true
  | .swap _ _ => true
  | _ => false

/-- drawable.py:657-669: the words, and `diagram.layers[grammar_start_idx:]`. -/
def splitWords : List GLayer → Except PErr (List Box × List GLayer)
  | [] => .ok ([], [])
  | l :: ls =>
    if isGrammar l.box = true then .ok ([], l :: ls)
    else if l.right ≠ [] ∨ l.box.dom ≠ [] then .error .notPregroup
    else match splitWords ls with
      | .error e => .error e
      | .ok r => .ok (l.box :: r.1, r.2)

/-- `drawable`, `drawable.x_tracks`, `scan` and `depth_map`. -/
structure PState where
  D : Drawable Ob Box
  tracks : List Nat
  scan : List Nat
  depth : List ℚ

/-- drawable.py:671-673: `HSPACE + BOX_WIDTH` -/
def wordStep : ℚ := 5 / 2
/-- drawable.py:673: `BOX_WIDTH` -/
def wordWidth : ℚ := 2
/-- drawable.py:672: `VSPACE` -/
def vspace : ℚ := 3 / 4

/-- drawable.py:684-692 -/
def wordEnds (i : Nat) (ty : Ty) : List (WireEnd Ob) :=
  ty.zipIdx.map (fun p => ⟨.cod, p.1, wordStep * i + wordWidth / ((ty.length : ℚ) + 1) * ((p.2 : ℚ) + 1), 1 / 4⟩)

/-- drawable.py:681-698: one word. -/
def addWord (i : Nat) (s : PState) (w : Box) : PState :=
  { s with
    D := ⟨s.D.boxes ++ [⟨w, wordStep * i + (if isCapBox w = true then 1 / 2 * wordWidth else 0), 0, [], List.range' s.D.ends.length w.cod.length⟩],
      s.D.ends ++ wordEnds i w.cod, s.D.wires⟩
    tracks := s.tracks ++ List.range' s.tracks.length w.cod.length
    scan := s.scan ++ List.range' s.D.ends.length w.cod.length }

/-- drawable.py:680-698 -/
def addWords : Nat → PState → List Box → PState
  | _, s, [] => s
  | i, s, w :: ws => addWords (i + 1) (addWord i s w) ws

/-- drawable.py:706-757: a cup or a swap; `a`, `b` are `scan[off]` and `scan[off + 1]`, and `d0`, `d1` are `box.dom[0]` and `box.dom[1]`. -/
def placeBox (s : PState) (off : Nat) (box : Box) (a b : Nat) (d0 d1 : Ob) : Except PErr PState :=
  let lx := s.D.xAt a
  let rx := s.D.xAt b
  let lt := s.tracks.getD a 0
  let rt := s.tracks.getD b 0
  let range := (s.depth.drop lt).take (rt + 1 - lt)
  if range = [] then .error (.py .valueError)
  else
    let y := minOf range
    let n := s.D.ends.length
    let ends := s.D.ends ++ [⟨.dom, d0, lx, y - vspace / 2⟩, ⟨.dom, d1, rx, y - vspace / 2⟩]
    let wires := s.D.wires ++ [(a, n), (b, n + 1)]
    let depth := s.depth.mapIdx (fun i v => if lt ≤ i ∧ i ≤ rt then y - vspace else v)
    match box with
    | .swap l r => .ok ⟨⟨s.D.boxes ++ [⟨box, (lx + rx) / 2, y - vspace, [n, n + 1], [n + 2, n + 3]⟩],
        ends ++ [⟨.cod, r, lx, y - vspace⟩, ⟨.cod, l, rx, y - vspace⟩], wires⟩,
        s.tracks ++ [lt, rt] ++ [lt, rt], (s.scan.set off (n + 2)).set (off + 1) (n + 3), depth⟩
    | .cup _ _ _ => .ok ⟨⟨s.D.boxes ++ [⟨box, (lx + rx) / 2, y - vspace, [n, n + 1], []⟩], ends, wires⟩,
        s.tracks ++ [lt, rt], s.scan.take off ++ s.scan.drop (off + 2), depth⟩
    | _ => .error .notPregroup

/-- drawable.py:702-757: one layer below the words. -/
def addGrammar (s : PState) (l : GLayer) : Except PErr PState :=
  match s.scan[l.left.length]?, s.scan[l.left.length + 1]?, l.box.dom with
  | some a, some b, d0 :: d1 :: _ => placeBox s l.left.length l.box a b d0 d1
  | _, _, _ => .error (.py .indexError)

/-- drawable.py:702-757 -/
def addGrammars : PState → List GLayer → Except PErr PState
  | s, [] => .ok s
  | s, l :: ls => match addGrammar s l with
    | .error e => .error e
    | .ok s => addGrammars s ls

/-- drawable.py:759-767; `min` of an empty list raises `ValueError`, `scan[i]` raises `IndexError`. -/
def addOuts (s : PState) (cod : Ty) : Except PErr (Drawable Ob Box) :=
  if s.depth = [] then .error (.py .valueError)
  else if s.scan.length < cod.length then .error (.py .indexError)
  else .ok { s.D with
    ends := s.D.ends ++ (cod.zip s.scan).map (fun p => ⟨.output, p.1, s.D.xAt p.2, minOf s.depth - vspace⟩)
    wires := s.D.wires ++ (s.scan.take cod.length).zip (List.range' s.D.ends.length cod.length) }

/-- drawable.py:700: the state before the loop over the layers below the words. -/
def afterWords (ws : List Box) : PState :=
  let s := addWords 0 ⟨⟨[], [], []⟩, [], [], []⟩ ws
  { s with depth := List.replicate s.tracks.length 0 }

/-- drawable.py:628-771 -/
def fromPregroup (d : GDiagram) : Except PErr (Drawable Ob Box) :=
  match splitWords d.layers with
  | .error e => .error e
  | .ok (ws, ls) =>
    match addGrammars (afterWords ws) ls with
    | .error e => .error e
    | .ok s => match addOuts s d.cod with
      | .error e => .error e
      | .ok D => match moveToOrigin D with
        | .error e => .error (.py e)
        | .ok D => .ok D

/-- `self.wire_endpoints[i].y = y` for all `i` of a list. -/
def setYs (es : List (WireEnd Ob)) (is : List Nat) (y : ℚ) : List (WireEnd Ob) :=
  is.foldl (fun es i => es.modify i (fun e => { e with y := y })) es

/-- drawable.py:582-583, 586-587: a scaled coordinate. -/
def rescale (m s p v : ℚ) : ℚ := m + (v - m) * s + p

/-- drawable.py:589-595: the ends of a box (which is at its new place), put on its upper and its lower edge. -/
def snap (sy : ℚ) (es : List (WireEnd Ob)) (b : BoxNode Box) : List (WireEnd Ob) :=
  setYs (setYs es b.dom (b.y + halfHeight * sy)) b.cod (b.y - halfHeight * sy)

/-- drawable.py:564-595; `min` of no nodes raises `ValueError`. -/
def scaleAndPad (sx sy px py : ℚ) (D : Drawable Ob Box) : Except PErr (Drawable Ob Box) :=
  if D.xs = [] then .error (.py .valueError)
  else
    let bs := D.boxes.map (fun b => { b with x := rescale (minOf D.xs) sx px b.x, y := rescale (minOf D.ys) sy py b.y })
    let es := D.ends.map (fun e => { e with x := rescale (minOf D.xs) sx px e.x, y := rescale (minOf D.ys) sy py e.y })
    .ok ⟨bs, bs.foldl (snap sy) es, D.wires⟩

/-- drawing.py:213-218: what `draw_pregroup` draws, with `scale=(sx, sy)` and `pad=(px, py)`; without these arguments they are `(1, 1)` and `(0, 0)`. -/
def drawPregroup (sx sy px py : ℚ) (d : GDiagram) : Except PErr (Drawable Ob Box) :=
  if GDiagram.isPregroup d = false then .error (.py .valueError)
  else match fromPregroup d with
    | .error e => .error e
    | .ok D => scaleAndPad sx sy px py D

end Draw
end Lambeq
