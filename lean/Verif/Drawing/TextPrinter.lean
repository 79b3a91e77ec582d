import Verif.Grammar.Structural

/-!
# Printing pregroup diagrams as text (C97)

Models backend/drawing/text_printer.py: `PregroupTextPrinter.diagram2str` and `_draw_layer` (105-258), and `UNICODE_CHAR_SET`, `ASCII_CHAR_SET` (47-65).

Simplifications: strings are lists of characters, the result is the list of lines before they are joined. `word_spacing` is a natural number. Names of types are not empty (for an empty string,
line 154 would give a column one to the left). `scan[i]` is in range for well-typed diagrams; `getD` stands for indexing.
-/

namespace Lambeq
namespace TextPrint

/-- text_printer.py:47-65 -/
structure Chars where
  bar : Char
  topR : Char
  topL : Char
  botL : Char
  botR : Char
  line : Char
  dot : Char
  deriving DecidableEq

def unicode : Chars := ⟨'│', '╮', '╭', '╰', '╯', '─', '·'⟩
def ascii : Chars := ⟨'|', Char.ofNat 160, Char.ofNat 160, '\\', '/', '_', ' '⟩

/-- text_printer.py:88-94 -/
structure Printer where
  spacing : Nat
  atSep : Bool
  compress : Bool
  ascii : Bool

/-- text_printer.py:94 -/
def Printer.chars (p : Printer) : Chars := if p.ascii then TextPrint.ascii else unicode

/-- `s.ljust(n, c)` -/
def ljust (s : List Char) (n : Nat) (c : Char) : List Char := s ++ List.replicate (n - s.length) c

/-- `s.center(n, c)`: CPython puts the odd space on the left if the width is odd too. -/
def center (s : List Char) (n : Nat) (c : Char) : List Char :=
  let pad := n - s.length
  let l := pad / 2 + (if pad % 2 = 1 ∧ n % 2 = 1 then 1 else 0)
  List.replicate l c ++ s ++ List.replicate (pad - l) c

/-- `s.rstrip()` -/
def rstrip (s : List Char) : List Char := (s.reverse.dropWhile (fun c => c.isWhitespace || c = Char.ofNat 160)).reverse

/-- grammar.py:183: `str(ob)` -/
def obStr (o : Ob) : List Char := o.name.toList ++ (List.replicate (-o.z).toNat ['.', 'l']).flatten ++ (List.replicate o.z.toNat ['.', 'r']).flatten

/-- text_printer.py:148 -/
def Printer.sep (p : Printer) : List Char := if p.atSep then [' ', '@', ' '] else [p.chars.dot]

/-- `sep.join(types)` -/
def join (sep : List Char) : List (List Char) → List Char
  | [] => []
  | [t] => t
  | t :: u :: ts => t ++ sep ++ join sep (u :: ts)

/-- text_printer.py:132-136 -/
structure Header where
  words : List Char
  lines : List Char
  types : List Char
  pos : List Nat

/-- text_printer.py:153-155 -/
def columns (sepLen : Nat) : Nat → List (List Char) → List Nat
  | _, [] => []
  | last, t :: ts => (last + (t.length - 1) / 2) :: columns sepLen (last + (t.length + sepLen)) ts

/-- text_printer.py:141-144 -/
def Header.space (p : Printer) (h : Header) : Header :=
  if h.words = [] then h
  else ⟨h.words ++ List.replicate p.spacing ' ', h.lines ++ List.replicate p.spacing ' ', h.types ++ List.replicate p.spacing ' ', h.pos⟩

/-- text_printer.py:150 -/
def width (p : Printer) (name : List Char) (ty : Ty) : Nat := max name.length (join p.sep (ty.map obStr)).length

/-- text_printer.py:141-159: one word. -/
def Header.add (p : Printer) (h : Header) (name : List Char) (ty : Ty) : Header :=
  let g := h.space p
  let s := join p.sep (ty.map obStr)
  let w := width p name ty
  ⟨g.words ++ center name w ' ', g.lines ++ List.replicate w p.chars.line, g.types ++ center s w ' ',
   g.pos ++ columns p.sep.length (g.types.length + (w - s.length) / 2) (ty.map obStr)⟩

/-- text_printer.py:137-159 -/
def header (p : Printer) : Header → List Box → Header
  | h, .word n c _ :: bs => header p (h.add p n.toList c) bs
  | h, _ => h

/-- text_printer.py:38-44; the kind is CUP or SWAP. -/
structure Morph where
  cup : Bool
  start : Nat
  stop : Nat
  deriving DecidableEq

/-- text_printer.py:174-186: `none` for a conflict, or the index. -/
def fits (a b : Nat) : Nat → List Morph → Option Nat
  | i, [] => some i
  | i, m :: ms => if m.start > b then some i else if m.stop ≥ a then none else fits a b (i + 1) ms

/-- text_printer.py:173-188, over the layers from the last: `layer_index` and `index`. -/
def climb (a b : Nat) : List (List Morph) → Nat → Nat → Nat × Nat
  | [], li, i => (li, i)
  | l :: ls, li, i => match fits a b 0 l with
    | none => (li, i)
    | some j => climb a b ls (li - 1) j

/-- text_printer.py:170-195 -/
def place (compress : Bool) (layers : List (List Morph)) (m : Morph) : List (List Morph) :=
  let q := if compress then climb m.start m.stop layers.reverse layers.length 0 else (layers.length, 0)
  if q.1 < layers.length then layers.modify q.1 (fun l => l.insertIdx q.2 m) else layers ++ [[m]]

/-- text_printer.py:164-198; `cups` gives for each box whether it is a cup, and the offset. -/
def placeAll (compress : Bool) : List (List Morph) → List Nat → List (Bool × Nat) → List (List Morph)
  | layers, _, [] => layers
  | layers, scan, (cup, off) :: bs =>
    placeAll compress (place compress layers ⟨cup, scan.getD off 0, scan.getD (off + 1) 0⟩) (if cup then scan.take off ++ scan.drop (off + 2) else scan) bs

/-- text_printer.py:30-35 -/
inductive Part
  | id | cup | swap | start
  deriving DecidableEq

/-- `d[k] = v` -/
def setKey (k : Nat) (v : Part) : List (Nat × Part) → List (Nat × Part)
  | [] => [(k, v)]
  | e :: es => if e.1 = k then (k, v) :: es else e :: setKey k v es

/-- text_printer.py:227-230 -/
def parts (layer : List Morph) (wires : List (Nat × Nat)) : List (Nat × Part) :=
  layer.foldl (fun t m => setKey m.stop (if m.cup then .cup else .swap) (setKey m.start .start t)) (wires.map (fun w => (w.1, Part.id)))

/-- text_printer.py:234: `wires[idx]` -/
def column (wires : List (Nat × Nat)) (i : Nat) : Nat := ((wires.find? (fun w => w.1 = i)).map Prod.snd).getD 0

/-- text_printer.py:236-256: the two lines after one part at column `off`. Without swaps the second is not used. -/
def drawPart (c : Chars) (ls : List Char × List Char) (off : Nat) : Part → List Char × List Char
  | .id => (ljust ls.1 off ' ' ++ [c.bar], ljust ls.2 off ' ' ++ [c.bar])
  | .cup => (ljust (ls.1 ++ [c.botL]) off c.line ++ [c.botR], ls.2)
  | .swap => (ls.1 ++ [c.botL] ++ center [c.topR] (off - ls.1.length - 1) c.line ++ [c.botR],
      ljust ls.2 ls.1.length ' ' ++ [c.topL] ++ center [c.botL] (off - ls.1.length - 1) c.line ++ [c.topR])
  | .start => (ljust ls.1 off ' ', ls.2)

/-- text_printer.py:214-258 -/
def drawLayer (c : Chars) (layer : List Morph) (wires : List (Nat × Nat)) : List (List Char) :=
  let r := (parts layer wires).foldl (fun ls e => drawPart c ls (column wires e.1) e.2) ([], [])
  if layer.any (fun m => !m.cup) then [r.1, r.2] else [r.1]

/-- text_printer.py:205-208 -/
def dropWires (layer : List Morph) (wires : List (Nat × Nat)) : List (Nat × Nat) :=
  layer.foldl (fun ws m => if m.cup then ws.filter (fun w => decide (w.1 ≠ m.start) && decide (w.1 ≠ m.stop)) else ws) wires

/-- text_printer.py:203-208 -/
def drawAll (c : Chars) : List (List Morph) → List (Nat × Nat) → List (List Char)
  | [], _ => []
  | l :: ls, ws => drawLayer c l ws ++ drawAll c ls (dropWires l ws)

def isWord : Box → Bool
  | .word _ _ _ => true
  | _ => false
def isCup : Box → Bool
  | .cup _ _ _ => true
  | _ => false

/-- text_printer.py:164-166 -/
def morphs (ls : List GLayer) : List (Bool × Nat) := (ls.filter (fun l => !isWord l.box)).map (fun l => (isCup l.box, l.left.length))

/-- text_printer.py:105-212 -/
def diagram2str (p : Printer) (d : GDiagram) : Except PyErr (List (List Char)) :=
  if GDiagram.isPregroup d then
    let h := header p ⟨[], [], [], []⟩ d.boxes
    let layers := placeAll p.compress [[]] (List.range h.pos.length) (morphs d.layers)
    .ok ([rstrip h.words, h.lines, rstrip h.types] ++ drawAll p.chars layers (h.pos.zipIdx.map Prod.swap))
  else .error .valueError

end TextPrint
end Lambeq
