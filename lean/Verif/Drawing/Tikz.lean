import Verif.Py
import Mathlib.Order.Defs.LinearOrder
import Mathlib.Data.List.Perm.Basic

/-!
# Pictures in TikZ: the model (C116)

Models `TikzBackend` (`lambeq/backend/drawing/tikz_backend.py` 37-284).

Simplifications. Coordinates are from any linear order (no NaN). The lines of the picture are records of their parts, and only `draw_wire` and
`draw_polygon` write styles; node styles (218-221) are left out. The colours as TeX (54-67), the looseness that is computed from two places (163-169, none
if it is 1), the baseline and the width of lines are parameters. `max_width` (91) and files (265-284) are left out.
-/

namespace Lambeq
namespace Tikz
set_option linter.unusedSectionVars false
set_option linter.unusedSimpArgs false
set_option linter.unusedVariables false

variable {K : Type} [LinearOrder K]

/-- `\node [options] (id) at (x, y) {text};` -/
structure NodeLine (K : Type) where
  options : String
  id : Nat
  place : K × K
  text : String

/-- `\draw [options] (n.center) to ...;`, where wires also have the angles `in` and `out`. -/
inductive EdgeLine
  | polygon (options : String) (nodes : List Nat)
  | wire (inp out : Int) (options : String) (source target : Nat)

/-- `\tikzstyle{name}=[body]` -/
structure StyleLine where
  name : String
  body : String
deriving DecidableEq

/-- tikz_backend.py:40-51; a dictionary is the list of its items. -/
structure Pic (K : Type) where
  nodes : List ((K × K) × Nat) := []
  nodeLayer : List (NodeLine K) := []
  edgeLayer : List EdgeLine := []
  labelLayer : List (NodeLine K) := []
  edgeStyles : List StyleLine := []

/-- What does not change while drawing. -/
structure Style (K : Type) where
  useTikzstyles : Bool
  boxColor : String → String
  wireColor : String → String
  boxWidth : String
  wireWidth : String
  looseness : K × K → K × K → Option String

/-- `d.update({k: v})` -/
def dictSet (k : K × K) (v : Nat) : List ((K × K) × Nat) → List ((K × K) × Nat)
  | [] => [(k, v)]
  | p :: d => if p.1 = k then (k, v) :: d else p :: dictSet k v d

/-- The largest value of a dictionary. -/
def maxValue (d : List ((K × K) × Nat)) : Nat := (d.map Prod.snd).foldr max 0

/-- tikz_backend.py:68-93 -/
def addNode (place : K × K) (isLabel : Bool) (text options : String) (p : Pic K) : Nat × Pic K :=
  let node := if p.nodes.isEmpty then 1 else maxValue p.nodes + 1
  (node, { p with
    nodes := dictSet place node p.nodes
    labelLayer := if isLabel then p.labelLayer ++ [⟨options, node, place, text⟩] else p.labelLayer
    nodeLayer := if isLabel then p.nodeLayer else p.nodeLayer ++ [⟨options, node, place, text⟩] })

/-- tikz_backend.py:92-104; `opts` are the shape and the color that are given. -/
def drawNode (place : K × K) (text : String) (opts : List String) (p : Pic K) : Pic K :=
  (addNode place false text (", ".intercalate opts) p).2

/-- tikz_backend.py:106-120 -/
def drawText (text : String) (place : K × K) (left top : Bool) (fontsize : Option String) (p : Pic K) : Pic K :=
  (addNode place true text ("style=none" ++ (if left then ", anchor=west" else "") ++ (if top then ", right" else "") ++
    (match fontsize with | some s => ", scale=" ++ s | none => "")) p).2

/-- tikz_backend.py:125-126: a node for each point. -/
def addPoints : List (K × K) → Pic K → List Nat × Pic K
  | [], p => ([], p)
  | x :: xs, p => ((addNode x false "" "" p).1 :: (addPoints xs (addNode x false "" "" p).2).1, (addPoints xs (addNode x false "" "" p).2).2)

/-- `color.lstrip('#')` -/
def stripHash (c : String) : String := String.ofList (c.toList.dropWhile (· == '#'))

/-- tikz_backend.py:137-138, 186-187 -/
def addStyle (s : StyleLine) (p : Pic K) : Pic K := if s ∈ p.edgeStyles then p else { p with edgeStyles := p.edgeStyles ++ [s] }

/-- tikz_backend.py:122-144 -/
def drawPolygon (st : Style K) (points : List (K × K)) (color : String) (p : Pic K) : Except PyErr (Pic K) :=
  match (addPoints points p).1 with
  | [] => .error .indexError
  | n :: ns =>
    let name := if color = "white" then "box" else stripHash color ++ "_box"
    let body := "-, fill=" ++ st.boxColor color ++ ", line width=" ++ st.boxWidth ++ "pt"
    let q := (addPoints points p).2
    let q := if st.useTikzstyles then addStyle ⟨name, body⟩ q else q
    .ok { q with edgeLayer := q.edgeLayer ++ [.polygon (if st.useTikzstyles then "style=" ++ name else body) ((n :: ns) ++ [n])] }

/-- tikz_backend.py:157-160: the angle at the source. -/
def outAngle (source target : K × K) (bend : Bool) : Int :=
  if bend = false ∨ source.1 = target.1 then -90 else if target.1 < source.1 then 180 else 0

/-- tikz_backend.py:159-160: the angle at the target. -/
def inAngle (source target : K × K) (bend : Bool) : Int :=
  if bend = false ∨ source.1 = target.1 then 90 else if source.1 < target.1 then 180 else 0

/-- tikz_backend.py:171-174: the looseness comes after the style that is given. -/
def wireStyle (st : Style K) (source target : K × K) (style : String) : String :=
  match st.looseness source target with
  | some l => style ++ "looseness=" ++ l
  | none => style

/-- tikz_backend.py:178-180 -/
def wireStyleName (color : String) : String := if color = "#000000" then "black_wire" else stripHash color ++ "_wire"

/-- tikz_backend.py:181-187: what is between the brackets of the style. -/
def wireStyleBody (st : Style K) (color style : String) : String :=
  "-, draw=" ++ st.wireColor color ++ (if style = "" then "" else ", " ++ style) ++ ", line width=" ++ st.wireWidth ++ "pt"

/-- tikz_backend.py:188-194 -/
def wireOptions (st : Style K) (color style : String) : String :=
  if st.useTikzstyles then "style=" ++ wireStyleName color
  else "-, draw=" ++ st.wireColor color ++ ", line width=" ++ st.wireWidth ++ "pt" ++ (if style = "" then "" else ", " ++ style)

/-- tikz_backend.py:199-202: a node for a place that has none. -/
def ensure (place : K × K) (p : Pic K) : Pic K :=
  if (p.nodes.lookup place).isSome then p else (addNode place false "" "" p).2

/-- tikz_backend.py:146-208; `color` is what `_get_wire_color` returns, `style` is `''` for `None`. -/
def drawWire (st : Style K) (source target : K × K) (bendOut bendIn : Bool) (style color : String) (p : Pic K) : Pic K :=
  let s := wireStyle st source target style
  let q := if st.useTikzstyles then addStyle ⟨wireStyleName color, wireStyleBody st color s⟩ p else p
  let q := ensure target (ensure source q)
  { q with edgeLayer := q.edgeLayer ++ [.wire (inAngle source target bendIn) (outAngle source target bendOut) (wireOptions st color s)
      ((q.nodes.lookup source).getD 0) ((q.nodes.lookup target).getD 0)] }

/-- A node drawn as a spider: its place, its options if it is a spider (and not a cup, cap or swap), and the places and colors of its wires. -/
structure Spider (K : Type) where
  place : K × K
  options : Option String
  cod : List ((K × K) × String)
  dom : List ((K × K) × String)

/-- tikz_backend.py:231-242 -/
def drawSpider (st : Style K) (s : Spider K) (p : Pic K) : Pic K :=
  let q := match s.options with
    | some o => (addNode s.place false "" o p).2
    | none => p
  let q := s.cod.foldl (fun q w => drawWire st s.place w.1 true false "" w.2 q) q
  s.dom.foldl (fun q w => drawWire st w.1 s.place false true "" w.2 q) q

/-- Calls of the backend. -/
inductive Cmd (K : Type)
  | node (place : K × K) (text : String) (opts : List String)
  | text (text : String) (place : K × K) (left top : Bool) (fontsize : Option String)
  | polygon (points : List (K × K)) (color : String)
  | wire (source target : K × K) (bendOut bendIn : Bool) (style color : String)
  | spiders (l : List (Spider K))

/-- One call. -/
def step (st : Style K) (p : Pic K) : Cmd K → Except PyErr (Pic K)
  | .node x t o => .ok (drawNode x t o p)
  | .text t x l top f => .ok (drawText t x l top f p)
  | .polygon pts c => drawPolygon st pts c p
  | .wire a b bo bi s c => .ok (drawWire st a b bo bi s c p)
  | .spiders l => .ok (l.foldl (fun q s => drawSpider st s q) p)

/-- Calls one after another. -/
def run (st : Style K) : List (Cmd K) → Pic K → Except PyErr (Pic K)
  | [], p => .ok p
  | c :: cs, p => match step st p c with
    | .error e => .error e
    | .ok q => run st cs q

/-- A statement of the picture. -/
inductive Stmt (K : Type)
  | node (n : NodeLine K)
  | edge (e : EdgeLine)

/-- tikz_backend.py:244-262: the statements in the order of the output, without the lines around the layers. -/
def output (baseline : K × K) (p : Pic K) : List (Stmt K) :=
  (.node ⟨"", 0, baseline, ""⟩ :: p.nodeLayer.map .node) ++ p.edgeLayer.map .edge ++ p.labelLayer.map .node

end Tikz
end Lambeq
