import Verif.Ccg.JsonTree

/-!
# Printed derivations (C109)

Models `lambeq/text2diagram/ccg_tree.py`: `_vert_deriv` (213-239), `_horiz_deriv` (241-277), `deriv` (279-337); `ccg_rule.py`: `symbol` (67-73); `ccg_type.py`: `to_string` (227-255).

Strings are lists of characters and texts lists of lines. Left out: words and types with line breaks, which would be split into several lines. `repr` of a word is a parameter.
-/

namespace Lambeq

/-- ccg_rule.py:42-59, 67-73 -/
def Rule.symbol : Rule → Except PyErr (List Char)
  | .unknown => .error .ruleUseError
  | .lexical => .ok []
  | .unary => .ok ['<', 'U', '>']
  | .fa => .ok ['>']
  | .ba => .ok ['<']
  | .fc => .ok ['>', 'B']
  | .bc => .ok ['<', 'B']
  | .fx => .ok ['>', 'B', 'x']
  | .bx => .ok ['<', 'B', 'x']
  | .gfc => .ok ['>', 'B', 'ⁿ']
  | .gbc => .ok ['<', 'B', 'ⁿ']
  | .gfx => .ok ['>', 'B', 'x', 'ⁿ']
  | .gbx => .ok ['<', 'B', 'x', 'ⁿ']
  | .lp => .ok ['<', 'p']
  | .rp => .ok ['>', 'p']
  | .ftr => .ok ['>', 'T']
  | .btr => .ok ['<', 'T']
  | .conj => .ok ['<', '&', '>']

/-- ccg_type.py:227-255 with `pretty=True`. -/
def Cat.toPretty : Cat → List Char
  | .empty => ['(', ')']
  | .atom n => n.toList
  | .over x y => wrap x x.toPretty ++ '↢' :: wrap y y.toPretty
  | .under x y => wrap y y.toPretty ++ '↣' :: wrap x x.toPretty

namespace Deriv

/-- The character sets, ccg_tree.py:308-326; `SUCH_THAT` and `LEFT_ARROW` may have several characters. -/
structure CharSet where
  heavy : Char
  line : Char
  bar : Char
  suchThat : List Char
  joint : Char
  leftArrow : List Char
  corner : Char

/-- ccg_tree.py:308-316 -/
def unicodeSet : CharSet := ⟨'═', '─', '│', ['∋'], '├', ['←'], '└'⟩
/-- ccg_tree.py:318-326 -/
def asciiSet : CharSet := ⟨'=', '-', '│', ['<', '-'], '├', ['<', '-'], '└'⟩

/-- `' ' * n` -/
def blanks (n : Nat) : List Char := List.replicate n ' '
/-- `f'{s:{" "}^{w}}'`: the smaller half of the padding is on the left. -/
def center (s : List Char) (w : Nat) : List Char := blanks ((w - s.length) / 2) ++ s ++ blanks ((w - s.length) - (w - s.length) / 2)
/-- `f'{s:{c}>{w}}'` -/
def rjust (c : Char) (s : List Char) (w : Nat) : List Char := List.replicate (w - s.length) c ++ s

/-- ccg_tree.py:264-266: lines of a child below those drawn so far. -/
def extend : Nat → List (List Char) → List (List Char)
  | _, [] => []
  | prev, c :: cs => rjust ' ' c prev :: extend (rjust ' ' c prev).length cs

/-- ccg_tree.py:258-266. `prev` is the length of the line before, 0 for the first one; a child has always lines, so `lines[-1]` is never read in line 262. -/
def mergeAt (sp : Nat) : Nat → List (List Char) → List (List Char) → List (List Char)
  | prev, [], cs => extend prev cs
  | _, l :: ls, c :: cs => (l ++ blanks sp ++ c) :: mergeAt sp (l ++ blanks sp ++ c).length ls cs
  | prev, l :: ls, [] => (l ++ blanks (prev - l.length)) :: mergeAt sp (l ++ blanks (prev - l.length)).length ls []

/-- ccg_tree.py:267-275; after the loops `lidx - 1` is the index of the last line but one. -/
def nodeLines (K : CharSet) (sp : Nat) (sym out : List Char) (ds : List (List (List Char))) : List (List Char) :=
  let lines := ds.foldl (mergeAt sp 0) []
  let inner := (lines.getD (lines.length - 2) []).length
  if out.length > inner then lines.map (fun l => center l out.length) ++ [rjust K.line sym out.length, center out out.length]
  else lines ++ [rjust K.line sym inner, center out inner]

mutual
/-- ccg_tree.py:241-277; a node without children that is no leaf raises `UnboundLocalError` (267), called `runtimeError` here. -/
def horiz (K : CharSet) (sp : Nat) (str : Cat → List Char) : CTree → Except PyErr (List (List Char))
  | .node tx r ty h cs =>
    if r = .lexical then
      let text := (CTree.node tx r ty h cs).text.toList
      let width := max (str ty).length text.length
      .ok [center text width, List.replicate width K.heavy, center (str ty) width]
    else match horizs K sp str cs with
      | .error e => .error e
      | .ok ds => if cs = [] then .error .runtimeError
        else match r.symbol with
          | .error e => .error e
          | .ok sym => .ok (nodeLines K sp sym (str ty) ds)
/-- The recursive calls of ccg_tree.py:255-257. -/
def horizs (K : CharSet) (sp : Nat) (str : Cat → List Char) : List CTree → Except PyErr (List (List (List Char)))
  | [] => .ok []
  | c :: cs => match horiz K sp str c with
    | .error e => .error e
    | .ok d => match horizs K sp str cs with
      | .error e => .error e
      | .ok ds => .ok (d :: ds)
end

/-- `' + '.join(...)` -/
def joinPlus : List (List Char) → List Char
  | [] => []
  | [s] => s
  | s :: s' :: ss => s ++ ' ' :: '+' :: ' ' :: joinPlus (s' :: ss)

/-- ccg_tree.py:218-226: what the line of a node says. -/
def label (K : CharSet) (str : Cat → List Char) (rpr : List Char → List Char) : CTree → List Char
  | .node tx r ty h cs =>
    if r = .lexical then ' ' :: str ty ++ ' ' :: K.suchThat ++ ' ' :: rpr (CTree.node tx r ty h cs).text.toList
    else r.value.toList ++ ':' :: ' ' :: str ty ++ ' ' :: K.leftArrow ++ ' ' :: joinPlus (cs.map (fun c => str c.ty))

/-- ccg_tree.py:230-233 -/
def nextPrefix (K : CharSet) (pre : List Char) : List Char :=
  match pre.getLast? with
  | none => []
  | some c => pre.dropLast ++ (if c = K.joint then [K.bar, ' '] else [' ', ' '])

mutual
/-- ccg_tree.py:213-239 -/
def vert (K : CharSet) (str : Cat → List Char) (rpr : List Char → List Char) (pre : List Char) : CTree → List (List Char)
  | .node tx r ty h cs => (pre ++ label K str rpr (.node tx r ty h cs)) :: (if cs = [] then [] else verts K str rpr (nextPrefix K pre) cs)
/-- ccg_tree.py:234-238 -/
def verts (K : CharSet) (str : Cat → List Char) (rpr : List Char → List Char) (pre : List Char) : List CTree → List (List Char)
  | [] => []
  | [c] => vert K str rpr (pre ++ [K.corner]) c
  | c :: c' :: cs => vert K str rpr (pre ++ [K.joint]) c ++ verts K str rpr pre (c' :: cs)
end

/-- ccg_tree.py:279-337 -/
def deriv (rpr : List Char → List Char) (sp : Nat) (useSlashes useAscii vertical : Bool) (t : CTree) : Except PyErr (List (List Char)) :=
  let K := if useAscii = true then asciiSet else unicodeSet
  let str := if (useSlashes || useAscii) = true then Cat.toStr else Cat.toPretty
  if vertical = true then .ok (vert K str rpr [] t) else horiz K sp str t

end Deriv
end Lambeq
