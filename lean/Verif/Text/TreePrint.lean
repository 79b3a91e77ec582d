import Verif.Text.TreeNodes

/-!
# Printed pregroup trees: the model (C113)

Models `PregroupTreeNode.__repr__`, `__lt__`, `__eq__`, `_tree_repr`, `draw` and `height` (`lambeq/text2diagram/pregroup_tree.py` 103-123, 136-177).

Simplifications. A node is a value, and the index of its parent comes with it. Strings are lists of characters. `draw` (158-160) returns what it
prints, without the newline at the end.
-/

namespace Lambeq
namespace PTree
set_option linter.unusedSimpArgs false
set_option linter.unusedVariables false

/-- pregroup_tree.py:103-105 -/
def label : PTree → List Char
  | node w i t _ => w.toList ++ '_' :: (Nat.toDigits 10 i ++ ' ' :: '(' :: (tyStr t ++ [')']))

/-- `s.split('\n')` -/
def splitLines : List Char → List (List Char)
  | [] => [[]]
  | c :: cs => if c = '\n' then [] :: splitLines cs else match splitLines cs with
    | [] => [[c]]
    | h :: t => (c :: h) :: t

/-- pregroup_tree.py:145-154: what is added for one child, whose own string is `s`; `last` if it is the last child. -/
def block (last : Bool) (s : List Char) : List Char :=
  match splitLines s with
  | [] => []
  | l :: ls => '\n' :: (if last then '└' else '├') :: ' ' :: (l ++ (ls.map (fun m => '\n' :: (if last then ' ' else '│') :: ' ' :: m)).flatten)

mutual
/-- pregroup_tree.py:136-156; without children the loop adds nothing. -/
def treeRepr : PTree → List Char
  | node w i t cs => label (node w i t cs) ++ treeReprs cs
/-- pregroup_tree.py:144-154: the loop over the children. -/
def treeReprs : List PTree → List Char
  | [] => []
  | c :: cs => block cs.isEmpty (treeRepr c) ++ treeReprs cs
end

/-- pregroup_tree.py:167-177: the loop, with `h`, for at most `n` rounds. -/
def heightLoop : Nat → List PTree → Nat → Nat
  | 0, _, h => h
  | n + 1, nodes, h =>
    if nodes.isEmpty then h
    else heightLoop n (nodes.flatMap children) (if (nodes.flatMap children).isEmpty then h else h + 1)

/-- pregroup_tree.py:162-177; the tree has no more levels than the rounds given (`C113_height_rounds`). -/
def height (t : PTree) : Nat := heightLoop t.levels [t] 1

/-- pregroup_tree.py:113-123, for trees with at most `n` levels; the indices of the parents come first. Lists of different lengths are not
equal. -/
def eqAux : Nat → Option Nat → Option Nat → PTree → PTree → Bool
  | 0, _, _, _, _ => false
  | n + 1, p, q, a, b =>
    a.word == b.word && a.ind == b.ind && a.typ == b.typ && p == q &&
      (a.children.length == b.children.length &&
        ((a.children.insertionSort (fun x y => x.ind ≤ y.ind)).zip (b.children.insertionSort (fun x y => x.ind ≤ y.ind))).all
          (fun xy => eqAux n (some a.ind) (some b.ind) xy.1 xy.2))

/-- pregroup_tree.py:113-123: `a == b`, where the parent of `a` has the index `p` and that of `b` the index `q`. -/
def eqTree (p q : Option Nat) (a b : PTree) : Bool := eqAux a.levels p q a b

/-- A node as an object: the tree as it is, and the two cached properties. -/
structure Cached where
  tree : PTree
  repr : Option (List Char)
  height : Option Nat

/-- pregroup_tree.py:136, 158-160: the cached string, if there is one. -/
def Cached.draw (c : Cached) : List Char × Cached :=
  match c.repr with
  | some s => (s, c)
  | none => (c.tree.treeRepr, { c with repr := some c.tree.treeRepr })

/-- pregroup_tree.py:162-163 -/
def Cached.readHeight (c : Cached) : Nat × Cached :=
  match c.height with
  | some h => (h, c)
  | none => (c.tree.height, { c with height := some c.tree.height })

/-- pregroup_tree.py:344-373: the tree is changed, the caches are not. -/
def Cached.mergeSelf (c : Cached) : Cached := { c with tree := c.tree.merge }

end PTree
end Lambeq
