import Verif.Ccg.Rule

/-!
# CCG derivation trees and their diagrams

Models `lambeq/text2diagram/ccg_tree.py` (class `CCGTree`).
-/

namespace Lambeq
open Diagram GDiagram

/-- ccg_tree.py:41-94.  The constructor (lines 74-85) forces a lexical rule to have no children, unary
and type-raising rules one, all other known rules two; a node with text and no children is lexical.
Simplifications: leaves have non-empty text; the phrase text of inner nodes (never read by the modelled
methods) and `metadata` are dropped; `UNKNOWN` nodes with other numbers of children are not modelled. -/
inductive Tree
  | leaf (text : String) (ty : Cat)
  | un (rule : Rule) (ty : Cat) (child : Tree)
  | bin (rule : Rule) (ty : Cat) (left right : Tree)
  deriving DecidableEq, Repr

namespace Tree

/-- ccg_tree.py:69 `biclosed_type` -/
def ty : Tree → Cat
  | leaf _ t => t
  | un _ t _ => t
  | bin _ t _ _ => t

/-- ccg_tree.py:68,84-85 `rule` -/
def rule : Tree → Rule
  | leaf _ _ => .lexical
  | un r _ _ => r
  | bin r _ _ _ => r

/-- ccg_tree.py:339-353 -/
def collapse : Tree → Except PyErr Tree
  | leaf w t => do
    let t' ← Cat.replace Cat.NP Cat.NOUN t
    .ok (leaf w t')
  | un r t c => do
    let t' ← Cat.replace Cat.NP Cat.NOUN t
    let c' ← collapse c
    .ok (un r t' c')
  | bin r t a b => do
    let t' ← Cat.replace Cat.NP Cat.NOUN t
    let a' ← collapse a
    let b' ← collapse b
    .ok (bin r t' a' b')

/-- The test of ccg_tree.py:386-387: output and child are complex, with opposite slashes. -/
def dirSwap (output child : Cat) : Bool :=
  (output.isOver && child.isUnder) || (output.isUnder && child.isOver)

/-- The category built by ccg_tree.py:394-401 (`output` is complex there). -/
def swapDom (output : Cat) : Cat :=
  match output with
  | .over x y => .under y (.over .empty (.over .empty x))
  | .under x y => .over y (.under .empty (.under .empty x))
  | c => c

/-- The resolved premises of a binary node, ccg_tree.py:404-414. -/
def binDom (rule : Rule) (l r : Tree) (output : Cat) : Except PyErr (List Cat) :=
  if rule = .fc ∧ l.rule = .ftr then do
    let left ← output.left
    let right ← output.right
    let lr ← l.ty.right
    let x ← lr.left
    let mid := Cat.under left x
    rule.resolve [Cat.over left mid, Cat.over mid right] output
  else rule.resolve [l.ty, r.ty] output

/-- ccg_tree.py:416-420 -/
def binRule (rule : Rule) (l : Tree) : Rule :=
  if rule = .conj then (if l.ty.isConjoinable then .fa else .ba) else rule

/-- ccg_tree.py:355-429; the argument is `output` (line 375).  Lines 426-429 return `self` when nothing
changed; Python's tree equality there also compares phrase texts, which only decides whether an equal
tree is rebuilt. -/
def resolved : Tree → Cat → Except PyErr Tree
  | leaf w t, output => if output = t then .ok (leaf w t) else .ok (leaf w output)
  | un rule t c, output =>
    if rule = .unary then
      if dirSwap output c.ty then do
        let c' ← resolved c (swapDom output)
        if c' = c ∧ output = t then .ok (un rule t c) else .ok (un rule output c')
      else resolved c output
    else do
      let dom ← rule.resolve [c.ty] output
      let d0 ← pyGet dom 0
      let c' ← resolved c d0
      if c' = c ∧ output = t then .ok (un rule t c) else .ok (un rule output c')
  | bin rule t l r, output => do
    let dom ← binDom rule l r output
    let rule' := binRule rule l
    let d0 ← pyGet dom 0
    let l' ← resolved l d0
    let d1 ← pyGet dom 1
    let r' ← resolved r d1
    if l' = l ∧ r' = r ∧ output = t then .ok (bin rule t l r) else .ok (bin rule' output l' r')

/-- The unary swap layer, ccg_tree.py:465-471. -/
def swapLayer (t : Cat) : Except PyErr GDiagram := do
  if t.isOver then
    let l ← t.left
    let r ← t.right
    mkSwap (Ty.l r.toTy) l.toTy
  else
    let l ← t.left
    let r ← t.right
    mkSwap r.toTy (Ty.r l.toTy)

/-- The default branch, ccg_tree.py:518-520, for the children's (words, diagram) pairs. -/
def joinChildren (children : List (GDiagram × GDiagram)) (layer : GDiagram) :
    Except PyErr (GDiagram × GDiagram) := do
  let words := tensorN (Diagram.id [] :: children.map (·.1))
  let diag := tensorN (Diagram.id [] :: children.map (·.2))
  let diag' ← andThen diag layer
  .ok (words, diag')

/-- The four planar crossed-composition branches, ccg_tree.py:479-517. -/
def planarCrossed (rule : Rule) (t lt rt : Cat) (cl cr : GDiagram × GDiagram) :
    Except PyErr (GDiagram × GDiagram) :=
  match rule with
  | .bx => do
    let tl ← t.left
    let left := tl.toTy
    let ll ← lt.left
    let join := ll.toTy
    let tr ← t.right
    let right := Ty.l tr.toTy
    let inner ← andThen cr.1 cr.2
    let c ← mkCup join (Ty.r join) false
    let d1 ← andThen cl.2 (tensor (tensor (Diagram.id join) inner) (Diagram.id right))
    let d2 ← andThen d1 (tensor c (Diagram.id (left ++ right)))
    .ok (cl.1, d2)
  | .fx => do
    let tl ← t.left
    let left := Ty.r tl.toTy
    let rr ← rt.right
    let join := rr.toTy
    let tr ← t.right
    let right := tr.toTy
    let inner ← andThen cl.1 cl.2
    let c ← mkCup (Ty.l join) join false
    let d1 ← andThen cr.2 (tensor (tensor (Diagram.id left) inner) (Diagram.id join))
    let d2 ← andThen d1 (tensor (Diagram.id (left ++ right)) c)
    .ok (cr.1, d2)
  | .gbx => do
    let rl ← rt.left
    let ⟨left, join, right⟩ ← lt.split rl
    let inner ← andThen cr.1 cr.2
    let c ← mkCup join (Ty.r join) false
    let mid ← andThen (tensor (Diagram.id join) inner)
      (tensor c (Diagram.id (pySlice inner.cod (some (join.length : Int)) none)))
    .ok (cl.1, tensor (tensor (Diagram.id left) mid) (Diagram.id right))
  | .gfx => do
    let lr ← lt.right
    let ⟨left, join, right⟩ ← rt.split lr
    let inner ← andThen cl.1 cl.2
    let c ← mkCup (Ty.l join) join false
    let mid ← andThen (tensor inner (Diagram.id join))
      (tensor (Diagram.id (pySlice inner.cod none (some (-(join.length : Int))))) c)
    .ok (cr.1, tensor (tensor (Diagram.id left) mid) (Diagram.id right))
  | _ => .error .assertionError

/-- The four rules of ccg_tree.py:479-517. -/
def isCrossed : Rule → Bool
  | .bx => true | .fx => true | .gbx => true | .gfx => true | _ => false

/-- ccg_tree.py:449-522 -/
def toDiagramAux (planar : Bool) : Tree → Except PyErr (GDiagram × GDiagram)
  | leaf w t =>
    if t = Cat.PUNC then .ok (Diagram.id [], Diagram.id [])
    else .ok (ofBox (Box.word w t.toTy 0), Diagram.id t.toTy)
  | un rule t c =>
    if rule = .unary then
      if planar then .error .valueError
      else do
        let layer ← swapLayer t
        let p ← toDiagramAux planar c
        joinChildren [p] layer
    else do
      let layer ← rule.apply [c.ty] (some t)
      let p ← toDiagramAux planar c
      joinChildren [p] layer
  | bin rule t l r => do
    let layer ← rule.apply [l.ty, r.ty] (some t)
    let pl ← toDiagramAux planar l
    let pr ← toDiagramAux planar r
    if planar && isCrossed rule then planarCrossed rule t l.ty r.ty pl pr
    else joinChildren [pl, pr] layer

/-- ccg_tree.py:431-447 -/
def toDiagram (t : Tree) (planar collapseNP : Bool) : Except PyErr GDiagram := do
  let t' ← if collapseNP then collapse t else .ok t
  let res ← resolved t' t'.ty
  let p ← toDiagramAux planar res
  andThen p.1 p.2

end Tree
end Lambeq
