import Verif.Py
import Mathlib.Order.Basic
import Mathlib.Data.List.Basic
import Mathlib.Data.List.Sort

/-!
# Bobcat: the cells of the parse chart

Models `lambeq/bobcat/parser.py` 69-200 (`Cell`, and `Chart.add`, `Chart.min_score` for one span).

Simplifications. A parse tree is its identity (of any type; two trees held by a cell differ in their categories, so it does not matter whether it is the object or its value), the key of its category (equality of keys is `==` on categories, see C47) and its
score, an element of a linear order (so not-a-number is excluded). The dictionary from categories to trees is a function. The minimal
score, initially minus infinity, is `none` initially.
-/

namespace Lambeq
namespace Bobcat

variable {ι κ S : Type} [DecidableEq ι] [DecidableEq κ] [LinearOrder S]

/-- A parse tree in a cell. -/
structure PTree (ι κ S : Type) where
  id : ι
  cat : κ
  score : S
  deriving DecidableEq, Repr

/-- parser.py:69-82 -/
structure Cell (ι κ S : Type) where
  trees : List (PTree ι κ S)
  treesMap : κ → Option (PTree ι κ S)
  minScore : Option S

/-- A new cell, parser.py:79-82. -/
def Cell.empty : Cell ι κ S := ⟨[], fun _ => none, none⟩

/-- parser.py:89-98: the loop of `find`. The index `mid` is always valid. The first argument bounds the number of steps; the length of the
trees is enough, and the step with no fuel is never reached (`C46_find`). -/
def findGo (trees : List (PTree ι κ S)) (score : S) : Nat → Nat → Nat → Nat
  | 0, lo, _ => lo
  | fuel + 1, lo, hi =>
    if lo < hi then
      let mid := (lo + hi) / 2
      match trees[mid]? with
      | none => lo
      | some t =>
        if score = t.score then mid
        else if t.score < score then findGo trees score fuel lo mid
        else findGo trees score fuel (mid + 1) hi
    else lo

/-- parser.py:84-98 -/
def find (trees : List (PTree ι κ S)) (score : S) : Nat := findGo trees score trees.length 0 trees.length

/-- parser.py:136-142: the index of `old` in the given trees, which start at index `i`; the loop stops at another score. -/
def scanForward (old : PTree ι κ S) : List (PTree ι κ S) → Nat → Option Nat
  | [], _ => none
  | t :: ts, i => if t = old then some i else if t.score ≠ old.score then none else scanForward old ts (i + 1)

/-- parser.py:144-147 -/
def scanBackward (trees : List (PTree ι κ S)) (old : PTree ι κ S) (i : Nat) : Option Nat :=
  (List.range i).reverse.find? (fun j => decide (trees[j]? = some old))

/-- parser.py:134-147: delete the old tree. -/
def deleteTree (trees : List (PTree ι κ S)) (old : PTree ι κ S) : List (PTree ι κ S) :=
  let i := find trees old.score
  match scanForward old (trees.drop i) i with
  | some j => trees.eraseIdx j
  | none =>
    match scanBackward trees old i with
    | some j => trees.eraseIdx j
    | none => trees

/-- parser.py:158-159 -/
def unmap : List (PTree ι κ S) → (κ → Option (PTree ι κ S)) → Except PyErr (κ → Option (PTree ι κ S))
  | [], m => .ok m
  | t :: ts, m => if (m t.cat).isSome then unmap ts (fun k => if k = t.cat then none else m k) else .error .keyError

/-- parser.py:154-162, with the count added so far. -/
def applyBeam (b : Nat) (c : Cell ι κ S) (added : Int) : Except PyErr (Cell ι κ S × Int) :=
  match c.trees[b - 1]? with
  | none => .ok (c, added)
  | some u =>
    let c1 : Cell ι κ S := { c with minScore := some u.score }
    match c.trees[b]? with
    | none => .ok (c1, added)
    | some v =>
      if v.score < u.score then
        match unmap (c.trees.drop b) c.treesMap with
        | .error e => .error e
        | .ok m => .ok ({ c1 with trees := c.trees.take b, treesMap := m }, added - ((c.trees.length : Int) - b))
      else .ok (c1, added)

/-- parser.py:125-147: whether to insert the tree, and the trees after the removal of an old one. -/
def prepare (c : Cell ι κ S) (t : PTree ι κ S) : Option (List (PTree ι κ S)) :=
  match c.treesMap t.cat with
  | none => some c.trees
  | some old => if old.score < t.score then some (deleteTree c.trees old) else none

/-- parser.py:125-162: one pass of the loop of `add`, for a tree that is not below the beam. -/
def addOne (b : Nat) (c : Cell ι κ S) (t : PTree ι κ S) (added : Int) : Except PyErr (Cell ι κ S × Int) :=
  match prepare c t with
  | none => .ok (c, added)
  | some trees =>
    applyBeam b { c with trees := trees.insertIdx (find trees t.score) t, treesMap := fun k => if k = t.cat then some t else c.treesMap k }
      (added + 1)

/-- parser.py:118: the test that ends the loop; `trees[-1]` raises on an empty list. -/
def belowBeam (b : Nat) (c : Cell ι κ S) (t : PTree ι κ S) : Except PyErr Bool :=
  if b ≤ c.trees.length then
    match c.trees.getLast? with
    | none => .error .indexError
    | some l => .ok (decide (t.score < l.score))
  else .ok false

/-- parser.py:116-163 -/
def addLoop (b : Nat) : List (PTree ι κ S) → Cell ι κ S → Int → Except PyErr (Cell ι κ S × Int)
  | [], c, added => .ok (c, added)
  | t :: ts, c, added =>
    match belowBeam b c t with
    | .error e => .error e
    | .ok true => .ok (c, added)
    | .ok false =>
      match addOne b c t added with
      | .error e => .error e
      | .ok r => addLoop b ts r.1 r.2

/-- parser.py:100-163. Python's `sorted` is stable, as is this sort. -/
def Cell.add (b : Nat) (c : Cell ι κ S) (toAdd : List (PTree ι κ S)) : Except PyErr (Cell ι κ S × Int) :=
  addLoop b (toAdd.insertionSort (fun t u => u.score ≤ t.score)) c 0

/-- A history of calls of `add` on a new cell, parser.py:190-200. -/
def Cell.addMany (b : Nat) : List (List (PTree ι κ S)) → Cell ι κ S → Except PyErr (Cell ι κ S)
  | [], c => .ok c
  | l :: ls, c =>
    match c.add b l with
    | .error e => .error e
    | .ok r => Cell.addMany b ls r.1

end Bobcat
end Lambeq
