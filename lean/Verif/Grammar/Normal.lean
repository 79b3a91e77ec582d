import Verif.Grammar.BoxProps

/-!
# Interchange, snake removal and normal forms

Models `lambeq/backend/snake_removal.py` (whole file) and `Diagram.pregroup_normal_form`, `normal_form`,
`remove_snakes` (`lambeq/backend/grammar.py` 1168-1241).

The generators `snake_removal` and `normalize` are modelled by the sequence of diagrams their consumers see.
-/

namespace Lambeq
open Diagram

section Generic
variable {O B : Type} [BoxSig B O]

/-- snake_removal.py:222-246: exchange the adjacent layers `a` (upper, `box0`) and `b` (lower, `box1`);
the result is `(layer1, layer0)`, the new upper and lower layers. -/
def exchange (left : Bool) (a b : Layer O B) : Except PyErr (Layer O B × Layer O B) :=
  let off0 := a.left.length
  let off1 := b.left.length
  if left && decide (off1 ≥ off0 + (BoxSig.cod a.box).length) then
    let middle := b.left.drop (a.left ++ BoxSig.cod a.box).length
    .ok (⟨a.left ++ BoxSig.dom a.box ++ middle, b.box, b.right⟩,
         ⟨a.left, a.box, middle ++ BoxSig.cod b.box ++ b.right⟩)
  else if off0 ≥ off1 + (BoxSig.dom b.box).length then
    let middle := a.left.drop (b.left ++ BoxSig.dom b.box).length
    .ok (⟨b.left, b.box, middle ++ BoxSig.dom a.box ++ a.right⟩,
         ⟨b.left ++ BoxSig.cod b.box ++ middle, a.box, a.right⟩)
  else if off1 ≥ off0 + (BoxSig.cod a.box).length then
    let middle := b.left.drop (a.left ++ BoxSig.cod a.box).length
    .ok (⟨a.left ++ BoxSig.dom a.box ++ middle, b.box, b.right⟩,
         ⟨a.left, a.box, middle ++ BoxSig.cod b.box ++ b.right⟩)
  else .error .interchangerError

/-- snake_removal.py:220-248: `interchange` of the adjacent positions `i`, `i + 1` (in either order). -/
def interchangeAdj (left : Bool) (d : Diagram O B) (i : Nat) : Except PyErr (Diagram O B) :=
  match d.layers[i]?, d.layers[i + 1]? with
  | some a, some b =>
    match exchange left a b with
    | .ok (l1, l0) => .ok ⟨d.dom, d.cod, d.layers.take i ++ [l1, l0] ++ d.layers.drop (i + 2)⟩
    | .error e => .error e
  | _, _ => .error .indexError

/-- snake_removal.py:172-248 `interchange(diagram, i, j, left)` for non-negative indices. The recursive calls
in the two loops are between adjacent positions. -/
def interchangeN (d : Diagram O B) (i j : Nat) (left : Bool) : Except PyErr (Diagram O B) :=
  if ¬ (i < d.layers.length) ∨ ¬ (j < d.layers.length) then .error .indexError
  else if i = j then .ok d
  else if j + 1 < i then
    (List.range (i - j)).foldlM (fun r k => interchangeAdj left r (i - k - 1)) d
  else if i + 1 < j then
    (List.range (j - i)).foldlM (fun r k => interchangeAdj left r (i + k)) d
  else interchangeAdj left d (min i j)

/-- snake_removal.py:206-207: negative indices raise. -/
def interchange (d : Diagram O B) (i j : Int) (left : Bool) : Except PyErr (Diagram O B) :=
  if i < 0 ∨ j < 0 then .error .indexError else interchangeN d i.toNat j.toNat left

/-- snake_removal.py:287-288: the condition for a move at position `i`. -/
def canMove (left : Bool) (a b : Layer O B) : Bool :=
  (left && decide (b.left.length ≥ a.left.length + (BoxSig.cod a.box).length))
  || (!left && decide (a.left.length ≥ b.left.length + (BoxSig.dom b.box).length))

/-- The state of the consumer `normal_form` (grammar.py:1215-1220): the current diagram and its cache. -/
abbrev NFState (O B : Type) := Diagram O B × List (Diagram O B)

/-- One iteration of the inner loop of `normalize` (snake_removal.py:284-291) together with the body of the
consumer loop (grammar.py:1217-1220). The flag is `not no_more_moves`. -/
def nfStep [DecidableEq O] [DecidableEq B] (left : Bool) (st : NFState O B × Bool) (i : Nat) :
    Except PyErr (NFState O B × Bool) :=
  match st.1.1.layers[i]?, st.1.1.layers[i + 1]? with
  | some a, some b =>
    if canMove left a b then
      match interchangeN st.1.1 i (i + 1) left with
      | .error e => .error e
      | .ok d => if d ∈ st.1.2 then .error .notImplementedError else .ok ((d, d :: st.1.2), true)
    else .ok st
  | _, _ => .error .indexError

/-- The `while` loop of `normalize` with at most `n` iterations; `none` if it is still running. -/
def nfLoop [DecidableEq O] [DecidableEq B] (left : Bool) : Nat → NFState O B → Option (Except PyErr (Diagram O B))
  | 0, _ => none
  | n + 1, st =>
    match (List.range (st.1.layers.length - 1)).foldlM (nfStep left) (st, false) with
    | .error e => some (.error e)
    | .ok (st', moved) => if moved then nfLoop left n st' else some (.ok st'.1)

end Generic

namespace GDiagram

def isCap : Box → Bool | .cap _ _ _ => true | _ => false
def isCup : Box → Bool | .cup _ _ _ => true | _ => false

/-- snake_removal.py:82-94: follow a wire through the remaining layers `ls`, the first of which has index `i`.
Returns `(index, wire, left obstructions, right obstructions)`. -/
def followWire : List GLayer → (i j : Nat) → Nat × Nat × List Nat × List Nat
  | [], i, j => (i, j, [], [])
  | l :: ls, i, j =>
    let off := l.left.length
    if off ≤ j ∧ j < off + l.box.dom.length then (i, j, [], [])
    else if off ≤ j then
      let r := followWire ls (i + 1) (j + l.box.cod.length - l.box.dom.length)
      (r.1, r.2.1, i :: r.2.2.1, r.2.2.2)
    else
      let r := followWire ls (i + 1) j
      (r.1, r.2.1, r.2.2.1, i :: r.2.2.2)

/-- The result of `find_snake`: cup and cap index, obstructions, `left_snake`. -/
structure Snake where
  cup : Nat
  cap : Nat
  lefts : List Nat
  rights : List Nat
  leftSnake : Bool

/-- snake_removal.py:108-119: try one of the two wires of the cap at index `cap`. -/
def trySnake (d : GDiagram) (cap off : Nat) (leftSnake : Bool) : Option Snake :=
  let wire := if leftSnake then off else off + 1
  let r := followWire (d.layers.drop (cap + 1)) (cap + 1) wire
  match d.layers[r.1]? with
  | none => none
  | some c =>
    if !(isCup c.box) || (leftSnake && decide (c.left.length + 1 ≠ r.2.1))
        || (!leftSnake && decide (c.left.length ≠ r.2.1)) then none
    else some ⟨r.1, cap, r.2.2.1, r.2.2.2, leftSnake⟩

/-- snake_removal.py:105-120 -/
def findSnakeFrom (d : GDiagram) : List Nat → Option Snake
  | [] => none
  | cap :: rest =>
    match d.layers[cap]? with
    | none => none
    | some c =>
      if !(isCap c.box) then findSnakeFrom d rest
      else match trySnake d cap c.left.length true with
        | some s => some s
        | none => match trySnake d cap c.left.length false with
          | some s => some s
          | none => findSnakeFrom d rest

/-- snake_removal.py:96-120 -/
def findSnake (d : GDiagram) : Option Snake := findSnakeFrom d (List.range d.layers.length)

/-- snake_removal.py:137-143, first loop for a left snake; state `(diagram, cap, right_obstruction)`. -/
def unsnakeLL : List Nat → GDiagram → Nat → List Nat → Except PyErr (GDiagram × Nat × List Nat)
  | [], d, cap, rs => .ok (d, cap, rs)
  | box :: boxes, d, cap, rs =>
    match interchangeN d box cap false with
    | .error e => .error e
    | .ok d' => unsnakeLL boxes d' (cap + 1) (rs.map (fun r => if r < box then r + 1 else r))

/-- snake_removal.py:144-147, second loop for a left snake over the already reversed list. -/
def unsnakeLR : List Nat → GDiagram → Nat → Except PyErr (GDiagram × Nat)
  | [], d, cup => .ok (d, cup)
  | box :: boxes, d, cup =>
    match interchangeN d box cup false with
    | .error e => .error e
    | .ok d' => unsnakeLR boxes d' (cup - 1)

/-- snake_removal.py:149-155, first loop for a right snake over the already reversed list. -/
def unsnakeRL : List Nat → GDiagram → Nat → List Nat → Except PyErr (GDiagram × Nat × List Nat)
  | [], d, cup, rs => .ok (d, cup, rs)
  | box :: boxes, d, cup, rs =>
    match interchangeN d box cup false with
    | .error e => .error e
    | .ok d' => unsnakeRL boxes d' (cup - 1) (rs.map (fun r => if r > box then r - 1 else r))

/-- snake_removal.py:156-159, second loop for a right snake. -/
def unsnakeRR : List Nat → GDiagram → Nat → Except PyErr (GDiagram × Nat)
  | [], d, cap => .ok (d, cap)
  | box :: boxes, d, cap =>
    match interchangeN d box cap false with
    | .error e => .error e
    | .ok d' => unsnakeRR boxes d' (cap + 1)

/-- snake_removal.py:160-161: remove the layers from `cap` to `cup`. -/
def cutSnake (d : GDiagram) (cap cup : Nat) : GDiagram :=
  ⟨d.dom, d.cod, d.layers.take cap ++ d.layers.drop (cup + 1)⟩

/-- snake_removal.py:122-161, the last diagram that `unsnake` yields. -/
def unsnake (d : GDiagram) (s : Snake) : Except PyErr GDiagram :=
  if s.leftSnake then
    match unsnakeLL s.lefts d s.cap s.rights with
    | .error e => .error e
    | .ok (d, cap, rs) =>
      match unsnakeLR rs.reverse d s.cup with
      | .error e => .error e
      | .ok (d, cup) => .ok (cutSnake d cap cup)
  else
    match unsnakeRL s.lefts.reverse d s.cup s.rights with
    | .error e => .error e
    | .ok (d, cup, rs) =>
      match unsnakeRR rs d s.cap with
      | .error e => .error e
      | .ok (d, cap) => .ok (cutSnake d cap cup)

/-- snake_removal.py:163-169 and grammar.py:1225-1241 with at most `n` iterations of the `while` loop; running
out of iterations is `RuntimeError` (it does not happen with `n > len(diagram)`, see `SnakeProps`). The `left`
argument of `remove_snakes` is ignored by the code. -/
def snakeLoop : Nat → GDiagram → Except PyErr GDiagram
  | 0, _ => .error .runtimeError
  | n + 1, d =>
    match findSnake d with
    | none => .ok d
    | some s =>
      match unsnake d s with
      | .error e => .error e
      | .ok d' => snakeLoop n d'

/-- grammar.py:1225-1241 -/
def removeSnakes (d : GDiagram) : Except PyErr GDiagram := snakeLoop (d.layers.length + 1) d

/-- grammar.py:1198-1221; `n` bounds the number of passes of `normalize`, `none` means still running. -/
def normalForm (n : Nat) (left : Bool) (d : GDiagram) : Option (Except PyErr GDiagram) :=
  match removeSnakes d with
  | .error e => some (.error e)
  | .ok d' => nfLoop left n (d', [])

/-- grammar.py:1176-1186: the words at the start and the flag `is_pregroup`. -/
def leadingWords : List GLayer → List Box × Bool
  | [] => ([], true)
  | l :: ls =>
    match l.box with
    | .word n c z =>
      if l.right.isEmpty then ((Box.word n c z) :: (leadingWords ls).1, (leadingWords ls).2)
      else ([], false)
    | _ => ([], true)

def isWire : Box → Bool
  | .cup _ _ _ => true
  | .cap _ _ _ => true
  | .swap _ _ => true
  | _ => false

/-- grammar.py:1168-1196 -/
def pregroupNormalForm (n : Nat) (d : GDiagram) : Option (Except PyErr GDiagram) :=
  let wp := leadingWords d.layers
  let words : GDiagram := wp.1.foldl (fun acc b => tensor acc (ofBox b)) (Diagram.id [])
  match slice d (some (words.layers.length : Int)) none with
  | .error e => some (.error e)
  | .ok wires =>
    if !(wp.2 && wires.boxes.all isWire) || words.cod.isEmpty then normalForm n false d
    else match normalForm n false words, normalForm n false wires with
      | some (.ok a), some (.ok b) => some (andThen a b)
      | some (.error e), _ => some (.error e)
      | none, _ => none
      | _, some (.error e) => some (.error e)
      | _, none => none

end GDiagram
end Lambeq
