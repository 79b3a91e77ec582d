import Verif.Grammar.BoxProps
import Verif.Grammar.Perm

/-!
# Structural morphisms: permutations, swaps, cups, caps, spiders, transpose, curry, pregroup diagrams

Models `lambeq/backend/grammar.py`: `Swap.__new__` (1853-1863), `Cup.__new__` (1581-1593), `Cap.__new__` (1454-1466), `Spider.__new__` (1748-1772),
`transpose` (1073-1117), `curry` (1119-1136), `create_pregroup_diagram` (834-899), `is_pregroup`
(901-927), and the CCG combinator diagrams `fa`, `ba`, `fc`, `bc`, `fx`, `bx` (768-792).
-/

namespace Lambeq
open Diagram

/-- grammar.py:1818-1879: the swap box of this category. -/
instance : SwapSig Box Ob where
  swapBox := Box.swap
  swap_dom _ _ := rfl
  swap_cod _ _ := rfl

namespace GDiagram

/-- grammar.py:1858-1863, inner loop of `Swap.__new__`: `for i in reversed(range(len(left)))`. -/
def mkSwapInner (left : Ty) (start : Nat) (ob : Ob) (d : GDiagram) : Except PyErr GDiagram :=
  (List.range left.length).reverse.foldlM (fun d i =>
    match left[i]? with
    | some x => thenAt d (ofBox (.swap x ob)) ((start + i : Nat) : Int)
    | none => .error .indexError) d

/-- grammar.py:1853-1863 `Swap(left, right)` followed by `to_diagram`. -/
def mkSwap (left right : Ty) : Except PyErr GDiagram :=
  match left, right with
  | [l], [r] => .ok (ofBox (.swap l r))
  | _, _ => (right.zipIdx).foldlM (fun d obs => mkSwapInner left obs.2 obs.1 d) (Diagram.id (left ++ right))

/-- grammar.py:1581-1593 `Cup(left, right, is_reversed)` followed by `to_diagram`.
Note that the recursive constructor calls do not pass `is_reversed` on. -/
def mkCup (left right : Ty) (rev : Bool) : Except PyErr GDiagram :=
  match left, right with
  | [l], [r] => (Box.atomicCup l r rev).map ofBox
  | _, _ =>
    if ¬ Box.cupAdjoint left right rev then .error .valueError
    else ((left.reverse.zip right).zipIdx).foldlM (fun d x =>
      match Box.atomicCup x.1.1 x.1.2 false with
      | .ok b => thenAt d (ofBox b) ((left.length : Int) - 1 - x.2)
      | .error e => .error e) (Diagram.id (left ++ right))

/-- grammar.py:1454-1466 `Cap(left, right, is_reversed)` followed by `to_diagram`. -/
def mkCap (left right : Ty) (rev : Bool) : Except PyErr GDiagram :=
  match left, right with
  | [l], [r] => (Box.atomicCap l r rev).map ofBox
  | _, _ =>
    if ¬ Box.capAdjoint left right rev then .error .valueError
    else ((left.zip right.reverse).zipIdx).foldlM (fun d x =>
      match Box.atomicCap x.1.1 x.1.2 false with
      | .ok b => thenAt d (ofBox b) (x.2 : Int)
      | .error e => .error e) (Diagram.id [])

/-- Python `range(start, stop, step)` for `step > 0`: `start, start+step, ...` below `stop`. For
`step = 0` Python raises; the code never evaluates that case (the enclosing loop is then empty). -/
def rangeStep (start stop step : Nat) : List Nat :=
  (List.range ((stop - start + step - 1) / step)).map (fun k => start + k * step)

/-- The list comprehension `[j for i in range(size) for j in range(i, total, size)]` of
grammar.py:1760-1762 (and, with other names, 1767-1771). -/
def strideList (size total : Nat) : List Nat :=
  ((List.range size).map (fun i => rangeStep i total size)).flatten

/-- grammar.py:1748-1772 `Spider(type, n_in, n_out)` followed by `to_diagram`. -/
def mkSpider (t : Ty) (nIn nOut : Nat) : Except PyErr GDiagram :=
  match t with
  | [o] => .ok (ofBox (.spider o nIn nOut))
  | _ =>
    let size := t.length
    match permutation (Ty.rep t nIn) ((strideList size (size * nIn)).map Int.ofNat) with
    | .error e => .error e
    | .ok p =>
      match permuted (tensorN (Diagram.id [] :: t.map (fun o => ofBox (.spider o nIn nOut))))
          ((strideList nOut (t.length * nOut)).map Int.ofNat) with
      | .error e => .error e
      | .ok q => andThen p q

/-- grammar.py:1073-1117 -/
def transpose (d : GDiagram) (left : Bool) : Except PyErr GDiagram :=
  if left then do
    let cap ← mkCap d.dom (Ty.l d.dom) false
    let cup ← mkCup (Ty.l d.cod) d.cod false
    let top := tensor (Diagram.id (Ty.l d.cod)) cap
    let mid := tensor (tensor (Diagram.id (Ty.l d.cod)) d) (Diagram.id (Ty.l d.dom))
    let bot := tensor cup (Diagram.id (Ty.l d.dom))
    let r ← andThen top mid
    andThen r bot
  else do
    let cap ← mkCap (Ty.r d.dom) d.dom false
    let cup ← mkCup d.cod (Ty.r d.cod) false
    let top := tensor cap (Diagram.id (Ty.r d.cod))
    let mid := tensor (tensor (Diagram.id (Ty.r d.dom)) d) (Diagram.id (Ty.r d.cod))
    let bot := tensor (Diagram.id (Ty.r d.dom)) cup
    let r ← andThen top mid
    andThen r bot

/-- grammar.py:1119-1136; `n` is a Python integer. -/
def curry (d : GDiagram) (n : Int) (left : Bool) : Except PyErr GDiagram :=
  if left then do
    let base := pySlice d.dom none (some (-n))
    let exponent := pySlice d.dom (some (-n)) none
    let cap ← mkCap exponent (Ty.l exponent) false
    andThen (tensor (Diagram.id base) cap) (tensor d (Diagram.id (Ty.l exponent)))
  else do
    let base := pySlice d.dom (some n) none
    let exponent := pySlice d.dom none (some n)
    let cap ← mkCap (Ty.r exponent) exponent false
    andThen (tensor cap (Diagram.id base)) (tensor (Diagram.id (Ty.r exponent)) d)

/-- The morphism classes accepted by `create_pregroup_diagram`; anything else raises. -/
inductive Morph | cup | swap | other
  deriving DecidableEq

/-- grammar.py:883: `typ(types[start:start+1], types[end:end+1])`. -/
def morphBox (types : Ty) (m : Morph × Int × Int) : Except PyErr GDiagram :=
  let a := pySlice types (some m.2.1) (some (m.2.1 + 1))
  let b := pySlice types (some m.2.2) (some (m.2.2 + 1))
  match m.1 with
  | .cup => mkCup a b false
  | .swap => mkSwap a b
  | .other => .error .valueError

/-- grammar.py:886-891: the offset correction for morphism number `idx`. -/
def morphOffset (before : List (Morph × Int × Int)) (start : Int) : Int :=
  start - 2 * (before.filter (fun m => m.1 == .cup && decide (m.2.1 < start))).length

/-- grammar.py:880-891: boxes and offsets of the morphisms. -/
def morphBoxes (types : Ty) : List (Morph × Int × Int) → List (Morph × Int × Int) →
    Except PyErr (List (GDiagram × Int))
  | _, [] => .ok []
  | before, m :: ms =>
    match morphBox types m with
    | .error e => .error e
    | .ok b =>
      match morphBoxes types (before ++ [m]) ms with
      | .error e => .error e
      | .ok rest => .ok ((b, morphOffset before m.2.1) :: rest)

/-- grammar.py:875-878: words with their offsets. -/
def wordBoxes (types : Ty) : List (String × Ty × Int) → List (GDiagram × Int)
  | [] => []
  | w :: ws => (ofBox (.word w.1 w.2.1 w.2.2), (types.length : Int)) :: wordBoxes (types ++ w.2.1) ws

/-- grammar.py:895-898: one step of the assembly loop. -/
def placeStep (d : GDiagram) (bo : GDiagram × Int) : Except PyErr GDiagram :=
  andThen d (tensor (tensor (Diagram.id (pySlice d.cod none (some bo.2))) bo.1)
    (Diagram.id (pySlice d.cod (some (bo.2 + bo.1.dom.length)) none)))

/-- grammar.py:834-899; a word is `(name, cod, z)`. -/
def createPregroupDiagram (words : List (String × Ty × Int)) (morphisms : List (Morph × Int × Int)) :
    Except PyErr GDiagram :=
  match morphBoxes ((words.map (·.2.1)).flatten) [] morphisms with
  | .error e => .error e
  | .ok ms => (wordBoxes [] words ++ ms).foldlM placeStep (Diagram.id [])

/-- grammar.py:918-926, the loop of `is_pregroup` with its flag `in_words`. -/
def isPregroupLoop : Bool → List GLayer → Bool
  | _, [] => true
  | inWords, l :: ls =>
    match inWords, l.box with
    | true, .word _ _ _ => if l.right.isEmpty then isPregroupLoop true ls else false
    | _, .cup _ _ _ => isPregroupLoop false ls
    | _, .swap _ _ => isPregroupLoop false ls
    | _, _ => false

/-- grammar.py:901-927 -/
def isPregroup (d : GDiagram) : Bool :=
  if ¬ d.dom.isEmpty then false else isPregroupLoop true d.layers

/-- grammar.py:768-770 -/
def fa (left right : Ty) : Except PyErr GDiagram :=
  (mkCup (Ty.l right) right false).map (fun c => tensor (Diagram.id left) c)
/-- grammar.py:772-774 -/
def ba (left right : Ty) : Except PyErr GDiagram :=
  (mkCup left (Ty.r left) false).map (fun c => tensorN [Diagram.id [], c, Diagram.id right])
/-- grammar.py:776-778 -/
def fc (left middle right : Ty) : Except PyErr GDiagram :=
  (mkCup (Ty.l middle) middle false).map (fun c =>
    tensor (tensor (Diagram.id left) c) (Diagram.id (Ty.l right)))
/-- grammar.py:780-782 -/
def bc (left middle right : Ty) : Except PyErr GDiagram :=
  (mkCup middle (Ty.r middle) false).map (fun c =>
    tensor (tensor (Diagram.id (Ty.r left)) c) (Diagram.id right))
/-- grammar.py:784-787 -/
def fx (left middle right : Ty) : Except PyErr GDiagram := do
  let s1 ← mkSwap (Ty.l middle) (Ty.r right)
  let s2 ← mkSwap left (Ty.r right)
  let c ← mkCup (Ty.l middle) middle false
  andThen (tensor (tensor (Diagram.id left) s1) (Diagram.id middle)) (tensor s2 c)
/-- grammar.py:789-792 -/
def bx (left middle right : Ty) : Except PyErr GDiagram := do
  let s1 ← mkSwap (Ty.l left) (Ty.r middle)
  let c ← mkCup middle (Ty.r middle) false
  let s2 ← mkSwap (Ty.l left) right
  andThen (tensor (tensor (Diagram.id middle) s1) (Diagram.id right)) (tensor c s2)

end GDiagram

end Lambeq
