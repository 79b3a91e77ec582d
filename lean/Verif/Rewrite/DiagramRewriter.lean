import Verif.Rewrite.Rewriter

/-!
# Diagram-level rewriting

Models `lambeq/rewrite/rewrite_diagram.py`: `DiagramRewriter.__call__` (62-82), `UnifyCodomainRewriter`
(85-105), `RemoveCupsRewriter` (108-192), `RemoveSwapsRewriter` (195-421).

Simplifications. Elements of `diags` are represented as diagrams (`Box.__getattr__` forwards `cod`, `dagger`,
... to `to_diagram`). `str(Ty)` in the name of the merge box is a parameter.
-/

namespace Lambeq
open Diagram GDiagram

namespace DRewrite

/-! ## Unifying codomains -/

/-- rewrite_diagram.py:100-105 with 82; `str` is `str(Ty)`. -/
def unifyCodomain (str : Ty → String) (output : Ty) (d : GDiagram) : Except PyErr GDiagram :=
  if d.cod ≠ output then andThen d (ofBox (.gen ("MERGE_" ++ str d.cod) d.cod output 0)) else .ok d

/-! ## Removing cups -/

/-- rewrite_diagram.py:40 -/
def cupToken : String := "**CUP**"

/-- `isinstance(box, Cup)` -/
def isCup : Box → Bool
  | .cup _ _ _ => true
  | _ => false

/-- One iteration of the loop 121-130; the list is `layers` in reverse. -/
def compressStep (layers : List (Box × Nat)) (bo : Box × Nat) : List (Box × Nat) :=
  match layers with
  | [] => [bo]
  | (prev, poff) :: rest =>
    if isCup bo.1 && isCup prev && decide ((bo.2 : Int) = (poff : Int) - 1) then
      (.gen cupToken (pySlice bo.1.dom none (some 1) ++ prev.dom ++ pySlice bo.1.dom (some 1) none) [] 0, bo.2) :: rest
    else bo :: (prev, poff) :: rest

/-- rewrite_diagram.py:119-136 -/
def compressCups (d : GDiagram) : Except PyErr GDiagram :=
  ((d.boxes.zip d.offsets).foldl compressStep []).reverse.foldlM
    (fun acc bo => thenAt acc (ofBox bo.1) (bo.2 : Int)) (Diagram.id d.dom)

/-- rewrite_diagram.py:141-146: the values of `i` and `off` after the loop. -/
def findDiag : List GDiagram → Nat → Nat × Nat
  | [], off => (0, off)
  | d :: ds, off =>
    if off ≥ d.cod.length then
      let r := findDiag ds (off - d.cod.length)
      (r.1 + 1, r.2)
    else (0, off)

/-- rewrite_diagram.py:155-158: extend `right` by further diagrams until the box fits; returns `right` and the
number of diagrams used. -/
def gather (need : Nat) (left : GDiagram) : GDiagram → List GDiagram → Except PyErr (GDiagram × Nat)
  | right, ds =>
    if (left.cod ++ right.cod).length < need then
      match ds with
      | [] => .error .assertionError
      | e :: ds => do
        let r ← gather need left (tensor right e) ds
        .ok (r.1, r.2 + 1)
    else .ok (right, 0)
  termination_by _ ds => ds.length

/-- rewrite_diagram.py:160-183: the diagram that replaces the gathered ones. -/
def contract (left right : GDiagram) (box : Box) (off : Nat) : Except PyErr GDiagram :=
  let cod := left.cod ++ right.cod
  let wiresL : GDiagram := Diagram.id (pySlice cod none (some (off : Int)))
  let wiresR : GDiagram := Diagram.id (pySlice cod (some ((off + box.dom.length : Nat) : Int)) none)
  if Rewrite.boxName box = cupToken ∨ isCup box = true then
    let pg := box.dom.length / 2
    let t1 := pySlice box.dom none (some (pg : Int))
    let t2 := pySlice box.dom (some (pg : Int)) none
    if left.cod.length = pg ∧ left.dom = [] then do
      let dg ← daggerPy left
      let rot ← rotatePy (if Ty.r t1 = t2 then 1 else -1) dg
      andThen right (tensor rot wiresR)
    else if right.cod.length = pg ∧ right.dom = [] then do
      let dg ← daggerPy right
      let rot ← rotatePy (if Ty.r t1 = t2 then -1 else 1) dg
      andThen left (tensor wiresL rot)
    else do
      let nbox ← mkCup t1 t2 (decide (t2 ≠ Ty.r t1))
      andThen (tensor left right) (tensor (tensor wiresL nbox) wiresR)
  else andThen (tensor left right) (tensor (tensor wiresL (ofBox box)) wiresR)

/-- One iteration of the loop 140-184. -/
def removeStep (diags : List GDiagram) (bo : Box × Nat) : Except PyErr (List GDiagram) :=
  let f := findDiag diags bo.2
  if f.2 = 0 ∧ bo.1.dom = [] then .ok (diags.take f.1 ++ [ofBox bo.1] ++ diags.drop f.1)
  else match diags[f.1]? with
    | none => .error .indexError
    | some left => do
      let g ← gather (f.2 + bo.1.dom.length) left (Diagram.id []) (diags.drop (f.1 + 1))
      let new ← contract left g.1 bo.1 f.2
      .ok (diags.take f.1 ++ [new] ++ diags.drop (f.1 + (g.2 + 1)))

/-- rewrite_diagram.py:138-186 -/
def removeCupsPass (d : GDiagram) : Except PyErr GDiagram := do
  let diags ← (d.boxes.zip d.offsets).foldlM removeStep [Diagram.id d.dom]
  .ok (tensorN (Diagram.id [] :: diags))

/-- rewrite_diagram.py:188-192 (`matches` is always true, 116-117). -/
def removeCups (d : GDiagram) : Except PyErr GDiagram := do
  let a ← removeCupsPass d
  let b ← compressCups a
  removeCupsPass b

/-! ## Removing swaps -/

/-- `isinstance(box, Word)` -/
def isWord : Box → Bool
  | .word _ _ _ => true
  | _ => false

/-- rewrite_diagram.py:384-385, 310-311: the codomains of the words, flattened. -/
def atomicTypes (d : GDiagram) : Ty := ((d.boxes.filter isWord).map Box.cod).flatten

/-- rewrite_diagram.py:399-406: one morphism; the state is `(atomic_types, scan)`. -/
def swapTypesStep (st : Ty × List Nat) (bo : Box × Nat) : Except PyErr (Ty × List Nat) :=
  match bo.1 with
  | .swap _ _ =>
    match st.2[bo.2]?, st.2[bo.2 + 1]? with
    | some il, some ir =>
      match st.1[il]?, st.1[ir]? with
      | some a, some b => .ok ((st.1.set il b).set ir a, st.2)
      | _, _ => .error .indexError
    | _, _ => .error .indexError
  | .cup _ _ _ => .ok (st.1, st.2.take bo.2 ++ st.2.drop (bo.2 + 2))
  | _ => .ok st

/-- rewrite_diagram.py:383-419: everything but the final call. -/
def removeSwapsPhase1 (d : GDiagram) : Except PyErr GDiagram := do
  let bos := d.boxes.zip d.offsets
  let words := bos.filter (fun bo => isWord bo.1)
  let morphisms := bos.filter (fun bo => !isWord bo.1)
  let types := atomicTypes d
  let st ← morphisms.foldlM swapTypesStep (types, List.range types.length)
  let d1 ← words.foldlM (fun acc bo => thenAt acc
    (ofBox (.word (Rewrite.boxName bo.1) (pySlice st.1 (some (bo.2 : Int)) (some ((bo.2 + bo.1.cod.length : Nat) : Int))) 0))
    (bo.2 : Int)) (Diagram.id d.dom)
  morphisms.foldlM (fun acc bo => match bo.1 with
    | .swap _ _ => .ok acc
    | b => thenAt acc (ofBox b) (bo.2 : Int)) d1

/-- rewrite_diagram.py:280-289 -/
structure Morphism where
  box : Box
  start : Nat
  stop : Nat
  offset : Nat
  deleted : Bool
  deriving DecidableEq

/-- rewrite_diagram.py:317-325: the morphisms, with the indices of the wires they act on. -/
def scanMorphisms : List (Box × Nat) → List Nat → Except PyErr (List Morphism)
  | [], _ => .ok []
  | (b, off) :: rest, scan =>
    match scan[off]?, pyGet scan ((off : Int) + b.dom.length - 1) with
    | some s, .ok e => do
      let scan' := if isCup b then scan.take off ++ scan.drop (off + b.dom.length) else scan
      let ms ← scanMorphisms rest scan'
      .ok (⟨b, s, e, off, false⟩ :: ms)
    | _, _ => .error .indexError

/-- The condition of 333-334: a cup between two wires of the word occupying `[lo, hi)`. -/
def detachedIn (lo hi : Nat) (m : Morphism) : Bool :=
  isCup m.box && decide (lo ≤ m.start ∧ m.start < hi) && decide (lo ≤ m.stop ∧ m.stop < hi)

/-- rewrite_diagram.py:329-337 for one word: the remaining wires and the morphisms with deletion marks. -/
def scanWord (lo hi : Nat) (ms : List Morphism) : List Nat × List Morphism :=
  (ms.foldl (fun scan m => if detachedIn lo hi m
      then scan.take (m.start - lo) ++ scan.drop (m.start - lo + 2) else scan) (List.range' lo (hi - lo)),
   ms.map (fun m => if detachedIn lo hi m then { m with deleted := true } else m))

/-- rewrite_diagram.py:328-352: `words` is the list of `(name, cod, z, offset)`; the result is `new_words`.
A word whose wires are all removed passes its name on to the next one (whose winding number is then lost, as
a new `Word` is created). -/
def newWords (types : Ty) : List (String × Ty × Int × Nat) → List Morphism →
    Except PyErr (List (String × Ty × Int) × List Morphism)
  | [], ms => .ok ([], ms)
  | (n, c, z, off) :: rest, ms =>
    let r := scanWord off (off + c.length) ms
    if r.1.length = c.length then do
      let t ← newWords types rest r.2
      .ok ((n, c, z) :: t.1, t.2)
    else if r.1.length > 0 then do
      let typ ← r.1.mapM (fun i => match types[i]? with | some o => .ok o | none => .error PyErr.indexError)
      let t ← newWords types rest r.2
      .ok ((n, typ, 0) :: t.1, t.2)
    else match rest with
      | [] => .error .indexError
      | (n', c', _, off') :: rest' => newWords types ((n ++ " " ++ n', c', 0, off') :: rest') r.2
  termination_by ws => ws.length

/-- rewrite_diagram.py:354-359 -/
def wordOffsets : Nat → List (String × Ty × Int) → List Nat
  | _, [] => []
  | k, w :: ws => k :: wordOffsets (k + w.2.1.length) ws

/-- rewrite_diagram.py:371-374: subtract 2 from `mor_offsets[j]` for the surviving morphisms `j < m_idx` that
start to the right of the deleted cup. -/
def adjustOffsets (start : Nat) : List (Morphism × Nat) → List Int → Except PyErr (List Int)
  | [], offs => .ok offs
  | (m, j) :: rest, offs =>
    if !m.deleted && decide (m.start > start) then
      match offs[j]? with
      | some o => adjustOffsets start rest (offs.set j (o - 2))
      | none => .error .indexError
    else adjustOffsets start rest offs

/-- rewrite_diagram.py:361-374: the surviving morphisms and their offsets; `before` is `morphisms[:m_idx]`. -/
def newMorphisms : List Morphism → List Morphism → List Int → Except PyErr (List Box × List Int)
  | _, [], offs => .ok ([], offs)
  | before, m :: ms, offs =>
    if !m.deleted then do
      let r ← newMorphisms (before ++ [m]) ms (offs ++ [(m.offset : Int)])
      .ok (m.box :: r.1, r.2)
    else do
      let offs' ← adjustOffsets m.start before.zipIdx offs
      newMorphisms (before ++ [m]) ms offs'

/-- rewrite_diagram.py:318-319: the word of a box, if it is one, with its offset. -/
def wordItem (bo : Box × Nat) : Option (String × Ty × Int × Nat) :=
  match bo.1 with
  | .word n c z => some (n, c, z, bo.2)
  | _ => none

/-- rewrite_diagram.py:299-381 -/
def removeDetachedCups (d : GDiagram) : Except PyErr GDiagram :=
  if ¬ isPregroup d = true then .error .valueError
  else do
    let types := atomicTypes d
    let bos := d.boxes.zip d.offsets
    let words := bos.filterMap wordItem
    let ms ← scanMorphisms (bos.filter (fun bo => !isWord bo.1)) (List.range types.length)
    let nw ← newWords types words ms
    let nm ← newMorphisms [] nw.2 []
    let items := (nw.1.zip (wordOffsets 0 nw.1)).map (fun wo => (Box.word wo.1.1 wo.1.2.1 wo.1.2.2, (wo.2 : Int)))
      ++ nm.1.zip nm.2
    items.foldlM (fun acc bo => thenAt acc (ofBox bo.1) bo.2) (Diagram.id d.dom)

/-- rewrite_diagram.py:383-421 -/
def removeSwaps (d : GDiagram) : Except PyErr GDiagram := do
  let d1 ← removeSwapsPhase1 d
  removeDetachedCups d1

end DRewrite
end Lambeq
