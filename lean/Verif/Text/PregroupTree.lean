import Verif.Grammar.PregroupWiring
import Mathlib.Data.List.Sort

/-!
# Pregroup trees to diagrams: the model (C86)

Models `PregroupTreeNode` (text2diagram/pregroup_tree.py:33-101) as far as `tree2diagram` needs it, and `_fix_auxiliary_types` and `tree2diagram`
(text2diagram/pregroup_tree_converter.py:642-928). The branch `no_morphisms` and the drawing of intermediate diagrams are left out.
-/

namespace Lambeq
open GDiagram Diagram
set_option linter.unusedSimpArgs false

/-- pregroup_tree.py:85-90: `word`, `ind`, `typ`, `children`. Indices are not negative. -/
inductive PTree
  | node (word : String) (ind : Nat) (typ : Ty) (children : List PTree)

namespace PTree

def word : PTree → String | node w _ _ _ => w
def ind : PTree → Nat | node _ i _ _ => i
def typ : PTree → Ty | node _ _ t _ => t
def children : PTree → List PTree | node _ _ _ cs => cs

mutual
/-- the number of levels of the tree: the number of rounds of the loop pregroup_tree_converter.py:735-786 -/
def levels : PTree → Nat
  | node _ _ _ cs => levelss cs + 1
def levelss : List PTree → Nat
  | [] => 0
  | c :: cs => max c.levels (levelss cs)
end

/-- One entry of `word_components`: the index of the word at the other end (-1 for none) and a type. -/
abbrev Comp := Int × Ty

/-- pregroup_tree_converter.py:739-751: children to the left in order, children to the right in reverse order. -/
def nodeChildren (t : PTree) : List PTree :=
  let s := t.children.insertionSort (fun a b => a.ind ≤ b.ind)
  s.takeWhile (fun c => decide (c.ind < t.ind)) ++ s.reverse.takeWhile (fun c => decide (c.ind > t.ind))

/-- pregroup_tree_converter.py:757-765: the new components of the node at `i`, for a child at `c` to its left. -/
def insertLeft (i c : Int) (ty : Ty) (comps : List Comp) : List Comp :=
  let loc := comps.length - (comps.reverse.takeWhile (fun e => decide (e.1 > i ∨ e.1 < c))).length
  comps.take loc ++ (c, ty.r) :: comps.drop loc

/-- pregroup_tree_converter.py:769-778: for a child at `c` to the right. -/
def insertRight (i c : Int) (ty : Ty) (comps : List Comp) : List Comp :=
  let loc := (comps.takeWhile (fun e => decide (e.1 < i ∨ e.1 > c))).length
  comps.take loc ++ (c, ty.l) :: comps.drop loc

/-- `word_components` and `compound_cups` -/
abbrev St := List (List Comp) × List (Nat × Nat)

/-- pregroup_tree_converter.py:753-781: one child of the node at `i`. -/
def addChild (i : Nat) (st : St) (c : PTree) : Except PyErr St :=
  match st.1[i]?, st.1[c.ind]? with
  | some ni, some nc =>
    if c.ind < i then
      .ok ((st.1.set i (insertLeft i c.ind c.typ ni)).set c.ind (nc ++ [((i : Int), c.typ)]), st.2 ++ [(c.ind, i)])
    else
      .ok ((st.1.set i (insertRight i c.ind c.typ ni)).set c.ind (((i : Int), c.typ) :: nc), st.2 ++ [(i, c.ind)])
  | _, _ => .error .indexError

/-- pregroup_tree_converter.py:736-783: one node. -/
def visit (st : St) (t : PTree) : Except PyErr St := t.nodeChildren.foldlM (addChild t.ind) st

/-- pregroup_tree_converter.py:735-786: the loop over the levels; the first argument is the number of rounds (`levels_enough` in `PregroupTreeTheorems` shows
that `levels` rounds suffice: more rounds change nothing). -/
def bfs : Nat → List PTree → St → Except PyErr St
  | 0, _, st => .ok st
  | n + 1, level, st => match level.foldlM visit st with
    | .error e => .error e
    | .ok st' => bfs n (level.flatMap nodeChildren) st'

/-- A dictionary of `word_components_dicts`; a later entry replaces an earlier one with the same key. -/
abbrev CDict := List (Int × List Nat)

/-- pregroup_tree_converter.py:795-804: the dictionary of one word whose first wire is number `g`. -/
def compDict (g : Nat) : List Comp → CDict
  | [] => []
  | (o, t) :: cs => (o, List.range' g t.length) :: compDict (g + t.length) cs

/-- the type of a word (pregroup_tree_converter.py:834-836) -/
def compsTy (cs : List Comp) : Ty := (cs.map (·.2)).flatten

/-- pregroup_tree_converter.py:789-804 -/
def compDicts (g : Nat) : List (List Comp) → List CDict
  | [] => []
  | c :: cs => compDict g c :: compDicts (g + (compsTy c).length) cs

/-- pregroup_tree_converter.py:793, 806-807: the last one counts. -/
def freeWires (ds : List CDict) : List Nat := ((ds.flatten.filter (fun e => e.1 == -1)).map (·.2)).getLast?.getD []

/-- pregroup_tree_converter.py:660-671. The first condition of the code is `str(x == 'n.r @ s')`, a string that is not empty, hence always true.
Simplification: the comparison with the string `'s.r @ n.r.r'` is one with the type (they differ for names of atomic types that contain a dot or `@`). -/
def auxCond (i : Nat) (w : List Comp) (next : Option (List Comp)) : Bool :=
  match w, next with
  | [c0, _], some (d0 :: _) => decide (c0.1 > i) && decide (d0.1 = i) && decide (d0.2 = [⟨"s", 1⟩, ⟨"n", 2⟩])
  | _, _ => false

/-- pregroup_tree_converter.py:672-690 -/
def auxFix (w : List Comp) (d : CDict) : Except PyErr (List Comp × CDict) :=
  match w, d with
  | [c0, c1], [d0, d1] =>
    if d0.1 = d1.1 then .error .assertionError
    else match d0.2.head?, d1.2.head? with
      | some a, some b => .ok ([c1, c0], compDict (min a b) [c1, c0])
      | _, _ => .error .valueError
  | _, _ => .error .assertionError

/-- pregroup_tree_converter.py:642-692; the changes at one word depend on this word and the next one, which is not yet changed. -/
def fixAux (i : Nat) : List (List Comp) → List CDict → Except PyErr (List (List Comp) × List CDict)
  | w :: ws, d :: ds =>
    match (if auxCond i w ws.head? then auxFix w d else .ok (w, d)) with
    | .error e => .error e
    | .ok r => match fixAux (i + 1) ws ds with
      | .error e => .error e
      | .ok rs => .ok (r.1 :: rs.1, r.2 :: rs.2)
  | _, _ => .ok ([], [])

/-- `word_components_dicts[i][o]` -/
def dictGet (ds : List CDict) (i : Nat) (o : Nat) : Except PyErr (List Nat) :=
  match ds[i]? with
  | none => .error .indexError
  | some d => match d.reverse.lookup (o : Int) with
    | none => .error .keyError
    | some l => .ok l

inductive MKind | cup | swap | free
  deriving DecidableEq, Repr

/-- `(type, left, right)` -/
abbrev Mor := MKind × Int × Int

/-- pregroup_tree_converter.py:817-823: the cups of one entry of `compound_cups`. -/
def edgeCups (ds : List CDict) (e : Nat × Nat) : Except PyErr (List Mor) :=
  match dictGet ds e.1 e.2 with
  | .error x => .error x
  | .ok s => match dictGet ds e.2 e.1 with
    | .error x => .error x
    | .ok t => if s.length = t.length then .ok ((s.reverse.zip t).map (fun p => (.cup, (p.1 : Int), (p.2 : Int)))) else .error .assertionError

/-- pregroup_tree_converter.py:825: sorted by span. -/
def sortMors (ms : List Mor) : List Mor := ms.insertionSort (fun a b => ((a.2.1 - a.2.2).natAbs : Int) - 1 ≤ ((b.2.1 - b.2.2).natAbs : Int) - 1)

/-- The variables of the loop pregroup_tree_converter.py:846-875. -/
structure SwapSt where
  ms : List Mor
  l : Int
  r : Int
  swaps : List Mor

/-- pregroup_tree_converter.py:857-862: free wires between `m_l` and `o_r`. -/
def freeLoopL (oR : Int) (st : SwapSt) (f : Int × Nat) : SwapSt :=
  if st.l < f.1 ∧ f.1 < oR then ⟨st.ms.set f.2 (.free, st.l, st.l), f.1, st.r, st.swaps ++ [(.swap, st.l, f.1)]⟩ else st

/-- pregroup_tree_converter.py:867-872: free wires between `o_l` and `m_r`; the second component is `o_l`. -/
def freeLoopR (st : SwapSt × Int) (f : Int × Nat) : SwapSt × Int :=
  if st.2 < f.1 ∧ f.1 < st.1.r then (⟨st.1.ms.set f.2 (.free, st.2, st.2), st.1.l, st.1.r, st.1.swaps ++ [(.swap, st.2, f.1)]⟩, f.1) else st

/-- pregroup_tree_converter.py:846-875: one round of the inner loop. -/
def swapStep (frees : List (Int × Nat)) (st : SwapSt) (j : Nat) : SwapSt :=
  match st.ms[j]? with
  | none => st
  | some (oT, oL, oR) =>
    if oL = oR then
      if st.l < oL ∧ oL < st.r then ⟨st.ms.set j (oT, st.l, st.l), oL, st.r, st.swaps ++ [(.swap, st.l, oL)]⟩ else st
    else if oL < st.l ∧ st.l < oR ∧ oR < st.r then
      let st' := frees.foldl (freeLoopL oR) st
      ⟨st'.ms.set j (oT, oL, st'.l), oR, st'.r, st'.swaps ++ [(.swap, st'.l, oR)]⟩
    else if st.l < oL ∧ oL < st.r ∧ st.r < oR then
      let p := frees.foldl freeLoopR (st, oL)
      ⟨p.1.ms.set j (oT, p.1.r, oR), p.1.l, p.2, p.1.swaps ++ [(.swap, p.2, p.1.r)]⟩
    else st

/-- pregroup_tree_converter.py:840-881: the morphisms from number `i` on with the swaps in front of each; `n` is the number of rounds left. -/
def addSwaps (frees : List (Int × Nat)) : Nat → Nat → List Mor → List Mor
  | 0, _, _ => []
  | n + 1, i, ms => match ms[i]? with
    | none => []
    | some (t, l, r) =>
      let st := (List.range' (i + 1) (ms.length - (i + 1))).foldl (swapStep frees) ⟨ms, l, r, []⟩
      st.swaps ++ (t, st.l, st.r) :: addSwaps frees n (i + 1) st.ms

/-- pregroup_tree_converter.py:911-923: the correction of the later morphisms after a cup; a morphism comes with its offset. -/
def afterCup (l r : Int) (o : (MKind × Int × Int) × Int) : (MKind × Int × Int) × Int :=
  if o.1.2.1 < l ∧ l < r ∧ r < o.1.2.2 then ((o.1.1, o.1.2.1, o.1.2.2 - 2), o.2)
  else if r < o.1.2.1 ∧ o.1.2.1 < o.1.2.2 then ((o.1.1, o.1.2.1 - 2, o.1.2.2 - 2), o.2 - 2)
  else o

/-- `morphism_str_to_cls` -/
def kindMorph : MKind → Morph
  | .cup => .cup
  | .swap => .swap
  | .free => .other

/-- pregroup_tree_converter.py:902-923; the first argument is the number of morphisms. -/
def place : Nat → List (Mor × Int) → GDiagram → Except PyErr GDiagram
  | 0, _, d => .ok d
  | _, [], d => .ok d
  | n + 1, ((k, l, r), off) :: rest, d =>
    match morphBox d.cod (kindMorph k, l, r) with
    | .error e => .error e
    | .ok b => match andThen d (tensor (tensor (Diagram.id (pySlice d.cod none (some off))) b) (Diagram.id (pySlice d.cod (some (off + 2)) none))) with
      | .error e => .error e
      | .ok d' => place n (if k = .cup then rest.map (afterCup l r) else rest) d'

/-- pregroup_tree_converter.py:726-814: `word_components`, `word_components_dicts`, `compound_cups` and `free_wires`. -/
def wordComps (root : PTree) (n : Nat) : Except PyErr (List (List Comp) × List CDict × List (Nat × Nat) × List Nat) :=
  if root.ind < n then
    match bfs root.levels [root] ((List.replicate n []).set root.ind [(-1, root.typ)], []) with
    | .error e => .error e
    | .ok st =>
      match fixAux 0 st.1 (compDicts 0 st.1) with
      | .error e => .error e
      | .ok r => .ok (r.1, r.2, st.2, freeWires (compDicts 0 st.1))
  else .error .indexError

/-- pregroup_tree_converter.py:816-825 -/
def cupsOf (ds : List CDict) (es : List (Nat × Nat)) : Except PyErr (List Mor) :=
  match es.mapM (edgeCups ds) with
  | .error e => .error e
  | .ok ms => .ok (sortMors ms.flatten)

/-- pregroup_tree_converter.py:826-881: with the free wires at the end. -/
def allMors (cups : List Mor) (frees : List Nat) : List Mor :=
  addSwaps (frees.mapIdx (fun k (f : Nat) => ((f : Int), cups.length + k))) (cups.length + frees.length) 0
    (cups ++ frees.map (fun (f : Nat) => (.free, (f : Int), (f : Int))))

/-- pregroup_tree_converter.py:695-928 -/
def tree2diagram (root : PTree) (tokens : List String) : Except PyErr GDiagram :=
  match wordComps root tokens.length with
  | .error e => .error e
  | .ok (comps, ds, es, frees) => match cupsOf ds es with
    | .error e => .error e
    | .ok cups =>
      match createPregroupDiagram ((tokens.zip comps).map (fun p => (p.1, compsTy p.2, 0))) [] with
      | .error e => .error e
      | .ok d =>
        let ms := allMors cups frees
        place ms.length (((ms.filter (fun m => m.1 ≠ .free)).zip (ms.map (fun m => m.2.1)))) d

end PTree
end Lambeq
