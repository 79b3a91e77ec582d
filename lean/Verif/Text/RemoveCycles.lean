import Verif.Text.DiagramTree
import Verif.Text.PregroupTreeSpec

/-!
# Breaking cycles in pregroup trees: the model (C103)

Models `remove_cycles` (text2diagram/pregroup_tree_converter.py:223-266), `PregroupTreeNode.get_nodes`, `get_depth` and `remove_self_cycles` (text2diagram/pregroup_tree.py:261-342, 375-390), and the flag `break_cycles` of
`diagram2tree` (217-218).

A node is identified by its path from the root, the list of positions in the lists of children. Nodes are removed by adding their paths to a list; a node is detached when its path or the path of one of its
ancestors is in that list. Simplification: `list.remove` looks for an equal child, here the child itself is removed. The resulting trees are the same unless two children of one node are equal and have children.
-/

namespace Lambeq
namespace DTree
open PTree
set_option linter.unusedSimpArgs false

abbrev Path := List Nat

mutual
/-- pregroup_tree.py:261-276: the nodes under a node with path `p`. -/
def flatP (p : Path) : PTree → List (Path × PTree)
  | .node w i t cs => ((p, .node w i t cs) :: flatsP p 0 cs).insertionSort (fun a b => a.2.ind ≤ b.2.ind)
def flatsP (p : Path) (k : Nat) : List PTree → List (Path × PTree)
  | [] => []
  | c :: cs => flatP (p ++ [k]) c ++ flatsP p (k + 1) cs
end

/-- pregroup_tree.py:278-300 -/
def groups (t : PTree) : List (List (Path × PTree)) :=
  let l := flatP [] t
  let n := (l.getLast?.map (fun x => x.2.ind + 1)).getD 0
  ((List.range n).map (fun i => l.filter (fun x => x.2.ind == i))).filter (fun g => !g.isEmpty)

/-- pregroup_tree.py:309-342: `get_depth` of the node at `p` in the tree of the node at `q`, where the nodes in `R` are removed. -/
def depth (q : Path) (R : List Path) (p : Path) : Int :=
  if q.isPrefixOf p && R.all (fun r => !(decide (q.length < r.length) && r.isPrefixOf p)) then (p.length : Int) - q.length else -1

/-- pregroup_tree.py:382-390: what `remove_self_cycles` removes when it is called for the node at `q`. (It does not go into the nodes that it removes; they are detached in any case.) -/
def selfs (q : Path) (l : List (Path × PTree)) : List Path :=
  l.flatMap (fun x => if q.isPrefixOf x.1 then (x.2.children.zipIdx.filter (fun c => decide (c.1.word = x.2.word ∧ c.1.ind = x.2.ind))).map (fun c => x.1 ++ [c.2]) else [])

/-- pregroup_tree_converter.py:252-259: the number of the copy that is retained. -/
def best (ds : List Int) : Nat := (ds.zipIdx.foldl (fun (b : Int × Nat) x => if x.1 > b.1 then x else b) (ds.headD 0, 0)).2

/-- pregroup_tree_converter.py:249-266: one word. The root of the tree has no parent and is never removed. -/
def cutGroup (q : Path) (R : List Path) (g : List (Path × PTree)) : List Path :=
  if g.length > 1 then R ++ ((g.map Prod.fst).eraseIdx (best (g.map (fun x => depth q R x.1)))).filter (fun p => !p.isEmpty) else R

mutual
/-- What is left of the node at `p` when the nodes in `R` are removed. -/
def prune (R : List Path) (p : Path) : PTree → PTree
  | .node w i t cs => .node w i t (prunes R p 0 cs)
def prunes (R : List Path) (p : Path) (k : Nat) : List PTree → List PTree
  | [] => []
  | c :: cs => if (p ++ [k]) ∈ R then prunes R p (k + 1) cs else prune R (p ++ [k]) c :: prunes R p (k + 1) cs
end

/-- pregroup_tree_converter.py:223-266 -/
def removeCycles (t : PTree) : Except PyErr PTree :=
  match (groups t)[t.ind]? with
  | none => .error .indexError
  | some [x] => .ok (prune ((groups t).foldl (cutGroup x.1) (selfs x.1 (flatP [] t))) [] t)
  | some _ => .error .assertionError

/-- pregroup_tree_converter.py:30-220 with `break_cycles=True`; a diagram of one word is returned before (151-161). -/
def diagram2treeBreak (d : GDiagram) : Except PyErr PTree :=
  match trace 0 d.layers ⟨[], [], [], [], []⟩ with
  | .error e => .error e
  | .ok s => match diagram2tree d with
    | .error e => .error e
    | .ok t => if s.joins = [] then .ok t else removeCycles t

end DTree
end Lambeq
