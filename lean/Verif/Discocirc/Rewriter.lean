import Verif.Discocirc.FramesTheorems
import Verif.Text.TreeNodesTheorems

/-!
# DisCoCirc: rewriting of pregroup trees and new word indices (C90)

Models `TreeRewriteRule.edit_tree`, `rewrite`, `TreeRewriter.__call__` (experimental/discocirc/pregroup_tree_rewriter.py:43-69, 139-143), `_calculate_reindices` and
`_reindex_nodes` (experimental/discocirc/reader.py:425-444).

Simplification: the test `node.word.lower() in self.match_words if self.match_words else True` is a predicate on words. Nodes are values: `replace` makes a new node,
and setting `node.ind` in place is the same as making new nodes, as no node is shared.
-/

namespace Lambeq
open Diagram
set_option linter.unusedSimpArgs false

namespace Disco

/-- pregroup_tree_rewriter.py:48-50 -/
inductive Join | merge | first | last

/-- pregroup_tree_rewriter.py:48-50 -/
def Join.words : Join → String → String → String
  | .merge, a, b => a ++ " " ++ b
  | .first, a, _ => a
  | .last, _, b => b

/-- pregroup_tree_rewriter.py:32-41; `matchType = none` stands for a falsy `match_type`. -/
structure Rule where
  matchType : Option Ty
  wordOk : String → Bool
  maxDepth : Option Int
  join : Join

/-- pregroup_tree_rewriter.py:52-56; the only child. -/
def Rule.target (r : Rule) : PTree → Option PTree
  | .node w _ t [c] => if (∀ ty ∈ r.matchType, t = ty) ∧ c.typ = t ∧ r.wordOk w = true then some c else none
  | _ => none

mutual
/-- pregroup_tree_rewriter.py:46-69 -/
def Rule.edit (r : Rule) : PTree → PTree × Int
  | .node w i t cs =>
    if (r.target (.node w i t cs)).isSome then
      match r.editFirst cs with
      | some (.node w' i' t' cs', n) =>
        if ∀ m ∈ r.maxDepth, n < m then (.node (r.join.words w w') i' t' cs', n + 1) else (.node w i t [.node w' i' t' cs'], n)
      | none => (.node w i t cs, 0)
    else (.node w i t (r.edits cs), 0)
/-- pregroup_tree_rewriter.py:58: `self.edit_tree(node.children[0])` -/
def Rule.editFirst (r : Rule) : List PTree → Option (PTree × Int)
  | [] => none
  | c :: _ => some (r.edit c)
/-- pregroup_tree_rewriter.py:68-69 -/
def Rule.edits (r : Rule) : List PTree → List PTree
  | [] => []
  | c :: cs => (r.edit c).1 :: r.edits cs
end

/-- pregroup_tree_rewriter.py:43-44 -/
def Rule.rewrite (r : Rule) (t : PTree) : PTree := (r.edit t).1

/-- pregroup_tree_rewriter.py:139-143 -/
def rewriter (rs : List Rule) (t : PTree) : PTree := rs.foldl (fun t r => r.rewrite t) t

/-- reader.py:432-433: the `while` loop from `j` on. -/
def seek (orig : List String) (tok : String) (j : Nat) : Nat :=
  if h : j < orig.length then (if orig[j] ≠ tok then seek orig tok (j + 1) else j) else j
termination_by orig.length - j

/-- reader.py:430-437; the dictionary in the order of insertion. -/
def reindices (orig : List String) : Nat → List (Nat × String) → List (Nat × Nat)
  | _, [] => []
  | j, (i, tok) :: rest => (i, seek orig tok j) :: reindices orig (seek orig tok j + 1) rest

/-- A look-up in a dictionary made by successive assignments. -/
def dictGet (d : List (Nat × Nat)) (i : Nat) : Option Nat := (d.reverse.find? (fun p => p.1 == i)).map Prod.snd

mutual
/-- reader.py:439-444 -/
def reindexNodes (d : List (Nat × Nat)) : PTree → Except PyErr PTree
  | .node w i t cs => match dictGet d i with
    | none => .error .keyError
    | some j => match reindexNodess d cs with
      | .error e => .error e
      | .ok cs' => .ok (.node w j t cs')
def reindexNodess (d : List (Nat × Nat)) : List PTree → Except PyErr (List PTree)
  | [] => .ok []
  | c :: cs => match reindexNodes d c with
    | .error e => .error e
    | .ok c' => match reindexNodess d cs with
      | .error e => .error e
      | .ok cs' => .ok (c' :: cs')
end

/-! ## Specification -/

/-- The words of the maximal chain of nodes that a rule matches, from the root down, each with its index, and the node below the chain. -/
def Rule.chain (r : Rule) : PTree → List (String × Nat) × PTree
  | .node w i t [c] => if (r.target (.node w i t [c])).isSome then ((w, i) :: (r.chain c).1, (r.chain c).2) else ([], .node w i t [c])
  | t => ([], t)

/-- Nodes on top of a tree, all of type `t`. -/
def stack (t : Ty) : List (String × Nat) → PTree → PTree
  | [], b => b
  | (w, i) :: ws, b => .node w i t [stack t ws b]

/-- The words of a chain joined with the word below it. -/
def joined (j : Join) : List (String × Nat) → String → String
  | [], w => w
  | (a, _) :: ws, w => j.words a (joined j ws w)

/-- How many of the `n` nodes of a chain stay. -/
def Rule.stay (r : Rule) (n : Nat) : Nat := match r.maxDepth with
  | none => 0
  | some m => n - m.toNat

mutual
/-- The words of a tree, a node before its children. -/
def preWords : PTree → List String
  | .node w _ _ cs => w :: preWordss cs
def preWordss : List PTree → List String
  | [] => []
  | c :: cs => preWords c ++ preWordss cs
end

mutual
/-- The indices of a tree, a node before its children. -/
def preInds : PTree → List Nat
  | .node _ i _ cs => i :: preIndss cs
def preIndss : List PTree → List Nat
  | [] => []
  | c :: cs => preInds c ++ preIndss cs
end

mutual
/-- No node of the tree is matched by the rule. -/
def Rule.Normal (r : Rule) : PTree → Prop
  | .node w i t cs => r.target (.node w i t cs) = none ∧ r.Normals cs
def Rule.Normals (r : Rule) : List PTree → Prop
  | [] => True
  | c :: cs => r.Normal c ∧ r.Normals cs
end

end Disco
end Lambeq
