import Verif.Text.PregroupTreeSpec

/-!
# Pregroup trees and their lists of words, types and parents: the model (C87)

Models `PregroupTreeNode.get_nodes`, `get_types`, `get_parents`, `get_words`, `get_word_indices`, `merge` (text2diagram/pregroup_tree.py:179-300, 344-373) and
`str_to_type`, `has_out_of_bounds_parents`, `has_self_as_parents`, `generate_tree` (text2diagram/pregroup_tree_converter.py:449-481, 514-639).

Simplifications: a node is a value, its parent comes with it (`withParents`; -1 at the root). `generate_tree` is modelled for parents without cycles where each token
has at least one parent; the exceptions for lists of different lengths are not told apart. The graph of `networkx` keeps nodes and edges in the order in which they
were added.
-/

namespace Lambeq
namespace PTree
set_option linter.unusedSimpArgs false

/-! ## Types as strings -/

/-- grammar.py:183: `f'{name}{".l"*(-z)}{".r"*z}'` -/
def obStr (o : Ob) : List Char :=
  o.name.toList ++ (List.replicate (-o.z).toNat ['.', 'l']).flatten ++ (List.replicate o.z.toNat ['.', 'r']).flatten

/-- grammar.py:179-185 -/
def tyStr : Ty → List Char
  | [] => "Ty()".toList
  | o :: os => obStr o ++ (os.map (fun p => [' ', '@', ' '] ++ obStr p)).flatten

/-- `s.split('.')` -/
def splitDot : List Char → List (List Char)
  | [] => [[]]
  | c :: cs => if c = '.' then [] :: splitDot cs else match splitDot cs with
    | [] => [[c]]
    | h :: t => (c :: h) :: t

/-- `s.split(' @ ')`; the number is how many characters of a separator are still to be skipped. -/
def splitAtAux : Nat → List Char → List (List Char)
  | _, [] => [[]]
  | n + 1, _ :: cs => splitAtAux n cs
  | 0, c :: cs =>
    if c = ' ' ∧ cs.take 2 = ['@', ' '] then [] :: splitAtAux 2 cs else match splitAtAux 0 cs with
      | [] => [[c]]
      | h :: t => (c :: h) :: t

def splitAt : List Char → List (List Char) := splitAtAux 0

/-- pregroup_tree_converter.py:470-481 -/
def strToOb (s : List Char) : Ob :=
  match splitDot s with
  | [] => ⟨"", 0⟩
  | n :: rs => rs.foldl (fun o r => if r = ['r'] then ⟨o.name, o.z + 1⟩ else if r = ['l'] then ⟨o.name, o.z - 1⟩ else o) ⟨String.ofList n, 0⟩

/-- pregroup_tree_converter.py:559-563 -/
def strToTy (s : List Char) : Ty := (splitAt s).map strToOb

/-! ## The nodes -/

mutual
/-- pregroup_tree.py:261-276, each node with its parent. -/
def flat (par : Int) : PTree → List (Int × PTree)
  | node w i t cs => ((par, node w i t cs) :: flats i cs).insertionSort (fun a b => a.2.ind ≤ b.2.ind)
def flats (par : Int) : List PTree → List (Int × PTree)
  | [] => []
  | c :: cs => c.flat par ++ flats par cs
end

/-- pregroup_tree.py:278-300 -/
def getNodes (t : PTree) : List (List (Int × PTree)) :=
  let l := t.flat (-1)
  let n := (l.getLast?.map (fun x => x.2.ind + 1)).getD 0
  ((List.range n).map (fun i => l.filter (fun x => x.2.ind == i))).filter (fun g => !g.isEmpty)

/-- pregroup_tree.py:179-204, with `as_str=True` -/
def getTypes (t : PTree) : List (List (List Char)) := t.getNodes.map (fun g => g.map (fun x => tyStr x.2.typ))
/-- pregroup_tree.py:206-223 -/
def getParents (t : PTree) : List (List Int) := t.getNodes.map (fun g => g.map (fun x => x.1))
/-- pregroup_tree.py:225-238 -/
def getWords (t : PTree) : List String := t.getNodes.map (fun g => (g.head?.map (fun x => x.2.word)).getD "")
/-- pregroup_tree.py:240-259 -/
def getWordIndices (t : PTree) : List Nat := t.getNodes.map (fun g => (g.head?.map (fun x => x.2.ind)).getD 0)

/-- pregroup_tree.py:344-373: the new node. -/
def merge : PTree → PTree
  | node w i t [node w' i' t' cs'] =>
    if t = t' ∧ (i + 1 = i' ∨ i' + 1 = i) then node (if i < i' then w ++ " " ++ w' else w' ++ " " ++ w) (min i i') t cs'
    else node w i t [node w' i' t' cs']
  | t => t

/-! ## Trees from lists -/

/-- pregroup_tree_converter.py:449-454 -/
def outOfBounds (parents : List (List Int)) : Bool := parents.any (fun ps => ps.any (fun p => decide (p ≥ parents.length ∨ p < -1)))

/-- pregroup_tree_converter.py:457-459 -/
def selfParent (parents : List (List Int)) : Bool := (parents.mapIdx (fun i ps => ps.contains (i : Int))).any _root_.id

/-- Whether all ways up from token `i` end at the root after at most `n` steps. -/
def upOk (parents : List (List Int)) : Nat → Nat → Bool
  | 0, _ => false
  | n + 1, i => match parents[i]? with
    | none => false
    | some ps => ps.all (fun p => p == -1 || upOk parents n p.toNat)

/-- pregroup_tree_converter.py:507-509, 603-612: the children of a token with the number of the copy that is its child (adding an edge again keeps its place and
replaces the number). -/
def kids (parents : List (List Int)) (p : Int) : List (Nat × Nat) :=
  (parents.mapIdx (fun c ps => if ps.contains p then [(c, ps.length - 1 - ps.reverse.idxOf p)] else [])).flatten

/-- pregroup_tree_converter.py:556-566, 601-615: copy `k` of token `i` with its children (which the first copy has), down to depth `n`. -/
def unfold (tokens : List String) (types : List (List (List Char))) (parents : List (List Int)) : Nat → Nat → Nat → PTree
  | 0, i, _ => node "" i [] []
  | n + 1, i, k => node (tokens.getD i "") i (strToTy ((types.getD i []).getD k [])) (if k = 0 then
      (kids parents i).map (fun c => unfold tokens types parents n c.1 c.2) else [])

/-- pregroup_tree_converter.py:514-639: the root nodes. In a graph without cycles where every token has a parent, every token is connected to the root. -/
def generateTree (tokens : List String) (types : List (List (List Char))) (parents : List (List Int)) : Except PyErr (List PTree) :=
  if outOfBounds parents || selfParent parents then .error .valueError
  else if tokens.length ≠ parents.length ∨ types.length ≠ parents.length ∨ (types.zip parents).any (fun p => decide (p.1.length < p.2.length)) then .error .indexError
  else if parents.any List.isEmpty || (List.range parents.length).any (fun i => !upOk parents parents.length i) then .error .notImplementedError
  else .ok ((kids parents (-1)).flatMap (fun c => (List.range (types.getD c.1 []).length).map (fun k => unfold tokens types parents (parents.length + 1) c.1 k)))

end PTree
end Lambeq
