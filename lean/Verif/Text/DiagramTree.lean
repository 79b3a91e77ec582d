import Verif.Text.PregroupTree

/-!
# Trees from pregroup diagrams (C102)

Models text2diagram/pregroup_tree_converter.py: `diagram2tree` (30-220) without `break_cycles`, and `_construct_tree` (269-446).

Simplifications: diagrams with caps are not modelled (the model gives `NotImplementedError` for a cap, the code goes on); a plain `Exception` is `RuntimeError` here. The field `typ_indxs` of nodes, which
nothing reads, is left out. A word is named by its text and the number of its layer, as in the code.
-/

namespace Lambeq
namespace DTree
set_option linter.unusedSimpArgs false

/-- The key of a word: its text and the number of its layer. -/
abbrev Key := String × Nat

/-- pregroup_tree_converter.py:51-56: `words_by_typ_index`, `types`, `types_ind`, `boxes_absolute` (true for a cup), `words`. -/
structure Trace where
  owners : List Key
  types : Ty
  live : List Nat
  joins : List (Bool × Nat × Nat)
  words : List (String × Ty × Nat)

/-- pregroup_tree_converter.py:66-67: `types_ind` at a cup or swap. -/
def Trace.wires (s : Trace) : List Nat := if s.live = [] then List.range s.types.length else s.live

/-- pregroup_tree_converter.py:69-79: `left_cod`, `box_ends`, `right_cod` for `L` wires to the left and `R` to the right. -/
def cut (live : List Nat) (L R : Nat) : List Nat × List Nat × List Nat :=
  if R ≠ 0 then (live.take L, (live.take (live.length - R)).drop L, live.drop (live.length - R)) else (live.take L, live.drop L, [])

/-- pregroup_tree_converter.py:124-135 -/
def Trace.join (s : Trace) (cup : Bool) (L R : Nat) : Except PyErr Trace :=
  match cut s.wires L R with
  | (l, [a, b], r) => .ok { s with live := l ++ (if cup then [] else [b, a]) ++ r, joins := s.joins ++ [(cup, a, b)] }
  | _ => .error .assertionError

/-- pregroup_tree_converter.py:59-139: one layer, with number `li`. -/
def Trace.step (s : Trace) (li : Nat) (l : GLayer) : Except PyErr Trace :=
  match l.box with
  | .word n c _ => .ok { s with owners := s.owners ++ List.replicate c.length (n, li), types := s.types ++ c, words := s.words ++ [(n, c, li)] }
  | .cup _ _ _ => s.join true l.left.length l.right.length
  | .swap _ _ => s.join false l.left.length l.right.length
  | .cap _ _ _ => .error .notImplementedError
  | _ => .error .runtimeError

/-- pregroup_tree_converter.py:58-139 -/
def trace : Nat → List GLayer → Trace → Except PyErr Trace
  | _, [], s => .ok s
  | li, l :: ls, s => match s.step li l with
    | .error e => .error e
    | .ok s => trace (li + 1) ls s

/-- pregroup_tree_converter.py:141-148: `word_typ_lists[key]`. -/
def indices (owners : List Key) (k : Key) : List Nat := (List.range owners.length).filter (fun i => decide (owners[i]? = some k))

/-- The children of a node while it is visited: to the left and to the right, and for each word on which side its newest node is (pregroup_tree_converter.py:349, 360-361). -/
structure Kids where
  left : List (Key × Ty)
  right : List (Key × Ty)
  newest : List (Key × Bool)

/-- `child_node.typ = typ @ child_node.typ` -/
def addTy (k : Key) (t : Ob) : List (Key × Ty) → List (Key × Ty)
  | [] => []
  | e :: es => if e.1 = k then (k, t :: e.2) :: es else e :: addTy k t es

/-- pregroup_tree_converter.py:373-399 (left) and 407-433 (right) -/
def Kids.attach (ks : Kids) (toRight : Bool) (k : Key) (t : Ob) : Kids :=
  if k ∈ (if toRight then ks.right else ks.left).map Prod.fst then
    if (ks.newest.lookup k).getD toRight then { ks with right := addTy k t ks.right } else { ks with left := addTy k t ks.left }
  else if toRight then { ks with right := (k, [t]) :: ks.right, newest := (k, true) :: ks.newest }
  else { ks with left := (k, [t]) :: ks.left, newest := (k, false) :: ks.newest }

/-- What the tree is made from: the words of the wires, their types, the wires that are outputs. -/
structure Wiring where
  owners : List Key
  types : Ty
  free : List Nat

/-- The word and the type of a wire. -/
def Wiring.owner (w : Wiring) (i : Nat) : Key := w.owners.getD i ("", 0)
def Wiring.type (w : Wiring) (i : Nat) : Ob := w.types.getD i ⟨"", 0⟩

/-- pregroup_tree_converter.py:363-435: one wire of a word. At most one cup has this wire, so the first one that is found is the only one. -/
def Wiring.visitWire (w : Wiring) (s : Kids × List (Nat × Nat)) (i : Nat) : Kids × List (Nat × Nat) :=
  if i ∈ w.free then s
  else match s.2.find? (fun c => decide (c.1 = i ∨ c.2 = i)) with
    | none => s
    | some c => if c.2 = i then (s.1.attach false (w.owner c.1) (w.type c.1), s.2.erase c) else (s.1.attach true (w.owner c.2) (w.type c.2), s.2.erase c)

/-- pregroup_tree_converter.py:356-438: the children of a word, and the cups that are left. -/
def Wiring.visit (w : Wiring) (k : Key) (cups : List (Nat × Nat)) : List (Key × Ty) × List (Nat × Nat) :=
  let r := (indices w.owners k).foldl w.visitWire (⟨[], [], []⟩, cups)
  (r.1.left ++ r.1.right, r.2)

/-- Trees for a list of nodes, one after the other. -/
def thread (f : Key × Ty → List (Nat × Nat) → PTree × List (Nat × Nat)) : List (Key × Ty) → List (Nat × Nat) → List PTree × List (Nat × Nat)
  | [], cups => ([], cups)
  | k :: ks, cups => ((f k cups).1 :: (thread f ks (f k cups).2).1, (thread f ks (f k cups).2).2)

/-- pregroup_tree_converter.py:440-444: the stack visits a node before its children, and everything under a child before the next child. The first argument bounds the depth; see `grow_enough`. -/
def Wiring.grow (w : Wiring) : Nat → Key × Ty → List (Nat × Nat) → PTree × List (Nat × Nat)
  | 0, k, cups => (.node k.1.1 k.1.2 k.2 [], cups)
  | n + 1, k, cups =>
    let v := w.visit k.1 cups
    let r := thread (w.grow n) v.1 v.2
    (.node k.1.1 k.1.2 k.2 r.1, r.2)

/-- pregroup_tree_converter.py:307-336: the word and the type of the root. -/
def Wiring.root (w : Wiring) : Key × Ty :=
  (w.owner (w.free.headD 0), (w.free.filter (fun i => decide (w.owner i = w.owner (w.free.headD 0)))).map w.type)

/-- pregroup_tree_converter.py:269-446; the tree, and the cups that are not reached. -/
def Wiring.build (w : Wiring) (cups : List (Nat × Nat)) : Except PyErr (PTree × List (Nat × Nat)) :=
  if w.free.any (fun i => decide (w.owner i ≠ w.root.1)) then .error .valueError
  else .ok (w.grow (cups.length + 1) w.root cups)

/-- pregroup_tree_converter.py:348 -/
def Trace.cups (s : Trace) : List (Nat × Nat) := (s.joins.filter (fun j => j.1)).map Prod.snd
def Trace.wiring (s : Trace) : Wiring := ⟨s.owners, s.types, s.live⟩

/-- pregroup_tree_converter.py:30-220 -/
def diagram2tree (d : GDiagram) : Except PyErr PTree :=
  match trace 0 d.layers ⟨[], [], [], [], []⟩ with
  | .error e => .error e
  | .ok s =>
    if s.joins = [] then
      match s.words with
      | [(n, c, li)] => .ok (.node n li c [])
      | _ => .error .assertionError
    else match s.wiring.build s.cups with
      | .error e => .error e
      | .ok r => .ok r.1

end DTree
end Lambeq
