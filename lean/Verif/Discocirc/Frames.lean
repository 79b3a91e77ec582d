import Verif.Discocirc.TextSemantics
import Verif.Text.PregroupTree

/-!
# DisCoCirc: from pregroup trees to diagrams of frames and of sandwiches, the model (C89)

Models `_sentence2tree` (98-103), `_tree2frames_rec` and `_tree2sandwiches_rec` of experimental/discocirc/reader.py. Keys of `noun2wire` are kept in a list in the
order of insertion; `noun_inds` of a sandwich always has the same entries as `noun2wire` has keys, and is that list.
-/

namespace Lambeq
open Diagram
set_option linter.unusedSimpArgs false

namespace Disco

/-- reader.py:98-103: the root after the correction for free wires. -/
def fixRoot (sentenceLength : Nat) : PTree → PTree
  | .node w i t cs => if t = [⟨"s", 0⟩] ∨ t = [noun] then .node w i t cs else .node w i [⟨"s", 0⟩] (cs ++ [.node "" (sentenceLength - 1) [noun] []])

/-- A diagram of `_tree2frames_rec`: an identity or a box. -/
inductive Drawn
  | idn (t : Ty)
  | bx (b : FBox)

namespace Drawn
def dom : Drawn → Ty
  | idn t => t
  | bx b => b.dom
def cod : Drawn → Ty
  | idn t => t
  | bx b => b.cod
/-- As a diagram. -/
def diag : Drawn → FD
  | idn t => Diagram.id t
  | bx b => ofBox b
/-- reader.py:137: `d for d, ... if d.layers` -/
def comp? : Drawn → Option Comp
  | idn _ => none
  | bx b => some (.box b)
end Drawn

/-- reader.py:132: the box of a noun. -/
def nounBox (w : String) : FBox := .base (.gen w [] [noun] 0)

/-- reader.py:142-143 -/
def args (t : Ty) : Ty := t.filter (fun o => o.z != 0)

mutual
/-- reader.py:121-158 -/
def frames (pruned : List Nat) : PTree → Drawn × List FBox × List Nat
  | .node w i t cs =>
    if t = [noun] ∧ cs = [] then
      if i ∈ pruned then (.idn [], [], []) else (.idn [noun], [nounBox w], [i])
    else
      let r := framesKids pruned cs
      if r.2.1 = [] ∧ args t = [] then (.idn [], [], [])
      else
        let ty := nouns r.2.1.length ++ Ty.rotate (-1) (args t)
        (.bx (if r.1 = [] then .base (.gen w ty ty 0) else .frame w ty ty r.1 0), r.2.1, r.2.2)
/-- reader.py:134-140: the components, nouns and indices of the children. -/
def framesKids (pruned : List Nat) : List PTree → List Comp × List FBox × List Nat
  | [] => ([], [], [])
  | c :: cs =>
    let a := frames pruned c
    let b := framesKids pruned cs
    (a.1.comp?.toList ++ b.1, a.2.1 ++ b.2.1, a.2.2 ++ b.2.2)
end

/-- reader.py:227-231: a child on its wires. -/
def onWires (c : FD) (ws : List Nat) (anc : Nat) : Except PyErr FD :=
  match permutation (B := FBox) (nouns ws.length) (permList ws) with
  | .error e => .error e
  | .ok q => match andThen q (tensor (Diagram.id (nouns anc)) c) with
    | .error e => .error e
    | .ok d => andThen d (fdagger q)

/-- reader.py:244-261; `i` counts the subdiagrams, the last one is followed by the bottom label. -/
def slices (w : String) (lab : Bool) (k : Nat) : Nat → FD → List FD → Except PyErr FD
  | _, big, [] => .ok big
  | i, big, sd :: rest =>
    match andThen big (tensor sd (Diagram.id (nouns (k - sd.cod.length)))) with
    | .error e => .error e
    | .ok d =>
      let suffix := if lab then (if rest = [] then "$_{bottom}$" else "$_{" ++ toString (i + 1) ++ "}$") else ""
      match andThen d (ofBox (.base (.gen (w ++ suffix) d.cod d.cod 0))) with
      | .error e => .error e
      | .ok d' => slices w lab k (i + 1) d' rest

/-- What the loop over the children keeps: `subdiags`, `noun2wire`, `nouns`, `noun_cursor`. -/
structure Kids where
  subs : List FD
  n2w : List (Option Nat)
  boxes : List FBox
  cursor : Option Nat

/-- reader.py:177-189 -/
def startKids (pruned : List Nat) (prev : Option Nat) (t : Ty) : Kids :=
  if (⟨"n", -1⟩ ∈ t ∨ ⟨"n", 1⟩ ∈ t) ∧ (prev ≠ none ∨ pruned = []) then ⟨[], [prev], [.base (.gen "" [] [noun] 0)], prev⟩ else ⟨[], [], [], prev⟩

/-- reader.py:233-263 -/
def closeNode (w : String) (lab : Bool) (s : Kids) : Except PyErr (FD × List FBox × List (Option Nat) × Option Nat) :=
  let subs := s.subs.filter (fun d => !d.layers.isEmpty)
  if s.n2w = [] then .ok (Diagram.id [], [], [], s.cursor)
  else
    let ty := nouns s.n2w.length
    let top := ofBox (.base (.gen (w ++ (if lab && !subs.isEmpty then "$_{top}$" else "")) ty ty 0))
    match slices w lab s.n2w.length 0 top subs with
    | .error e => .error e
    | .ok d => .ok (d, s.boxes, s.n2w, s.cursor)

/-- reader.py:200-231: the result of one child. -/
def addKid (t : Ty) (s : Kids) (r : FD × List FBox × List (Option Nat) × Option Nat) : Except PyErr Kids :=
  let cursor := if t = [noun] then r.2.2.2 else s.cursor
  let c := collect s.n2w s.boxes (r.2.2.1.zip r.2.1)
  match onWires r.1 (wireIds c) c.anc.length with
  | .error e => .error e
  | .ok d => .ok ⟨s.subs ++ [d], c.n2w, c.boxes, cursor⟩

mutual
/-- reader.py:160-263 -/
def sandwich (pruned : List Nat) (lab : Bool) (prev : Option Nat) : PTree → Except PyErr (FD × List FBox × List (Option Nat) × Option Nat)
  | .node w i t cs =>
    if t = [noun] ∧ cs = [] then
      if i ∈ pruned then .ok (Diagram.id [], [], [], prev) else .ok (Diagram.id [noun], [nounBox w], [some i], some i)
    else match sandwichKids pruned lab (startKids pruned prev t) cs with
      | .error e => .error e
      | .ok s => closeNode w lab s
/-- reader.py:191-231 -/
def sandwichKids (pruned : List Nat) (lab : Bool) : Kids → List PTree → Except PyErr Kids
  | s, [] => .ok s
  | s, c :: cs => match sandwich pruned lab s.cursor c with
    | .error e => .error e
    | .ok r => match addKid c.typ s r with
      | .error e => .error e
      | .ok s' => sandwichKids pruned lab s' cs
end

/-! ## Specification -/

mutual
/-- The noun leaves of a tree that are not pruned, from left to right: index and word. -/
def nounLeaves (pruned : List Nat) : PTree → List (Nat × String)
  | .node w i t cs => if t = [noun] ∧ cs = [] then (if i ∈ pruned then [] else [(i, w)]) else nounLeavess pruned cs
def nounLeavess (pruned : List Nat) : List PTree → List (Nat × String)
  | [] => []
  | c :: cs => nounLeaves pruned c ++ nounLeavess pruned cs
end

mutual
/-- The words that a diagram of frames should show, a node before its children: all words but noun leaves, where a node without nouns below it and without
arguments goes away with everything below it. -/
def keptWords (pruned : List Nat) : PTree → List String
  | .node w i t cs =>
    if t = [noun] ∧ cs = [] then [] else if nounLeavess pruned cs = [] ∧ args t = [] then [] else w :: keptWordss pruned cs
def keptWordss (pruned : List Nat) : List PTree → List String
  | [] => []
  | c :: cs => keptWords pruned c ++ keptWordss pruned cs
end

mutual
/-- The names of the boxes and frames of a box, a frame before its components. -/
def FBox.names : FBox → List String
  | .base (.gen n _ _ _) => [n]
  | .base (.word n _ _) => [n]
  | .base _ => []
  | .frame n _ _ cs _ => n :: namesCs cs
  | .daggeredFrame f => FBox.names f
def namesCs : List Comp → List String
  | [] => []
  | c :: cs => namesC c ++ namesCs cs
def namesC : Comp → List String
  | .box b => FBox.names b
  | .diag _ _ ls => namesLs ls
def namesLs : List FLayer → List String
  | [] => []
  | .mk _ b _ :: ls => FBox.names b ++ namesLs ls
end

end Disco
end Lambeq
